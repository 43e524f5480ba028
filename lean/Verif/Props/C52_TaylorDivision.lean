import Verif.Props.C48_TaylorSums
import Verif.Proofs.TMDivision

/-! # C52: quotients of Taylor models -/

namespace Audi

open TM MvPolynomial Spec

section
variable {K : Type} [Field K] [LinearOrder K] [IsStrictOrderedRing K] {a b : TM K} {ord : List String → List String}

/-- **C52, domain.** When the Taylor model allows the value 0 somewhere on its domain, the quotient throws `std::runtime_error` for every
numerator. -/
theorem C52_zero (ha : a.WF) (h62 : a.order ≤ 62) (ho : Faithful ord (a.tpol.p.syms.map varName)) {x : String → K} (hx : a.InDom x)
    (h0 : a.Allows x 0) (s : K) : divST ord s a = .error .runtimeError := by
  obtain ⟨B, h1, -, h3⟩ := bounds_encloses ha h62 (ho _ (nodup_varNames ha.valid.wf.ndsyms ha.names) fun _ h => h)
  unfold divST
  rw [bind_ok h1, if_pos]
  have h4 := Itv.mem_add (h3 x hx) h0
  rw [show a.polyAt x + (0 - a.polyAt x) = 0 by ring] at h4
  simp [Itv.zeroIn, h4.1, h4.2]

/-- **C52, reciprocal.** `s / tm` encloses the quotient when: the polynomial has degree at most 1 and no zero on the domain, the remainder of
`tm` is {0}, `0 ≤ s ≤ 1`, the order is at most 62, the map in `get_bounds` is traversed in the order of insertion.
Missing: other remainders, polynomials of degree above 1, other numerators; for each of them the quotient is not an enclosure in general
(`C52_remainder_counterexample`, `C52_degree_counterexample`, `C52_scalar_counterexample`). -/
theorem C52_reciprocal_partial (ha : a.WF) (h62 : a.order ≤ 62) (ho : Faithful ord (a.tpol.p.syms.map varName)) (hrem : a.rem = ⟨0, 0⟩)
    (hlin : DegLE 1 (a.tpol.toMv () : MvPolynomial String K)) (hnz : ∀ x, a.InDom x → a.polyAt x ≠ 0) {s : K} (hs0 : 0 ≤ s) (hs1 : s ≤ 1) :
    Sound₁ a (divST ord s a) fun y z => z = s / y :=
  divST_sound ha h62 (ho _ (nodup_varNames ha.valid.wf.ndsyms ha.names) fun _ h => h) hrem hlin hnz hs0 hs1

/-- **C52, quotient.** `tm1 / tm2` encloses the quotient of the functions under the conditions of `C52_reciprocal_partial` on `tm2` and those
of `C50_mul_partial` on the product of `tm1` and `1 / tm2`. Missing: the cases listed there. -/
theorem C52_quotient_partial (ha : a.WF) (hb : b.WF) (hc : Compatible a b) (ho1 : 1 ≤ a.order + b.order) (ho2 : a.order + b.order ≤ 62)
    (hord : Faithful ord (a.tpol.p.syms.map varName ++ b.tpol.p.syms.map varName)) (hrem : b.rem = ⟨0, 0⟩)
    (hlin : DegLE 1 (b.tpol.toMv () : MvPolynomial String K)) (hnz : ∀ x, b.InDom x → b.polyAt x ≠ 0)
    (hpa : (a.tpol.toMv () : MvPolynomial String K) ≠ 0)
    (ht : ∀ I : MvPolynomial String K, DegLE b.order I → EqUpTo b.order (I * b.tpol.toMv ()) 1 →
      (∃ m : String →₀ ℕ, max a.order b.order < m.degree ∧ ((1 / 10 ^ 16 : ℚ) : K) < |coeff m (a.tpol.toMv () * I)|) ∨
      ∀ m : String →₀ ℕ, max a.order b.order < m.degree → coeff m (a.tpol.toMv () * I) = 0) :
    Sound₂ a b (TM.div ord a b) fun y z => y / z := by
  have hob : Faithful ord (b.tpol.p.syms.map varName) := fun l h1 h2 => hord l h1 fun v hv => List.mem_append_right _ (h2 hv)
  obtain ⟨r, h1, h2, h3, h4, h5, h6, h7, h8, h9⟩ := divST_parts hb (by omega) (hob _ (nodup_varNames hb.valid.wf.ndsyms hb.names) fun _ h => h)
    hrem hlin hnz (zero_le_one (α := K)) le_rfl
  have hI : EqUpTo b.order (r.tpol.toMv () * b.tpol.toMv () : MvPolynomial String K) 1 := by rw [hb.order]; exact h9
  have hr0 : (r.tpol.toMv () : MvPolynomial String K) ≠ 0 := by
    intro h0
    rw [h0, zero_mul] at hI
    have := hI 0 (by simp)
    simp at this
  have hcr : Compatible a r := by
    unfold Compatible
    rw [h6, h7]
    exact hc
  have hdeg : DegLE b.order (r.tpol.toMv () : MvPolynomial String K) := by
    rw [← h3, h2.order]
    exact h2.valid.degLE (ι := Unit) (K := K) ()
  obtain ⟨q, m1, m2, m3, m4, m5⟩ := mul_sound (ord := ord) ha h2 hcr hpa hr0 (by omega) (by omega) (by rw [h8]; exact hord) (by
    rw [h3]
    exact ht _ hdeg hI)
  refine ⟨q, ?_, m2, by rw [m3, h3], fun x hx hy => m4 x hx ((h4 x).2 hy), fun x hx hy y z hya hzb => ?_⟩
  · unfold TM.div
    rw [bind_ok h1, m1]
  · have := m5 x hx ((h4 x).2 hy) y (1 / z) hya (h5 x hy z _ hzb rfl)
    simp only [mul_one_div] at this
    exact this

end

/-- Decision procedure for `ViolatedAt`. -/
def violatedCheck (a : TM ℚ) (o : Res (TM ℚ)) (x : String → ℚ) (y z : ℚ) : Bool :=
  match o with
  | .error _ => false
  | .ok r => a.wfCheck && r.wfCheck && decide (a.InDom x) && decide (InItv a.rem (y - a.polyAtTable x)) &&
    !decide (InItv r.rem (z - r.polyAtTable x))

theorem violated_of_check {a : TM ℚ} {o : Res (TM ℚ)} {x : String → ℚ} {y z : ℚ} (h : violatedCheck a o x y z = true) :
    ∃ r, o = .ok r ∧ a.WF ∧ ViolatedAt a r x y z := by
  cases o with
  | error e => simp [violatedCheck] at h
  | ok r =>
    simp only [violatedCheck, Bool.and_eq_true, decide_eq_true_eq, Bool.not_eq_true', decide_eq_false_iff_not] at h
    obtain ⟨⟨⟨⟨h1, h2⟩, h3⟩, h4⟩, h5⟩ := h
    have ha := wf_of_check h1
    have hr := wf_of_check h2
    exact ⟨r, rfl, ha, h3, (allows_iff_table ha.valid x y).2 h4, hr, fun hc => h5 ((allows_iff_table hr.valid x z).1 hc)⟩

namespace Ex

/-- `1 + x`, expanded at 0, over [0, 1/2], order 1, remainder {0}. -/
def tl : TM ℚ := ⟨⟨⟨["dx"], [([0], 1), ([1], 1)]⟩, 1⟩, 1, 1, ⟨0, 0⟩, [("x", 0)], [("x", ⟨0, 1 / 2⟩)]⟩
/-- The constant 2 with remainder [-1, 1], order 1. -/
def tc : TM ℚ := ⟨⟨⟨["dx"], [([0], 2)]⟩, 1⟩, 1, 1, ⟨-1, 1⟩, [("x", 0)], [("x", ⟨-1, 1⟩)]⟩
/-- `1 + x²`, expanded at 0, over [-1/10, 1/10], order 2, remainder {0}. -/
def tq : TM ℚ := ⟨⟨⟨["dx"], [([0], 1), ([2], 1)]⟩, 2⟩, 2, 1, ⟨0, 0⟩, [("x", 0)], [("x", ⟨-1 / 10, 1 / 10⟩)]⟩

theorem tl_wf : tl.WF := wf_of_check (by decide +kernel)

theorem tl_lin : DegLE 1 (tl.tpol.toMv () : MvPolynomial String ℚ) :=
  GDual.Valid.degLE (ι := Unit) (K := ℚ) (d := ⟨tl.tpol.p, 1⟩) ⟨tl_wf.valid.wf, by decide⟩ ()

theorem tl_polyAt (x : String → ℚ) : tl.polyAt x = 1 + x "x" := by
  rw [polyAt_eq_table tl_wf.valid]
  have hv : varName "dx" = "x" := by decide
  simp [polyAtTable, tl, displacement, hv]

theorem tl_pos {x : String → ℚ} (hx : tl.InDom x) : 0 < tl.polyAt x := by
  have h1 : (0 : ℚ) ≤ x "x" := (hx ("x", ⟨0, 1 / 2⟩) (by simp [tl])).1
  rw [tl_polyAt]
  linarith

end Ex

/-- All hypotheses of `C52_reciprocal_partial` hold for `1 / (1 + x)`. -/
example : Sound₁ Ex.tl (divST id 1 Ex.tl) fun y z => z = 1 / y :=
  C52_reciprocal_partial Ex.tl_wf (by decide) (fun _ _ _ => rfl) rfl Ex.tl_lin (fun _ hx => (Ex.tl_pos hx).ne') zero_le_one le_rfl

/-- All hypotheses of `C52_quotient_partial` hold for `3 / (1 + x)`, both as Taylor models. -/
example : Sound₂ { Ex.tl with tpol := ⟨⟨["dx"], [([0], 3)]⟩, 1⟩ } Ex.tl (TM.div id { Ex.tl with tpol := ⟨⟨["dx"], [([0], 3)]⟩, 1⟩ } Ex.tl)
    fun y z => y / z := by
  have hw : ({ Ex.tl with tpol := ⟨⟨["dx"], [([0], 3)]⟩, 1⟩ } : TM ℚ).WF := wf_of_check (by decide +kernel)
  refine C52_quotient_partial hw Ex.tl_wf (by constructor <;> decide +kernel) (by decide) (by decide) (fun _ _ _ => rfl) rfl Ex.tl_lin
    (fun _ hx => (Ex.tl_pos hx).ne') (fun h0 => ?_) fun I hI _ => .inr fun m hm => ?_
  · have h1 := polyAt_eq_table hw.valid fun _ => 0
    unfold polyAt at h1
    rw [h0, map_zero] at h1
    revert h1
    decide +kernel
  · have d0 : DegLE 0 (GDual.toMv () (⟨⟨["dx"], [([0], 3)]⟩, 1⟩ : GDual ℚ) : MvPolynomial String ℚ) :=
      GDual.Valid.degLE (ι := Unit) (K := ℚ) (d := ⟨⟨["dx"], [([0], 3)]⟩, 0⟩) ⟨hw.valid.wf, by decide⟩ ()
    exact degLE_mul d0 hI m (by
      have : Ex.tl.order = 1 := rfl
      simp only [this] at hm ⊢
      omega)

/-- All hypotheses of `C52_zero` hold for a quotient by the Taylor model of `x` over [-1, 1]. -/
example : divST id (1 : ℚ) ⟨⟨⟨["dx"], [([1], 1)]⟩, 1⟩, 1, 1, ⟨0, 0⟩, [("x", 0)], [("x", ⟨-1, 1⟩)]⟩ = .error .runtimeError := by
  have hw : (⟨⟨⟨["dx"], [([1], 1)]⟩, 1⟩, 1, 1, ⟨0, 0⟩, [("x", 0)], [("x", ⟨-1, 1⟩)]⟩ : TM ℚ).WF := wf_of_check (by decide +kernel)
  refine C52_zero hw (by decide) (fun _ _ _ => rfl) (x := fun _ => 0) (by decide +kernel) ?_ 1
  rw [allows_iff_table hw.valid]
  decide +kernel

/-- **C52.** The remainder is not multiplied by the numerator: `2 / (1 + x)` is 4/3 at `x = 1/2`, which the result does not allow; neither does
it allow -2/3 for `-1 / (1 + x)`. -/
theorem C52_scalar_counterexample :
    (∃ r, divST id 2 Ex.tl = .ok r ∧ Ex.tl.WF ∧ ViolatedAt Ex.tl r (fun _ => 1 / 2) (3 / 2) (2 / (3 / 2))) ∧
    ∃ r, divST id (-1) Ex.tl = .ok r ∧ Ex.tl.WF ∧ ViolatedAt Ex.tl r (fun _ => 1 / 2) (3 / 2) (-1 / (3 / 2)) :=
  ⟨violated_of_check (by decide +kernel), violated_of_check (by decide +kernel)⟩

/-- **C52.** A remainder of the denominator enters the error term only, not the lower powers: the constant 2 with remainder [-1, 1] allows the
value 3, its reciprocal does not allow 1/3. -/
theorem C52_remainder_counterexample :
    ∃ r, divST id 1 Ex.tc = .ok r ∧ Ex.tc.WF ∧ ViolatedAt Ex.tc r (fun _ => 0) 3 (1 / 3) := violated_of_check (by decide +kernel)

/-- **C52.** The terms that the truncated product of the powers drops are not added to the remainder: the reciprocal of `1 + x²` with order 2
does not allow the value at `x = 1/10`. -/
theorem C52_degree_counterexample :
    ∃ r, divST id 1 Ex.tq = .ok r ∧ Ex.tq.WF ∧ ViolatedAt Ex.tq r (fun _ => 1 / 10) (101 / 100) (1 / (101 / 100)) :=
  violated_of_check (by decide +kernel)

end Audi
