import Verif.Props.C67_Rounding
import Verif.Proofs.TMSum
import Verif.Model.RoundedBounds
import Verif.Props.ExamplesTM

/-! # C69: Taylor models with rounded coefficients -/

set_option linter.unusedSectionVars false

namespace Audi
open GDual MvPolynomial

section
variable {K : Type} [Field K] [LinearOrder K] [IsStrictOrderedRing K] {R : Rounding K}

/-- The same Taylor model, its floating point numbers read as numbers. -/
def TM.exact (tm : TM (Fl R)) : TM K :=
  ⟨tm.tpol.exact, tm.order, tm.ndim, ⟨tm.rem.lo.val, tm.rem.hi.val⟩, tm.exp.map fun e => (e.1, e.2.val),
    tm.dom.map fun e => (e.1, ⟨e.2.lo.val, e.2.hi.val⟩)⟩

theorem valid_of_exact {d : GDual (Fl R)} (h : d.exact.Valid) : d.Valid where
  wf :=
    { sorted := h.wf.sorted
      len := fun t ht => h.wf.len (t.1, t.2.val) (List.mem_map.mpr ⟨t, ht, rfl⟩)
      nodup := by
        have := h.wf.nodup
        simpa [GDual.exact, Poly.exact, Function.comp_def] using this
      nz := fun t ht => by
        have := h.wf.nz (t.1, t.2.val) (List.mem_map.mpr ⟨t, ht, rfl⟩)
        simpa [Cf.isZero] using this }
  deg := fun t ht => h.deg (t.1, t.2.val) (List.mem_map.mpr ⟨t, ht, rfl⟩)

theorem TM.checkInput_exact (n : ℕ) (exp : VMap (Fl R)) (dom : VMap (Itv (Fl R))) :
    TM.checkInput n exp dom = TM.checkInput n (exp.map fun e => (e.1, e.2.val)) (dom.map fun e => (e.1, (⟨e.2.lo.val, e.2.hi.val⟩ : Itv K))) := by
  have h1 : VMap.keys (exp.map fun e => (e.1, e.2.val)) = exp.keys := by simp [VMap.keys, Function.comp_def]
  have h2 : VMap.keys (dom.map fun e => (e.1, (⟨e.2.lo.val, e.2.hi.val⟩ : Itv K))) = dom.keys := by simp [VMap.keys, Function.comp_def]
  have h3 : ∀ k, (exp.map fun e => (e.1, e.2.val)).lookup k = (exp.lookup k).map Fl.val := fun k => by
    induction exp with
    | nil => rfl
    | cons x l ih =>
      rw [List.map_cons, List.lookup_cons, List.lookup_cons]
      cases k == x.1
      · exact ih (by simp [VMap.keys, Function.comp_def])
      · rfl
  have h4 : (dom.map fun e => (e.1, (⟨e.2.lo.val, e.2.hi.val⟩ : Itv K))).all (TM.pointInside (exp.map fun e => (e.1, e.2.val))) = dom.all (TM.pointInside exp) := by
    rw [List.all_map]
    congr 1
    funext e
    simp only [Function.comp_def, TM.pointInside, h3]
    cases exp.lookup e.1 <;> rfl
  unfold TM.checkInput
  rw [h1, h2, h4, List.length_map]

/-- The polynomials differ by a constant. -/
theorem polyAt_of_coeff {a r : TM (Fl R)} (σ : K) {c : K} (he : r.exp = a.exp)
    (h : ∀ E, r.tpol.coeffOf E = if E = 0 then c else σ * a.tpol.coeffOf E) (x : String → K) :
    r.exact.polyAt x = σ * a.exact.polyAt x + (c - σ * a.tpol.coeffOf 0) := by
  have h1 : r.tpol.exact.toMv () = C σ * a.tpol.exact.toMv () + C (c - σ * a.tpol.coeffOf 0) := by
    ext E
    rw [coeff_add, coeff_C_mul, coeff_C]
    refine (h E).trans ?_
    split_ifs with h2 h3 h3
    · subst h2; change c = σ * a.tpol.coeffOf 0 + _; ring
    · exact absurd h2.symm h3
    · exact absurd h3.symm h2
    · rw [add_zero]; rfl
  have h2 : r.exact.exp = a.exact.exp := by simp only [TM.exact, he]
  rw [TM.polyAt, TM.polyAt, h2]
  change eval _ (r.tpol.exact.toMv ()) = _
  rw [h1, map_add, map_mul, eval_C, eval_C]
  rfl

/-- **C69 (partial).** Adding a number to a Taylor model with rounded coefficients, or subtracting it, succeeds and keeps the remainder interval; the result encloses the
sums up to one rounding of the constant coefficient: widened by `u * |c₀ ± s|` at both ends, its remainder interval contains the difference to the polynomial. The enclosure
without this widening is refuted (`C69_counterexample`). -/
theorem C69_shift_partial {a : TM (Fl R)} (ha : a.exact.WF) (s : Fl R) :
    (∃ r, TM.addTS a s = .ok r ∧ TM.addST s a = .ok r ∧ r.exact.WF ∧ r.rem = a.rem ∧ r.dom = a.dom ∧
      ∀ x y, a.exact.Allows x y → Spec.InItv ⟨r.rem.lo.val - R.u * |s.val + a.tpol.coeffOf 0|, r.rem.hi.val + R.u * |s.val + a.tpol.coeffOf 0|⟩
        (y + s.val - r.exact.polyAt x)) ∧
    (∃ r, TM.subTS a s = .ok r ∧ r.exact.WF ∧ r.rem = a.rem ∧ r.dom = a.dom ∧
      ∀ x y, a.exact.Allows x y → Spec.InItv ⟨r.rem.lo.val - R.u * |a.tpol.coeffOf 0 - s.val|, r.rem.hi.val + R.u * |a.tpol.coeffOf 0 - s.val|⟩
        (y - s.val - r.exact.polyAt x)) := by
  have hv : a.tpol.Valid := valid_of_exact ha.valid
  have hchk : TM.checkInput a.tpol.symbolSetSize a.exp a.dom = .ok () := by
    rw [TM.checkInput_exact]
    have h := (TM.make_wf (K := K) (p := a.tpol.exact) (rem := a.exact.rem) (exp := a.exact.exp) (dom := a.exact.dom)
      ⟨ha.valid, ha.names, ha.expKeys, ha.domKeys, ha.inside, ha.rem⟩).1
    obtain ⟨_, h1, -⟩ := bind_ok_iff.mp h
    exact h1
  have mk : ∀ p : GDual (Fl R), p.Valid → p.p.syms = a.tpol.p.syms → ∃ r, TM.make p a.rem a.exp a.dom = .ok r ∧ r.exact.WF ∧ r.rem = a.rem ∧ r.dom = a.dom ∧
      r.exp = a.exp ∧ r.tpol = p := fun p hp hs => by
    refine ⟨⟨p, p.getOrder, p.symbolSetSize, a.rem, a.exp, a.dom⟩, ?_, ?_, rfl, rfl, rfl, rfl⟩
    · have h : TM.checkInput p.symbolSetSize a.exp a.dom = .ok () := by rw [symbolSetSize, hs]; exact hchk
      rw [TM.make, h]
      rfl
    · have hps : p.exact.p.syms = a.tpol.exact.p.syms := hs
      exact ⟨⟨hp.wf.exact, fun t ht => by obtain ⟨u, hu, rfl⟩ := List.mem_map.mp ht; exact hp.deg u hu⟩, fun s hs' => ha.names s (hps ▸ hs'), rfl, rfl,
        by have := ha.expKeys; rw [show a.exact.tpol.p.syms = p.exact.p.syms from hps.symm] at this; exact this,
        by have := ha.domKeys; rw [show a.exact.tpol.p.syms = p.exact.p.syms from hps.symm] at this; exact this, ha.inside, ha.rem⟩
  have fin : ∀ {w z e : K} {B : K}, Spec.InItv a.exact.rem w → |e| ≤ B → z = w - e → Spec.InItv ⟨a.rem.lo.val - B, a.rem.hi.val + B⟩ z := by
    rintro w z e B hw he rfl
    obtain ⟨h1, h2⟩ := abs_le.mp he
    have h3 : a.rem.lo.val ≤ w := hw.1
    have h4 : w ≤ a.rem.hi.val := hw.2
    exact ⟨by change _ - _ ≤ _; linarith, by change _ ≤ _ + _; linarith⟩
  refine ⟨?_, ?_⟩
  · obtain ⟨r, h1, h2, h3, h4, h5, h6⟩ := mk (a.tpol.addSG s) (Valid.addSG s hv) (TM.syms_const_add hv.wf.sorted)
    refine ⟨r, h1, h1, h2, h3, h4, fun x y hy => ?_⟩
    have hp := polyAt_of_coeff (r := r) (a := a) 1 (c := R.rnd (s.val + a.tpol.coeffOf 0)) h5
      (fun E => by rw [h6, one_mul]; exact (C67_scalar hv s E).1) x
    rw [h3]
    refine fin hy (R.err _) ?_
    rw [hp]
    ring
  · obtain ⟨r, h1, h2, h3, h4, h5, h6⟩ := mk (a.tpol.subGS s)
      ⟨hv.wf.add (Poly.wf_neg_fl (Poly.wf_const s)), Poly.deg_add hv.wf (Poly.wf_neg_fl (Poly.wf_const s)) hv.deg (Poly.deg_neg (Poly.deg_const s _))⟩ rfl
    refine ⟨r, h1, h2, h3, h4, fun x y hy => ?_⟩
    have hp := polyAt_of_coeff (r := r) (a := a) 1 (c := R.rnd (a.tpol.coeffOf 0 - s.val)) h5
      (fun E => by
        rw [h6, one_mul]
        refine (Poly.cof_sub hv.wf (Poly.wf_const s) E).trans ?_
        rw [Poly.cof_const]
        split_ifs with g1 g2 g2
        · subst g1; rfl
        · exact absurd g1.symm g2
        · exact absurd g2.symm g1
        · rw [sub_zero]; exact Poly.rnd_cof hv.wf E) x
    rw [h3]
    refine fin hy (R.err (a.tpol.coeffOf 0 - s.val)) ?_
    rw [hp]
    ring

end

/-- The format with 53 binary digits over the rational numbers. -/
def double : Rounding ℚ := Rounding.nearest 52

/-- A number that is in the format. -/
def toDouble (q : ℚ) (h : nearest 53 q = q) : Fl double := ⟨q, h⟩

/-- The identity function around `1` on `[0, 2]` with remainder `[0, 0]`. -/
def lineAtOne : TM (Fl double) :=
  ⟨⟨⟨["dx"], [([0], toDouble 1 (by decide +kernel)), ([1], toDouble 1 (by decide +kernel))]⟩, 1⟩, 1, 1,
    ⟨toDouble 0 (by decide +kernel), toDouble 0 (by decide +kernel)⟩, [("x", toDouble 1 (by decide +kernel))],
    [("x", ⟨toDouble 0 (by decide +kernel), toDouble 2 (by decide +kernel)⟩)]⟩

theorem lineAtOne_wf : lineAtOne.exact.WF := TM.wf_of_check (by decide +kernel)

theorem lineAtOne_polyAt (x : String → ℚ) : lineAtOne.exact.polyAt x = x "x" := by
  rw [TM.polyAt_eq_table lineAtOne_wf.valid]
  have h : varName "dx" = "x" := by decide +kernel
  simp [TM.polyAtTable, lineAtOne, TM.exact, GDual.exact, Poly.exact, TM.displacement, toDouble, h]

/-- The Taylor model of the example meets the hypothesis of `C69_shift_partial`. -/
example : ∃ (a : TM (Fl double)) (s : Fl double), a.exact.WF ∧ s.val = 1 / 2 ^ 60 := ⟨lineAtOne, toDouble (1 / 2 ^ 60) (by decide +kernel), lineAtOne_wf, rfl⟩

/-- **C69 (counterexample).** In the format with 53 binary digits, adding `2 ^ (-60)` to a Taylor model of the identity function around `1` does not change it: the
result has remainder `[0, 0]` and does not enclose `x + 2 ^ (-60)`, at any point of the domain. -/
theorem C69_counterexample : ∃ (a r : TM (Fl double)) (s : Fl double), s.val = 1 / 2 ^ 60 ∧ a.exact.WF ∧ (∀ x, a.exact.Allows x (x "x")) ∧
    TM.addTS a s = .ok r ∧ TM.addST s a = .ok r ∧ (∃ x, a.exact.InDom x) ∧ ∀ x, a.exact.InDom x → ¬ r.exact.Allows x (x "x" + s.val) := by
  obtain ⟨s, hs⟩ : ∃ s : Fl double, s = toDouble (1 / 2 ^ 60) (by decide +kernel) := ⟨_, rfl⟩
  obtain ⟨r, h1, h2, -⟩ := (C69_shift_partial lineAtOne_wf s).1
  have h3 : (TM.addTS lineAtOne s).map TM.exact = .ok lineAtOne.exact := by rw [hs]; decide +kernel
  rw [h1] at h3
  have h4 : r.exact = lineAtOne.exact := by injection h3
  refine ⟨lineAtOne, r, s, by rw [hs]; rfl, lineAtOne_wf, fun x => ?_, h1, h2, ⟨fun _ => 1, by decide +kernel⟩, fun x _ h => ?_⟩
  · rw [TM.Allows, lineAtOne_polyAt, sub_self]
    decide +kernel
  · rw [h4, TM.Allows, lineAtOne_polyAt, add_sub_cancel_left, hs] at h
    revert h
    decide +kernel

end Audi
