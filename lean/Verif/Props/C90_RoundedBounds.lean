import Verif.Props.C69_RoundedTaylorModels
import Verif.Proofs.RoundedGetBounds
import Verif.Proofs.NearestMono
import Verif.Proofs.TMProductRem
import Mathlib.Analysis.Complex.Exponential
import Mathlib.Analysis.Complex.ExponentialBounds

/-! # C90: bounds of Taylor polynomials with floating point arithmetic -/

set_option linter.unusedSectionVars false

namespace Audi
open GDual MvPolynomial

section
variable {R : Rounding ℝ}

theorem TM.absVal_mono {M M' : String → ℝ} {p : GDual ℝ} (h0 : ∀ s ∈ p.p.syms, 0 ≤ M s) (h : ∀ s ∈ p.p.syms, M s ≤ M' s) :
    Spec.absVal M (p.toMv ()) ≤ Spec.absVal M' (p.toMv ()) := by
  unfold Spec.absVal
  refine Finset.sum_le_sum fun m hm => mul_le_mul_of_nonneg_left ?_ (abs_nonneg _)
  have hs : ∀ s ∈ m.support, s ∈ p.p.syms := fun s hs => mem_supported.1 (toMv_mem_supported p () (S := {t | t ∈ p.p.syms}) fun s hs => hs) ((mem_vars_iff_mem_support s).2 ⟨m, hm, hs⟩)
  exact Finset.prod_le_prod (fun s h' => pow_nonneg (h0 s (hs s h')) _) fun s h' => pow_le_pow_left₀ (h0 s (hs s h')) (h s (hs s h')) _

/-- **C90 (partial).** The bounds of the polynomial of a Taylor model, computed in floating point arithmetic with unit roundoff `u`, differ from the bounds computed in exact
arithmetic by at most `((1 + u) ^ (n * (13 * N + 2 * acc + 17)) - 1) * A`: `n` variables, order `N`, `acc` roundings in each call of `std::pow`, and `A` is the sum of the
absolute values of the terms when each variable has the magnitude `M`, at least twice the distance of the lower end of its interval from the expansion point plus the distance
of the upper end. Widened by this number at both ends, they contain all values of the polynomial. The enclosure without widening is refuted (`C90_counterexample`). (The rounding
keeps the order of the numbers, the order is at most 62 and the map is traversed in the order of insertion.) -/
theorem C90_bounds_partial [FlPow R] (hu : R.u ≤ 1 / 2) (hmono : Monotone R.rnd) {tm : TM (Fl R)} (h : tm.exact.WF) (hord : tm.order ≤ 62)
    {ord : List String → List String} (ho : ord (tm.tpol.p.syms.map varName) = tm.tpol.p.syms.map varName) {M : String → ℝ}
    (hM : ∀ s, ∀ e ∈ tm.dom, e.1 = varName s → ∀ f ∈ tm.exp, f.1 = varName s → 2 * |e.2.lo.val - f.2.val| + |e.2.hi.val - f.2.val| ≤ M s) :
    ∃ I J E, tm.bounds ord = .ok I ∧ tm.exact.bounds ord = .ok J ∧
      E = ((1 + R.u) ^ (tm.ndim * (13 * tm.order + 2 * FlPow.acc R + 17)) - 1) * Spec.absVal M (tm.exact.tpol.toMv ()) ∧
      |I.lo.val - J.lo| ≤ E ∧ |I.hi.val - J.hi| ≤ E ∧
      ∀ x, tm.exact.InDom x → Spec.InItv ⟨I.lo.val - E, I.hi.val + E⟩ (tm.exact.polyAt x) := by
  have hm' : ∀ v ∈ tm.exact.tpol.p.syms.map varName, ∃ I x, tm.exact.dom.lookup v = some I ∧ tm.exact.exp.lookup v = some x ∧ I.lo ≤ I.hi := fun v hv => by
    obtain ⟨I, x, e1, e2, e3⟩ := h.lookup hv
    exact ⟨I, x, e1, e2, e3.1.trans e3.2⟩
  have hm : ∀ v ∈ tm.tpol.p.syms.map varName, ∃ I x, tm.dom.lookup v = some I ∧ tm.exp.lookup v = some x ∧ I.lo ≤ I.hi := fun v hv => by
    obtain ⟨I, x, e1, e2, e3⟩ := hm' v hv
    rw [show tm.exact.dom = TM.exactDom tm.dom from rfl, TM.exactDom, TM.lookup_map (fun I : Itv (Fl R) => (⟨I.lo.val, I.hi.val⟩ : Itv ℝ))] at e1
    rw [show tm.exact.exp = TM.exactExp tm.exp from rfl, TM.exactExp, TM.lookup_map Fl.val] at e2
    obtain ⟨I', i1, rfl⟩ := Option.map_eq_some_iff.1 e1
    obtain ⟨x', i2, rfl⟩ := Option.map_eq_some_iff.1 e2
    exact ⟨I', x', i1, i2, e3⟩
  have hN : ∀ t ∈ tm.tpol.p.terms, ∀ k ∈ t.1, k ≤ tm.order := fun t ht k hk =>
    (List.single_le_sum (by simp) _ hk).trans ((h.valid.deg (t.1, t.2.val) (List.mem_map.mpr ⟨t, ht, rfl⟩)).trans h.order.ge)
  obtain ⟨I, J, h1, h2, h3, h4⟩ := TM.getBounds_rounded hu hmono (p := tm.tpol) (exp := tm.exp) (dom := tm.dom) h.valid h.names hN hord hm ho
  have hle : ((1 + R.u) ^ (tm.tpol.p.syms.length * (13 * tm.order + 2 * FlPow.acc R + 17)) - 1) *
      Spec.absVal (TM.magnitude (TM.exactExp tm.exp) (TM.exactDom tm.dom)) (tm.tpol.exact.toMv ()) ≤
      ((1 + R.u) ^ (tm.ndim * (13 * tm.order + 2 * FlPow.acc R + 17)) - 1) * Spec.absVal M (tm.exact.tpol.toMv ()) := by
    rw [show tm.ndim = tm.tpol.p.syms.length from h.ndim]
    refine mul_le_mul_of_nonneg_left ?_ (by linarith [R.one_le_pow (tm.tpol.p.syms.length * (13 * tm.order + 2 * FlPow.acc R + 17))])
    refine TM.absVal_mono (fun s _ => by unfold TM.magnitude; positivity) fun s hs => ?_
    have hs' := List.mem_map_of_mem (f := varName) hs
    obtain ⟨I, x, e1, e2, -⟩ := hm _ hs'
    have e3 : List.lookup (varName s) (TM.exactDom tm.dom) = some ⟨I.lo.val, I.hi.val⟩ := by
      rw [TM.exactDom, TM.lookup_map (fun I : Itv (Fl R) => (⟨I.lo.val, I.hi.val⟩ : Itv ℝ)), e1]; rfl
    have e4 : List.lookup (varName s) (TM.exactExp tm.exp) = some x.val := by
      rw [TM.exactExp, TM.lookup_map Fl.val, e2]; rfl
    have := hM s _ (VMap.mem_of_lookup e1) rfl _ (VMap.mem_of_lookup e2) rfl
    simpa [TM.magnitude, TM.shiftItv, e3, e4] using this
  have h3' := h3.trans hle
  have h4' := h4.trans hle
  refine ⟨I, J, _, h1, h2, rfl, h3', h4', fun x hx => ?_⟩
  obtain ⟨B, b1, -, b3⟩ := TM.bounds_encloses h hord ho
  obtain rfl : J = B := Except.ok.inj (h2.symm.trans b1)
  have := b3 x hx
  have c1 := abs_le.1 h3'
  have c2 := abs_le.1 h4'
  exact ⟨by change _ - _ ≤ _; linarith [this.1, c1.1, c1.2], by change _ ≤ _ + _; linarith [this.2, c2.1, c2.2]⟩

theorem Rounding.pow_sub_one_le (R : Rounding ℝ) {k : ℕ} (h : k * R.u ≤ 1) : (1 + R.u) ^ k - 1 ≤ 2 * (k * R.u) := by
  have hu := R.u_nonneg
  have h0 : 0 ≤ k * R.u := by positivity
  have h1 : (1 + R.u) ^ k ≤ Real.exp (k * R.u) := by
    rw [Real.exp_nat_mul]
    refine pow_le_pow_left₀ (by linarith) ?_ _
    linarith [Real.add_one_le_exp R.u]
  have h2 := Real.abs_exp_sub_one_sub_id_le (x := k * R.u) (by rwa [abs_of_nonneg h0])
  have h3 := (abs_le.1 h2).2
  nlinarith

/-- **C90, 53 binary digits (partial).** With numbers of 53 binary digits, rounded to nearest, and a correctly rounded `std::pow`, the bounds of the polynomial in `n` variables
contain all its values when they are widened by `n * 2 ^ (-42) * A`. -/
theorem C90_double_partial [FlPow (Rounding.nearest (K := ℝ) 52)] (hacc : FlPow.acc (Rounding.nearest (K := ℝ) 52) = 1) {tm : TM (Fl (Rounding.nearest (K := ℝ) 52))}
    (h : tm.exact.WF) (hord : tm.order ≤ 62) (hn : tm.ndim ≤ 2 ^ 32)
    {ord : List String → List String} (ho : ord (tm.tpol.p.syms.map varName) = tm.tpol.p.syms.map varName) {M : String → ℝ}
    (hM : ∀ s, ∀ e ∈ tm.dom, e.1 = varName s → ∀ f ∈ tm.exp, f.1 = varName s → 2 * |e.2.lo.val - f.2.val| + |e.2.hi.val - f.2.val| ≤ M s) :
    ∃ I E, tm.bounds ord = .ok I ∧ E = tm.ndim / 2 ^ 42 * Spec.absVal M (tm.exact.tpol.toMv ()) ∧
      ∀ x, tm.exact.InDom x → Spec.InItv ⟨I.lo.val - E, I.hi.val + E⟩ (tm.exact.polyAt x) := by
  have hu : (Rounding.nearest (K := ℝ) 52).u = 1 / 2 ^ 53 := by norm_num [Rounding.nearest]
  obtain ⟨I, J, E, h1, -, hE, -, -, h2⟩ := C90_bounds_partial (by rw [hu]; norm_num) (Rounding.nearest_mono 52) h hord ho hM
  refine ⟨I, _, h1, rfl, fun x hx => ?_⟩
  have hA : 0 ≤ Spec.absVal M (tm.exact.tpol.toMv ()) := TM.absVal_nonneg fun s hs => by
    obtain ⟨I, x, e1, e2, -⟩ := h.lookup (List.mem_map_of_mem (f := varName) hs)
    obtain ⟨e, he, h1⟩ := List.mem_map.1 (VMap.mem_of_lookup e1)
    obtain ⟨f, hf, h2⟩ := List.mem_map.1 (VMap.mem_of_lookup e2)
    exact le_trans (by positivity) (hM s e he (congrArg Prod.fst h1) f hf (congrArg Prod.fst h2))
  have hk : (((tm.ndim * (13 * tm.order + 2 * FlPow.acc (Rounding.nearest (K := ℝ) 52) + 17) : ℕ)) : ℝ) ≤ tm.ndim * 825 := by
    rw [hacc]
    have : tm.ndim * (13 * tm.order + 2 * 1 + 17) ≤ tm.ndim * 825 := Nat.mul_le_mul_left _ (by omega)
    exact_mod_cast this
  have hn' : (tm.ndim : ℝ) ≤ 2 ^ 32 := by exact_mod_cast hn
  have hE' : E ≤ tm.ndim / 2 ^ 42 * Spec.absVal M (tm.exact.tpol.toMv ()) := by
    rw [hE]
    refine mul_le_mul_of_nonneg_right ?_ hA
    generalize tm.ndim * (13 * tm.order + 2 * FlPow.acc (Rounding.nearest (K := ℝ) 52) + 17) = k at hk
    refine (Rounding.pow_sub_one_le _ ?_).trans ?_
    · rw [hu, mul_one_div, div_le_one (by positivity)]
      refine hk.trans (le_trans (mul_le_mul_of_nonneg_right hn' (by norm_num)) (by norm_num))
    · rw [hu]
      have : (0 : ℝ) ≤ tm.ndim := Nat.cast_nonneg _
      norm_num at hk ⊢
      linarith
  obtain ⟨g1, g2⟩ := h2 x hx
  exact ⟨by refine le_trans ?_ g1; change _ - _ ≤ _ - _; linarith, by refine g2.trans ?_; change _ + _ ≤ _ + _; linarith⟩

/-- A Taylor model with one variable that meets the hypotheses of `C90_double_partial`, hence of `C90_bounds_partial`. -/
example : ∃ tm : TM (Fl (Rounding.nearest (K := ℝ) 52)), tm.exact.WF ∧ tm.order ≤ 62 ∧ tm.ndim ≤ 2 ^ 32 ∧
    (∃ _ : FlPow (Rounding.nearest (K := ℝ) 52), FlPow.acc (Rounding.nearest (K := ℝ) 52) = 1) ∧
    ∃ M : String → ℝ, ∀ s, ∀ e ∈ tm.dom, e.1 = varName s → ∀ f ∈ tm.exp, f.1 = varName s → 2 * |e.2.lo.val - f.2.val| + |e.2.hi.val - f.2.val| ≤ M s := by
  refine ⟨⟨⟨⟨["dx"], [([1], 1)]⟩, 1⟩, 1, 1, ⟨0, 0⟩, [("x", 0)], [("x", ⟨0, 1⟩)]⟩, ?_, by norm_num, by norm_num, ⟨FlPow.correct _, rfl⟩, fun _ => 1, ?_⟩
  · have hx : varName "dx" = "x" := by decide +kernel
    refine ⟨⟨⟨?_, ?_, ?_, ?_⟩, ?_⟩, ?_, rfl, rfl, ?_, ?_, ?_, ?_⟩
    · simp [TM.exact, GDual.exact, Poly.exact]
    · simp [TM.exact, GDual.exact, Poly.exact]
    · simp [TM.exact, GDual.exact, Poly.exact]
    · have : ((1 : Fl (Rounding.nearest (K := ℝ) 52)).val) = 1 := rfl
      simp [TM.exact, GDual.exact, Poly.exact, this, Cf.isZero]
    · simp [TM.exact, GDual.exact, Poly.exact]
    · simpa [TM.exact, GDual.exact, Poly.exact] using ⟨"x", by decide⟩
    · simp [TM.exact, GDual.exact, Poly.exact, hx]
    · simp [TM.exact, GDual.exact, Poly.exact, hx]
    · have h0 : ((0 : Fl (Rounding.nearest (K := ℝ) 52)).val) = 0 := rfl
      have h1 : ((1 : Fl (Rounding.nearest (K := ℝ) 52)).val) = 1 := rfl
      simp [TM.exact, Spec.InItv, h0, h1]
    · simp [TM.exact]
  · have h0 : ((0 : Fl (Rounding.nearest (K := ℝ) 52)).val) = 0 := rfl
    have h1 : ((1 : Fl (Rounding.nearest (K := ℝ) 52)).val) = 1 := rfl
    intro s e he _ f hf _
    obtain rfl : e = ("x", ⟨0, 1⟩) := by simpa using he
    obtain rfl : f = ("x", 0) := by simpa using hf
    simp [h0, h1]

end

/-- The polynomial `1 + 2 ^ (-60) * x` around `0` on `[0, 1]` with remainder `[0, 0]`. -/
def flatLine : TM (Fl double) :=
  ⟨⟨⟨["dx"], [([0], toDouble 1 (by decide +kernel)), ([1], toDouble (1 / 2 ^ 60) (by decide +kernel))]⟩, 1⟩, 1, 1,
    ⟨toDouble 0 (by decide +kernel), toDouble 0 (by decide +kernel)⟩, [("x", toDouble 0 (by decide +kernel))],
    [("x", ⟨toDouble 0 (by decide +kernel), toDouble 1 (by decide +kernel)⟩)]⟩

theorem flatLine_wf : flatLine.exact.WF := TM.wf_of_check (by decide +kernel)

theorem flatLine_polyAt (x : String → ℚ) : flatLine.exact.polyAt x = 1 + 1 / 2 ^ 60 * x "x" := by
  rw [TM.polyAt_eq_table flatLine_wf.valid]
  have h : varName "dx" = "x" := by decide +kernel
  simp [TM.polyAtTable, flatLine, TM.exact, GDual.exact, Poly.exact, TM.displacement, toDouble, h]

/-- **C90 (counterexample).** In the format with 53 binary digits, with a correctly rounded `std::pow`, the bounds of the polynomial `1 + 2 ^ (-60) * x` over `[0, 1]` are
`[1, 1]`: its value at every other point of the domain than `0` lies outside. -/
theorem C90_counterexample : letI := FlPow.correct double
    ∃ (tm : TM (Fl double)) (I : Itv (Fl double)), tm.exact.WF ∧ tm.bounds id = .ok I ∧
      (∃ x, tm.exact.InDom x ∧ x "x" ≠ 0) ∧ ∀ x, tm.exact.InDom x → x "x" ≠ 0 → ¬ Spec.InItv ⟨I.lo.val, I.hi.val⟩ (tm.exact.polyAt x) := by
  letI := FlPow.correct double
  have h : (flatLine.bounds id).map (fun I => (I.lo.val, I.hi.val)) = .ok (1, 1) := by decide +kernel
  obtain ⟨I, h1, h2⟩ : ∃ I, flatLine.bounds id = .ok I ∧ (I.lo.val, I.hi.val) = ((1 : ℚ), (1 : ℚ)) := by
    cases hI : flatLine.bounds id with
    | error e => rw [hI] at h; cases h
    | ok I => rw [hI] at h; exact ⟨I, rfl, by injection h⟩
  refine ⟨flatLine, I, flatLine_wf, h1, ⟨fun _ => 1, by decide +kernel, by norm_num⟩, fun x hx hx0 hI => hx0 ?_⟩
  have e1 : I.hi.val = 1 := congrArg Prod.snd h2
  have h3 : flatLine.exact.polyAt x ≤ I.hi.val := hI.2
  have h4 := (hx ("x", ⟨0, 1⟩) (by decide +kernel)).1
  change 0 ≤ x "x" at h4
  rw [e1, flatLine_polyAt] at h3
  exact le_antisymm (by norm_num at h3; linarith) h4

end Audi
