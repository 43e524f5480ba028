import Verif.Props.C02_Ring

/-! # C05: division inverts multiplication -/

namespace Audi

open MvPolynomial Spec GDual

variable {C : Type} [Cf C] {ι : Type} {K : Type} [Field K] [Lanes C ι K] {a b : GDual C}

/-- **C05 (partial).** The full claim is `(a/b)*b == a` for all orders; it is false when `a` has a larger order than `b`
(`C05_counterexample`). It holds whenever `order a ≤ order b` and no lane of the constant part of `b` vanishes. -/
theorem C05_div_mul_cancel_partial (ha : a.Valid) (hb : b.Valid) (h0 : ∀ i : ι, coeff 0 (b.toMv i) ≠ (0 : K))
    (ho : a.getOrder ≤ b.getOrder) :
    ∃ r, a.div b = .ok r ∧ GDual.eq (r.mul b) a = true ∧ r.getOrder = max a.getOrder b.getOrder := by
  obtain ⟨r, hr, hv, hro, hI⟩ := div_spec ha hb h0
  refine ⟨r, hr, eq_of_toMv (ι := ι) (K := K) (hv.mul hb) ha fun i => ?_, hro⟩
  have hmax : max a.order b.order = b.order := max_eq_right ho
  obtain ⟨I, h1, h2⟩ := hI i
  rw [hmax] at h2 hro
  have h3 := toMv_mul hv hb i (K := K)
  rw [hro, max_self] at h3
  refine EqUpTo.eq_of_degLE (m := b.order) ?_ ?_ ?_
  · refine h3.trans ((h2.mul (EqUpTo.refl _)).trans ?_)
    have : a.toMv i * I * b.toMv i = a.toMv i * (I * b.toMv i) := by ring
    rw [this]
    exact ((EqUpTo.refl _).mul h1).trans (EqUpTo.of_eq (mul_one _))
  · have := (hv.mul hb).degLE i (K := K)
    have ho' : (r.mul b).order = b.order := by change max r.order b.order = _; rw [hro, max_self]
    rwa [ho'] at this
  · exact fun e he => ha.degLE i e (lt_of_le_of_lt ho he)

/-- **C05 (partial).** For arbitrary orders `(a/b)*b` agrees with `a` on all monomials of degree at most the order of `b`. -/
theorem C05_div_mul_low_degree_partial (ha : a.Valid) (hb : b.Valid) (h0 : ∀ i : ι, coeff 0 (b.toMv i) ≠ (0 : K)) :
    ∃ r, a.div b = .ok r ∧ r.getOrder = max a.getOrder b.getOrder ∧
      ∀ (i : ι) (e : String →₀ ℕ), e.degree ≤ b.getOrder → (coeff e ((r.mul b).toMv i) : K) = coeff e (a.toMv i) := by
  obtain ⟨r, hr, hv, hro, hI⟩ := div_spec ha hb h0
  refine ⟨r, hr, hro, fun i => ?_⟩
  obtain ⟨I, h1, h2⟩ := hI i
  have h3 := (toMv_mul hv hb i (K := K)).mono (le_max_right _ _)
  have h4 := h2.mono (le_max_right _ _)
  change EqUpTo b.order _ _
  refine h3.trans ((h4.mul (EqUpTo.refl _)).trans ?_)
  have : a.toMv i * I * b.toMv i = a.toMv i * (I * b.toMv i) := by ring
  rw [this]
  exact ((EqUpTo.refl _).mul h1).trans (EqUpTo.of_eq (mul_one _))

/-- **C05.** `s / b` times `b` equals the scalar `s`. -/
theorem C05_scalar_div (s : C) (hb : b.Valid) (h0 : ∀ i : ι, coeff 0 (b.toMv i) ≠ (0 : K)) :
    ∃ r, divSG s b = .ok r ∧ GDual.eq (r.mul b) (ofCf s) = true ∧ r.getOrder = b.getOrder := by
  obtain ⟨r, hr, hv, hro, hI⟩ := divSG_spec s hb h0
  refine ⟨r, hr, eq_of_toMv (ι := ι) (K := K) (hv.mul hb) (valid_ofCf s) fun i => ?_, hro⟩
  obtain ⟨I, h1, h2⟩ := hI i
  have h3 := toMv_mul hv hb i (K := K)
  rw [hro, max_self] at h3
  refine EqUpTo.eq_of_degLE (m := b.order) ?_ ?_ ?_
  · refine h3.trans ((h2.mul (EqUpTo.refl _)).trans ?_)
    rw [mul_assoc, toMv_ofCf]
    exact ((EqUpTo.refl _).mul h1).trans (EqUpTo.of_eq (mul_one _))
  · have := (hv.mul hb).degLE i (K := K)
    have ho' : (r.mul b).order = b.order := by change max r.order b.order = _; rw [hro, max_self]
    rwa [ho'] at this
  · exact fun e he => (valid_ofCf s).degLE i e (lt_of_le_of_lt (Nat.zero_le _) he)

/-- **C05.** `a / s` times `s` equals `a` when no lane of the scalar vanishes. -/
theorem C05_div_scalar (ha : a.Valid) {s : C} (hs : ∀ i : ι, (Lanes.lane i s : K) ≠ 0) :
    ∃ r, a.divGS s = .ok r ∧ GDual.eq (r.mulGS s) a = true ∧ r.getOrder = a.getOrder := by
  refine ⟨_, divGS_eq ((Lanes.isUnit_iff s).mpr hs), eq_of_toMv (ι := ι) (K := K)
    (Valid.mulGS s (Valid.mulGS _ ha)) ha fun i => ?_, order_mulGS _ _⟩
  rw [toMv_mulGS s (Valid.mulGS _ ha), toMv_mulGS_div s ha, mul_assoc, ← map_mul, inv_mul_cancel₀ (hs i), map_one,
    mul_one]

/-- **C05.** When some lane of the constant part of the denominator is zero and the numerator is not the zero polynomial, all
three forms end in the non finite outcome (inf/NaN coefficients in the C++), they do not return a finite wrong value. -/
theorem C05_division_by_zero (ha : a.Valid) (hb : b.Valid) (h0 : ∃ i : ι, coeff 0 (b.toMv i) = (0 : K))
    (hne : ∃ i : ι, a.toMv i ≠ (0 : MvPolynomial String K)) {s : C} (hs : ∃ i : ι, (Lanes.lane i s : K) ≠ 0) :
    a.div b = .error .nonFinite ∧ divSG s b = .error .nonFinite ∧
      ∀ t : C, (∃ i : ι, (Lanes.lane i t : K) = 0) → a.divGS t = .error .nonFinite := by
  have h1 : ¬ ∀ i : ι, coeff 0 (b.toMv i) ≠ (0 : K) := by push Not; exact h0
  have h2 : a.p.terms ≠ [] := by
    rw [Ne, terms_nil_iff (ι := ι) (K := K) ha]; push Not; exact hne
  have h3 : Cf.isZero s = false := by
    rw [← Bool.not_eq_true, Lanes.isZero_iff (ι := ι) (K := K)]; push Not; exact hs
  refine ⟨div_error hb h1 h2, divSG_error hb h1 h3, fun t ht => divGS_error ?_ h2⟩
  rw [Ne, Lanes.isUnit_iff (ι := ι) (K := K)]
  push Not
  exact ht

/-- **C05.** The zero polynomial divided by anything is the zero polynomial, also by a gdual with zero constant part: `0 / 0`
is not detected. -/
theorem C05_zero_dividend (ha : a.Valid) (hb : b.Valid) (hz : ∀ i : ι, a.toMv i = (0 : MvPolynomial String K)) :
    ∃ r, a.div b = .ok r ∧ r.getOrder = max a.getOrder b.getOrder ∧
      ∀ i : ι, r.toMv i = (0 : MvPolynomial String K) := by
  by_cases h0 : ∀ i : ι, coeff 0 (b.toMv i) ≠ (0 : K)
  · obtain ⟨r, hr, hv, hro, hI⟩ := div_spec ha hb h0
    refine ⟨r, hr, hro, fun i => ?_⟩
    obtain ⟨I, -, h2⟩ := hI i
    rw [hz i, zero_mul] at h2
    refine h2.eq_of_degLE ?_ (fun e _ => coeff_zero e)
    rw [← hro]; exact hv.degLE i
  · refine ⟨_, div_empty hb h0 ((terms_nil_iff (ι := ι) (K := K) ha).mpr hz), rfl, fun i => ?_⟩
    have h := toMv_mul ha hb i (K := K)
    rw [hz i, zero_mul] at h
    exact h.eq_of_degLE ((ha.mul hb).degLE i) (fun e _ => coeff_zero e)

/-- Both situations occur: `x / (y - 5)` is not finite, `(x - x) / (y - 5)` is 0. -/
example : Ex.x.div (Ex.y.subGS 5) = .error .nonFinite ∧
    (((Ex.x.sub Ex.x).div (Ex.y.subGS 5)).map fun r => (r.p.terms, r.getOrder)) = .ok ([], 3) := by decide +kernel

/-- Hypotheses met by a two-variable quotient of order 3 with non-trivial series. -/
example : ∃ r, Ex.x.div Ex.y = .ok r ∧ GDual.eq (r.mul Ex.y) Ex.x = true ∧ r.getOrder = 3 ∧
    r.findCf [1, 2] = .ok (1 / 125) := by
  obtain ⟨r, h1, h2, h3⟩ := C05_div_mul_cancel_partial (ι := Unit) (K := ℚ) (a := Ex.x) (b := Ex.y) Ex.x_valid Ex.y_valid
    (fun i => by
      have := lane_constantCf Ex.y_valid (c := 5) (by decide +kernel) i
      rw [← this]; change (5 : ℚ) ≠ 0; decide) (by decide)
  refine ⟨r, h1, h2, h3, ?_⟩
  have : (Ex.x.div Ex.y >>= fun r => r.findCf [1, 2]) = .ok (1 / 125) := by decide +kernel
  rwa [h1] at this

/-- **C05, the full claim fails.** With `a = dx + dx²+ dx³` of order 3 and `b = 1 + dy` of order 1 the series of `1/b` is cut at order 1
although the result has order 3: `(a/b)*b ≠ a`. -/
theorem C05_counterexample :
    ∃ a b r : GDual ℚ, a.Valid ∧ b.Valid ∧ b.constantCf = .ok 1 ∧ a.div b = .ok r ∧ GDual.eq (r.mul b) a = false := by
  refine ⟨⟨⟨["dx"], [([1], 1), ([2], 1), ([3], 1)]⟩, 3⟩, ⟨⟨["dy"], [([0], 1), ([1], 1)]⟩, 1⟩, _, ?_, ?_, by decide +kernel, rfl,
    by decide +kernel⟩
  all_goals exact ⟨⟨by decide, by decide, by decide, by decide +kernel⟩, by decide⟩

end Audi
