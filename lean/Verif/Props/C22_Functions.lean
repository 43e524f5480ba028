import Verif.Proofs.FunctionsD
import Verif.Props.C02_Ring

/-!
# C22 - C30: the elementary functions compute Taylor expansions

`Computes f g dom`, `ComputesE f g dom bad`, `IsLift` are defined in `Spec/Functions.lean`, with `IsTaylor` from `Spec/Taylor.lean`.
All statements are for coefficients with any set of lanes (scalars: one lane).
-/

namespace Audi

open MvPolynomial Spec GDual Filter Topology

variable {C : Type} [CfFun C] {ι : Type} [Lanes C ι ℝ] [LanesFun C ι] {d a b : GDual C}

/-- A variable with real value `c`, for the examples: `gdual(c, "x", n)` with `n ≥ 1`. -/
theorem Ex.real (c : ℝ) (n : ℕ) (h1 : 1 ≤ n) (hn : n < 4294967285) : ∃ d : GDual ℝ, GDual.mk3 c "x" n = .ok d ∧ d.Valid ∧
    d.order = n ∧ d.p.syms = ["dx"] ∧ ∀ i : Unit, (d.toMv i : MvPolynomial String ℝ) = MvPolynomial.C c + X "dx" := by
  have h : ∃ d : GDual ℝ, GDual.mk3 c "x" n = .ok d := by
    have := (mk3_ok (C := ℝ) (v := c) (s := "x") (n := n) (r := _)).mpr ⟨by unfold UINT_MAX; omega, ⟨'x', by decide, by decide⟩, rfl⟩
    exact ⟨_, this⟩
  obtain ⟨d, hd⟩ := h
  refine ⟨d, hd, valid_mk3 (ι := Unit) (K := ℝ) hd, order_mk3 hd, syms_mk3 hd, fun i => ?_⟩
  rw [toMv_mk3 hd, if_neg (by omega), show "d" ++ "x" = "dx" from by decide]
  rfl

theorem Ex.real_coeff {d : GDual ℝ} {c : ℝ} (h : ∀ i : Unit, (d.toMv i : MvPolynomial String ℝ) = MvPolynomial.C c + X "dx")
    (i : Unit) : coeff 0 (d.toMv i : MvPolynomial String ℝ) = c := by
  rw [h]; simp

theorem Ex.real_coeff_one {d : GDual ℝ} {c : ℝ} (h : ∀ i : Unit, (d.toMv i : MvPolynomial String ℝ) = MvPolynomial.C c + X "dx")
    (i : Unit) : coeff (Finsupp.single "dx" 1) (d.toMv i : MvPolynomial String ℝ) = 1 := by
  have hne : (0 : String →₀ ℕ) ≠ Finsupp.single "dx" 1 := fun h => by
    have := congrArg (fun f : String →₀ ℕ => f "dx") h
    simp at this
  rw [h, coeff_add, coeff_C, if_neg hne, coeff_X, if_pos rfl, zero_add]

/-- **C22.** `exp` computes Taylor expansions of exponentials, for all arguments. -/
theorem C22_exp : Computes (C := C) (ι := ι) exp Real.exp (fun _ => True) := computes_exp

/-- **C23.** `log` computes Taylor expansions of logarithms if the constant part is positive, otherwise the outcome is
not finite. -/
theorem C23_log : Computes (C := C) (ι := ι) log Real.log (fun x => 0 < x) := computes_log

example : ∃ d r : GDual ℝ, GDual.mk3 2 "x" 5 = .ok d ∧ log d = .ok r ∧ IsLift (fun _ : Unit => Real.log) d r := by
  obtain ⟨d, hd, hv, -, -, ht⟩ := Ex.real 2 5 (by omega) (by omega)
  obtain ⟨r, hr, hl⟩ := C23_log.lift d hv fun i => by rw [Ex.real_coeff ht]; norm_num
  exact ⟨d, r, hd, hr, hl⟩

example : ∃ d r : GDual ℝ, GDual.mk3 2 "x" 5 = .ok d ∧ exp d = .ok r ∧ IsLift (fun _ : Unit => Real.exp) d r ∧
    IsTaylor (fun _ => 0) 5 (fun v => eval v (d.toMv ())) (d.toMv ()) := by
  obtain ⟨d, hd, hv, ho, -, ht⟩ := Ex.real 2 5 (by omega) (by omega)
  obtain ⟨r, hr, hl⟩ := C22_exp.lift d hv fun i => trivial
  exact ⟨d, r, hd, hr, hl, by simpa using isTaylor_poly (fun _ => 0) 5 (d.toMv () : MvPolynomial String ℝ)⟩

/-! ## C24: pow -/

/-- **C24.** `pow(d, alpha)` with a floating point exponent, in the range of `int`: the Taylor expansion of `x ^ alpha` where the
constant part is positive, or not zero and `alpha` is an integer, or arbitrary and `alpha` is a non negative integer. -/
theorem C24_pow_real {α : ℚ} (hd : d.Valid) (hr : -2147483649 < α ∧ α < 2147483648)
    (hdom : (∀ i : ι, 0 < coeff 0 (d.toMv i : MvPolynomial String ℝ)) ∨
      α.den = 1 ∧ (0 ≤ α ∨ ∀ i : ι, coeff 0 (d.toMv i : MvPolynomial String ℝ) ≠ 0)) :
    ∃ r, powQ d α = .ok r ∧ IsLift (fun (_ : ι) x => x ^ (α : ℝ)) d r := by
  by_cases hα : α.den = 1 ∧ α > 0
  · exact powQ_pos_lift hd hr.2 hα.1 hα.2
  rcases hdom with h | ⟨h1, h2⟩
  · exact powQ_series_lift hd hr hα fun i => Or.inl (h i)
  · by_cases h0 : α = 0
    · subst h0
      obtain ⟨r, h3, h4⟩ := powQ_zero_lift (ι := ι) hd
      exact ⟨r, h3, h4.congr' fun i x => by simp⟩
    · have hneg : ¬ 0 ≤ α := fun hle => hα ⟨h1, lt_of_le_of_ne hle (Ne.symm h0)⟩
      exact powQ_series_lift hd hr hα fun i => Or.inr ⟨h2.resolve_left hneg i, h1⟩

/-- **C24.** Out of the domain the outcome is not finite: a negative constant part with an exponent which is not an integer, or
a zero constant part with a negative exponent, or with an exponent between 0 and 1 and a gdual which is not constant. -/
theorem C24_pow_real_undefined {α : ℚ} (hd : d.Valid) (hr : -2147483649 < α ∧ α < 2147483648)
    (h : ∃ i : ι, (coeff 0 (d.toMv i : MvPolynomial String ℝ) < 0 ∧ α.den ≠ 1) ∨
      (coeff 0 (d.toMv i : MvPolynomial String ℝ) = 0 ∧ α < 0) ∨
      (coeff 0 (d.toMv i : MvPolynomial String ℝ) = 0 ∧ 0 < α ∧ α < 1 ∧ d.degree ≠ 0)) : powQ d α = .error .nonFinite := by
  obtain ⟨i, h | h | ⟨h, h0, h1, h2⟩⟩ := h
  · exact powQ_undef (ι := ι) hd hr (fun hh => h.2 hh.1) ⟨i, Or.inl h⟩
  · exact powQ_undef (ι := ι) hd hr (fun hh => absurd hh.2 (not_lt.mpr h.2.le)) ⟨i, Or.inr h⟩
  · exact powQ_edge (ι := ι) hd h0 h1 ⟨i, h.le⟩ h2

/-- **C24.** Exponents out of the range of `int` are converted to `int`: undefined behaviour. -/
theorem C24_pow_real_overflow {α : ℚ} (h : 2147483648 ≤ α ∨ α ≤ -2147483649) : powQ d α = .error .undefinedBehaviour := by
  unfold powQ
  rw [if_pos h]

omit [LanesFun C ι] in
/-- **C24.** `pow(d, n)` with an `int` exponent. -/
theorem C24_pow_int {z : ℤ} (hd : d.Valid) (hr : -2147483648 < z)
    (hdom : 0 ≤ z ∨ ∀ i : ι, coeff 0 (d.toMv i : MvPolynomial String ℝ) ≠ 0) :
    ∃ r, powInt d z = .ok r ∧ IsLift (fun (_ : ι) x => x ^ z) d r := powInt_lift hd hr hdom

omit [LanesFun C ι] in
/-- **C24.** `pow(d, n)` with a negative `n` and a zero constant part is not finite; with the smallest `int` it is undefined
behaviour (signed overflow). -/
theorem C24_pow_int_undefined {z : ℤ} (hd : d.Valid) (hz : z < 0) :
    (-2147483648 < z → (∃ i : ι, coeff 0 (d.toMv i : MvPolynomial String ℝ) = 0) → powInt d z = .error .nonFinite) ∧
    (z = -2147483648 → powInt d z = .error .undefinedBehaviour) := by
  refine ⟨fun hr ⟨i, hi⟩ => powInt_undef (ι := ι) hd hr hz fun h => h i hi, ?_⟩
  rintro rfl
  rfl

include ι in
/-- **C24.** The overloads with `double` and `int` exponents agree, also on when the outcome is not finite. -/
theorem C24_overloads_agree {z : ℤ} (hd : d.Valid) (hr : -2147483648 < z ∧ z < 2147483648) :
    (∃ r s, powInt d z = .ok r ∧ powQ d z = .ok s ∧ r.getOrder = s.getOrder ∧ GDual.eq r s = true) ∨
    (powInt d z = .error .nonFinite ∧ powQ d z = .error .nonFinite) := by
  have hr' : -2147483649 < (z : ℚ) ∧ (z : ℚ) < 2147483648 :=
    ⟨by have : (-2147483649 : ℤ) < z := by omega
        exact_mod_cast this, by exact_mod_cast hr.2⟩
  by_cases hdom : 0 ≤ z ∨ ∀ i : ι, coeff 0 (d.toMv i : MvPolynomial String ℝ) ≠ 0
  · obtain ⟨r, h1, h2⟩ := C24_pow_int (ι := ι) hd hr.1 hdom
    obtain ⟨s, h3, h4⟩ := C24_pow_real (ι := ι) (α := z) hd hr' (Or.inr ⟨Rat.den_intCast z, hdom.imp_left fun h => by exact_mod_cast h⟩)
    refine Or.inl ⟨r, s, h1, h3, h2.order.trans h4.order.symm, h2.eq h4 fun i => Eventually.of_forall fun x => ?_⟩
    simp [Real.rpow_intCast]
  · push Not at hdom
    obtain ⟨hz, i, hi⟩ := hdom
    exact Or.inr ⟨(C24_pow_int_undefined (ι := ι) hd hz).1 hr.1 ⟨i, hi⟩,
      C24_pow_real_undefined (ι := ι) hd hr' ⟨i, Or.inr (Or.inl ⟨hi, by exact_mod_cast hz⟩)⟩⟩

/-- **C24.** `pow(base, d)` with a positive base is the Taylor expansion of `base ^ x`. The order is that of the argument unless the
argument is constant: then the result is a constant without symbols and its order is 0. -/
theorem C24_pow_base {q : ℚ} (hd : d.Valid) (hq : 0 < q) :
    ∃ r, powBase q d = .ok r ∧ r.Valid ∧ (d.degree ≠ 0 → r.getOrder = d.getOrder) ∧
      (d.degree = 0 → r.getOrder = 0 ∧ r.symbolSet = []) ∧
      ∀ (i : ι) (F : (String → ℝ) → ℝ) (a : String → ℝ), IsTaylor a d.order F (d.toMv i) →
        IsTaylor a d.order (fun x => (q : ℝ) ^ F x) (r.toMv i) := by
  obtain ⟨r, h1, h2, h3, h4, h5⟩ := powBase_lift (ι := ι) hd hq
  exact ⟨r, h1, h2, h3, fun h => ⟨(h4 h).1, by unfold symbolSet; rw [(h4 h).2]; rfl⟩, h5⟩

include ι in
/-- **C24.** `pow(base, d)` with a base which is not positive is not finite, unless `d` is constant. -/
theorem C24_pow_base_undefined {q : ℚ} (hq : q ≤ 0) (h0 : d.degree ≠ 0) : powBase q d = .error .nonFinite :=
  powBase_undef (ι := ι) hq h0

/-- **C24 (partial).** `pow(d1, d2)` is the Taylor expansion of `F ^ G`, for gduals such that the order of the exponent is not
larger than that of the base. Missing: the other case; it is false there (`C24_pow_gdual_counterexample`), as the logarithm is
truncated at the order of the base. -/
theorem C24_pow_gdual_partial {d1 d2 : GDual C} (h1 : d1.Valid) (h2 : d2.Valid) (ho : d2.getOrder ≤ d1.getOrder)
    (hdom : ∀ i : ι, 0 < coeff 0 (d1.toMv i : MvPolynomial String ℝ)) :
    ∃ r, powG d1 d2 = .ok r ∧ r.Valid ∧ r.getOrder = d1.getOrder ∧
      ∀ (i : ι) (F G : (String → ℝ) → ℝ) (a : String → ℝ), IsTaylor a d1.order F (d1.toMv i) →
        IsTaylor a d1.order G (d2.toMv i) → IsTaylor a d1.order (fun x => F x ^ G x) (r.toMv i) := powG_lift h1 h2 ho hdom

/-- **C24 (counterexample).** With a base of order 1 and an exponent of order 2 the result has order 2 but it is not the Taylor
expansion to order 2 of the power, although both arguments are exact to order 2: base `1 + dx`, exponent `1 + dy`. -/
theorem C24_pow_gdual_counterexample : ∃ d1 d2 r : GDual ℝ, mk3 1 "x" 1 = .ok d1 ∧ mk3 1 "y" 2 = .ok d2 ∧ powG d1 d2 = .ok r ∧
    r.getOrder = 2 ∧ IsTaylor (fun _ => 0) 2 (fun v => 1 + v "dx") (d1.toMv ()) ∧
    IsTaylor (fun _ => 0) 2 (fun v => 1 + v "dy") (d2.toMv ()) ∧
    ¬ IsTaylor (fun _ => 0) 2 (fun v => (1 + v "dx") ^ (1 + v "dy")) (r.toMv ()) := by
  obtain ⟨d1, hd1, hv1, ho1, -, ht1⟩ := Ex.real 1 1 (by omega) (by omega)
  have h : ∃ d : GDual ℝ, GDual.mk3 (1 : ℝ) "y" 2 = .ok d := by
    have := (mk3_ok (C := ℝ) (v := 1) (s := "y") (n := 2) (r := _)).mpr ⟨by unfold UINT_MAX; omega, ⟨'y', by decide, by decide⟩, rfl⟩
    exact ⟨_, this⟩
  obtain ⟨d2, hd2⟩ := h
  have hv2 := valid_mk3 (ι := Unit) (K := ℝ) hd2
  have ho2 := order_mk3 hd2
  have ht2 : (d2.toMv () : MvPolynomial String ℝ) = MvPolynomial.C 1 + X "dy" := by
    rw [toMv_mk3 hd2, if_neg (by omega), show "d" ++ "y" = "dy" from by decide]
    rfl
  have hT1 : IsTaylor (fun _ => (0 : ℝ)) 2 (fun v => 1 + v "dx") (d1.toMv ()) := by
    rw [ht1]; exact (isTaylor_poly (fun _ => (0 : ℝ)) 2 (MvPolynomial.C 1 + X "dx" : MvPolynomial String ℝ)).congr_fun (Eventually.of_forall fun v => by simp)
  have hT2 : IsTaylor (fun _ => (0 : ℝ)) 2 (fun v => 1 + v "dy") (d2.toMv ()) := by
    rw [ht2]; exact (isTaylor_poly (fun _ => (0 : ℝ)) 2 (MvPolynomial.C 1 + X "dy" : MvPolynomial String ℝ)).congr_fun (Eventually.of_forall fun v => by simp)
  obtain ⟨l, hl, hll⟩ := computes_log.lift d1 hv1 (ι := Unit) fun i => by rw [Ex.real_coeff ht1]; norm_num
  -- the logarithm is truncated at order 1
  have hl1 : (l.toMv () : MvPolynomial String ℝ) = X "dx" := by
    have h1 := hll.taylor () _ _ (ho1 ▸ hT1.mono (by norm_num : 1 ≤ 2))
    rw [ho1] at h1
    have hT : IsTaylor (fun _ => (0 : ℝ)) 1 (fun v => Real.log (1 + v "dx")) (X "dx") := by
      have h2 := (hT1.mono (by norm_num : 1 ≤ 2)).comp (g := Real.log) (b := fun k => if k = 0 then 0 else if k = 1 then 1 else 0)
        (by
          have h3 := isTaylor₁_log (c := (1 : ℝ)) one_ne_zero (m := 1)
          simp only [add_zero]
          refine h3.congr fun k hk => ?_
          interval_cases k <;> simp [logCoeff])
      refine h2.congr_poly (EqUpTo.of_eq ?_)
      rw [ht1]
      simp [compPoly, Finset.sum_range_succ]
    refine EqUpTo.eq_of_degLE (m := 1) (h1.unique hT) ?_ ?_
    · have := hll.valid.degLE (K := ℝ) (); rwa [hll.order, ho1] at this
    · intro e he
      rw [coeff_X, if_neg]
      rintro rfl
      simp at he
  have hlo : l.order = 1 := hll.order.trans ho1
  have hmo : (d2.mul l).order = 2 := by change max d2.order l.order = 2; rw [ho2, hlo]; rfl
  have hm : IsTaylor (fun _ => (0 : ℝ)) 2 (fun v => (1 + v "dy") * v "dx") ((d2.mul l).toMv ()) := by
    have h1 : IsTaylor (fun _ => (0 : ℝ)) 2 (fun v => v "dx") (l.toMv ()) := by
      rw [hl1]; simpa using isTaylor_poly (fun _ => (0 : ℝ)) 2 (X "dx" : MvPolynomial String ℝ)
    have h2 := toMv_mul hv2 hll.valid () (K := ℝ)
    rw [ho2, hlo] at h2
    exact (hT2.mul h1).congr_poly h2.symm
  obtain ⟨r, hr, hrl⟩ := computes_exp.lift (d2.mul l) (hv2.mul hll.valid) (ι := Unit) fun _ => trivial
  have hrT := hrl.taylor () _ _ (hmo.symm ▸ hm)
  rw [hmo] at hrT
  refine ⟨d1, d2, r, hd1, hd2, ?_, hrl.order.trans hmo, hT1, hT2, fun hc => ?_⟩
  · unfold powG; rw [bind_ok hl, hr]
  have e := (hrT.pds_eq ["dx", "dx"] (by simp)).trans (hc.pds_eq ["dx", "dx"] (by simp)).symm
  have hne : "dy" ≠ "dx" := by decide
  have e1 : pds ["dx", "dx"] (fun v : String → ℝ => Real.exp ((1 + v "dy") * v "dx")) (fun _ => 0) = 1 := by
    have h1 : ∀ t : ℝ, pd "dx" (fun v : String → ℝ => Real.exp ((1 + v "dy") * v "dx")) (Function.update (fun _ => 0) "dx" t) = Real.exp t := by
      intro t; simp [pd, hne]
    simp only [pds]
    rw [pd]; simp only [h1]; simp
  have e2 : pds ["dx", "dx"] (fun v : String → ℝ => (1 + v "dx") ^ (1 + v "dy")) (fun _ => 0) = 0 := by
    have h1 : ∀ t : ℝ, pd "dx" (fun v : String → ℝ => (1 + v "dx") ^ (1 + v "dy")) (Function.update (fun _ => 0) "dx" t) = 1 := by
      intro t; simp [pd, hne]
    simp only [pds]
    rw [pd]; simp only [h1]; simp
  rw [e1, e2] at e
  exact one_ne_zero e

/-- **C24.** `pow(d1, d2)` is not finite if the constant part of the base is not positive in some lane. -/
theorem C24_pow_gdual_undefined {d1 d2 : GDual C} (h1 : d1.Valid)
    (h : ∃ i : ι, coeff 0 (d1.toMv i : MvPolynomial String ℝ) ≤ 0) : powG d1 d2 = .error .nonFinite := by
  obtain ⟨i, hi⟩ := h
  exact powG_undef (ι := ι) h1 fun hc => absurd (hc i) (not_lt.mpr hi)

example : ∃ d : GDual ℝ, GDual.mk3 (-2) "x" 5 = .ok d ∧ d.Valid ∧
    (∃ r, powInt d (-3) = .ok r ∧ IsLift (fun (_ : Unit) x => x ^ (-3 : ℤ)) d r) ∧ powQ d (1 / 2) = .error .nonFinite := by
  obtain ⟨d, hd, hv, -, -, ht⟩ := Ex.real (-2) 5 (by omega) (by omega)
  refine ⟨d, hd, hv, C24_pow_int hv (by norm_num) (Or.inr fun i => by rw [Ex.real_coeff ht]; norm_num), ?_⟩
  exact C24_pow_real_undefined (ι := Unit) hv ⟨by norm_num, by norm_num⟩
    ⟨(), Or.inl ⟨by rw [Ex.real_coeff ht]; norm_num, by norm_num⟩⟩

example : ∃ d : GDual ℝ, GDual.mk3 2 "x" 5 = .ok d ∧ (∃ r, powQ d (1 / 2) = .ok r ∧ IsLift (fun (_ : Unit) x => x ^ (((1 / 2 : ℚ)) : ℝ)) d r) ∧
    (∃ r, powG d d = .ok r ∧ r.Valid) := by
  obtain ⟨d, hd, hv, -, -, ht⟩ := Ex.real 2 5 (by omega) (by omega)
  have h0 : ∀ i : Unit, 0 < coeff 0 (d.toMv i : MvPolynomial String ℝ) := fun i => by rw [Ex.real_coeff ht]; norm_num
  obtain ⟨r, h1, h2, -⟩ := C24_pow_gdual_partial hv hv le_rfl h0
  exact ⟨d, hd, C24_pow_real hv ⟨by norm_num, by norm_num⟩ (Or.inl h0), r, h1, h2⟩

/-! ## C25: roots -/

/-- **C25.** `sqrt` computes Taylor expansions of square roots if the constant part is positive. The outcome is not finite if it is negative,
or zero and the gdual is not constant. -/
theorem C25_sqrt : ComputesE (C := C) (ι := ι) sqrt Real.sqrt (fun x => 0 < x) (fun x => x < 0) := computes_sqrt

/-- **C25.** `cbrt` computes Taylor expansions of the real cube root if the constant part is not zero (negative values included). The outcome is not
finite if it is zero and the gdual is not constant. -/
theorem C25_cbrt : ComputesE (C := C) (ι := ι) cbrt Spec.cbrt (fun x => x ≠ 0) (fun _ => False) := computes_cbrt

/-- **C25.** `sqrt(d) * sqrt(d) == d`. -/
theorem C25_sqrt_sq (hd : d.Valid) (h : ∀ i : ι, 0 < coeff 0 (d.toMv i : MvPolynomial String ℝ)) :
    ∃ r, sqrt d = .ok r ∧ GDual.eq (r.mul r) d = true := by
  obtain ⟨r, h1, h2⟩ := computes_sqrt.lift d hd h
  refine ⟨r, h1, (h2.mul h2).eq (IsLift.id hd) fun i => ?_⟩
  filter_upwards [lt_mem_nhds (h i)] with x hx
  exact Real.mul_self_sqrt hx.le

/-- **C25.** `cbrt(d) * cbrt(d) * cbrt(d) == d`. -/
theorem C25_cbrt_cube (hd : d.Valid) (h : ∀ i : ι, coeff 0 (d.toMv i : MvPolynomial String ℝ) ≠ 0) :
    ∃ r, cbrt d = .ok r ∧ GDual.eq ((r.mul r).mul r) d = true := by
  obtain ⟨r, h1, h2⟩ := computes_cbrt.lift d hd h
  refine ⟨r, h1, ((h2.mul h2).mul h2).eq (IsLift.id hd) fun i => Eventually.of_forall fun x => ?_⟩
  have := Spec.cbrt_cube x
  rw [pow_three] at this
  linarith

/-- **C25.** On the border: the root of a constant gdual with value zero is the constant zero. -/
theorem C25_sqrt_constant (hd : d.Valid) (h : ∀ i : ι, 0 ≤ coeff 0 (d.toMv i : MvPolynomial String ℝ)) (h0 : d.degree = 0) :
    ∃ r, sqrt d = .ok r ∧ r.Valid ∧ r.getOrder = d.getOrder ∧
      ∀ i : ι, r.toMv i = MvPolynomial.C (√(coeff 0 (d.toMv i : MvPolynomial String ℝ))) := sqrt_const hd h h0

example : ∃ d : GDual ℝ, GDual.mk3 2 "x" 5 = .ok d ∧ (∃ r, sqrt d = .ok r ∧ GDual.eq (r.mul r) d = true) ∧
    (∃ r, cbrt d = .ok r ∧ GDual.eq ((r.mul r).mul r) d = true) := by
  obtain ⟨d, hd, hv, -, -, ht⟩ := Ex.real 2 5 (by omega) (by omega)
  exact ⟨d, hd, C25_sqrt_sq (ι := Unit) hv fun i => by rw [Ex.real_coeff ht]; norm_num,
    C25_cbrt_cube (ι := Unit) hv fun i => by rw [Ex.real_coeff ht]; norm_num⟩

example : ∃ d : GDual ℝ, GDual.mk3 0 "x" 5 = .ok d ∧ d.Valid ∧ (∀ i : Unit, 0 ≤ coeff 0 ((d.sub d).toMv i : MvPolynomial String ℝ)) ∧
    (d.sub d).degree = 0 := by
  obtain ⟨d, hd, hv, -, -, ht⟩ := Ex.real 0 5 (by omega) (by omega)
  refine ⟨d, hd, hv, fun i => by rw [toMv_sub hv hv]; simp, (degree_eq_zero_iff (ι := Unit) (K := ℝ) (hv.sub hv)).mpr fun i => ?_⟩
  rw [toMv_sub hv hv]; simp

/-! ## C26, C27, C28 -/

/-- **C26.** `sin` and `cos` compute Taylor expansions and `sin_and_cos` returns the same two results. -/
theorem C26_sin : Computes (C := C) (ι := ι) sin Real.sin (fun _ => True) := computes_sin
theorem C26_cos : Computes (C := C) (ι := ι) cos Real.cos (fun _ => True) := computes_cos

include ι in
theorem C26_sin_and_cos (hd : d.Valid) : ∃ s c, sinAndCos d = .ok (s, c) ∧ sin d = .ok s ∧ cos d = .ok c ∧
    GDual.eq ((s.mul s).add (c.mul c)) (ofCf Cf.one) = true := by
  obtain ⟨s, c, h1, h2, h3, h4, h5⟩ := sinAndCos_lift (ι := ι) hd
  refine ⟨s, c, h1, h2, h3, ?_⟩
  have h6 := (h4.mul h4).add (h5.mul h5)
  refine eq_of_toMv (ι := ι) (K := ℝ) h6.valid (valid_ofCf _) fun i => ?_
  have h7 := (((IsLift.id (ι := ι) hd).sub (IsLift.id hd)).addGS Cf.one)
  rw [h6.toMv_eq h7 (fun i => Eventually.of_forall fun x => ?_), toMv_addGS _ (hd.sub hd), toMv_sub hd hd, toMv_ofCf]
  · simp
  · have := Real.sin_sq_add_cos_sq x
    simp only [sub_self, zero_add]
    rw [show (Lanes.lane i (Cf.one : C) : ℝ) = 1 from lane_one i, ← this]; ring

/-- **C27.** `sinh` and `cosh` compute Taylor expansions and `sinh_and_cosh` returns the same two results. -/
theorem C27_sinh : Computes (C := C) (ι := ι) sinh Real.sinh (fun _ => True) := computes_sinh
theorem C27_cosh : Computes (C := C) (ι := ι) cosh Real.cosh (fun _ => True) := computes_cosh

include ι in
theorem C27_sinh_and_cosh (hd : d.Valid) : ∃ s c, sinhAndCosh d = .ok (s, c) ∧ sinh d = .ok s ∧ cosh d = .ok c ∧
    GDual.eq ((c.mul c).sub (s.mul s)) (ofCf Cf.one) = true := by
  obtain ⟨s, c, h1, h2, h3, h4, h5⟩ := sinhAndCosh_lift (ι := ι) hd
  refine ⟨s, c, h1, h2, h3, ?_⟩
  have h6 := (h5.mul h5).sub (h4.mul h4)
  refine eq_of_toMv (ι := ι) (K := ℝ) h6.valid (valid_ofCf _) fun i => ?_
  have h7 := (((IsLift.id (ι := ι) hd).sub (IsLift.id hd)).addGS Cf.one)
  rw [h6.toMv_eq h7 (fun i => Eventually.of_forall fun x => ?_), toMv_addGS _ (hd.sub hd), toMv_sub hd hd, toMv_ofCf]
  · simp
  · have := Real.cosh_sq x
    simp only [sub_self, zero_add]
    rw [show (Lanes.lane i (Cf.one : C) : ℝ) = 1 from lane_one i]; linarith

/-- **C28.** `tan` computes Taylor expansions of the tangent where the cosine of the constant part does not vanish, otherwise the
outcome is not finite. -/
theorem C28_tan : Computes (C := C) (ι := ι) tan Real.tan (fun x => Real.cos x ≠ 0) := computes_tan
theorem C28_tanh : Computes (C := C) (ι := ι) tanh Real.tanh (fun _ => True) := computes_tanh

example : ∃ d : GDual ℝ, GDual.mk3 0 "x" 5 = .ok d ∧ d.Valid ∧ ∀ i : Unit, Real.cos (coeff 0 (d.toMv i : MvPolynomial String ℝ)) ≠ 0 := by
  obtain ⟨d, hd, hv, -, -, ht⟩ := Ex.real 0 5 (by omega) (by omega)
  exact ⟨d, hd, hv, fun i => by rw [Ex.real_coeff ht]; simp⟩

/-! ## C29, C30, C33 -/

/-- **C29 (partial), C33 (partial).** `atan` computes Taylor expansions of the inverse tangent up to order 30. The full claim, for all orders, is
false at every larger order: `C33_counterexample`. -/
theorem C29_atan_partial (hd : d.Valid) (ho : d.getOrder ≤ 30) :
    ∃ r, atan d = .ok r ∧ IsLift (fun _ : ι => Real.arctan) d r :=
  atanWith_lift hd fun _ _ hk => binomialU32_eq (hk.trans ho)

/-- **C29 (partial).** With exact binomial coefficients the algorithm is correct at all orders. -/
theorem C29_atan_exact_binomials_partial (hd : d.Valid) :
    ∃ r, atanWith Nat.choose d = .ok r ∧ IsLift (fun _ : ι => Real.arctan) d r :=
  atanWith_lift hd fun _ _ _ _ _ _ => rfl

/-- **C29.** `atanh` computes Taylor expansions at all orders. -/
theorem C29_atanh : Computes (C := C) (ι := ι) atanh Real.artanh (fun x => |x| < 1) := computes_atanh

include ι in
/-- **C33 (partial).** The 32 bit computation of the binomial coefficients is exact up to order 30, so `atan` does what it would do
with exact binomial coefficients. Missing: larger orders, where it is false (`C33_counterexample`). -/
theorem C33_atan_32bit_partial (hd : d.Valid) (ho : d.getOrder ≤ 30) :
    ∃ r s, atan d = .ok r ∧ atanWith Nat.choose d = .ok s ∧ GDual.eq r s = true := by
  obtain ⟨r, h1, h2⟩ := C29_atan_partial (ι := ι) hd ho
  obtain ⟨s, h3, h4⟩ := C29_atan_exact_binomials_partial (ι := ι) hd
  exact ⟨r, s, h1, h3, h2.eq h4 fun i => EventuallyEq.rfl⟩

/-- A power of a polynomial without constant term has no terms of lower degree. -/
theorem coeff_pow_low {H : MvPolynomial String ℝ} (h0 : coeff 0 H = 0) {e : String →₀ ℕ} {k : ℕ} (he : e.degree < k) :
    coeff e (H ^ k) = 0 := by
  have h1 := tr_pow_eq_zero (m := e.degree) h0 he
  rw [← map_pow, ← map_zero (tr e.degree), tr_eq_iff] at h1
  rw [h1 e le_rfl, coeff_zero]

/-- The leading coefficient of a power of a polynomial without constant term. -/
theorem coeff_single_pow {H : MvPolynomial String ℝ} (h0 : coeff 0 H = 0) (t : String) (k : ℕ) :
    coeff (Finsupp.single t k) (H ^ k) = coeff (Finsupp.single t 1) H ^ k := by
  induction k with
  | zero => simp
  | succ k ih =>
    rw [pow_succ, coeff_mul, Finset.sum_eq_single (Finsupp.single t k, Finsupp.single t 1), ih, pow_succ]
    · rintro ⟨a, b⟩ hab hne
      rw [Finset.mem_antidiagonal] at hab
      simp only at hab ⊢
      by_cases ha : a.degree < k
      · rw [coeff_pow_low h0 ha, zero_mul]
      · have hd : a.degree + b.degree = k + 1 := by rw [← map_add, hab, Finsupp.degree_single]
        by_cases hb : b = 0
        · rw [hb, h0, mul_zero]
        · have hb1 : b.degree ≠ 0 := fun h => hb ((Finsupp.degree_eq_zero_iff b).mp h)
          have hb2 : b.degree = 1 := by omega
          exfalso
          apply hne
          have hbs : b = Finsupp.single t 1 := by
            have hsup : ∀ u, u ≠ t → b u = 0 := fun u hu => by
              have := DFunLike.congr_fun hab u
              rw [Finsupp.add_apply, Finsupp.single_eq_of_ne hu] at this
              omega
            ext u
            by_cases hu : u = t
            · subst hu
              rw [Finsupp.single_eq_same]
              have hb3 : b = Finsupp.single u (b u) := by
                ext w
                by_cases hw : w = u
                · subst hw; simp
                · rw [hsup w hw, Finsupp.single_eq_of_ne hw]
              rw [hb3, Finsupp.degree_single] at hb2
              exact hb2
            · rw [hsup u hu, Finsupp.single_eq_of_ne hu]
          have has : a = Finsupp.single t k := by
            rw [hbs, Finsupp.single_add] at hab
            exact add_right_cancel hab
          rw [has, hbs]
    · intro hn
      exact absurd (Finset.mem_antidiagonal.mpr (Finsupp.single_add t k 1).symm) hn

theorem atanB_congr {bin bin' : ℕ → ℕ → ℕ} {k : ℕ} (h : ∀ j, 1 ≤ j → j ≤ k → bin k j = k.choose j) (h' : ∀ j, 1 ≤ j → j ≤ k → bin' k j = k.choose j) (p0 : ℝ) :
    atanB bin p0 () k = atanB bin' p0 () k := by
  unfold atanB
  split_ifs with h1 h2
  · rfl
  · rw [lane_atanOdd h2 h, lane_atanOdd h2 h']
  · rw [lane_atanEven (by omega) h, lane_atanEven (by omega) h']

/-- `∑ (-1)^j bin(31, 2j)`. -/
def altSum (bin : ℕ → ℕ → ℕ) : ℤ :=
  ((List.range' 1 (31 / 2)).foldl (fun (p : ℤ × ℤ) j => (p.1 + bin 31 (2 * j) * p.2, -p.2)) (1, -1)).1

theorem altSum_fold (bin : ℕ → ℕ → ℕ) (l : List ℕ) : ∀ (b s : ℤ) {st : AtanIn ℝ}, st.binom = b → st.f0 = 1 → st.cfi = s →
    (l.foldl (fun (s : AtanIn ℝ) j => ⟨Cf.add s.binom (Cf.mul (Cf.mul (Cf.ofRat (bin 31 (2 * j))) s.cfi) s.f0),
      Cf.mul s.f0 (Cf.mul (1 : ℝ) (1 : ℝ)), Cf.neg s.cfi⟩) st).binom =
    ((l.foldl (fun (p : ℤ × ℤ) j => (p.1 + bin 31 (2 * j) * p.2, -p.2)) (b, s)).1 : ℝ) := by
  induction l with
  | nil => intro b s st h1 _ _; exact h1
  | cons j l ih =>
    intro b s st h1 h2 h3
    refine ih (b + bin 31 (2 * j) * s) (-s) ?_ ?_ ?_
    · change st.binom + (((bin 31 (2 * j) : ℕ) : ℚ) : ℝ) * st.cfi * st.f0 = _
      rw [h1, h2, h3]; push_cast; ring
    · change st.f0 * (1 * 1) = 1
      rw [h2]; norm_num
    · change - st.cfi = _
      rw [h3]; push_cast; rfl

theorem atanB_31 (bin : ℕ → ℕ → ℕ) : atanB bin (1 : ℝ) () 31 = (altSum bin : ℝ) * (-1) ^ 15 / 31 := by
  unfold atanB
  rw [if_neg (by norm_num), if_pos (by norm_num)]
  have : (Lanes.lane () (atanOdd bin (1 : ℝ) 31) : ℝ) = altSum bin := by
    unfold atanOdd altSum
    have := altSum_fold bin (List.range' 1 (31 / 2)) 1 (-1)
      (st := ⟨Cf.ofRat 1, Cf.mul (1 : ℝ) (1 : ℝ), Cf.ofRat (-1)⟩) (by change ((1 : ℚ) : ℝ) = _; norm_num)
      (by change (1 : ℝ) * 1 = 1; norm_num) (by change ((-1 : ℚ) : ℝ) = _; norm_num)
    exact this
  rw [this]
  norm_num

/-- If the constant part is 1 and a variable `t` occurs linearly, then at every order from 31 on the coefficient of `t^31` computed with
32 bits differs from that computed with exact binomial coefficients. -/
theorem atan_wrong {q r s : GDual ℝ} (hq : q.Valid) (ho : 31 ≤ q.order) (h0 : coeff 0 (q.toMv () : MvPolynomial String ℝ) = 1) {t : String}
    (h1 : coeff (Finsupp.single t 1) (q.toMv () : MvPolynomial String ℝ) ≠ 0) (hr : atan q = .ok r) (hs : atanWith Nat.choose q = .ok s) :
    coeff (Finsupp.single t 31) (r.toMv () : MvPolynomial String ℝ) ≠ coeff (Finsupp.single t 31) (s.toMv () : MvPolynomial String ℝ) := by
  have key : ∀ (bin : ℕ → ℕ → ℕ) (w : GDual ℝ), atanWith bin q = .ok w → coeff (Finsupp.single t 31) (w.toMv () : MvPolynomial String ℝ) =
      ∑ k ∈ Finset.range 31, atanB bin (1 : ℝ) () k * (1 + (1 : ℝ) ^ 2)⁻¹ ^ k * coeff (Finsupp.single t 31) (hat (q.toMv () : MvPolynomial String ℝ) ^ k) +
      atanB bin (1 : ℝ) () 31 * (1 + (1 : ℝ) ^ 2)⁻¹ ^ 31 * coeff (Finsupp.single t 1) (q.toMv () : MvPolynomial String ℝ) ^ 31 := by
    intro bin w hw
    obtain ⟨w', p0, hp0, hw', -, hrep⟩ := atanWith_rep (ι := Unit) bin hq
    have hp : p0 = 1 := by
      have := lane_constantCf (ι := Unit) (K := ℝ) hq hp0 ()
      rw [h0] at this
      exact this
    obtain rfl : w' = w := by rw [hw] at hw'; injection hw' with h; exact h.symm
    rw [hrep.eq () _ (by rw [Finsupp.degree_single]; exact ho), h0, hp]
    unfold psum
    have hh : coeff 0 (hat (q.toMv () : MvPolynomial String ℝ)) = 0 := coeff_zero_hat _
    rw [coeff_sum, ← Finset.sum_range_add_sum_Ico _ (show 32 ≤ q.order + 1 by omega), Finset.sum_range_succ]
    have hz : ∑ k ∈ Finset.Ico 32 (q.order + 1), coeff (Finsupp.single t 31) (MvPolynomial.C (atanB bin (1 : ℝ) () k * (1 + (1 : ℝ) ^ 2)⁻¹ ^ k) *
        hat (q.toMv () : MvPolynomial String ℝ) ^ k) = 0 := by
      refine Finset.sum_eq_zero fun k hk => ?_
      rw [coeff_C_mul, coeff_pow_low hh (by rw [Finsupp.degree_single]; have := (Finset.mem_Ico.mp hk).1; omega), mul_zero]
    rw [hz, add_zero]
    congr 1
    · exact Finset.sum_congr rfl fun k _ => coeff_C_mul _ _ _
    · rw [coeff_C_mul, coeff_single_pow hh]
      congr 2
      rw [hat, coeff_sub, coeff_C, if_neg, sub_zero]
      intro h
      have := congrArg (fun f : String →₀ ℕ => f t) h
      simp at this
  intro h
  rw [key _ r hr, key _ s hs, Finset.sum_congr rfl fun k hk => by
    rw [atanB_congr (bin := binomialU32) (bin' := Nat.choose) (k := k) (binomialU32_eq (by have := Finset.mem_range.mp hk; omega))
      (fun _ _ _ => rfl) 1]] at h
  have h2 := mul_right_cancel₀ (by positivity) (mul_right_cancel₀ (pow_ne_zero _ h1) (add_left_cancel h))
  rw [atanB_31, atanB_31] at h2
  have h3 : (altSum Nat.choose : ℝ) = altSum binomialU32 := by linarith
  have h4 : altSum Nat.choose = altSum binomialU32 := by exact_mod_cast h3
  exact absurd h4 (by decide +kernel)

/-- At every order from 31 on the coefficient of `dx^31` of the inverse tangent of a variable with value 1 is wrong. -/
theorem atan31 (n : ℕ) (h31 : 31 ≤ n) (hn : n < 4294967285) : ∃ d r s : GDual ℝ, GDual.mk3 1 "x" n = .ok d ∧ d.Valid ∧ d.getOrder = n ∧
    (∀ i : Unit, (d.toMv i : MvPolynomial String ℝ) = MvPolynomial.C 1 + X "dx") ∧ atan d = .ok r ∧
    IsLift (fun _ : Unit => Real.arctan) d s ∧
    coeff (Finsupp.single "dx" 31) (r.toMv () : MvPolynomial String ℝ) ≠ coeff (Finsupp.single "dx" 31) (s.toMv () : MvPolynomial String ℝ) := by
  obtain ⟨d, hd, hv, ho, -, ht⟩ := Ex.real 1 n (by omega) hn
  obtain ⟨r, -, -, hr, -⟩ := atanWith_rep (ι := Unit) binomialU32 hv
  obtain ⟨s, hs, hsl⟩ := C29_atan_exact_binomials_partial (ι := Unit) hv
  refine ⟨d, r, s, hd, hv, ho, ht, hr, hsl, atan_wrong hv (ho ▸ h31) (Ex.real_coeff ht ()) ?_ hr hs⟩
  rw [Ex.real_coeff_one ht]
  exact one_ne_zero

/-- **C29, C33 (counterexample).** At every order from 31 on the 32 bit computation overflows and the result of `atan` on a variable with
value 1 is not the Taylor expansion of the inverse tangent. -/
theorem C33_counterexample (n : ℕ) (h31 : 31 ≤ n) (hn : n < 4294967285) : ∃ d r : GDual ℝ, GDual.mk3 1 "x" n = .ok d ∧ atan d = .ok r ∧
    ¬ IsLift (fun _ : Unit => Real.arctan) d r := by
  obtain ⟨d, r, s, hd, -, -, -, hr, hs, hne⟩ := atan31 n h31 hn
  exact ⟨d, r, hd, hr, fun hl => hne (by rw [hl.toMv_eq hs (fun i => EventuallyEq.rfl) ()])⟩

example : ∃ d r : GDual ℝ, GDual.mk3 1 "x" 31 = .ok d ∧ atan d = .ok r ∧ ¬ IsLift (fun _ : Unit => Real.arctan) d r :=
  C33_counterexample 31 (by omega) (by omega)

end Audi
