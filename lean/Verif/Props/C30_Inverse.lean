import Verif.Props.C22_Functions

/-! # C30, C31, C32: inverse functions, composition from the derivative, absolute value -/

namespace Audi

open MvPolynomial Spec GDual Filter Topology

variable {C : Type} [CfFun C] {ι : Type} [Lanes C ι ℝ] [LanesFun C ι] {d : GDual C}

/-- **C30.** `asinh` computes Taylor expansions for all arguments. -/
theorem C30_asinh : Computes (C := C) (ι := ι) asinh Real.arsinh (fun _ => True) := computes_asinh

/-- **C30.** `acosh` computes Taylor expansions where the constant part is larger than 1. -/
theorem C30_acosh : ComputesE (C := C) (ι := ι) acosh Real.arcosh (fun x => 1 < x) (fun x => x < 1) := computes_acosh

/-- **C30 (partial).** `asin` computes Taylor expansions up to order 30. Larger orders: `C30_counterexample`. -/
theorem C30_asin_partial (hd : d.Valid) (ho : d.getOrder ≤ 30) (h : ∀ i : ι, |coeff 0 (d.toMv i : MvPolynomial String ℝ)| < 1) :
    ∃ r, asin d = .ok r ∧ IsLift (fun _ : ι => Real.arcsin) d r :=
  asinWith_lift hd (fun _ _ hk => binomialU32_eq (hk.trans ho)) h

/-- **C30 (partial).** `acos` computes Taylor expansions up to order 30. Larger orders: `C30_counterexample`. -/
theorem C30_acos_partial (hd : d.Valid) (ho : d.getOrder ≤ 30) (h : ∀ i : ι, |coeff 0 (d.toMv i : MvPolynomial String ℝ)| < 1) :
    ∃ r, acos d = .ok r ∧ IsLift (fun _ : ι => Real.arccos) d r :=
  acosWith_lift hd (fun _ _ hk => binomialU32_eq (hk.trans ho)) h

/-- **C30 (partial).** With exact binomial coefficients in `atan` they are correct at all orders. -/
theorem C30_exact_binomials_partial (hd : d.Valid) (h : ∀ i : ι, |coeff 0 (d.toMv i : MvPolynomial String ℝ)| < 1) :
    (∃ r, asinWith Nat.choose d = .ok r ∧ IsLift (fun _ : ι => Real.arcsin) d r) ∧
    (∃ r, acosWith Nat.choose d = .ok r ∧ IsLift (fun _ : ι => Real.arccos) d r) :=
  ⟨asinWith_lift hd (fun _ _ _ _ _ _ => rfl) h, acosWith_lift hd (fun _ _ _ _ _ _ => rfl) h⟩

include ι in
/-- **C30.** Out of the open domain, and also on its border, `asin` and `acos` are not finite. -/
theorem C30_asin_acos_undefined (hd : d.Valid) (h : ∃ i : ι, 1 ≤ |coeff 0 (d.toMv i : MvPolynomial String ℝ)|) :
    asin d = .error .nonFinite ∧ acos d = .error .nonFinite := by
  obtain ⟨i, hi⟩ := h
  have : ¬ ∀ i : ι, |coeff 0 (d.toMv i : MvPolynomial String ℝ)| < 1 := fun hc => absurd (hc i) (not_lt.mpr hi)
  exact ⟨asinWith_undef hd this, acosWith_undef hd this⟩

example : ∃ d : GDual ℝ, GDual.mk3 (1 / 2) "x" 5 = .ok d ∧ (∃ r, asin d = .ok r ∧ IsLift (fun _ : Unit => Real.arcsin) d r) ∧
    (∃ r, acos d = .ok r ∧ IsLift (fun _ : Unit => Real.arccos) d r) := by
  obtain ⟨d, hd, hv, ho, -, ht⟩ := Ex.real (1 / 2) 5 (by omega) (by omega)
  have h : ∀ i : Unit, |coeff 0 (d.toMv i : MvPolynomial String ℝ)| < 1 := fun i => by
    rw [Ex.real_coeff ht, abs_of_pos] <;> norm_num
  exact ⟨d, hd, C30_asin_partial hv (by change d.order ≤ 30; omega) h, C30_acos_partial hv (by change d.order ≤ 30; omega) h⟩

theorem coeff_mul_single_one (P Q : MvPolynomial String ℝ) (t : String) : coeff (Finsupp.single t 1) (P * Q) =
    coeff 0 P * coeff (Finsupp.single t 1) Q + coeff (Finsupp.single t 1) P * coeff 0 Q := by
  rw [coeff_mul, Finsupp.antidiagonal_single]
  simp [Finset.Nat.antidiagonal_succ]

/-- The number `1/√2`, at which the quotient inside of `asin` has the constant part 1. -/
noncomputable def rsqrt2 : ℝ := (√2)⁻¹

theorem rsqrt2_sq : rsqrt2 * rsqrt2 = 1 / 2 := by
  unfold rsqrt2
  rw [← mul_inv, Real.mul_self_sqrt (by norm_num)]; norm_num

theorem rsqrt2_pos : 0 < rsqrt2 := by unfold rsqrt2; positivity

/-- At every order from 31 on the coefficient of `dx^31` of `asin` of a variable with value `1/√2` is wrong. -/
theorem asin31 (n : ℕ) (h31 : 31 ≤ n) (hn : n < 4294967285) : ∃ d r s : GDual ℝ, GDual.mk3 rsqrt2 "x" n = .ok d ∧ d.Valid ∧
    asin d = .ok r ∧ r.Valid ∧ r.order = d.order ∧ coeff 0 (r.toMv () : MvPolynomial String ℝ) = Real.pi / 4 ∧
    IsLift (fun _ : Unit => Real.arcsin) d s ∧
    coeff (Finsupp.single "dx" 31) (r.toMv () : MvPolynomial String ℝ) ≠ coeff (Finsupp.single "dx" 31) (s.toMv () : MvPolynomial String ℝ) := by
  obtain ⟨d, hd, hv, ho, -, ht⟩ := Ex.real rsqrt2 n (by omega) hn
  have hsq := rsqrt2_sq
  have hpos := rsqrt2_pos
  have habs : ∀ i : Unit, |coeff 0 (d.toMv i : MvPolynomial String ℝ)| < 1 := fun i => by
    rw [Ex.real_coeff ht, abs_of_pos hpos]; nlinarith
  have h1 := ((IsLift.id (ι := Unit) hv).mul (IsLift.id hv)).subSG (Cf.ofRat 1)
  have h1c : ∀ i : Unit, coeff 0 (((d.mul d).subSG (Cf.ofRat 1)).toMv i : MvPolynomial String ℝ) = 1 / 2 := fun i => by
    rw [h1.coeff_zero, lane_one, Ex.real_coeff ht, hsq]; norm_num
  obtain ⟨s, hs, hsl⟩ := computes_sqrt.lift _ h1.valid (ι := Unit) fun i => by rw [h1c]; norm_num
  have hs1 := h1.comp hsl
  obtain ⟨q, hq, hql⟩ := (IsLift.id (ι := Unit) hv).div hs1 (fun i => by
    have := h1c i
    rw [h1.coeff_zero] at this
    rw [this]
    exact (Real.sqrt_pos.mpr (by norm_num)).ne')
  obtain ⟨r, p0, hp0, hr, hor, hrep⟩ := atanWith_rep (ι := Unit) binomialU32 hql.valid
  obtain ⟨w, hw, hwl⟩ := (C30_exact_binomials_partial (ι := Unit) hv habs).1
  have hw' : atanWith Nat.choose q = .ok w := by
    unfold asinWith at hw
    rwa [bind_ok hs, bind_ok hq] at hw
  have hro : asin d = .ok r := by
    change (do let s ← sqrt ((d.mul d).subSG (Cf.ofRat 1)); let q ← d.div s; atanWith binomialU32 q) = _
    rw [bind_ok hs, bind_ok hq, hr]
  have hs0 : coeff 0 (s.toMv () : MvPolynomial String ℝ) = rsqrt2 := by
    rw [hsl.coeff_zero, h1c, ← hsq, Real.sqrt_mul_self hpos.le]
  have hq0 : coeff 0 (q.toMv () : MvPolynomial String ℝ) = 1 := by
    rw [hql.coeff_zero, Ex.real_coeff ht, lane_one, hsq, show (1 : ℝ) - 1 / 2 = rsqrt2 * rsqrt2 by rw [hsq]; norm_num,
      Real.sqrt_mul_self hpos.le, div_self hpos.ne']
  have hnear : ∀ᶠ x in 𝓝 (rsqrt2 : ℝ), 0 < 1 - x * x := by
    have : ContinuousAt (fun x : ℝ => 1 - x * x) rsqrt2 := by fun_prop
    exact this.eventually (lt_mem_nhds (by change 0 < 1 - rsqrt2 * rsqrt2; rw [hsq]; norm_num))
  have hdeg : ∀ a b : ℕ, a = n → b = n → (Finsupp.single "dx" 1 : String →₀ ℕ).degree ≤ max a b := fun a b ha hb => by
    rw [Finsupp.degree_single]; omega
  have hone : (Lanes.lane () (Cf.ofRat 1 : ℝ) : ℝ) = 1 := lane_one ()
  -- the square of the root and the product of the quotient with the root
  have e1 := (hs1.mul hs1).toMv_eq h1 (fun i => by
    rw [Ex.real_coeff ht]
    filter_upwards [hnear] with x hx
    rw [lane_one, Real.mul_self_sqrt hx.le]) ()
  have e2 := (hql.mul hs1).toMv_eq (IsLift.id (ι := Unit) hv) (fun i => by
    rw [Ex.real_coeff ht]
    filter_upwards [hnear] with x hx
    rw [lane_one, div_mul_cancel₀ _ (Real.sqrt_pos.mpr hx).ne']) ()
  have f1 := congrArg (coeff (Finsupp.single "dx" 1)) e1
  have f2 := congrArg (coeff (Finsupp.single "dx" 1)) e2
  rw [toMv_mul hs1.valid hs1.valid () _ (hdeg _ _ (hs1.order.trans ho) (hs1.order.trans ho)), coeff_mul_single_one,
    toMv_subSG _ (hv.mul hv), coeff_sub, toMv_mul hv hv () _ (hdeg _ _ ho ho), coeff_mul_single_one,
    Ex.real_coeff_one ht, Ex.real_coeff ht, hs0, coeff_C, if_neg (fun h => by
      have := congrArg (fun f : String →₀ ℕ => f "dx") h
      simp at this)] at f1
  rw [toMv_mul hql.valid hs1.valid () _ (hdeg _ _ (hql.order.trans ho) (hs1.order.trans ho)), coeff_mul_single_one,
    Ex.real_coeff_one ht, hs0, hq0] at f2
  have hr0 : coeff 0 (r.toMv () : MvPolynomial String ℝ) = Real.pi / 4 := by
    have hp : p0 = 1 := by
      have := lane_constantCf (ι := Unit) (K := ℝ) hql.valid hp0 ()
      rw [hq0] at this
      exact this
    have h1 : (Lanes.lane () (1 : ℝ) : ℝ) = 1 := rfl
    rw [hrep.eq () 0 (by simp), psum, coeff_sum, Finset.sum_eq_single 0, hp]
    · simp [atanB, h1]
    · intro k _ hk
      have hh : coeff 0 (hat (q.toMv () : MvPolynomial String ℝ)) = 0 := coeff_zero_hat _
      rw [coeff_C_mul, coeff_pow_low hh (e := 0) (k := k) (by simpa using Nat.pos_of_ne_zero hk), mul_zero]
    · intro h; simp at h
  refine ⟨d, r, w, hd, hv, hro, hrep.valid, hor.trans hql.order, hr0, hwl, atan_wrong hql.valid (by rw [hql.order, ho]; exact h31) hq0 (t := "dx") (fun hz => ?_) hr hw'⟩
  rw [hz] at f2
  nlinarith

/-- **C30 (counterexample).** At every order from 31 on the results of `asin` and `acos` on a variable with value `1/√2` are not the Taylor
expansions of the inverse sine and cosine. -/
theorem C30_counterexample (n : ℕ) (h31 : 31 ≤ n) (hn : n < 4294967285) : ∃ d r s : GDual ℝ, GDual.mk3 rsqrt2 "x" n = .ok d ∧
    asin d = .ok r ∧ acos d = .ok s ∧ ¬ IsLift (fun _ : Unit => Real.arcsin) d r ∧ ¬ IsLift (fun _ : Unit => Real.arccos) d s := by
  obtain ⟨d, r, s, hd, hv, hr, hrv, -, -, hs, hne⟩ := asin31 n h31 hn
  refine ⟨d, r, r.subSG (Cf.mul (Cf.ofRat (1 / 2)) CfFun.pi), hd, hr, ?_,
    fun hl => hne (by rw [hl.toMv_eq hs (fun i => EventuallyEq.rfl) ()]), fun hl => hne ?_⟩
  · change (do let s ← asinWith binomialU32 d; .ok (s.subSG (Cf.mul (Cf.ofRat (1 / 2)) CfFun.pi)) : Res (GDual ℝ)) = _
    have : asinWith binomialU32 d = .ok r := hr
    rw [bind_ok this]
  · have h1 : IsLift (fun _ : Unit => Real.arccos) d (s.subSG (Cf.mul (Cf.ofRat (1 / 2)) CfFun.pi)) := (hs.subSG _).congr' fun i x => by
      rw [Lanes.lane_mul, Lanes.lane_ofRat, LanesFun.lane_pi, Real.arccos]; push_cast; ring
    have h2 := congrArg (coeff (Finsupp.single "dx" 31)) (hl.toMv_eq h1 (fun i => EventuallyEq.rfl) ())
    rw [toMv_subSG _ hrv, toMv_subSG _ hs.valid, coeff_sub, coeff_sub] at h2
    exact sub_right_injective h2

example : ∃ d r s : GDual ℝ, GDual.mk3 rsqrt2 "x" 31 = .ok d ∧ asin d = .ok r ∧ acos d = .ok s ∧
    ¬ IsLift (fun _ : Unit => Real.arcsin) d r ∧ ¬ IsLift (fun _ : Unit => Real.arccos) d s :=
  C30_counterexample 31 (by omega) (by omega)

/-! ## C31 -/

omit [LanesFun C ι] in
/-- **C31.** `_compose_from_derivative(f, dg, g0)` is the Taylor expansion of `g(f)` if `dg` is that of `g'(f)`, `g0 = g(f0)` and `g'`
is smooth. The order of the result is that of `f`, or 0 if `f` has no symbols. -/
theorem C31_compose {f dg : GDual C} {g0 : C} {g g' : ι → ℝ → ℝ} (hf : f.Valid) (hnames : GoodNames f)
    (hdg : IsLift g' f dg) (hg0 : ∀ i : ι, (Lanes.lane i g0 : ℝ) = g i (coeff 0 (f.toMv i)))
    (hsm : ∀ i : ι, ContDiffAt ℝ f.order (g' i) (coeff 0 (f.toMv i)))
    (hder : ∀ i : ι, ∀ᶠ t in 𝓝 (coeff 0 (f.toMv i) : ℝ), HasDerivAt (g i) (g' i t) t) :
    ∃ r, composeFromDerivative f dg g0 = .ok r ∧ IsLiftD g f r := compose_liftD hf hnames hdg hg0 hsm hder

/-- **C31.** `erf`. -/
theorem C31_erf : ComputesD (C := C) (ι := ι) erf Spec.erf (fun _ => True) (fun _ => False) := computesD_erf
/-- **C31.** `atan_d`: correct at all orders. -/
theorem C31_atan_d : ComputesD (C := C) (ι := ι) atanD Real.arctan (fun _ => True) (fun _ => False) := computesD_atan
/-- **C31.** `atanh_d`. -/
theorem C31_atanh_d : ComputesD (C := C) (ι := ι) atanhD Real.artanh (fun x => |x| < 1) (fun x => 1 ≤ |x|) := computesD_atanh
/-- **C31.** `asinh_d`. -/
theorem C31_asinh_d : ComputesD (C := C) (ι := ι) asinhD Real.arsinh (fun _ => True) (fun _ => False) := computesD_asinh
/-- **C31.** `acosh_d`. -/
theorem C31_acosh_d : ComputesD (C := C) (ι := ι) acoshD Real.arcosh (fun x => 1 < x) (fun x => x < 1) := computesD_acosh
/-- **C31.** `asin_d`. -/
theorem C31_asin_d : ComputesD (C := C) (ι := ι) asinD Real.arcsin (fun x => |x| < 1) (fun x => 1 < |x|) := computesD_asin
/-- **C31.** `acos_d`. -/
theorem C31_acos_d : ComputesD (C := C) (ι := ι) acosD Real.arccos (fun x => |x| < 1) (fun x => 1 < |x|) := computesD_acos

theorem goodNames_mk3 {c : C} {s : String} {n : ℕ} (h : mk3 c s n = .ok d) : GoodNames d := by
  intro t ht
  rw [syms_mk3 h, List.mem_singleton] at ht
  refine ⟨s, ht, ?_⟩
  unfold mk3 at h
  by_cases hc : checkOrder n = .ok ()
  · rw [bind_ok hc] at h
    by_cases hs : checkVarName s = .ok ()
    · exact hs
    · cases he : checkVarName s with
      | error e => rw [bind_error he] at h; cases h
      | ok u => exact rfl
  · cases he : checkOrder n with
    | error e => rw [bind_error he] at h; cases h
    | ok u => exact absurd rfl (by rw [he] at hc; exact hc)

omit [LanesFun C ι] in
/-- Agreement of a lift and a lift through the derivative. -/
theorem IsLiftD.eq_isLift {g : ι → ℝ → ℝ} {r s : GDual C} (h1 : IsLiftD g d r) (h2 : IsLift g d s) : GDual.eq r s = true := by
  refine eq_of_toMv (ι := ι) (K := ℝ) h1.valid h2.valid fun i => ?_
  have hF := isTaylor_poly (fun _ => 0) d.order (d.toMv i : MvPolynomial String ℝ)
  refine EqUpTo.eq_of_degLE (m := d.order) ((h1.taylor i _ _ hF).unique (h2.taylor i _ _ hF)) ?_ ?_
  · refine fun e he => h1.valid.degLE (K := ℝ) i e (lt_of_le_of_lt ?_ he)
    rw [h1.order]; split_ifs <;> omega
  · have := h2.valid.degLE (K := ℝ) i; rwa [h2.order] at this

include ι in
/-- **C31 (partial).** The variants computed from derivatives agree with the direct ones, where both are defined. Missing for
`atan`, `asin`, `acos`: orders larger than 30, see `C33_counterexample`. -/
theorem C31_agree_partial (hd : d.Valid) (hn : GoodNames d) :
    (∃ r s, asinhD d = .ok r ∧ asinh d = .ok s ∧ GDual.eq r s = true) ∧
    ((∀ i : ι, |coeff 0 (d.toMv i : MvPolynomial String ℝ)| < 1) → ∃ r s, atanhD d = .ok r ∧ atanh d = .ok s ∧ GDual.eq r s = true) ∧
    ((∀ i : ι, 1 < coeff 0 (d.toMv i : MvPolynomial String ℝ)) → ∃ r s, acoshD d = .ok r ∧ acosh d = .ok s ∧ GDual.eq r s = true) ∧
    (d.getOrder ≤ 30 → ∃ r s, atanD d = .ok r ∧ atan d = .ok s ∧ GDual.eq r s = true) ∧
    (d.getOrder ≤ 30 → (∀ i : ι, |coeff 0 (d.toMv i : MvPolynomial String ℝ)| < 1) →
      (∃ r s, asinD d = .ok r ∧ asin d = .ok s ∧ GDual.eq r s = true) ∧
      (∃ r s, acosD d = .ok r ∧ acos d = .ok s ∧ GDual.eq r s = true)) := by
  refine ⟨?_, fun h => ?_, fun h => ?_, fun ho => ?_, fun ho h => ⟨?_, ?_⟩⟩
  · obtain ⟨r, h1, h2⟩ := C31_asinh_d.lift d hd hn (ι := ι) fun _ => trivial
    obtain ⟨s, h3, h4⟩ := C30_asinh.lift d hd (ι := ι) fun _ => trivial
    exact ⟨r, s, h1, h3, IsLiftD.eq_isLift h2 h4⟩
  · obtain ⟨r, h1, h2⟩ := C31_atanh_d.lift d hd hn (ι := ι) h
    obtain ⟨s, h3, h4⟩ := C29_atanh.lift d hd (ι := ι) h
    exact ⟨r, s, h1, h3, IsLiftD.eq_isLift h2 h4⟩
  · obtain ⟨r, h1, h2⟩ := C31_acosh_d.lift d hd hn (ι := ι) h
    obtain ⟨s, h3, h4⟩ := C30_acosh.lift d hd (ι := ι) h
    exact ⟨r, s, h1, h3, IsLiftD.eq_isLift h2 h4⟩
  · obtain ⟨r, h1, h2⟩ := C31_atan_d.lift d hd hn (ι := ι) fun _ => trivial
    obtain ⟨s, h3, h4⟩ := C29_atan_partial (ι := ι) hd ho
    exact ⟨r, s, h1, h3, IsLiftD.eq_isLift h2 h4⟩
  · obtain ⟨r, h1, h2⟩ := C31_asin_d.lift d hd hn (ι := ι) h
    obtain ⟨s, h3, h4⟩ := C30_asin_partial (ι := ι) hd ho h
    exact ⟨r, s, h1, h3, IsLiftD.eq_isLift h2 h4⟩
  · obtain ⟨r, h1, h2⟩ := C31_acos_d.lift d hd hn (ι := ι) h
    obtain ⟨s, h3, h4⟩ := C30_acos_partial (ι := ι) hd ho h
    exact ⟨r, s, h1, h3, IsLiftD.eq_isLift h2 h4⟩

/-- **C31 (counterexample).** At every order from 31 on `atan` and `atan_d` disagree. -/
theorem C31_counterexample (n : ℕ) (h31 : 31 ≤ n) (hn : n < 4294967285) : ∃ d r s : GDual ℝ, GDual.mk3 1 "x" n = .ok d ∧ atan d = .ok r ∧
    atanD d = .ok s ∧ GDual.eq r s = false := by
  obtain ⟨d, r, hd, hr, hl⟩ := C33_counterexample n h31 hn
  have hv := valid_mk3 (ι := Unit) (K := ℝ) hd
  obtain ⟨s, h1, h2⟩ := C31_atan_d.lift d hv (goodNames_mk3 hd) (ι := Unit) fun _ => trivial
  refine ⟨d, r, s, hd, hr, h1, ?_⟩
  by_contra hc
  rw [Bool.not_eq_false] at hc
  obtain ⟨r', _, -, hr', hro, hrep⟩ := atanWith_rep (ι := Unit) binomialU32 hv
  obtain rfl : r' = r := by
    have : atan d = .ok r' := hr'
    rw [hr] at this; injection this with h; exact h.symm
  refine hl ⟨hrep.valid, hro, fun i F a hF => ?_⟩
  rw [toMv_of_eq (ι := Unit) (K := ℝ) hrep.valid h2.valid hc]
  exact h2.taylor i F a hF

example : ∃ d : GDual ℝ, GDual.mk3 (1 / 2) "x" 5 = .ok d ∧ d.Valid ∧ GoodNames d ∧ d.getOrder ≤ 30 ∧
    ∀ i : Unit, |coeff 0 (d.toMv i : MvPolynomial String ℝ)| < 1 := by
  obtain ⟨d, hd, hv, ho, -, ht⟩ := Ex.real (1 / 2) 5 (by omega) (by omega)
  refine ⟨d, hd, hv, goodNames_mk3 hd, by change d.order ≤ 30; omega, fun i => ?_⟩
  rw [Ex.real_coeff ht, abs_of_pos] <;> norm_num

example : ∃ f dg : GDual ℝ, f.Valid ∧ GoodNames f ∧ IsLift (fun _ : Unit => Real.exp) f dg ∧
    (∀ i : Unit, ContDiffAt ℝ f.order Real.exp (coeff 0 (f.toMv i : MvPolynomial String ℝ))) ∧
    ∀ i : Unit, ∀ᶠ t in 𝓝 (coeff 0 (f.toMv i) : ℝ), HasDerivAt Real.exp (Real.exp t) t := by
  obtain ⟨d, hd, hv, ho, -, ht⟩ := Ex.real (1 / 2) 5 (by omega) (by omega)
  obtain ⟨r, hr, hl⟩ := C22_exp.lift d hv (ι := Unit) fun _ => trivial
  exact ⟨d, r, hv, goodNames_mk3 hd, hl, fun _ => Real.contDiff_exp.contDiffAt, fun _ => Eventually.of_forall Real.hasDerivAt_exp⟩

/-! ## C32 -/

/-- **C32.** `abs` (scalar coefficients) computes the Taylor expansion of the absolute value if the constant part is not zero; if it is zero the
argument is returned. -/
theorem C32_abs {d : GDual ℝ} (hd : d.Valid) : ∃ r, absScalar d = .ok r ∧ r.Valid ∧ r.getOrder = d.getOrder ∧
    (coeff 0 (d.toMv () : MvPolynomial String ℝ) ≠ 0 → IsLift (fun (_ : Unit) x => |x|) d r) ∧
    (coeff 0 (d.toMv () : MvPolynomial String ℝ) = 0 → r = d) := by
  obtain ⟨p0, hp0⟩ := constantCf_isOk d
  have hl : p0 = coeff 0 (d.toMv () : MvPolynomial String ℝ) := lane_constantCf (ι := Unit) (K := ℝ) hd hp0 ()
  unfold absScalar
  rw [bind_ok hp0]
  by_cases h : p0 ≥ 0
  · rw [if_pos h]
    refine ⟨d, rfl, hd, rfl, fun h0 => (IsLift.id hd).congr fun i => ?_, fun _ => rfl⟩
    have hpos : 0 < coeff 0 (d.toMv () : MvPolynomial String ℝ) := lt_of_le_of_ne (hl ▸ h) (Ne.symm h0)
    filter_upwards [lt_mem_nhds hpos] with x hx
    exact (abs_of_pos hx).symm
  · rw [if_neg h]
    refine ⟨d.neg, rfl, hd.neg, rfl, fun h0 => ((IsLift.id hd).neg).congr fun i => ?_, fun h0 => ?_⟩
    · have hneg : coeff 0 (d.toMv () : MvPolynomial String ℝ) < 0 := hl ▸ (not_le.mp h)
      filter_upwards [gt_mem_nhds hneg] with x hx
      exact (abs_of_neg hx).symm
    · exact absurd (hl.trans h0).ge h

example : ∃ d : GDual ℝ, GDual.mk3 (-2) "x" 5 = .ok d ∧ d.Valid ∧ coeff 0 (d.toMv () : MvPolynomial String ℝ) ≠ 0 := by
  obtain ⟨d, hd, hv, -, -, ht⟩ := Ex.real (-2) 5 (by omega) (by omega)
  exact ⟨d, hd, hv, by rw [Ex.real_coeff ht]; norm_num⟩

end Audi
