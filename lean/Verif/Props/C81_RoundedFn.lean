import Verif.Proofs.RoundedSeries
import Verif.Proofs.Deriv
import Verif.Proofs.Nearest
import Mathlib.Analysis.SpecialFunctions.Pow.Deriv
import Mathlib.Analysis.Calculus.Deriv.ZPow
import Mathlib.Analysis.SpecialFunctions.Trigonometric.DerivHyp
import Mathlib.Analysis.SpecialFunctions.Sqrt

/-!
# C81: rounding errors of the functions

With coefficients in a floating point format, every coefficient of `exp(d)`, `log(d)`, `sqrt(d)`, `cbrt(d)`, `sin(d)`, `cos(d)`, `sinh(d)`, `cosh(d)` and of quotients
is that of the exact expansion with the error of a number of roundings which depends on the order of the gdual and on the degree of the coefficient only.
-/

set_option linter.unusedSectionVars false

namespace Audi

open MvPolynomial Spec Rounding Filter Topology

variable {R : Rounding ℝ}

namespace GDual
variable {d : GDual (Fl R)}

theorem coeff_psum (b : ℕ → ℝ) (H : MvPolynomial String ℝ) (M : ℕ) (E : String →₀ ℕ) :
    coeff E (psum b H M) = ∑ k ∈ Finset.range M, b k * coeff E (H ^ k) := by
  rw [psum, coeff_sum]
  exact Finset.sum_congr rfl fun k _ => coeff_C_mul _ _ _

/-- Series with the derivatives as coefficients. -/
theorem coeff_psum_taylor {f : ℝ → ℝ} {b : ℕ → ℝ} (hb : ∀ k, iteratedDeriv k f (d.coeffOf 0) / k.factorial = b k) {E : String →₀ ℕ} {M : ℕ}
    (hM : E.degree < M) :
    coeff E (psum b d.varPart M) = d.taylorCoeff f E ∧ coeff E (psum (fun i => |b i|) (absPoly d.varPart) M) = d.taylorAbs f E := by
  rw [psum_eqUpTo b (coeff_zero_varPart d) (show E.degree + 1 ≤ M from hM) E le_rfl,
    psum_eqUpTo _ (coeff_zero_absPoly d) (show E.degree + 1 ≤ M from hM) E le_rfl, coeff_psum, coeff_psum]
  refine ⟨Finset.sum_congr rfl fun k _ => by rw [hb], Finset.sum_congr rfl fun k _ => ?_⟩
  rw [← hb, abs_div, Nat.abs_cast]

theorem roundedTaylor_of {f : ℝ → ℝ} {b : ℕ → ℝ} (hb : ∀ k, iteratedDeriv k f (d.coeffOf 0) / k.factorial = b k) {N : ℕ → ℕ} {res : Res (GDual (Fl R))}
    (h : ∀ j ≤ d.order, ∃ r, res = .ok r ∧ r.order = d.order ∧ ∃ M, j < M ∧
      RRep j (N j) r (psum b d.varPart M) (psum (fun i => |b i|) (absPoly d.varPart) M)) : RoundedTaylor f d N res := by
  obtain ⟨r, h1, h2, _, _, h3⟩ := h 0 (Nat.zero_le _)
  refine ⟨r, h1, h3.vr, h2, fun E hE => ?_⟩
  obtain ⟨r', g1, -, M, g2, g3⟩ := h E.degree hE
  rw [h1] at g1
  obtain rfl : r = r' := by injection g1
  obtain ⟨e1, e2⟩ := coeff_psum_taylor hb g2
  have := (g3.near E le_rfl).1
  rwa [e1, e2] at this

/-! Derivatives -/

theorem iteratedDeriv_inv_div (x : ℝ) (k : ℕ) : iteratedDeriv k (fun t : ℝ => t⁻¹) x / k.factorial = (-1) ^ k * x⁻¹ ^ (k + 1) := by
  have h := iter_deriv_inv (𝕜 := ℝ) k x
  rw [iteratedDeriv_eq_iterate]
  change deriv^[k] Inv.inv x / _ = _
  have h0 : (k.factorial : ℝ) ≠ 0 := by exact_mod_cast k.factorial_ne_zero
  rw [h, show (-1 - k : ℤ) = -((k + 1 : ℕ) : ℤ) by push_cast; ring, zpow_neg, zpow_natCast, inv_pow]
  field_simp

theorem iteratedDeriv_exp_div (x : ℝ) (k : ℕ) : iteratedDeriv k Real.exp x / k.factorial = Real.exp x / k.factorial := by
  rw [iteratedDeriv_eq_iterate, Real.iter_deriv_exp]

theorem iteratedDeriv_log_div (x : ℝ) (k : ℕ) :
    iteratedDeriv k Real.log x / k.factorial = if k = 0 then Real.log x else (-1) ^ (k - 1) / k * x⁻¹ ^ k := by
  cases k with
  | zero => simp
  | succ k =>
    have h := iteratedDeriv_inv_div x k
    rw [if_neg (Nat.succ_ne_zero k), iteratedDeriv_succ', Real.deriv_log', Nat.factorial_succ, Nat.add_sub_cancel]
    push_cast
    have h0 : (k.factorial : ℝ) ≠ 0 := by exact_mod_cast k.factorial_ne_zero
    have h1 : (k + 1 : ℝ) ≠ 0 := by exact_mod_cast k.succ_ne_zero
    rw [mul_comm, ← div_div]
    change iteratedDeriv k (fun t : ℝ => t⁻¹) x / _ / _ = _
    rw [h]
    field_simp

/-- The derivatives of a power, from `f' = α f / x`. -/
theorem iteratedDeriv_pow_like {f : ℝ → ℝ} {α : ℝ} {S : Set ℝ} (hS : IsOpen S) (h0 : ∀ x ∈ S, x ≠ 0) (hf : ∀ x ∈ S, HasDerivAt f (α * f x / x) x) (k : ℕ) :
    ∀ x ∈ S, iteratedDeriv k f x / k.factorial = f x * binR α k * x⁻¹ ^ k := by
  have hk0 (k : ℕ) : (k.factorial : ℝ) ≠ 0 := by exact_mod_cast k.factorial_ne_zero
  induction k with
  | zero => intro x _; simp [binR_zero]
  | succ k ih =>
    intro x hx
    have h1 : iteratedDeriv k f =ᶠ[𝓝 x] fun t => k.factorial * (f t * binR α k * t⁻¹ ^ k) := by
      filter_upwards [hS.mem_nhds hx] with t ht
      rw [← ih t ht]
      have := hk0 k
      field_simp
    have hx0 := h0 x hx
    have h2 := ((((hf x hx).mul_const (binR α k)).mul ((hasDerivAt_inv hx0).pow k)).const_mul (k.factorial : ℝ))
    have h3 := (h2.congr_of_eventuallyEq (f₁ := iteratedDeriv k f) (by
      filter_upwards [h1] with t ht using by rw [ht]; rfl)).deriv
    rw [iteratedDeriv_succ, h3, binR_succ, Nat.factorial_succ]
    have := hk0 k
    have h4 : (k + 1 : ℝ) ≠ 0 := by exact_mod_cast k.succ_ne_zero
    push_cast
    cases k with
    | zero => simp; field_simp
    | succ k =>
      simp only [Nat.add_sub_cancel, Pi.pow_apply, inv_pow]
      push_cast at h4 ⊢
      field_simp
      ring

theorem iteratedDeriv_sqrt_div {x : ℝ} (hx : 0 < x) (k : ℕ) : iteratedDeriv k Real.sqrt x / k.factorial = √x * binR (1 / 2) k * x⁻¹ ^ k :=
  iteratedDeriv_pow_like (S := Set.Ioi 0) isOpen_Ioi (fun x hx => ne_of_gt hx) (fun x hx => by
    have h : (0 : ℝ) < x := hx
    refine (Real.hasDerivAt_sqrt h.ne').congr_deriv ?_
    have h1 := Real.sqrt_pos.2 h
    have h2 := Real.mul_self_sqrt h.le
    rw [div_eq_div_iff (by positivity) h.ne']
    linear_combination -h2) k x hx

theorem iteratedDeriv_cbrt_div {x : ℝ} (hx : x ≠ 0) (k : ℕ) : iteratedDeriv k Spec.cbrt x / k.factorial = Spec.cbrt x * binR (1 / 3) k * x⁻¹ ^ k :=
  iteratedDeriv_pow_like (S := {0}ᶜ) isOpen_compl_singleton (fun x hx => hx) (fun x hx => by
    have h : x ≠ 0 := hx
    refine (hasDerivAt_cbrt h).congr_deriv ?_
    have h2 := cbrt_cube x
    have h3 : Spec.cbrt x ≠ 0 := fun h3 => h (by rw [← h2, h3]; ring)
    rw [div_eq_div_iff (by positivity) h]
    linear_combination -h2) k x hx

theorem iteratedDeriv_sin_div (x : ℝ) (k : ℕ) : iteratedDeriv k Real.sin x / k.factorial = Real.sin x * csC k + Real.cos x * snC k := by
  obtain ⟨m, rfl | rfl⟩ := k.even_or_odd'
  · rw [Real.iteratedDeriv_even_sin]
    simp [csC, snC, chC, shC, eps]
    ring
  · rw [Real.iteratedDeriv_odd_sin]
    simp [csC, snC, chC, shC, eps, show (2 * m + 1) / 2 = m by omega]
    ring

theorem iteratedDeriv_cos_div (x : ℝ) (k : ℕ) : iteratedDeriv k Real.cos x / k.factorial = Real.cos x * csC k - Real.sin x * snC k := by
  obtain ⟨m, rfl | rfl⟩ := k.even_or_odd'
  · rw [Real.iteratedDeriv_even_cos]
    simp [csC, snC, chC, shC, eps]
    ring
  · rw [Real.iteratedDeriv_odd_cos]
    simp [csC, snC, chC, shC, eps, show (2 * m + 1) / 2 = m by omega]
    ring

theorem iteratedDeriv_sinh_div (x : ℝ) (k : ℕ) : iteratedDeriv k Real.sinh x / k.factorial = Real.sinh x * chC k + Real.cosh x * shC k := by
  obtain ⟨m, rfl | rfl⟩ := k.even_or_odd'
  · rw [Real.iteratedDeriv_even_sinh]
    simp [chC, shC, div_eq_mul_inv]
  · rw [Real.iteratedDeriv_odd_sinh]
    simp [chC, shC, div_eq_mul_inv]

theorem iteratedDeriv_cosh_div (x : ℝ) (k : ℕ) : iteratedDeriv k Real.cosh x / k.factorial = Real.cosh x * chC k + Real.sinh x * shC k := by
  obtain ⟨m, rfl | rfl⟩ := k.even_or_odd'
  · rw [Real.iteratedDeriv_even_cosh]
    simp [chC, shC, div_eq_mul_inv]
  · rw [Real.iteratedDeriv_odd_cosh]
    simp [chC, shC, div_eq_mul_inv]

/-- Number of roundings in a coefficient of degree `j` of a function of a gdual of order `m`, besides those of the function of the library. -/
def fnRounds (m j : ℕ) : ℕ := (m + 2) * (2 ^ j + 20)

variable [Libm R]

/-- `exp`. -/
theorem C81_exp (hu : R.u ≤ 1 / 2) (hd : d.Valid) :
    RoundedTaylor Real.exp d (fun j => fnRounds d.getOrder j + Libm.acc R) (exp d) :=
  roundedTaylor_of (iteratedDeriv_exp_div _) fun j hj => by
    obtain ⟨r, h1, h2, M, h3, h4⟩ := exp_rrep hu hd hj
    exact ⟨r, h1, h2, M, h3, h4.congr rfl (psum_congr (fun i _ => by rw [abs_div, Nat.abs_cast]) _)⟩

/-- `log`, at a positive constant term. -/
theorem C81_log (hu : R.u ≤ 1 / 2) (hd : d.Valid) (h0 : 0 < d.coeffOf 0) :
    RoundedTaylor Real.log d (fun j => fnRounds d.getOrder j + Libm.acc R) (log d) :=
  roundedTaylor_of (iteratedDeriv_log_div _) fun j hj => by
    obtain ⟨r, h1, h2, M, h3, h4⟩ := log_rrep hu hd h0 hj
    refine ⟨r, h1, h2, M, h3, h4.congr rfl (psum_congr (fun i _ => ?_) _)⟩
    split_ifs
    · rfl
    · rw [abs_mul, abs_div, abs_pow, abs_pow, abs_neg, abs_one, one_pow, Nat.abs_cast]

/-- `sqrt`, at a positive constant term. -/
theorem C81_sqrt (hu : R.u ≤ 1 / 2) (hd : d.Valid) (h0 : 0 < d.coeffOf 0) :
    RoundedTaylor Real.sqrt d (fun j => fnRounds d.getOrder j + Libm.acc R) (sqrt d) :=
  roundedTaylor_of (iteratedDeriv_sqrt_div h0) fun j hj => by
    obtain ⟨p0, hp0⟩ := constantCf_isOk d
    have hv0 := val_constantCf hd hp0
    have hok : CfFun.sqrtOk p0 = true := by
      change decide (0 ≤ p0.val) = true
      rw [hv0]; exact decide_eq_true h0.le
    have hα : R.Near 4 (Cf.ofRat (1 / 2) : Fl R).val (1 / 2) (1 / 2) := by
      have := (R.near_ofRat (1 / 2)).mono (show 1 ≤ 4 by norm_num)
      push_cast at this
      rwa [abs_of_pos (by norm_num)] at this
    have hrt : R.Near (Libm.acc R) (CfFun.sqrt p0 : Fl R).val (√(d.coeffOf 0)) |√(d.coeffOf 0)| :=
      ⟨by rw [← hv0]; exact Libm.sqrt_err p0 (by rw [hv0]; exact h0.le), le_rfl⟩
    obtain ⟨r, h1, h2, M, h3, h4⟩ := rootSeries_rrep hu hα (by norm_num) le_rfl hrt hd hp0 h0.ne' hj
    refine ⟨r, ?_, h2, M, h3, h4.congr rfl (psum_congr (fun i _ => by rw [abs_mul, abs_mul, abs_pow]) _)⟩
    unfold sqrt
    rw [bind_ok hp0, bind_ok (guardFinite_true hok)]
    exact h1

/-- `cbrt`, at a nonzero constant term. -/
theorem C81_cbrt (hu : R.u ≤ 1 / 2) (hd : d.Valid) (h0 : d.coeffOf 0 ≠ 0) :
    RoundedTaylor Spec.cbrt d (fun j => fnRounds d.getOrder j + Libm.acc R) (cbrt d) :=
  roundedTaylor_of (iteratedDeriv_cbrt_div h0) fun j hj => by
    obtain ⟨p0, hp0⟩ := constantCf_isOk d
    have hv0 := val_constantCf hd hp0
    have hα : R.Near 4 (Cf.div (Cf.ofRat 1) (Cf.ofRat 3) : Fl R).val (1 / 3) (1 / 3) := by
      have h1 := ((R.rel_ofRat 3).inv.rnd).near hu
      push_cast at h1
      rw [abs_of_pos (by norm_num)] at h1
      have h2 : (Cf.div (Cf.ofRat 1) (Cf.ofRat 3) : Fl R).val = R.rnd (Cf.ofRat 3 : Fl R).val⁻¹ := by
        change R.rnd ((Cf.ofRat 1 : Fl R).val / _) = _
        rw [R.val_ofRat_one, one_div]
      rw [h2, one_div]
      exact h1
    have hrt : R.Near (Libm.acc R) (CfFun.cbrt p0 : Fl R).val (Spec.cbrt (d.coeffOf 0)) |Spec.cbrt (d.coeffOf 0)| :=
      ⟨by rw [← hv0]; exact Libm.cbrt_err p0, le_rfl⟩
    obtain ⟨r, h1, h2, M, h3, h4⟩ := rootSeries_rrep hu hα (by norm_num) (by norm_num) hrt hd hp0 h0 hj
    refine ⟨r, ?_, h2, M, h3, h4.congr rfl (psum_congr (fun i _ => by rw [abs_mul, abs_mul, abs_pow]) _)⟩
    unfold cbrt
    rw [bind_ok hp0]
    exact h1

theorem csC_or_snC (i : ℕ) : (csC i : ℝ) = 0 ∨ (snC i : ℝ) = 0 := by
  rcases Nat.mod_two_eq_zero_or_one i with h | h
  · right; simp [snC, shC, h]
  · left; simp [csC, chC, h]

theorem chC_or_shC (i : ℕ) : (chC i : ℝ) = 0 ∨ (shC i : ℝ) = 0 := by
  rcases Nat.mod_two_eq_zero_or_one i with h | h
  · right; simp [shC, h]
  · left; simp [chC, h]

theorem fnRounds_le (n j a : ℕ) : a + (n * 2 ^ j + 2 * n + 6 + n + 3) + 2 ≤ fnRounds n j + a := by
  unfold fnRounds
  nlinarith [Nat.one_le_two_pow (n := j)]

/-- `sin`, `cos` and `sin_and_cos`. -/
theorem C81_sin_cos (hu : R.u ≤ 1 / 2) (hd : d.Valid) :
    RoundedTaylor Real.sin d (fun j => fnRounds d.getOrder j + Libm.acc R) (sin d) ∧
    RoundedTaylor Real.cos d (fun j => fnRounds d.getOrder j + Libm.acc R) (cos d) ∧
    RoundedTaylor Real.sin d (fun j => fnRounds d.getOrder j + Libm.acc R) ((sinAndCos d).map Prod.fst) ∧
    RoundedTaylor Real.cos d (fun j => fnRounds d.getOrder j + Libm.acc R) ((sinAndCos d).map Prod.snd) := by
  have key : ∀ j ≤ d.order, ∃ s c, sin d = .ok s ∧ cos d = .ok c ∧ sinAndCos d = .ok (s, c) ∧ s.order = d.order ∧ c.order = d.order ∧
      RRep j (fnRounds d.getOrder j + Libm.acc R) s (psum (fun i => Real.sin (d.coeffOf 0) * csC i + Real.cos (d.coeffOf 0) * snC i) d.varPart (j + 1))
        (psum (fun i => |Real.sin (d.coeffOf 0) * csC i + Real.cos (d.coeffOf 0) * snC i|) (absPoly d.varPart) (j + 1)) ∧
      RRep j (fnRounds d.getOrder j + Libm.acc R) c (psum (fun i => Real.cos (d.coeffOf 0) * csC i - Real.sin (d.coeffOf 0) * snC i) d.varPart (j + 1))
        (psum (fun i => |Real.cos (d.coeffOf 0) * csC i - Real.sin (d.coeffOf 0) * snC i|) (absPoly d.varPart) (j + 1)) := by
    intro j hj
    obtain ⟨p0, c, s, hp0, hv0, hc, hs, hco, hso, hcr, hsr⟩ := trigParts_rrep hu hd hj
    have hS : R.Near (Libm.acc R) (CfFun.sin p0 : Fl R).val (Real.sin (d.coeffOf 0)) |Real.sin (d.coeffOf 0)| :=
      ⟨by rw [← hv0]; exact Libm.sin_err p0, le_rfl⟩
    have hC : R.Near (Libm.acc R) (CfFun.cos p0 : Fl R).val (Real.cos (d.coeffOf 0)) |Real.cos (d.coeffOf 0)| :=
      ⟨by rw [← hv0]; exact Libm.cos_err p0, le_rfl⟩
    obtain ⟨⟨s1, s2⟩, -⟩ := comb_rrep hj hco hso hS hC hcr hsr csC_or_snC
    obtain ⟨-, ⟨c1, c2⟩⟩ := comb_rrep hj hco hso hC hS hcr hsr csC_or_snC
    refine ⟨_, _, ?_, ?_, ?_, s2, c2, s1.mono (fnRounds_le _ _ _), c1.mono (fnRounds_le _ _ _)⟩
    · unfold sin; rw [bind_ok hp0, bind_ok hc, bind_ok hs]
    · unfold cos; rw [bind_ok hp0, bind_ok hc, bind_ok hs]
    · unfold sinAndCos; rw [bind_ok hp0, bind_ok hc, bind_ok hs]
  refine ⟨roundedTaylor_of (iteratedDeriv_sin_div _) fun j hj => ?_, roundedTaylor_of (iteratedDeriv_cos_div _) fun j hj => ?_,
    roundedTaylor_of (iteratedDeriv_sin_div _) fun j hj => ?_, roundedTaylor_of (iteratedDeriv_cos_div _) fun j hj => ?_⟩ <;>
  obtain ⟨s, c, h1, h2, h3, h4, h5, h6, h7⟩ := key j hj
  · exact ⟨s, h1, h4, j + 1, Nat.lt_succ_self j, h6⟩
  · exact ⟨c, h2, h5, j + 1, Nat.lt_succ_self j, h7⟩
  · exact ⟨s, by rw [h3]; rfl, h4, j + 1, Nat.lt_succ_self j, h6⟩
  · exact ⟨c, by rw [h3]; rfl, h5, j + 1, Nat.lt_succ_self j, h7⟩

/-- `sinh`, `cosh` and `sinh_and_cosh`. -/
theorem C81_sinh_cosh (hu : R.u ≤ 1 / 2) (hd : d.Valid) :
    RoundedTaylor Real.sinh d (fun j => fnRounds d.getOrder j + Libm.acc R) (sinh d) ∧
    RoundedTaylor Real.cosh d (fun j => fnRounds d.getOrder j + Libm.acc R) (cosh d) ∧
    RoundedTaylor Real.sinh d (fun j => fnRounds d.getOrder j + Libm.acc R) ((sinhAndCosh d).map Prod.fst) ∧
    RoundedTaylor Real.cosh d (fun j => fnRounds d.getOrder j + Libm.acc R) ((sinhAndCosh d).map Prod.snd) := by
  have key : ∀ j ≤ d.order, ∃ s c, sinh d = .ok s ∧ cosh d = .ok c ∧ sinhAndCosh d = .ok (s, c) ∧ s.order = d.order ∧ c.order = d.order ∧
      RRep j (fnRounds d.getOrder j + Libm.acc R) s (psum (fun i => Real.sinh (d.coeffOf 0) * chC i + Real.cosh (d.coeffOf 0) * shC i) d.varPart (j + 1))
        (psum (fun i => |Real.sinh (d.coeffOf 0) * chC i + Real.cosh (d.coeffOf 0) * shC i|) (absPoly d.varPart) (j + 1)) ∧
      RRep j (fnRounds d.getOrder j + Libm.acc R) c (psum (fun i => Real.cosh (d.coeffOf 0) * chC i + Real.sinh (d.coeffOf 0) * shC i) d.varPart (j + 1))
        (psum (fun i => |Real.cosh (d.coeffOf 0) * chC i + Real.sinh (d.coeffOf 0) * shC i|) (absPoly d.varPart) (j + 1)) := by
    intro j hj
    obtain ⟨p0, c, s, hp0, hv0, hc, hs, hco, hso, hcr, hsr⟩ := hypParts_rrep hu hd hj
    have hS : R.Near (Libm.acc R) (CfFun.sinh p0 : Fl R).val (Real.sinh (d.coeffOf 0)) |Real.sinh (d.coeffOf 0)| :=
      ⟨by rw [← hv0]; exact Libm.sinh_err p0, le_rfl⟩
    have hC : R.Near (Libm.acc R) (CfFun.cosh p0 : Fl R).val (Real.cosh (d.coeffOf 0)) |Real.cosh (d.coeffOf 0)| :=
      ⟨by rw [← hv0]; exact Libm.cosh_err p0, le_rfl⟩
    obtain ⟨⟨s1, s2⟩, -⟩ := comb_rrep hj hco hso hS hC hcr hsr chC_or_shC
    obtain ⟨⟨c1, c2⟩, -⟩ := comb_rrep hj hco hso hC hS hcr hsr chC_or_shC
    refine ⟨_, _, ?_, ?_, ?_, s2, c2, s1.mono (fnRounds_le _ _ _), c1.mono (fnRounds_le _ _ _)⟩
    · unfold sinh; rw [bind_ok hp0, bind_ok hc, bind_ok hs]
    · unfold cosh; rw [bind_ok hp0, bind_ok hc, bind_ok hs]
    · unfold sinhAndCosh; rw [bind_ok hp0, bind_ok hc, bind_ok hs]
  refine ⟨roundedTaylor_of (iteratedDeriv_sinh_div _) fun j hj => ?_, roundedTaylor_of (iteratedDeriv_cosh_div _) fun j hj => ?_,
    roundedTaylor_of (iteratedDeriv_sinh_div _) fun j hj => ?_, roundedTaylor_of (iteratedDeriv_cosh_div _) fun j hj => ?_⟩ <;>
  obtain ⟨s, c, h1, h2, h3, h4, h5, h6, h7⟩ := key j hj
  · exact ⟨s, h1, h4, j + 1, Nat.lt_succ_self j, h6⟩
  · exact ⟨c, h2, h5, j + 1, Nat.lt_succ_self j, h7⟩
  · exact ⟨s, by rw [h3]; rfl, h4, j + 1, Nat.lt_succ_self j, h6⟩
  · exact ⟨c, by rw [h3]; rfl, h5, j + 1, Nat.lt_succ_self j, h7⟩

omit [Libm R]

/-- Quotients: the coefficients up to the order of the denominator are those of `a · (1 / d)`. -/
theorem C81_div {a : GDual (Fl R)} (ha : a.Valid) (hd : d.Valid) (h0 : d.coeffOf 0 ≠ 0) :
    ∃ r, a.div d = .ok r ∧ r.Valid ∧ r.getOrder = max a.getOrder d.getOrder ∧ ∀ E : String →₀ ℕ, E.degree ≤ d.getOrder →
      |r.coeffOf E - ∑ x ∈ Finset.antidiagonal E, a.coeffOf x.1 * d.taylorCoeff (fun t => t⁻¹) x.2| ≤
        ((1 + R.u) ^ ((d.getOrder + 3) * (2 ^ E.degree + 4)) - 1) * ∑ x ∈ Finset.antidiagonal E, |a.coeffOf x.1| * d.taylorAbs (fun t => t⁻¹) x.2 := by
  obtain ⟨r, h1, h2, _, _, h3⟩ := div_rrep ha hd h0 (Nat.zero_le _)
  refine ⟨r, h1, h3.vr, h2, fun E hE => ?_⟩
  obtain ⟨r', g1, -, M, g2, g3⟩ := div_rrep ha hd h0 hE
  rw [h1] at g1
  obtain rfl : r = r' := by injection g1
  have := (g3.near E le_rfl).1
  rw [coeff_mul, coeff_mul] at this
  have e1 : ∑ x ∈ Finset.antidiagonal E, coeff x.1 (a.exact.toMv ()) * coeff x.2 (psum (fun i => (-1) ^ i * (d.coeffOf 0)⁻¹ ^ (i + 1)) d.varPart M) =
      ∑ x ∈ Finset.antidiagonal E, a.coeffOf x.1 * d.taylorCoeff (fun t => t⁻¹) x.2 := by
    refine Finset.sum_congr rfl fun x hx => ?_
    have hx1 : x.2.degree ≤ E.degree := by
      rw [← Finset.mem_antidiagonal.1 hx, map_add]; omega
    rw [(coeff_psum_taylor (iteratedDeriv_inv_div _) (hx1.trans_lt g2)).1]
    rfl
  have e2 : ∑ x ∈ Finset.antidiagonal E, coeff x.1 (absPoly (a.exact.toMv ())) * coeff x.2 (psum (fun i => |(d.coeffOf 0)⁻¹| ^ (i + 1)) (absPoly d.varPart) M) =
      ∑ x ∈ Finset.antidiagonal E, |a.coeffOf x.1| * d.taylorAbs (fun t => t⁻¹) x.2 := by
    refine Finset.sum_congr rfl fun x hx => ?_
    have hx1 : x.2.degree ≤ E.degree := by
      rw [← Finset.mem_antidiagonal.1 hx, map_add]; omega
    rw [← (coeff_psum_taylor (iteratedDeriv_inv_div _) (hx1.trans_lt g2)).2, coeff_absPoly]
    congr 2
    refine psum_congr (fun i _ => ?_) _
    rw [abs_mul, abs_pow, abs_pow, abs_neg, abs_one, one_pow, one_mul]
  rw [e1, e2] at this
  exact this

/-- A number divided by a gdual. -/
theorem C81_divSG (c : Fl R) (hd : d.Valid) (h0 : d.coeffOf 0 ≠ 0) :
    ∃ r, divSG c d = .ok r ∧ r.Valid ∧ r.getOrder = d.getOrder ∧ ∀ E : String →₀ ℕ, E.degree ≤ d.getOrder →
      |r.coeffOf E - c.val * d.taylorCoeff (fun t => t⁻¹) E| ≤
        ((1 + R.u) ^ ((d.getOrder + 3) * (2 ^ E.degree + 4)) - 1) * (|c.val| * d.taylorAbs (fun t => t⁻¹) E) := by
  obtain ⟨r, h1, h2, _, _, h3⟩ := divSG_rrep c hd h0 (Nat.zero_le _)
  refine ⟨r, h1, h3.vr, h2, fun E hE => ?_⟩
  obtain ⟨r', g1, -, M, g2, g3⟩ := divSG_rrep c hd h0 hE
  rw [h1] at g1
  obtain rfl : r = r' := by injection g1
  have := (g3.near E le_rfl).1
  obtain ⟨t1, t2⟩ := coeff_psum_taylor (iteratedDeriv_inv_div (d.coeffOf 0)) g2
  rw [← psum_mul_C, ← psum_mul_C, mul_comm _ (C c.val), mul_comm _ (C |c.val|), coeff_C_mul, coeff_C_mul, t1] at this
  rw [← t2]
  have e : psum (fun i => |(-1) ^ i * (d.coeffOf 0)⁻¹ ^ (i + 1)|) (absPoly d.varPart) M = psum (fun i => |(d.coeffOf 0)⁻¹| ^ (i + 1)) (absPoly d.varPart) M :=
    psum_congr (fun i _ => by rw [abs_mul, abs_pow, abs_pow, abs_neg, abs_one, one_pow, one_mul]) _
  rw [e]
  exact this

end GDual

/-- A library with correctly rounded functions. -/
@[instance_reducible]
noncomputable def Libm.correct (R : Rounding ℝ) : Libm R where
  acc := 1
  exp x := Fl.round R (Real.exp x.val)
  log x := Fl.round R (Real.log x.val)
  sqrt x := Fl.round R (√x.val)
  cbrt x := Fl.round R (Spec.cbrt x.val)
  sin x := Fl.round R (Real.sin x.val)
  cos x := Fl.round R (Real.cos x.val)
  tan x := Fl.round R (Real.tan x.val)
  sinh x := Fl.round R (Real.sinh x.val)
  cosh x := Fl.round R (Real.cosh x.val)
  tanh x := Fl.round R (Real.tanh x.val)
  asin x := Fl.round R (Real.arcsin x.val)
  acos x := Fl.round R (Real.arccos x.val)
  atan x := Fl.round R (Real.arctan x.val)
  asinh x := Fl.round R (Real.arsinh x.val)
  acosh x := Fl.round R (Real.arcosh x.val)
  atanh x := Fl.round R (Real.artanh x.val)
  erf x := Fl.round R (Spec.erf x.val)
  pow x q := Fl.round R (x.val ^ (q : ℝ))
  powBase q x := Fl.round R ((q : ℝ) ^ x.val)
  pi := Fl.round R Real.pi
  twoOverSqrtPi := Fl.round R (2 / √Real.pi)
  exp_err x := by simpa [Fl.round] using R.err (Real.exp x.val)
  log_err x _ := by simpa [Fl.round] using R.err (Real.log x.val)
  sqrt_err x _ := by simpa [Fl.round] using R.err (√x.val)
  cbrt_err x := by simpa [Fl.round] using R.err (Spec.cbrt x.val)
  sin_err x := by simpa [Fl.round] using R.err (Real.sin x.val)
  cos_err x := by simpa [Fl.round] using R.err (Real.cos x.val)
  sinh_err x := by simpa [Fl.round] using R.err (Real.sinh x.val)
  cosh_err x := by simpa [Fl.round] using R.err (Real.cosh x.val)

/-- The hypotheses are met by `double` with correctly rounded functions and `gdual(1, "x", 3)`. -/
example : ∃ (R : Rounding ℝ) (_ : Libm R) (d : GDual (Fl R)), R.u = (2 ^ 53)⁻¹ ∧ R.u ≤ 1 / 2 ∧ GDual.mk3 (Cf.ofRat 1) "x" 3 = .ok d ∧ d.Valid ∧
    d.getOrder = 3 ∧ d.coeffOf 0 = 1 ∧ GDual.fnRounds 3 1 + Libm.acc R = 111 := by
  have h1 : (Cf.one : Fl (Rounding.nearest 52 : Rounding ℝ)).val = 1 := val_ofRat_one _
  have hv : (Poly.var "dx" : Poly (Fl (Rounding.nearest 52 : Rounding ℝ))).WF :=
    ⟨by simp [Poly.var], by simp [Poly.var], by simp [Poly.var], by simp [Poly.var, Cf.isZero, h1]⟩
  refine ⟨Rounding.nearest 52, Libm.correct _, ⟨(Poly.var "dx").add (Poly.const (Cf.ofRat 1)), 3⟩, rfl, ?_, ?_, ?_, rfl, ?_, rfl⟩
  · change ((2 : ℝ) ^ (52 + 1))⁻¹ ≤ 1 / 2
    norm_num
  · exact GDual.mk3_ok.2 ⟨by norm_num [UINT_MAX], ⟨'x', by decide, by decide⟩, rfl⟩
  · exact ⟨hv.add (Poly.wf_const _), Poly.deg_add hv (Poly.wf_const _) (by simp [Poly.var]) (Poly.deg_const _ _)⟩
  · have e1 : (Poly.var "dx" : Poly (Fl (Rounding.nearest 52 : Rounding ℝ))).cof 0 = 0 := by
      by_contra h
      obtain ⟨t, ht, h0⟩ := Poly.cof_ne_zero h
      simp only [Poly.var, List.mem_singleton] at ht
      subst ht
      have := congrArg (fun E => E "dx") h0
      simp [toExp, Poly.var] at this
    change ((Poly.var "dx").add (Poly.const (Cf.ofRat 1)) : Poly (Fl (Rounding.nearest 52 : Rounding ℝ))).cof 0 = 1
    rw [Poly.cof_add hv (Poly.wf_const _), e1, Poly.cof_const, if_pos rfl, val_ofRat_one, zero_add, Rounding.rnd_one]

end Audi
