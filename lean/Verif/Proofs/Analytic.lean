import Verif.Proofs.Series
import Verif.Spec.Functions
import Mathlib.Analysis.SpecialFunctions.ExpDeriv
import Mathlib.Analysis.SpecialFunctions.Log.Deriv
import Mathlib.Analysis.SpecialFunctions.Pow.Deriv
import Mathlib.Analysis.SpecialFunctions.Trigonometric.Deriv
import Mathlib.Analysis.SpecialFunctions.Trigonometric.DerivHyp
import Mathlib.Analysis.SpecialFunctions.Trigonometric.ArctanDeriv
import Mathlib.RingTheory.PowerSeries.Exp
import Mathlib.Analysis.Calculus.Deriv.ZPow

/-! Taylor coefficients of the real functions. -/

set_option linter.unusedSectionVars false

namespace Audi.Spec

open Topology Filter

variable {c : ℝ} {m : ℕ}

section generic
variable {𝕜 : Type*} [NontriviallyNormedField 𝕜] [CharZero 𝕜] {c : 𝕜} {m : ℕ}

/-- Functions equal to their derivative. -/
theorem isTaylor₁_expLike {e : 𝕜 → 𝕜} (h : ∀ t, HasDerivAt e (e t) t) :
    IsTaylor₁ c m e (fun i => e c / i.factorial) := by
  induction m with
  | zero => exact ⟨(h c).continuousAt, by simp⟩
  | succ m ih =>
    refine IsTaylor₁.succ (by simp) (Eventually.of_forall h) ?_
    refine ih.congr fun i _ => ?_
    rw [Nat.factorial_succ]
    push_cast
    have h1 : (i.factorial : 𝕜) ≠ 0 := by exact_mod_cast i.factorial_ne_zero
    have h2 : (i + 1 : 𝕜) ≠ 0 := by exact_mod_cast i.succ_ne_zero
    field_simp

/-- Coefficients of a logarithm with value `l` at `c`. -/
noncomputable def logCoeffK (l c : 𝕜) (i : ℕ) : 𝕜 :=
  if i = 0 then l else (-1) ^ (i - 1) / (i * c ^ i)

theorem isTaylor₁_logLike {L : 𝕜 → 𝕜} (hc : c ≠ 0) (h : ∀ᶠ t in 𝓝 c, HasDerivAt L t⁻¹ t) :
    IsTaylor₁ c m L (logCoeffK (L c) c) := by
  cases m with
  | zero => exact ⟨h.self_of_nhds.continuousAt, by simp [logCoeffK]⟩
  | succ m =>
    refine IsTaylor₁.succ (by simp [logCoeffK]) h ((isTaylor₁_inv (m := m) hc).congr fun i _ => ?_)
    have : (i + 1 : 𝕜) ≠ 0 := by exact_mod_cast i.succ_ne_zero
    simp only [logCoeffK, Nat.succ_ne_zero, if_false, Nat.add_sub_cancel]
    push_cast
    field_simp

end generic

theorem isTaylor₁_exp : IsTaylor₁ c m Real.exp (fun i => Real.exp c / i.factorial) :=
  isTaylor₁_expLike Real.hasDerivAt_exp

/-- Coefficients of the logarithm. -/
noncomputable def logCoeff (c : ℝ) (i : ℕ) : ℝ :=
  if i = 0 then Real.log c else (-1) ^ (i - 1) / (i * c ^ i)

theorem isTaylor₁_log (hc : c ≠ 0) : IsTaylor₁ c m Real.log (logCoeff c) :=
  isTaylor₁_logLike hc (by filter_upwards [isOpen_ne.mem_nhds hc] with t ht using Real.hasDerivAt_log ht)

theorem isTaylor₁_rpow (hc : 0 < c) (p : ℝ) :
    IsTaylor₁ c m (fun t => t ^ p) (fun i => binR p i * c ^ (p - i)) := by
  have h : ∀ᶠ t in 𝓝 c, HasDerivAt (fun t : ℝ => t ^ p) (p * t ^ p / t) t := by
    filter_upwards [isOpen_ne.mem_nhds hc.ne', lt_mem_nhds hc] with t ht ht'
    refine (Real.hasDerivAt_rpow_const (Or.inl ht)).congr_deriv ?_
    rw [Real.rpow_sub_one ht]
    ring
  refine (isTaylor₁_power hc.ne' p h).congr fun i _ => ?_
  rw [Real.rpow_sub_natCast hc.ne']
  ring

theorem isTaylor₁_zpow (hc : c ≠ 0) (n : ℤ) :
    IsTaylor₁ c m (fun t => t ^ n) (fun i => binR (n : ℝ) i * c ^ (n - i)) := by
  have h : ∀ᶠ t in 𝓝 c, HasDerivAt (fun t : ℝ => t ^ n) (n * t ^ n / t) t := by
    filter_upwards [isOpen_ne.mem_nhds hc] with t ht
    refine (hasDerivAt_zpow n t (Or.inl ht)).congr_deriv ?_
    rw [zpow_sub_one₀ ht]
    ring
  refine (isTaylor₁_power hc n h).congr fun i _ => ?_
  rw [zpow_sub₀ hc, zpow_natCast]
  ring

theorem isTaylor₁_sqrt (hc : 0 < c) :
    IsTaylor₁ c m Real.sqrt (fun i => √c * binR (1 / 2) i / c ^ i) := by
  refine isTaylor₁_power hc.ne' (1 / 2) ?_
  filter_upwards [lt_mem_nhds hc] with t ht
  refine (Real.hasDerivAt_sqrt ht.ne').congr_deriv ?_
  have h1 := Real.mul_self_sqrt ht.le
  have h2 : √t ≠ 0 := (Real.sqrt_pos.mpr ht).ne'
  field_simp
  nlinarith

theorem cbrt_of_pos {x : ℝ} (hx : 0 < x) : cbrt x = x ^ ((1 : ℝ) / 3) := by
  simp [cbrt, sign_pos hx, abs_of_pos hx]

theorem cbrt_of_neg {x : ℝ} (hx : x < 0) : cbrt x = -(-x) ^ ((1 : ℝ) / 3) := by
  simp [cbrt, sign_neg hx, abs_of_neg hx]

theorem isTaylor₁_cbrt (hc : c ≠ 0) :
    IsTaylor₁ c m cbrt (fun i => cbrt c * binR (1 / 3) i / c ^ i) := by
  refine isTaylor₁_power hc (1 / 3) ?_
  rcases lt_or_gt_of_ne hc with hc | hc
  · filter_upwards [gt_mem_nhds hc] with t ht
    have h1 : cbrt =ᶠ[𝓝 t] fun x => -(-x) ^ ((1 : ℝ) / 3) := by
      filter_upwards [gt_mem_nhds ht] with x hx using cbrt_of_neg hx
    refine HasDerivAt.congr_of_eventuallyEq ?_ h1
    have h2 : HasDerivAt (fun x : ℝ => -x) (-1) t := hasDerivAt_neg t
    have h3 := (h2.rpow_const (p := 1 / 3) (Or.inl (neg_ne_zero.mpr ht.ne))).neg
    refine h3.congr_deriv ?_
    rw [cbrt_of_neg ht, Real.rpow_sub_one (neg_ne_zero.mpr ht.ne)]
    have := ht.ne
    field_simp
  · filter_upwards [lt_mem_nhds hc] with t ht
    have h1 : cbrt =ᶠ[𝓝 t] fun x => x ^ ((1 : ℝ) / 3) := by
      filter_upwards [lt_mem_nhds ht] with x hx using cbrt_of_pos hx
    refine HasDerivAt.congr_of_eventuallyEq ?_ h1
    refine (Real.hasDerivAt_rpow_const (Or.inl ht.ne')).congr_deriv ?_
    rw [cbrt_of_pos ht, Real.rpow_sub_one ht.ne']
    ring

theorem cube_injective {x y : ℝ} (h : x ^ 3 = y ^ 3) : x = y :=
  (Odd.strictMono_pow (R := ℝ) (by decide : Odd 3)).injective h

/-! Sine and cosine -/

section generic
variable {𝕜 : Type*} [NontriviallyNormedField 𝕜] {c : 𝕜} {m : ℕ}

/-- Coefficients of cosh, sinh at 0. -/
noncomputable def chC (i : ℕ) : 𝕜 := if i % 2 = 0 then 1 / i.factorial else 0
noncomputable def shC (i : ℕ) : 𝕜 := if i % 2 = 1 then 1 / i.factorial else 0
/-- The sign pattern `+ + - -`. -/
noncomputable def eps (i : ℕ) : 𝕜 := (-1) ^ (i / 2)
/-- Coefficients of cos, sin at 0. -/
noncomputable def csC (i : ℕ) : 𝕜 := eps i * chC i
noncomputable def snC (i : ℕ) : 𝕜 := eps i * shC i

variable [CharZero 𝕜]

theorem succ_mul_chC (i : ℕ) : (i + 1 : 𝕜) * chC (i + 1) = shC i := by
  unfold chC shC
  have h0 : (i.factorial : 𝕜) ≠ 0 := by exact_mod_cast i.factorial_ne_zero
  rcases Nat.mod_two_eq_zero_or_one i with h | h
  · rw [if_neg (by omega), if_neg (by omega), mul_zero]
  · rw [if_pos (by omega), if_pos h, Nat.factorial_succ]
    push_cast
    have h2 : (i + 1 : 𝕜) ≠ 0 := by exact_mod_cast i.succ_ne_zero
    field_simp

theorem succ_mul_shC (i : ℕ) : (i + 1 : 𝕜) * shC (i + 1) = chC i := by
  unfold chC shC
  have h0 : (i.factorial : 𝕜) ≠ 0 := by exact_mod_cast i.factorial_ne_zero
  rcases Nat.mod_two_eq_zero_or_one i with h | h
  · rw [if_pos (by omega), if_pos h, Nat.factorial_succ]
    push_cast
    have h2 : (i + 1 : 𝕜) ≠ 0 := by exact_mod_cast i.succ_ne_zero
    field_simp
  · rw [if_neg (by omega), if_neg (by omega), mul_zero]

theorem eps_succ_odd {i : ℕ} (h : i % 2 = 1) : (eps (i + 1) : 𝕜) = -eps i := by
  unfold eps
  rw [show (i + 1) / 2 = i / 2 + 1 by omega, pow_succ]; ring

theorem eps_succ_even {i : ℕ} (h : i % 2 = 0) : (eps (i + 1) : 𝕜) = eps i := by
  unfold eps
  rw [show (i + 1) / 2 = i / 2 by omega]

theorem succ_mul_csC (i : ℕ) : (i + 1 : 𝕜) * csC (i + 1) = -snC i := by
  have h1 := succ_mul_chC (𝕜 := 𝕜) i
  unfold csC snC
  rcases Nat.mod_two_eq_zero_or_one i with h | h
  · have h2 : (shC i : 𝕜) = 0 := by unfold shC; rw [if_neg (by omega)]
    have h3 : (chC (i + 1) : 𝕜) = 0 := by unfold chC; rw [if_neg (by omega)]
    simp [h2, h3]
  · rw [eps_succ_odd h]; linear_combination (-eps i) * h1

theorem succ_mul_snC (i : ℕ) : (i + 1 : 𝕜) * snC (i + 1) = csC i := by
  have h1 := succ_mul_shC (𝕜 := 𝕜) i
  unfold csC snC
  rcases Nat.mod_two_eq_zero_or_one i with h | h
  · rw [eps_succ_even h]; linear_combination (eps i) * h1
  · have h2 : (shC (i + 1) : 𝕜) = 0 := by unfold shC; rw [if_neg (by omega)]
    have h3 : (chC i : 𝕜) = 0 := by unfold chC; rw [if_neg (by omega)]
    simp [h2, h3]

/-- Combinations of two functions with `S' = Co` and `Co' = -S`. -/
theorem isTaylor₁_trigLike {S Co : 𝕜 → 𝕜} (hS : ∀ t, HasDerivAt S (Co t) t) (hC : ∀ t, HasDerivAt Co (-S t) t) (A B : 𝕜) :
    IsTaylor₁ c m (fun t => A * S t + B * Co t)
      (fun i => (A * S c + B * Co c) * csC i + (A * Co c - B * S c) * snC i) := by
  have h0 : (csC 0 : 𝕜) = 1 := by simp [csC, eps, chC]
  have h1 : (snC 0 : 𝕜) = 0 := by simp [snC, eps, shC]
  induction m generalizing A B with
  | zero => exact ⟨(((hS c).const_mul A).add ((hC c).const_mul B)).continuousAt, by simp [h0, h1]⟩
  | succ m ih =>
    refine IsTaylor₁.succ (g' := fun t => -B * S t + A * Co t) (by simp [h0, h1]) ?_ ?_
    · refine Eventually.of_forall fun t => ?_
      refine (((hS t).const_mul A).add ((hC t).const_mul B)).congr_deriv ?_
      ring
    · refine (ih (-B) A).congr fun i _ => ?_
      have h2 := succ_mul_csC (𝕜 := 𝕜) i
      have h3 := succ_mul_snC (𝕜 := 𝕜) i
      linear_combination (-(A * S c + B * Co c)) * h2 - (A * Co c - B * S c) * h3

/-- Combinations of two functions with `S' = Co` and `Co' = S`. -/
theorem isTaylor₁_hypLike {S Co : 𝕜 → 𝕜} (hS : ∀ t, HasDerivAt S (Co t) t) (hC : ∀ t, HasDerivAt Co (S t) t) (A B : 𝕜) :
    IsTaylor₁ c m (fun t => A * S t + B * Co t)
      (fun i => (A * S c + B * Co c) * chC i + (A * Co c + B * S c) * shC i) := by
  have h0 : (chC 0 : 𝕜) = 1 := by simp [chC]
  have h1 : (shC 0 : 𝕜) = 0 := by simp [shC]
  induction m generalizing A B with
  | zero => exact ⟨(((hS c).const_mul A).add ((hC c).const_mul B)).continuousAt, by simp [h0, h1]⟩
  | succ m ih =>
    refine IsTaylor₁.succ (g' := fun t => B * S t + A * Co t) (by simp [h0, h1]) ?_ ?_
    · refine Eventually.of_forall fun t => ?_
      refine (((hS t).const_mul A).add ((hC t).const_mul B)).congr_deriv ?_
      ring
    · refine (ih B A).congr fun i _ => ?_
      have h2 := succ_mul_chC (𝕜 := 𝕜) i
      have h3 := succ_mul_shC (𝕜 := 𝕜) i
      linear_combination (-(A * S c + B * Co c)) * h2 - (A * Co c + B * S c) * h3

end generic

theorem isTaylor₁_sin_cos (A B : ℝ) :
    IsTaylor₁ c m (fun t => A * Real.sin t + B * Real.cos t)
      (fun i => (A * Real.sin c + B * Real.cos c) * csC i + (A * Real.cos c - B * Real.sin c) * snC i) :=
  isTaylor₁_trigLike Real.hasDerivAt_sin Real.hasDerivAt_cos A B

theorem isTaylor₁_sinh_cosh (A B : ℝ) :
    IsTaylor₁ c m (fun t => A * Real.sinh t + B * Real.cosh t)
      (fun i => (A * Real.sinh c + B * Real.cosh c) * chC i + (A * Real.cosh c + B * Real.sinh c) * shC i) :=
  isTaylor₁_hypLike Real.hasDerivAt_sinh Real.hasDerivAt_cosh A B

/-! tanh and tan -/

/-- Coefficients of tanh at 0, as rational numbers. -/
noncomputable def thQ (n : ℕ) : ℚ :=
  bernoulli (n + 1) * (4 ^ (n + 1) - 2 ^ (n + 1)) / (n + 1).factorial + if n = 0 then 1 else 0

open PowerSeries in
/-- `tanh * (e^x + e^-x) = e^x - e^-x` as power series. -/
theorem thQ_series : PowerSeries.mk thQ * (exp ℚ + rescale (-1 : ℚ) (exp ℚ)) = exp ℚ - rescale (-1 : ℚ) (exp ℚ) := by
  set E := exp ℚ
  set E' := rescale (-1 : ℚ) (exp ℚ)
  have hEE : E * E' = 1 := exp_mul_exp_neg_eq_one
  have hE2 : rescale (2 : ℚ) (exp ℚ) = E ^ 2 := by
    have := exp_pow_eq_rescale_exp (A := ℚ) 2
    exact_mod_cast this.symm
  have hE4 : rescale (4 : ℚ) (exp ℚ) = E ^ 4 := by
    have := exp_pow_eq_rescale_exp (A := ℚ) 4
    exact_mod_cast this.symm
  have hB := bernoulliPowerSeries_mul_exp_sub_one ℚ
  set B2 := rescale (2 : ℚ) (bernoulliPowerSeries ℚ)
  set B4 := rescale (4 : ℚ) (bernoulliPowerSeries ℚ)
  have hB2 : B2 * (E ^ 2 - 1) = C 2 * X := by
    have := congrArg (rescale (2 : ℚ)) hB
    rw [map_mul, map_sub, map_one, hE2, rescale_X] at this
    exact this
  have hB4 : B4 * (E ^ 4 - 1) = C 4 * X := by
    have := congrArg (rescale (4 : ℚ)) hB
    rw [map_mul, map_sub, map_one, hE4, rescale_X] at this
    exact this
  have hX : X * PowerSeries.mk thQ = B4 - B2 + X := by
    ext n
    cases n with
    | zero =>
      rw [coeff_zero_X_mul, map_add, map_sub, coeff_rescale, coeff_rescale, coeff_X]
      simp
    | succ n =>
      rw [coeff_succ_X_mul, coeff_mk, map_add, map_sub, coeff_rescale, coeff_rescale, coeff_X, thQ]
      simp only [bernoulliPowerSeries, coeff_mk, Algebra.algebraMap_self, RingHom.id_apply, Nat.add_eq_right]
      ring
  have hne : E ^ 2 - 1 ≠ 0 := by
    intro h
    have h1 := congrArg (coeff 1) h
    rw [← hE2, map_sub, coeff_rescale, coeff_exp] at h1
    simp at h1
  have h2 : C (2 : ℚ) = (2 : PowerSeries ℚ) := map_ofNat _ 2
  have h4 : C (4 : ℚ) = (4 : PowerSeries ℚ) := map_ofNat _ 4
  rw [h2] at hB2
  rw [h4] at hB4
  have key : (X * PowerSeries.mk thQ) * (E ^ 2 + 1) = X * (E ^ 2 - 1) := by
    refine mul_right_cancel₀ hne ?_
    rw [hX]
    linear_combination hB4 - (E ^ 2 + 1) * hB2
  have key2 : PowerSeries.mk thQ * (E ^ 2 + 1) = E ^ 2 - 1 := by
    refine mul_left_cancel₀ X_ne_zero ?_
    rw [← mul_assoc, key]
  linear_combination E' * key2 - (PowerSeries.mk thQ * E - E) * hEE

section generic
variable {𝕜 : Type*} [NontriviallyNormedField 𝕜] [CharZero 𝕜]

/-- Coefficients of tanh and tan at 0. -/
noncomputable def thC (n : ℕ) : 𝕜 := (thQ n : 𝕜)
noncomputable def tnC (n : ℕ) : 𝕜 := eps n * thC n

theorem thC_series : PowerSeries.mk thC * PowerSeries.mk chC = PowerSeries.mk (shC (𝕜 := 𝕜)) := by
  have h := congrArg (PowerSeries.map (Rat.castHom 𝕜)) thQ_series
  have h1 : PowerSeries.map (Rat.castHom 𝕜) (PowerSeries.exp ℚ + PowerSeries.rescale (-1 : ℚ) (PowerSeries.exp ℚ)) =
      PowerSeries.C 2 * PowerSeries.mk chC := by
    ext n
    simp only [PowerSeries.coeff_map, map_add, PowerSeries.coeff_rescale, PowerSeries.coeff_exp,
      PowerSeries.coeff_C_mul, PowerSeries.coeff_mk, chC]
    rcases Nat.mod_two_eq_zero_or_one n with hn | hn
    · rw [if_pos hn, Even.neg_one_pow (Nat.even_iff.mpr hn)]; simp; ring
    · rw [if_neg (by omega), Odd.neg_one_pow (Nat.odd_iff.mpr hn)]; simp
  have h2 : PowerSeries.map (Rat.castHom 𝕜) (PowerSeries.exp ℚ - PowerSeries.rescale (-1 : ℚ) (PowerSeries.exp ℚ)) =
      PowerSeries.C 2 * PowerSeries.mk shC := by
    ext n
    simp only [PowerSeries.coeff_map, map_sub, PowerSeries.coeff_rescale, PowerSeries.coeff_exp,
      PowerSeries.coeff_C_mul, PowerSeries.coeff_mk, shC]
    rcases Nat.mod_two_eq_zero_or_one n with hn | hn
    · rw [if_neg (by omega), Even.neg_one_pow (Nat.even_iff.mpr hn)]; simp
    · rw [if_pos hn, Odd.neg_one_pow (Nat.odd_iff.mpr hn)]; simp; ring
  have h3 : PowerSeries.map (Rat.castHom 𝕜) (PowerSeries.mk thQ) = PowerSeries.mk thC := by
    ext n; simp [thC]
  rw [map_mul, h1, h2, h3] at h
  have h4 : (PowerSeries.C (2 : 𝕜)) ≠ 0 := by
    rw [Ne, map_eq_zero_iff _ PowerSeries.C_injective]; norm_num
  refine mul_left_cancel₀ h4 ?_
  rw [← h]; ring

theorem thC_even {n : ℕ} (h : n % 2 = 0) : (thC n : 𝕜) = 0 := by
  unfold thC thQ
  rcases Nat.eq_zero_or_pos n with rfl | hn
  · simp [bernoulli_one]; norm_num
  · rw [bernoulli_eq_zero_of_odd (Nat.odd_iff.mpr (by omega)) (by omega), if_neg (by omega)]; simp

theorem tnC_series : PowerSeries.mk tnC * PowerSeries.mk csC = PowerSeries.mk (snC (𝕜 := 𝕜)) := by
  ext n
  have h := congrArg (PowerSeries.coeff n) (thC_series (𝕜 := 𝕜))
  rw [PowerSeries.coeff_mul] at h ⊢
  simp only [PowerSeries.coeff_mk] at h ⊢
  unfold snC
  rw [← h, Finset.mul_sum]
  refine Finset.sum_congr rfl fun p hp => ?_
  have hp' := Finset.mem_antidiagonal.mp hp
  unfold tnC csC
  rcases Nat.mod_two_eq_zero_or_one p.1 with h1 | h1
  · rw [thC_even h1]; ring
  rcases Nat.mod_two_eq_zero_or_one p.2 with h2 | h2
  · have : (eps n : 𝕜) = eps p.1 * eps p.2 := by
      unfold eps; rw [← pow_add]; congr 1; omega
    rw [this]; ring
  · have : (chC p.2 : 𝕜) = 0 := by unfold chC; rw [if_neg (by omega)]
    rw [this]; ring

end generic

/-! arctan -/

/-- Real and imaginary parts of `(1 + i c)^k`. -/
noncomputable def reK (c : ℝ) (k : ℕ) : ℝ := ((1 + Complex.I * c) ^ k).re
noncomputable def imK (c : ℝ) (k : ℕ) : ℝ := ((1 + Complex.I * c) ^ k).im

theorem reK_succ (c : ℝ) (k : ℕ) : reK c (k + 1) = reK c k - c * imK c k := by
  unfold reK imK; rw [pow_succ, Complex.mul_re]; simp; ring
theorem imK_succ (c : ℝ) (k : ℕ) : imK c (k + 1) = imK c k + c * reK c k := by
  unfold reK imK; rw [pow_succ, Complex.mul_im]; simp; ring

/-- `k (1+c²)^k` times the coefficients of arctan. -/
noncomputable def atN (c : ℝ) (k : ℕ) : ℝ :=
  if k % 2 = 1 then (-1) ^ (k / 2) * reK c k else (-1) ^ (k / 2) * imK c k

theorem atN_rec (c : ℝ) (k : ℕ) : atN c (k + 2) + 2 * c * atN c (k + 1) + (1 + c ^ 2) * atN c k = 0 := by
  unfold atN
  have hr := reK_succ c k
  have hi := imK_succ c k
  have hr2 := reK_succ c (k + 1)
  have hi2 := imK_succ c (k + 1)
  rcases Nat.mod_two_eq_zero_or_one k with h | h
  · rw [if_neg (by omega), if_pos (by omega), if_neg (by omega), show (k + 2) / 2 = k / 2 + 1 by omega,
      show (k + 1) / 2 = k / 2 by omega, pow_succ, hi2, hi, hr]; ring
  · rw [if_pos (by omega), if_neg (by omega), if_pos (by omega), show (k + 2) / 2 = k / 2 + 1 by omega,
      show (k + 1) / 2 = k / 2 + 1 by omega, pow_succ, hr2, hi, hr]; ring

/-- Coefficients of arctan at `c`. -/
noncomputable def atanCoeff (c : ℝ) (k : ℕ) : ℝ :=
  if k = 0 then Real.arctan c else atN c k / (k * (1 + c ^ 2) ^ k)

theorem hasDerivAt_pow_k (k : ℕ) (t : ℝ) :
    HasDerivAt (fun t : ℝ => (1 + Complex.I * t) ^ k) (k * (1 + Complex.I * t) ^ (k - 1) * Complex.I) t := by
  have h1 : HasDerivAt (fun z : ℂ => (1 + Complex.I * z) ^ k) (k * (1 + Complex.I * t) ^ (k - 1) * Complex.I) (t : ℂ) := by
    have h2 : HasDerivAt (fun z : ℂ => 1 + Complex.I * z) Complex.I (t : ℂ) := by
      simpa using ((hasDerivAt_id (t : ℂ)).const_mul Complex.I).const_add 1
    exact h2.pow k
  exact h1.comp_ofReal

theorem hasDerivAt_reK (k : ℕ) (t : ℝ) : HasDerivAt (fun t => reK t (k + 1)) (-(k + 1) * imK t k) t := by
  have h := (Complex.reCLM.hasFDerivAt.comp_hasDerivAt t (hasDerivAt_pow_k (k + 1) t))
  refine h.congr_deriv ?_
  simp only [Complex.reCLM_apply, imK, Nat.add_sub_cancel]
  have : ((k + 1 : ℕ) : ℂ) = ((k + 1 : ℝ) : ℂ) := by push_cast; ring
  rw [this, mul_assoc, Complex.re_ofReal_mul]
  simp
  ring

theorem hasDerivAt_imK (k : ℕ) (t : ℝ) : HasDerivAt (fun t => imK t (k + 1)) ((k + 1) * reK t k) t := by
  have h := (Complex.imCLM.hasFDerivAt.comp_hasDerivAt t (hasDerivAt_pow_k (k + 1) t))
  refine h.congr_deriv ?_
  simp only [Complex.imCLM_apply, reK, Nat.add_sub_cancel]
  have : ((k + 1 : ℕ) : ℂ) = ((k + 1 : ℝ) : ℂ) := by push_cast; ring
  rw [this, mul_assoc, Complex.im_ofReal_mul]
  simp

theorem hasDerivAt_atN (k : ℕ) (t : ℝ) :
    HasDerivAt (fun t => atN t (k + 1) / (1 + t ^ 2) ^ (k + 1))
      ((k + 1) * (atN t (k + 2) / (1 + t ^ 2) ^ (k + 2))) t := by
  have hp : (0 : ℝ) < 1 + t ^ 2 := by positivity
  have hq : HasDerivAt (fun t : ℝ => (1 + t ^ 2) ^ (k + 1)) ((k + 1) * (1 + t ^ 2) ^ k * (2 * t)) t := by
    have h1 : HasDerivAt (fun t : ℝ => 1 + t ^ 2) (2 * t) t := by
      simpa using (hasDerivAt_pow 2 t).const_add 1
    refine (h1.pow (k + 1)).congr_deriv ?_
    simp
  have hn : ∃ N', HasDerivAt (fun t => atN t (k + 1)) N' t ∧
      N' * (1 + t ^ 2) - 2 * (k + 1) * t * atN t (k + 1) = (k + 1) * atN t (k + 2) := by
    have hr := reK_succ t k
    have hi := imK_succ t k
    have hr2 := reK_succ t (k + 1)
    have hi2 := imK_succ t (k + 1)
    rcases Nat.mod_two_eq_zero_or_one k with h | h
    · refine ⟨(-1) ^ ((k + 1) / 2) * (-(k + 1) * imK t k), ?_, ?_⟩
      · have := (hasDerivAt_reK k t).const_mul ((-1) ^ ((k + 1) / 2))
        unfold atN
        simpa only [if_pos (show (k + 1) % 2 = 1 by omega)] using this
      · unfold atN
        rw [if_pos (by omega), if_neg (by omega), show (k + 2) / 2 = k / 2 + 1 by omega,
          show (k + 1) / 2 = k / 2 by omega, pow_succ, hi2, hr, hi]; ring
    · refine ⟨(-1) ^ ((k + 1) / 2) * ((k + 1) * reK t k), ?_, ?_⟩
      · have := (hasDerivAt_imK k t).const_mul ((-1) ^ ((k + 1) / 2))
        unfold atN
        simpa only [if_neg (show ¬ (k + 1) % 2 = 1 by omega)] using this
      · unfold atN
        rw [if_neg (by omega), if_pos (by omega), show (k + 2) / 2 = k / 2 + 1 by omega,
          show (k + 1) / 2 = k / 2 + 1 by omega, pow_succ, hr2, hr, hi]; ring
  obtain ⟨N', h1, h2⟩ := hn
  refine (h1.div hq (by positivity)).congr_deriv ?_
  have h3 : (1 + t ^ 2) ^ k ≠ 0 := by positivity
  rw [show (1 + t ^ 2) ^ (k + 2) = (1 + t ^ 2) ^ k * (1 + t ^ 2) ^ 2 by ring,
    show (1 + t ^ 2) ^ (k + 1) = (1 + t ^ 2) ^ k * (1 + t ^ 2) by ring, div_eq_iff (by positivity)]
  field_simp
  linear_combination h2

theorem isTaylor₁_atN (k : ℕ) :
    IsTaylor₁ c m (fun t => atN t (k + 1) / (1 + t ^ 2) ^ (k + 1))
      (fun i => (k + i).choose i * (atN c (k + i + 1) / (1 + c ^ 2) ^ (k + i + 1))) := by
  induction m generalizing k with
  | zero => exact ⟨(hasDerivAt_atN k c).continuousAt, by simp⟩
  | succ m ih =>
    refine IsTaylor₁.succ (by simp) (Eventually.of_forall fun t => hasDerivAt_atN k t) ?_
    refine ((ih (k + 1)).const_mul (k + 1 : ℝ)).congr fun i _ => ?_
    rw [show k + 1 + i + 1 = k + (i + 1) + 1 by ring]
    have h1 := Nat.choose_succ_right_eq (k + (i + 1)) i
    rw [show k + (i + 1) - i = k + 1 by omega] at h1
    have h2 : ((k + (i + 1)).choose (i + 1) : ℝ) * (i + 1) = (k + (i + 1)).choose i * (k + 1) := by
      exact_mod_cast h1
    rw [show k + 1 + i = k + (i + 1) by ring]
    linear_combination (-(atN c (k + (i + 1) + 1) / (1 + c ^ 2) ^ (k + (i + 1) + 1))) * h2

/-- Taylor coefficients of arctan. -/
theorem isTaylor₁_arctan : IsTaylor₁ c m Real.arctan (atanCoeff c) := by
  cases m with
  | zero => exact ⟨Real.continuous_arctan.continuousAt, by simp [atanCoeff]⟩
  | succ m =>
    refine IsTaylor₁.succ (by simp [atanCoeff]) (Eventually.of_forall fun t => Real.hasDerivAt_arctan t) ?_
    have h1 : (fun t : ℝ => 1 / (1 + t ^ 2)) = fun t => atN t (0 + 1) / (1 + t ^ 2) ^ (0 + 1) := by
      funext t; simp [atN, reK]
    rw [h1]
    refine (isTaylor₁_atN (c := c) (m := m) 0).congr fun i _ => ?_
    have : (i + 1 : ℝ) ≠ 0 := by positivity
    have hp : (1 + c ^ 2 : ℝ) ≠ 0 := by positivity
    simp only [atanCoeff, Nat.succ_ne_zero, if_false, zero_add, Nat.choose_self]
    push_cast
    field_simp

/-! artanh -/

section generic
variable {𝕜 : Type*} [NontriviallyNormedField 𝕜] [CharZero 𝕜] {c : 𝕜} {m : ℕ}

/-- Coefficients at `c` of an inverse hyperbolic tangent with value `v` at `c`. -/
noncomputable def atanhCoeffK (v c : 𝕜) (k : ℕ) : 𝕜 :=
  if k = 0 then v else 1 / 2 * ((1 / (1 - c) ^ k + (-1) ^ (k - 1) / (1 + c) ^ k) / k)

theorem isTaylor₁_atanhLike {A : 𝕜 → 𝕜} (h1 : 1 - c ≠ 0) (h2 : 1 + c ≠ 0)
    (h : ∀ᶠ t in 𝓝 c, HasDerivAt A (1 / 2 * ((1 - t)⁻¹ + (1 + t)⁻¹)) t) : IsTaylor₁ c m A (atanhCoeffK (A c) c) := by
  cases m with
  | zero => exact ⟨h.self_of_nhds.continuousAt, by simp [atanhCoeffK]⟩
  | succ m =>
    have e1 := IsTaylor₁.affine (c := c) (m := m) (-1) 1
      (isTaylor₁_inv (c := -1 * c + 1) (m := m) (by rwa [show -1 * c + 1 = 1 - c by ring]))
    have e2 := IsTaylor₁.affine (c := c) (m := m) 1 1
      (isTaylor₁_inv (c := 1 * c + 1) (m := m) (by rwa [show 1 * c + 1 = 1 + c by ring]))
    have e3 := (e1.add e2).const_mul (1 / 2)
    refine IsTaylor₁.succ (by simp [atanhCoeffK]) h ((e3.congr_fun ?_).congr fun i _ => ?_)
    · exact Eventually.of_forall fun t => by
        simp only [show -1 * t + 1 = 1 - t by ring, show 1 * t + 1 = 1 + t by ring]
    · have hi : (i + 1 : 𝕜) ≠ 0 := by exact_mod_cast i.succ_ne_zero
      have h6 : ((-1 : 𝕜) ^ i) * (-1) ^ i = 1 := by rw [← mul_pow]; simp
      simp only [atanhCoeffK, Nat.succ_ne_zero, if_false, Nat.add_sub_cancel, show -1 * c + 1 = 1 - c by ring,
        show 1 * c + 1 = 1 + c by ring, div_mul_eq_mul_div, h6, one_pow, mul_one]
      push_cast
      field_simp

end generic

/-- Coefficients of artanh at `c`. -/
noncomputable def atanhCoeff (c : ℝ) (k : ℕ) : ℝ :=
  if k = 0 then Real.artanh c else 1 / 2 * ((1 / (1 - c) ^ k + (-1) ^ (k - 1) / (1 + c) ^ k) / k)

theorem isTaylor₁_artanh (hc : |c| < 1) : IsTaylor₁ c m Real.artanh (atanhCoeff c) := by
  rw [abs_lt] at hc
  have h1 := IsTaylor₁.affine (c := c) (m := m) 1 1
    (isTaylor₁_log (show (1 * c + 1 : ℝ) ≠ 0 by linarith [hc.1]))
  have h2 := IsTaylor₁.affine (c := c) (m := m) (-1) 1
    (isTaylor₁_log (show (-1 * c + 1 : ℝ) ≠ 0 by linarith [hc.2]))
  have h3 := (h1.add (h2.const_mul (-1))).const_mul (1 / 2)
  have hlog : ∀ t : ℝ, -1 < t → t < 1 →
      1 / 2 * (Real.log (1 * t + 1) + -1 * Real.log (-1 * t + 1)) = Real.artanh t := by
    intro t h1 h2
    rw [Real.artanh_eq_half_log ⟨h1.le, h2.le⟩, Real.log_div (by linarith) (by linarith),
      show 1 * t + 1 = 1 + t by ring, show -1 * t + 1 = 1 - t by ring]
    ring
  refine (h3.congr_fun ?_).congr fun i _ => ?_
  · filter_upwards [Ioo_mem_nhds hc.1 hc.2] with t ht using hlog t ht.1 ht.2
  · unfold logCoeff atanhCoeff
    split_ifs with hi
    · subst hi
      simpa using hlog c hc.1 hc.2
    · obtain ⟨k, rfl⟩ := Nat.exists_eq_succ_of_ne_zero hi
      have h4 : (1 - c) ≠ 0 := by linarith [hc.2]
      have h5 : (1 + c) ≠ 0 := by linarith [hc.1]
      have h6 : ((-1 : ℝ) ^ k) * (-1) ^ k = 1 := by rw [← mul_pow]; simp
      rw [show 1 * c + 1 = 1 + c by ring, show -1 * c + 1 = 1 - c by ring]
      simp only [Nat.succ_eq_add_one, Nat.add_sub_cancel]
      have h7 : ((k + 1 : ℕ) : ℝ) ≠ 0 := by positivity
      rw [pow_succ (-1 : ℝ) k]
      field_simp
      linear_combination (1 + c) ^ (k + 1) * h6

end Audi.Spec
