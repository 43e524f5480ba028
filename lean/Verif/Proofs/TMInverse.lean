import Mathlib.Analysis.SpecialFunctions.Trigonometric.ArctanDeriv
import Mathlib.Analysis.SpecialFunctions.Trigonometric.InverseDeriv
import Verif.Proofs.FunctionsInv
import Verif.Proofs.TMRoots

/-!
# Proofs: inverse trigonometric functions of Taylor models
-/

namespace Audi


namespace TM
open MvPolynomial Spec

/-! ### Derivatives -/

/-- The derivatives of the inverse tangent. -/
noncomputable def atanD : ℕ → ℝ → ℝ
  | 0 => Real.arctan
  | j + 1 => fun t => j.factorial * Real.cos (Real.arctan t) ^ (j + 1) * Real.sin ((j + 1 : ℝ) * (Real.arctan t + Real.pi / 2))

theorem derivs_arctan : Derivs Set.univ atanD := by
  rintro (_ | j) t -
  · refine (Real.hasDerivAt_arctan t).congr_deriv ?_
    simp only [atanD, Nat.factorial_zero, Nat.cast_one, Nat.cast_zero, zero_add, one_mul, pow_one]
    rw [Real.sin_add_pi_div_two, ← sq, Real.cos_sq_arctan]
  · have hA := Real.hasDerivAt_arctan t
    have h1 : HasDerivAt (fun t => Real.cos (Real.arctan t)) (-Real.sin (Real.arctan t) * (1 / (1 + t ^ 2))) t := (Real.hasDerivAt_cos _).comp t hA
    have h2 := h1.pow (j + 1)
    have h3 : HasDerivAt (fun t => (j + 1 : ℝ) * (Real.arctan t + Real.pi / 2)) ((j + 1 : ℝ) * (1 / (1 + t ^ 2))) t := (hA.add_const _).const_mul _
    have h4 : HasDerivAt (fun t => Real.sin ((j + 1 : ℝ) * (Real.arctan t + Real.pi / 2))) _ t := (Real.hasDerivAt_sin _).comp t h3
    refine ((h2.const_mul (j.factorial : ℝ)).mul h4).congr_deriv ?_
    simp only [atanD]
    rw [← Real.cos_sq_arctan]
    have e : ((j + 1 : ℕ) + 1 : ℝ) * (Real.arctan t + Real.pi / 2) = (Real.arctan t + (j + 1 : ℝ) * (Real.arctan t + Real.pi / 2)) + Real.pi / 2 := by
      push_cast
      ring
    rw [e, Real.sin_add_pi_div_two, Real.cos_add, Nat.factorial_succ]
    push_cast
    rw [Pi.pow_apply]
    ring

/-- The derivatives of the inverse sine on (-1, 1). -/
noncomputable def asinDv : ℕ → ℝ → ℝ
  | 0 => Real.arcsin
  | 1 => fun t => 1 / √(1 - t ^ 2)
  | 2 => fun t => t / (1 - t ^ 2) * (1 / √(1 - t ^ 2))
  | k + 3 => fun t => 1 / (1 - t ^ 2) * ((2 * (k + 1 : ℝ) + 1) * t * asinDv (k + 2) t + (k + 1 : ℝ) ^ 2 * asinDv (k + 1) t)

theorem one_sub_sq_pos {t : ℝ} (ht : t ∈ Set.Ioo (-1 : ℝ) 1) : 0 < 1 - t ^ 2 := by
  nlinarith [ht.1, ht.2]

theorem derivs_arcsin : Derivs (Set.Ioo (-1) 1) asinDv := by
  have hq : ∀ t : ℝ, HasDerivAt (fun t : ℝ => 1 - t ^ 2) (-(2 * t)) t := fun t => by
    have := (hasDerivAt_pow 2 t).const_sub 1
    simpa using this
  have d1 : ∀ t ∈ Set.Ioo (-1 : ℝ) 1, HasDerivAt (asinDv 1) (asinDv 2 t) t := fun t ht => by
    have hp := one_sub_sq_pos ht
    have hs := Real.sqrt_pos.2 hp
    have := ((hq t).sqrt hp.ne').fun_inv hs.ne'
    refine (this.congr_of_eventuallyEq (Filter.Eventually.of_forall fun u => by simp [asinDv])).congr_deriv ?_
    simp only [asinDv]
    rw [show (1 - t ^ 2) = √(1 - t ^ 2) ^ 2 from (Real.sq_sqrt hp.le).symm]
    rw [Real.sqrt_sq hs.le]
    field_simp
  have step : ∀ k, ∀ t ∈ Set.Ioo (-1 : ℝ) 1, HasDerivAt (asinDv (k + 1)) (asinDv (k + 2) t) t → HasDerivAt (asinDv (k + 2)) (asinDv (k + 3) t) t →
      HasDerivAt (asinDv (k + 3)) (asinDv (k + 4) t) t := fun k t ht h1 h2 => by
    have hp := one_sub_sq_pos ht
    have hi := (hq t).fun_inv hp.ne'
    have h3 := (((hasDerivAt_id t).const_mul (2 * (k + 1 : ℝ) + 1)).mul h2).add (h1.const_mul ((k + 1 : ℝ) ^ 2))
    refine ((hi.mul h3).congr_of_eventuallyEq (Filter.Eventually.of_forall fun u => by simp [asinDv])).congr_deriv ?_
    have e3 : (2 * (k + 1 : ℝ) + 1) * t * asinDv (k + 2) t + (k + 1 : ℝ) ^ 2 * asinDv (k + 1) t = (1 - t ^ 2) * asinDv (k + 3) t := by
      simp only [asinDv]
      field_simp
    have e4 : asinDv (k + 4) t = 1 / (1 - t ^ 2) * ((2 * ((k + 1 : ℕ) + 1 : ℝ) + 1) * t * asinDv (k + 3) t + ((k + 1 : ℕ) + 1 : ℝ) ^ 2 * asinDv (k + 2) t) := rfl
    simp only [Pi.add_apply, Pi.mul_apply, id, mul_one]
    rw [e3, e4]
    push_cast
    field_simp
    ring
  have d2 : ∀ t ∈ Set.Ioo (-1 : ℝ) 1, HasDerivAt (asinDv 2) (asinDv 3 t) t := fun t ht => by
    have hp := one_sub_sq_pos ht
    have := ((hasDerivAt_id t).div (hq t) hp.ne').mul (d1 t ht)
    refine this.congr_deriv ?_
    simp only [asinDv, id, CharP.cast_eq_zero, Pi.div_apply]
    have hs := (Real.sqrt_pos.2 hp).ne'
    field_simp
    ring
  have main : ∀ k, ∀ t ∈ Set.Ioo (-1 : ℝ) 1, HasDerivAt (asinDv (k + 1)) (asinDv (k + 2) t) t ∧ HasDerivAt (asinDv (k + 2)) (asinDv (k + 3) t) t := by
    intro k
    induction k with
    | zero => exact fun t ht => ⟨d1 t ht, d2 t ht⟩
    | succ k ih => exact fun t ht => ⟨(ih t ht).2, step k t ht (ih t ht).1 (ih t ht).2⟩
  rintro (_ | k) t ht
  · exact Real.hasDerivAt_arcsin ht.1.ne' ht.2.ne
  · exact (main k t ht).1

end TM
end Audi
