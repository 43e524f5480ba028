import Verif.Proofs.Analytic
import Mathlib.Analysis.Calculus.MeanValue
import Mathlib.Analysis.Calculus.Deriv.Pow

/-!
# Proofs: Taylor's formula with Lagrange remainder, for a sequence of derivatives
-/

namespace Audi.Spec

open Topology Filter

/-- `G j` is the derivative of order `j` of `G 0` on the set `S`. -/
def Derivs (S : Set ℝ) (G : ℕ → ℝ → ℝ) : Prop := ∀ j : ℕ, ∀ t ∈ S, HasDerivAt (G j) (G (j + 1) t) t

variable {S : Set ℝ} {G : ℕ → ℝ → ℝ} {c x : ℝ}

theorem Derivs.isTaylor₁ (h : Derivs S G) (hS : IsOpen S) (hc : c ∈ S) (m : ℕ) :
    IsTaylor₁ c m (G 0) (fun i => G i c / i.factorial) := by
  induction m generalizing G with
  | zero => exact ⟨(h 0 c hc).continuousAt, by simp⟩
  | succ m ih =>
    refine IsTaylor₁.succ (by simp) (by filter_upwards [hS.mem_nhds hc] with t ht using h 0 t ht) ?_
    refine (ih (G := fun j => G (j + 1)) fun j t ht => h (j + 1) t ht).congr fun i _ => ?_
    rw [Nat.factorial_succ]
    push_cast
    have : (i.factorial : ℝ) ≠ 0 := by exact_mod_cast i.factorial_ne_zero
    field_simp

theorem Derivs.sum_hasDerivAt (h : Derivs S G) (x : ℝ) (n : ℕ) {t : ℝ} (ht : t ∈ S) :
    HasDerivAt (fun t => ∑ i ∈ Finset.range (n + 1), G i t / i.factorial * (x - t) ^ i) (G (n + 1) t / n.factorial * (x - t) ^ n) t := by
  induction n with
  | zero =>
    simp only [zero_add, Finset.sum_range_one, pow_zero, mul_one, Nat.factorial_zero, Nat.cast_one, div_one]
    exact h 0 t ht
  | succ n ih =>
    simp only [Finset.sum_range_succ _ (n + 1)]
    have h1 : HasDerivAt (fun t : ℝ => (x - t) ^ (n + 1)) ((n + 1 : ℕ) * (x - t) ^ n * (-1)) t := by
      have := ((hasDerivAt_id t).const_sub x).fun_pow (n + 1)
      simpa using this
    have h2 := ih.add (((h (n + 1) t ht).div_const ((n + 1).factorial : ℝ)).mul h1)
    refine h2.congr_deriv ?_
    rw [Nat.factorial_succ]
    push_cast
    have : (n.factorial : ℝ) ≠ 0 := by exact_mod_cast n.factorial_ne_zero
    have : (n + 1 : ℝ) ≠ 0 := by positivity
    field_simp
    ring

/-- Taylor's formula: the error of the expansion of order `k` is the next term with the derivative at a point in between. -/
theorem Derivs.lagrange (h : Derivs S G) (hS : S.OrdConnected) (hc : c ∈ S) (hx : x ∈ S) (k : ℕ) :
    ∃ θ : ℝ, 0 ≤ θ ∧ θ ≤ 1 ∧ G 0 x - ∑ i ∈ Finset.range (k + 1), G i c / i.factorial * (x - c) ^ i =
      G (k + 1) (c + θ * (x - c)) / (k + 1).factorial * (x - c) ^ (k + 1) := by
  rcases eq_or_ne x c with rfl | hne
  · refine ⟨0, le_rfl, zero_le_one, ?_⟩
    rw [Finset.sum_range_succ', Finset.sum_eq_zero (fun i _ => by simp)]
    simp
  set φ : ℝ → ℝ := fun t => ∑ i ∈ Finset.range (k + 1), G i t / i.factorial * (x - t) ^ i with hφ
  set ψ : ℝ → ℝ := fun t => (x - t) ^ (k + 1) with hψ
  have hφx : φ x = G 0 x := by
    rw [hφ]
    simp only
    rw [Finset.sum_range_succ', Finset.sum_eq_zero (fun i _ => by simp)]
    simp
  have hψ' : ∀ t, HasDerivAt ψ ((k + 1 : ℕ) * (x - t) ^ k * (-1)) t := fun t => by
    have := ((hasDerivAt_id t).const_sub x).fun_pow (k + 1)
    simpa using this
  have key : ∃ ξ, ξ ≠ x ∧ (∃ θ : ℝ, 0 ≤ θ ∧ θ ≤ 1 ∧ ξ = c + θ * (x - c)) ∧
      (ψ x - ψ c) * (G (k + 1) ξ / k.factorial * (x - ξ) ^ k) = (φ x - φ c) * ((k + 1 : ℕ) * (x - ξ) ^ k * (-1)) := by
    rcases lt_or_gt_of_ne hne with hlt | hlt
    · have hsub : Set.Icc x c ⊆ S := hS.out hx hc
      obtain ⟨ξ, hξ, e⟩ := exists_ratio_hasDerivAt_eq_ratio_slope φ _ hlt
        (fun t ht => (h.sum_hasDerivAt x k (hsub ht)).continuousAt.continuousWithinAt)
        (fun t ht => h.sum_hasDerivAt x k (hsub (Set.Ioo_subset_Icc_self ht))) ψ _
        (fun t _ => (hψ' t).continuousAt.continuousWithinAt) (fun t _ => hψ' t)
      refine ⟨ξ, hξ.1.ne', ⟨(c - ξ) / (c - x), div_nonneg (by linarith [hξ.2]) (by linarith),
        (div_le_one (by linarith)).2 (by linarith [hξ.1]), ?_⟩, by linear_combination -e⟩
      have : c - x ≠ 0 := by linarith
      field_simp
      ring
    · have hsub : Set.Icc c x ⊆ S := hS.out hc hx
      obtain ⟨ξ, hξ, e⟩ := exists_ratio_hasDerivAt_eq_ratio_slope φ _ hlt
        (fun t ht => (h.sum_hasDerivAt x k (hsub ht)).continuousAt.continuousWithinAt)
        (fun t ht => h.sum_hasDerivAt x k (hsub (Set.Ioo_subset_Icc_self ht))) ψ _
        (fun t _ => (hψ' t).continuousAt.continuousWithinAt) (fun t _ => hψ' t)
      refine ⟨ξ, hξ.2.ne, ⟨(ξ - c) / (x - c), div_nonneg (by linarith [hξ.1]) (by linarith),
        (div_le_one (by linarith)).2 (by linarith [hξ.2]), ?_⟩, e⟩
      have : x - c ≠ 0 := by linarith
      field_simp
      ring
  obtain ⟨ξ, hξ, ⟨θ, h0, h1, rfl⟩, e⟩ := key
  refine ⟨θ, h0, h1, ?_⟩
  have hp : (x - (c + θ * (x - c))) ^ k ≠ 0 := pow_ne_zero _ (sub_ne_zero.2 hξ.symm)
  have hf : (k.factorial : ℝ) ≠ 0 := by exact_mod_cast k.factorial_ne_zero
  have hk : (k + 1 : ℝ) ≠ 0 := by positivity
  rw [hφx] at e
  have e2 : ψ x = 0 := by simp [hψ]
  rw [e2] at e
  have e3 : (G 0 x - φ c) * (k + 1 : ℝ) = (x - c) ^ (k + 1) * (G (k + 1) (c + θ * (x - c)) / k.factorial) := by
    refine mul_right_cancel₀ hp ?_
    push_cast at e
    have e4 : ψ c = (x - c) ^ (k + 1) := rfl
    rw [e4] at e
    linear_combination e
  change G 0 x - φ c = _
  generalize G (k + 1) (c + θ * (x - c)) = g at e3 ⊢
  rw [Nat.factorial_succ]
  push_cast
  field_simp
  field_simp at e3
  linear_combination e3

end Audi.Spec
