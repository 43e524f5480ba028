import Verif.Spec.Trunc
import Mathlib.RingTheory.MvPolynomial.Ideal
import Mathlib.Algebra.MvPolynomial.CommRing

/-! Lemmas on polynomials up to a total degree. -/

namespace Audi.Spec

open MvPolynomial

section basic
variable {σ : Type*} {K : Type*} [CommRing K] {m n : ℕ} {P Q R S : MvPolynomial σ K}

theorem EqUpTo.refl (P : MvPolynomial σ K) : EqUpTo m P P := fun _ _ => rfl
theorem EqUpTo.symm (h : EqUpTo m P Q) : EqUpTo m Q P := fun e he => (h e he).symm
theorem EqUpTo.trans (h : EqUpTo m P Q) (h' : EqUpTo m Q R) : EqUpTo m P R :=
  fun e he => (h e he).trans (h' e he)
theorem EqUpTo.mono (h : EqUpTo m P Q) (hn : n ≤ m) : EqUpTo n P Q :=
  fun e he => h e (he.trans hn)
theorem EqUpTo.of_eq (h : P = Q) : EqUpTo m P Q := h ▸ EqUpTo.refl _

/-- Two polynomials of degree at most `m` that agree up to `m` are equal. -/
theorem EqUpTo.eq_of_degLE (h : EqUpTo m P Q) (hP : DegLE m P) (hQ : DegLE m Q) : P = Q := by
  ext e
  by_cases he : e.degree ≤ m
  · exact h e he
  · rw [hP e (not_le.mp he), hQ e (not_le.mp he)]

/-- The truncated polynomial algebra. -/
abbrev TruncRing (σ K : Type*) [CommRing K] (m : ℕ) :=
  MvPolynomial σ K ⧸ (idealOfVars σ K) ^ (m + 1)

/-- Projection on the truncated polynomial algebra. -/
noncomputable abbrev tr (m : ℕ) : MvPolynomial σ K →ₐ[K] TruncRing σ K m :=
  Ideal.Quotient.mkₐ K _

theorem tr_eq_iff : tr m P = tr m Q ↔ EqUpTo m P Q := by
  simp only [tr, Ideal.Quotient.mkₐ_eq_mk, Ideal.Quotient.eq, mem_pow_idealOfVars_iff']
  constructor
  · intro h e he
    have := h e (by omega)
    rwa [coeff_sub, sub_eq_zero] at this
  · intro h e he
    rw [coeff_sub, sub_eq_zero]
    exact h e (by omega)

theorem EqUpTo.add (h : EqUpTo m P Q) (h' : EqUpTo m R S) : EqUpTo m (P + R) (Q + S) := by
  rw [← tr_eq_iff] at *; simp only [map_add, h, h']

theorem EqUpTo.sub (h : EqUpTo m P Q) (h' : EqUpTo m R S) : EqUpTo m (P - R) (Q - S) := by
  rw [← tr_eq_iff] at *; simp only [map_sub, h, h']

theorem EqUpTo.neg (h : EqUpTo m P Q) : EqUpTo m (-P) (-Q) := by
  rw [← tr_eq_iff] at *; simp only [map_neg, h]

theorem EqUpTo.mul (h : EqUpTo m P Q) (h' : EqUpTo m R S) : EqUpTo m (P * R) (Q * S) := by
  rw [← tr_eq_iff] at *; simp only [map_mul, h, h']

theorem EqUpTo.pow (h : EqUpTo m P Q) (k : ℕ) : EqUpTo m (P ^ k) (Q ^ k) := by
  rw [← tr_eq_iff] at *; simp only [map_pow, h]

theorem EqUpTo.sum {ι : Type*} (s : Finset ι) {f g : ι → MvPolynomial σ K}
    (h : ∀ i ∈ s, EqUpTo m (f i) (g i)) : EqUpTo m (∑ i ∈ s, f i) (∑ i ∈ s, g i) := by
  rw [← tr_eq_iff, map_sum, map_sum]
  exact Finset.sum_congr rfl fun i hi => tr_eq_iff.mpr (h i hi)

/-- A polynomial without constant term is nilpotent in the truncated algebra. -/
theorem tr_pow_eq_zero (h : P.coeff 0 = 0) {k : ℕ} (hk : m < k) : (tr m P) ^ k = 0 := by
  rw [← map_pow, tr, Ideal.Quotient.mkₐ_eq_mk, Ideal.Quotient.eq_zero_iff_mem]
  have h1 : P ∈ idealOfVars σ K := by
    have := (mem_pow_idealOfVars_iff' 1 P).mpr (fun x hx => by
      have : x = 0 := by
        rw [← Finsupp.degree_eq_zero_iff]; omega
      rw [this, h])
    rwa [pow_one] at this
  exact Ideal.pow_le_pow_right (by omega) (Ideal.pow_mem_pow h1 k)

theorem EqUpTo.pderiv (h : EqUpTo (m + 1) P Q) (s : σ) :
    EqUpTo m (pderiv s P) (MvPolynomial.pderiv s Q) := by
  intro e he
  rw [coeff_pderiv, coeff_pderiv, h]
  rw [map_add, Finsupp.degree_single]; omega

end basic

end Audi.Spec
