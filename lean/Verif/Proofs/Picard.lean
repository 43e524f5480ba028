import Verif.Spec.Map
import Verif.Proofs.Trunc
import Mathlib.Algebra.MvPolynomial.Supported
import Mathlib.LinearAlgebra.Matrix.NonsingularInverse
import Mathlib.Tactic.Ring
import Mathlib.Tactic.LinearCombination

/-! Inversion of polynomial maps by Picard iterations (mathematics only). -/

namespace Audi.Spec

open MvPolynomial

section ideal
variable {σ : Type*} {K : Type*} [CommRing K] {m n k d : ℕ} {P Q : MvPolynomial σ K}

theorem eqUpTo_iff_mem : EqUpTo m P Q ↔ P - Q ∈ (idealOfVars σ K) ^ (m + 1) := by
  rw [← tr_eq_iff, tr, Ideal.Quotient.mkₐ_eq_mk, Ideal.Quotient.eq]

theorem mem_ideal_iff : P ∈ idealOfVars σ K ↔ coeff 0 P = 0 := by
  have := mem_pow_idealOfVars_iff' (σ := σ) (R := K) 1 P
  rw [pow_one] at this
  rw [this]
  constructor
  · intro h; exact h 0 (by simp)
  · intro h x hx
    have : x = 0 := by rw [← Finsupp.degree_eq_zero_iff]; omega
    rw [this, h]

theorem X_mem (s : σ) : (X s : MvPolynomial σ K) ∈ idealOfVars σ K := mem_ideal_iff.mpr (by simp)

variable {τ : Type*} {f g : σ → MvPolynomial τ K}

theorem aeval_mem_pow (hf : ∀ s, f s ∈ idealOfVars τ K) (hP : P ∈ (idealOfVars σ K) ^ k) : aeval f P ∈ (idealOfVars τ K) ^ k := by
  have h1 : (idealOfVars σ K).map (aeval f : MvPolynomial σ K →ₐ[K] MvPolynomial τ K) ≤ idealOfVars τ K := by
    conv_lhs => rw [idealOfVars]
    rw [Ideal.map_span, Ideal.span_le]
    rintro _ ⟨_, ⟨s, rfl⟩, rfl⟩
    simpa using hf s
  have h2 := Ideal.mem_map_of_mem (aeval f : MvPolynomial σ K →ₐ[K] MvPolynomial τ K) hP
  rw [Ideal.map_pow] at h2
  exact Ideal.pow_right_mono h1 k h2

theorem mul_sub_mul_mem {I : Ideal (MvPolynomial τ K)} {a b : ℕ} {P P' Q Q' : MvPolynomial τ K} (hP : P' ∈ I ^ a) (hQ : Q ∈ I ^ b)
    (h1 : P - P' ∈ I ^ (k + a)) (h2 : Q - Q' ∈ I ^ (k + b)) : P * Q - P' * Q' ∈ I ^ (k + (a + b)) := by
  have e : P * Q - P' * Q' = (P - P') * Q + P' * (Q - Q') := by ring
  rw [e]
  refine add_mem ?_ ?_
  · have := Ideal.mul_mem_mul h1 hQ
    rwa [← pow_add, add_assoc] at this
  · have := Ideal.mul_mem_mul hP h2
    rwa [← pow_add, show a + (k + b) = k + (a + b) by omega] at this

theorem pow_sub_pow_mem {I : Ideal (MvPolynomial τ K)} {P Q : MvPolynomial τ K} (hP : P ∈ I) (hQ : Q ∈ I) (h : P - Q ∈ I ^ (k + 1)) (n : ℕ) :
    P ^ n - Q ^ n ∈ I ^ (k + n) := by
  induction n with
  | zero => simp
  | succ n ih =>
    rw [pow_succ, pow_succ]
    exact mul_sub_mul_mem (Ideal.pow_mem_pow hQ n) (by rwa [pow_one]) ih h

theorem prod_sub_prod_mem {I : Ideal (MvPolynomial τ K)} (hf : ∀ s, f s ∈ I) (hg : ∀ s, g s ∈ I) (h : ∀ s, f s - g s ∈ I ^ (k + 1))
    (e : σ →₀ ℕ) : (e.prod fun s n => f s ^ n) - (e.prod fun s n => g s ^ n) ∈ I ^ (k + e.degree) := by
  classical
  have hmem : ∀ (u : σ → MvPolynomial τ K) (_ : ∀ s, u s ∈ I) (e : σ →₀ ℕ), (e.prod fun s n => u s ^ n) ∈ I ^ e.degree := by
    intro u hu e
    induction e using Finsupp.induction_linear with
    | zero => simp
    | add a b ha hb =>
      rw [Finsupp.prod_add_index' (by simp) (by intros; rw [pow_add]), map_add, pow_add]
      exact Ideal.mul_mem_mul ha hb
    | single s n =>
      rw [Finsupp.prod_single_index (by simp), Finsupp.degree_single]
      exact Ideal.pow_mem_pow (hu s) n
  induction e using Finsupp.induction_linear with
  | zero => simp
  | add a b ha hb =>
    rw [Finsupp.prod_add_index' (by simp) (by intros; rw [pow_add]), Finsupp.prod_add_index' (by simp) (by intros; rw [pow_add]), map_add]
    exact mul_sub_mul_mem (hmem g hg a) (hmem f hf b) ha hb
  | single s n =>
    rw [Finsupp.prod_single_index (by simp), Finsupp.prod_single_index (by simp), Finsupp.degree_single]
    exact pow_sub_pow_mem (hf s) (hg s) (h s) n

/-- Substitutions that agree up to degree `k` agree up to degree `d + k - 1` on polynomials whose terms have degree at least `d`. -/
theorem aeval_sub_aeval_mem (hf : ∀ s, f s ∈ idealOfVars τ K) (hg : ∀ s, g s ∈ idealOfVars τ K)
    (h : ∀ s, f s - g s ∈ (idealOfVars τ K) ^ (k + 1)) (hP : P ∈ (idealOfVars σ K) ^ d) :
    aeval f P - aeval g P ∈ (idealOfVars τ K) ^ (k + d) := by
  conv => rw [P.as_sum]
  rw [map_sum, map_sum, ← Finset.sum_sub_distrib]
  refine Submodule.sum_mem _ fun e he => ?_
  rw [aeval_monomial, aeval_monomial, ← mul_sub]
  refine Ideal.mul_mem_left _ _ (Ideal.pow_le_pow_right ?_ (prod_sub_prod_mem hf hg h e))
  have : d ≤ e.degree := by
    by_contra hc
    exact (mem_support_iff.mp he) ((mem_pow_idealOfVars_iff' d P).mp hP e (by omega))
  omega

theorem EqUpTo.aeval (hf : ∀ s, f s ∈ idealOfVars τ K) (h : EqUpTo m P Q) : EqUpTo m (aeval f P) (MvPolynomial.aeval f Q) := by
  rw [eqUpTo_iff_mem] at *
  rw [← map_sub]
  exact aeval_mem_pow hf h

theorem EqUpTo.aeval_congr (hf : ∀ s, f s ∈ idealOfVars τ K) (hg : ∀ s, g s ∈ idealOfVars τ K) (h : ∀ s, EqUpTo m (f s) (g s)) (P : MvPolynomial σ K) :
    EqUpTo m (MvPolynomial.aeval f P) (MvPolynomial.aeval g P) := by
  rw [eqUpTo_iff_mem]
  rcases m with _ | m
  · have := aeval_sub_aeval_mem (k := 0) (d := 0) hf hg (fun s => eqUpTo_iff_mem.mp (h s)) (P := P) (by simp)
    have e : P = C (coeff 0 P) + (P - C (coeff 0 P)) := by ring
    rw [e, map_add, map_add, aeval_C, aeval_C]
    have h1 := aeval_mem_pow (k := 1) hf (P := P - C (coeff 0 P)) (by rw [pow_one, mem_ideal_iff]; simp)
    have h2 := aeval_mem_pow (k := 1) hg (P := P - C (coeff 0 P)) (by rw [pow_one, mem_ideal_iff]; simp)
    have := sub_mem h1 h2
    convert this using 1
    ring
  · have e : P = C (coeff 0 P) + (P - C (coeff 0 P)) := by ring
    have h1 := aeval_sub_aeval_mem (k := m + 1) (d := 1) hf hg (fun s => eqUpTo_iff_mem.mp (h s)) (P := P - C (coeff 0 P))
      (by rw [pow_one, mem_ideal_iff]; simp)
    rw [e, map_add, map_add, aeval_C, aeval_C]
    convert h1 using 1
    ring

end ideal

section picard
variable {K : Type} [Field K] {n m k : ℕ} {A B : Matrix (Fin n) (Fin n) K} {x p : Fin n → String}
  {N G G' : Fin n → MvPolynomial String K} {s s' : String → MvPolynomial String K}

local notation "𝔪" => idealOfVars String K

/-- `A (B u) = u` for vectors of polynomials. -/
theorem mulVec_cancel (h : A * B = 1) (u : Fin n → MvPolynomial String K) (i : Fin n) :
    ∑ j, C (A i j) * ∑ l, C (B j l) * u l = u i := by
  have e : ∀ l, ∑ j, (C (A i j) * C (B j l) : MvPolynomial String K) = C ((1 : Matrix (Fin n) (Fin n) K) i l) := fun l => by
    rw [← h, Matrix.mul_apply, map_sum]
    exact Finset.sum_congr rfl fun j _ => (map_mul _ _ _).symm
  simp_rw [Finset.mul_sum, ← mul_assoc]
  rw [Finset.sum_comm]
  simp_rw [← Finset.sum_mul, e, Matrix.one_apply]
  simp

theorem sum_mul_mem {u v : Fin n → MvPolynomial String K} (h : ∀ j, u j - v j ∈ 𝔪 ^ k) (i : Fin n) :
    (∑ j, C (A i j) * u j) - (∑ j, C (A i j) * v j) ∈ 𝔪 ^ k := by
  rw [← Finset.sum_sub_distrib]
  refine Submodule.sum_mem _ fun j _ => ?_
  rw [← mul_sub]
  exact Ideal.mul_mem_left _ _ (h j)

/-- One Picard iteration gains one order. -/
theorem picard_step (hAB : A * B = 1) (hBA : B * A = 1) (hN : ∀ i, N i ∈ 𝔪 ^ 2) (hs : ∀ t, s t ∈ 𝔪) (hs' : ∀ t, s' t ∈ 𝔪)
    (hsx : ∀ j, s (x j) = G j) (hsx' : ∀ j, s' (x j) = G' j) (hoff : ∀ t, (∀ j, t ≠ x j) → s t = s' t)
    (hk : ∀ i, (∑ j, C (A i j) * G j) + aeval s (N i) - X (p i) ∈ 𝔪 ^ (k + 1)) (hkm : k + 1 ≤ m)
    (hG' : ∀ i, G' i - ∑ j, C (B i j) * (X (p j) - aeval s (N j)) ∈ 𝔪 ^ (m + 1)) (i : Fin n) :
    (∑ j, C (A i j) * G' j) + aeval s' (N i) - X (p i) ∈ 𝔪 ^ (k + 1 + 1) := by
  have h1 : ∀ j, G' j - G j ∈ 𝔪 ^ (k + 1) := fun j => by
    have e1 := sum_mul_mem (A := B) (u := fun i => ∑ j, C (A i j) * G j) (v := fun i => X (p i) - aeval s (N i)) (k := k + 1)
      (fun i => by have := hk i; convert this using 1; ring) j
    rw [mulVec_cancel hBA] at e1
    have e2 := Ideal.pow_le_pow_right (show k + 1 ≤ m + 1 by omega) (hG' j)
    have := sub_mem e2 e1
    convert this using 1
    ring
  have h2 : (∑ j, C (A i j) * G' j) - (X (p i) - aeval s (N i)) ∈ 𝔪 ^ (k + 1 + 1) := by
    have e1 := sum_mul_mem (A := A) (u := G') (v := fun i => ∑ j, C (B i j) * (X (p j) - aeval s (N j))) (k := m + 1) hG' i
    rw [mulVec_cancel hAB] at e1
    exact Ideal.pow_le_pow_right (by omega) e1
  have h3 : aeval s' (N i) - aeval s (N i) ∈ 𝔪 ^ (k + 2) := by
    refine aeval_sub_aeval_mem hs' hs (fun t => ?_) (hN i)
    by_cases ht : ∃ j, t = x j
    · obtain ⟨j, rfl⟩ := ht
      rw [hsx, hsx']; exact h1 j
    · rw [hoff t (fun j hj => ht ⟨j, hj⟩), sub_self]; exact zero_mem _
  have := add_mem h2 h3
  convert this using 1
  ring

/-- The first approximation, the inverse of the linear part. -/
theorem picard_base (hAB : A * B = 1) (hN : ∀ i, N i ∈ 𝔪 ^ 2) (hs : ∀ t, s t ∈ 𝔪) (hG : ∀ i, G i = ∑ j, C (B i j) * X (p j)) (i : Fin n) :
    (∑ j, C (A i j) * G j) + aeval s (N i) - X (p i) ∈ 𝔪 ^ (1 + 1) := by
  have : (∑ j, C (A i j) * G j) = X (p i) := by
    simp_rw [hG]; exact mulVec_cancel hAB (fun j => X (p j)) i
  rw [this, add_sub_cancel_left]
  exact aeval_mem_pow hs (hN i)

theorem aeval_congr_supported {f g : String → MvPolynomial String K} {T : Set String} {P : MvPolynomial String K} (hP : P ∈ supported K T)
    (h : ∀ t ∈ T, f t = g t) : aeval f P = aeval g P := by
  have : supported K T ≤ AlgHom.equalizer (aeval f : MvPolynomial String K →ₐ[K] MvPolynomial String K) (aeval g) := by
    refine Algebra.adjoin_le ?_
    rintro _ ⟨t, ht, rfl⟩
    simpa [AlgHom.mem_equalizer] using h t ht
  exact this hP

theorem aeval_mem_supported {f : String → MvPolynomial String K} {T S : Set String} {P : MvPolynomial String K} (hP : P ∈ supported K T)
    (h : ∀ t ∈ T, f t ∈ supported K S) : aeval f P ∈ supported K S := by
  have : supported K T ≤ (supported K S).comap (aeval f : MvPolynomial String K →ₐ[K] MvPolynomial String K) := by
    refine Algebra.adjoin_le ?_
    rintro _ ⟨t, ht, rfl⟩
    simpa using h t ht
  exact this hP

/-- A right inverse up to degree `m` with an invertible linear part is a left inverse up to degree `m`. -/
theorem left_inverse {F : Fin n → MvPolynomial String K} {u : String → MvPolynomial String K} (hp : Function.Injective p) (hBA : B * A = 1)
    (hF : ∀ i, F i ∈ supported K (Set.range x)) (hGp : ∀ i, G i ∈ supported K (Set.range p))
    (hG : ∀ i, G i - ∑ j, C (B i j) * X (p j) ∈ 𝔪 ^ 2) (hF0 : ∀ i, F i ∈ 𝔪)
    (hs : ∀ t, s t ∈ 𝔪) (hsx : ∀ j, s (x j) = G j) (hup : ∀ j, u (p j) = F j)
    (h : ∀ i, EqUpTo m (aeval s (F i)) (X (p i))) (i : Fin n) : EqUpTo m (aeval u (G i)) (X (x i)) := by
  classical
  have hG0 : ∀ i, G i ∈ 𝔪 := fun i => by
    have h1 : (∑ j, C (B i j) * X (p j) : MvPolynomial String K) ∈ 𝔪 := Submodule.sum_mem _ fun j _ => Ideal.mul_mem_left _ _ (X_mem _)
    have h2 := Ideal.pow_le_pow_right (show 1 ≤ 2 by omega) (hG i)
    rw [pow_one] at h2
    have := add_mem h2 h1
    rwa [sub_add_cancel] at this
  -- the composition applied to `G`
  set P := aeval u (G i) - X (x i) with hPdef
  have huG : aeval u (G i) = aeval (Function.extend p F X) (G i) := aeval_congr_supported (hGp i) (by
    rintro _ ⟨j, rfl⟩
    rw [hup, hp.extend_apply])
  have hext : ∀ (E : Fin n → MvPolynomial String K) (_ : ∀ j, E j ∈ 𝔪) (t : String), Function.extend p E X t ∈ 𝔪 := fun E hE t => by
    by_cases ht : ∃ j, p j = t
    · obtain ⟨j, rfl⟩ := ht
      rw [hp.extend_apply]; exact hE j
    · rw [Function.extend_apply' _ _ _ ht]; exact X_mem t
  have hP0 : P ∈ 𝔪 := by
    rw [hPdef, huG]
    have := aeval_mem_pow (k := 1) (hext F hF0) (P := G i) (by rw [pow_one]; exact hG0 i)
    rw [pow_one] at this
    exact sub_mem this (X_mem _)
  have hPx : P ∈ supported K (Set.range x) := sub_mem (aeval_mem_supported (hGp i) (by
    rintro _ ⟨j, rfl⟩; rw [hup]; exact hF j)) ((X_mem_supported).mpr ⟨i, rfl⟩)
  have hφP : aeval s P ∈ 𝔪 ^ (m + 1) := by
    have e1 : aeval s (aeval u (G i)) = aeval (Function.extend p (fun j => aeval s (F j)) X) (G i) := by
      rw [← AlgHom.comp_apply, comp_aeval]
      refine aeval_congr_supported (hGp i) ?_
      rintro _ ⟨j, rfl⟩
      rw [hp.extend_apply, hup]
    have e2 : EqUpTo m (aeval (Function.extend p (fun j => aeval s (F j)) X) (G i)) (aeval X (G i)) := by
      refine EqUpTo.aeval_congr (hext _ fun j => ?_) X_mem (fun t => ?_) _
      · have := aeval_mem_pow (k := 1) hs (P := F j) (by rw [pow_one]; exact hF0 j)
        rwa [pow_one] at this
      · by_cases ht : ∃ j, p j = t
        · obtain ⟨j, rfl⟩ := ht
          rw [hp.extend_apply]; exact h j
        · rw [Function.extend_apply' _ _ _ ht]; exact EqUpTo.refl _
    rw [aeval_X_left_apply, eqUpTo_iff_mem] at e2
    rw [hPdef, map_sub, e1, aeval_X, hsx]
    exact e2
  -- compose with the linear part
  let l : String → MvPolynomial String K := Function.extend p (fun j => ∑ k, C (A j k) * X (x k)) X
  have hl : ∀ t, l t ∈ 𝔪 := hext _ fun j => Submodule.sum_mem _ fun k _ => Ideal.mul_mem_left _ _ (X_mem _)
  have hlp : ∀ j, l (p j) = ∑ k, C (A j k) * X (x k) := fun j => hp.extend_apply _ _ j
  have hlG : ∀ j, aeval l (G j) - X (x j) ∈ 𝔪 ^ 2 := fun j => by
    have e1 := aeval_mem_pow hl (hG j)
    rw [map_sub, map_sum] at e1
    simp only [map_mul, aeval_X, hlp, algHom_C, algebraMap_eq] at e1
    rwa [mulVec_cancel hBA] at e1
  let w : String → MvPolynomial String K := fun t => if t ∈ Set.range x then aeval l (s t) else X t
  have hw : ∀ t, w t - X t ∈ 𝔪 ^ (1 + 1) := fun t => by
    by_cases ht : t ∈ Set.range x
    · obtain ⟨j, rfl⟩ := ht
      simp only [w, if_pos (Set.mem_range_self j), hsx]
      exact hlG j
    · simp only [w, if_neg ht, sub_self]
      exact zero_mem _
  have hw0 : ∀ t, w t ∈ 𝔪 := fun t => by
    have h1 := Ideal.pow_le_pow_right (show 1 ≤ 1 + 1 by omega) (hw t)
    rw [pow_one] at h1
    have := add_mem h1 (X_mem (K := K) t)
    rwa [sub_add_cancel] at this
  have hwP : aeval w P = aeval l (aeval s P) := by
    rw [← AlgHom.comp_apply, comp_aeval]
    refine aeval_congr_supported hPx ?_
    rintro t ht
    simp only [w, if_pos ht]
  have hlow : ∀ d, d ≤ m → P ∈ 𝔪 ^ (d + 1) := fun d => by
    induction d with
    | zero => intro _; rwa [pow_one]
    | succ d ih =>
      intro hd
      have e1 := aeval_sub_aeval_mem hw0 X_mem hw (ih (by omega))
      rw [aeval_X_left_apply, hwP] at e1
      have e2 := Ideal.pow_le_pow_right (show d + 1 + 1 ≤ m + 1 by omega) (aeval_mem_pow hl hφP)
      rw [show 1 + (d + 1) = d + 1 + 1 by omega] at e1
      have := sub_mem e2 e1
      rwa [sub_sub_cancel] at this
  exact eqUpTo_iff_mem.mpr (hlow m le_rfl)

end picard
end Audi.Spec
