import Verif.Proofs.LineSeries
import Mathlib.RingTheory.RootsOfUnity.Complex
import Mathlib.Analysis.Calculus.Deriv.Polynomial
import Mathlib.Algebra.BigOperators.Ring.Finset

/-! # Proofs: Cauchy's estimates for functions of several complex variables -/

namespace Audi.Spec

open MvPolynomial Topology Filter

variable {σ : Type*}

section
variable {𝕜 : Type*} [RCLike 𝕜]

theorem coeff_linePoly (y : σ → 𝕜) (P : MvPolynomial σ 𝕜) (k : ℕ) :
    (linePoly y P).coeff k = ∑ e ∈ P.support, if e.degree = k then P.coeff e * e.prod fun s n => y s ^ n else 0 := by
  have h : ∀ e : σ →₀ ℕ, (∏ i ∈ e.support, (Polynomial.C (y i) * Polynomial.X) ^ e i : Polynomial 𝕜) =
      Polynomial.C (e.prod fun s n => y s ^ n) * Polynomial.X ^ e.degree := fun e => by
    simp only [mul_pow, Finset.prod_mul_distrib, ← Polynomial.C_pow]
    rw [Finset.prod_pow_eq_pow_sum, ← map_prod]
    rfl
  unfold linePoly
  rw [aeval_def, eval₂_eq, Polynomial.finsetSum_coeff]
  refine Finset.sum_congr rfl fun e _ => ?_
  rw [h e, ← mul_assoc, Polynomial.algebraMap_eq, ← Polynomial.C_mul, Polynomial.coeff_C_mul_X_pow]
  simp only [eq_comm]

end

/-- Orthogonality of the powers of a root of unity. -/
theorem sum_root_pow {N : ℕ} (hN : 0 < N) {ω : ℂ} (hω : IsPrimitiveRoot ω N) {e E : ℕ} (he : e < N) (hE : E < N) :
    ∑ j : Fin N, (ω ^ (j : ℕ)) ^ e * ((ω ^ (j : ℕ)) ^ E)⁻¹ = if e = E then (N : ℂ) else 0 := by
  have h0 : ω ≠ 0 := hω.ne_zero hN.ne'
  have h1 : ∀ j : Fin N, (ω ^ (j : ℕ)) ^ e * ((ω ^ (j : ℕ)) ^ E)⁻¹ = (ω ^ e * (ω ^ E)⁻¹) ^ (j : ℕ) := fun j => by
    rw [mul_pow, inv_pow, ← pow_mul, ← pow_mul, ← pow_mul, ← pow_mul, mul_comm e, mul_comm E]
  rw [Finset.sum_congr rfl fun j _ => h1 j, Fin.sum_univ_eq_sum_range (fun j => (ω ^ e * (ω ^ E)⁻¹) ^ j)]
  split_ifs with h
  · subst h
    rw [mul_inv_cancel₀ (pow_ne_zero _ h0)]
    simp
  · have h2 : ω ^ e * (ω ^ E)⁻¹ ≠ 1 := fun h3 => h (hω.pow_inj he hE (by
      rw [← div_eq_mul_inv] at h3
      exact eq_of_div_eq_one h3))
    rw [geom_sum_eq h2]
    have h4 : (ω ^ e * (ω ^ E)⁻¹) ^ N = 1 := by
      rw [mul_pow, inv_pow, ← pow_mul, ← pow_mul, mul_comm e, mul_comm E, pow_mul, pow_mul, hω.pow_eq_one]
      simp
    rw [h4, sub_self, zero_div]

/-- The coefficients of a homogeneous part are bounded by its values on the torus. -/
theorem norm_coeff_le {P : MvPolynomial σ ℂ} {S : Finset σ} (hP : ∀ e ∈ P.support, e.support ⊆ S) {k : ℕ} {B : ℝ}
    (h : ∀ y : σ → ℂ, (∀ s, ‖y s‖ ≤ 1) → (∀ s, s ∉ S → y s = 0) → ‖(linePoly y P).coeff k‖ ≤ B) {E : σ →₀ ℕ} (hE : E.degree = k) : ‖P.coeff E‖ ≤ B := by
  classical
  by_cases hmem : E ∈ P.support
  swap
  · rw [notMem_support_iff.1 hmem, norm_zero]
    exact (norm_nonneg _).trans (h (fun _ => 0) (by simp) (by simp))
  obtain ⟨N, hNdef⟩ : ∃ N, N = P.support.sup Finsupp.degree + 1 := ⟨_, rfl⟩
  have hN : 0 < N := by omega
  have hlt : ∀ e ∈ P.support, ∀ s, e s < N := fun e he s => by
    have h1 : e.degree ≤ P.support.sup Finsupp.degree := Finset.le_sup (f := Finsupp.degree) he
    have h2 : e s ≤ e.degree := Finsupp.le_degree s e
    omega
  obtain ⟨ω, hω⟩ : ∃ ω : ℂ, IsPrimitiveRoot ω N := ⟨_, Complex.isPrimitiveRoot_exp N hN.ne'⟩
  have hω1 : ‖ω‖ = 1 := hω.norm'_eq_one hN.ne'
  let y : (S → Fin N) → σ → ℂ := fun j s => if hs : s ∈ S then ω ^ (j ⟨s, hs⟩ : ℕ) else 0
  have hy1 : ∀ j s, ‖y j s‖ ≤ 1 := fun j s => by
    by_cases hs : s ∈ S
    · simp [y, hs, hω1]
    · simp [y, hs]
  have hy0 : ∀ j s, s ∉ S → y j s = 0 := fun j s hs => by simp [y, hs]
  have hmono : ∀ e : σ →₀ ℕ, e.support ⊆ S → ∀ j, (e.prod fun s n => y j s ^ n) = ∏ s : S, (ω ^ (j s : ℕ)) ^ e s := fun e he j => by
    rw [Finsupp.prod_of_support_subset _ he _ fun _ _ => pow_zero _, ← Finset.prod_coe_sort]
    refine Finset.prod_congr rfl fun s _ => ?_
    simp [y]
  have hsum : ∑ j : S → Fin N, (linePoly (y j) P).coeff k * ∏ s : S, ((ω ^ (j s : ℕ)) ^ E s)⁻¹ = (N : ℂ) ^ S.card * P.coeff E := by
    have h1 : ∀ e ∈ P.support, ∑ j : S → Fin N, (if e.degree = k then P.coeff e * (e.prod fun s n => y j s ^ n) else 0) * ∏ s : S, ((ω ^ (j s : ℕ)) ^ E s)⁻¹ =
        if e = E then (N : ℂ) ^ S.card * P.coeff E else 0 := fun e he => by
      by_cases hk : e.degree = k
      · simp only [if_pos hk]
        have h2 : ∀ j : S → Fin N, P.coeff e * (e.prod fun s n => y j s ^ n) * ∏ s : S, ((ω ^ (j s : ℕ)) ^ E s)⁻¹ =
            P.coeff e * ∏ s : S, ((ω ^ (j s : ℕ)) ^ e s * ((ω ^ (j s : ℕ)) ^ E s)⁻¹) := fun j => by
          rw [hmono e (hP e he) j, Finset.prod_mul_distrib, mul_assoc]
        rw [Finset.sum_congr rfl fun j _ => h2 j, ← Finset.mul_sum]
        have h3 : ∑ j : S → Fin N, ∏ s : S, ((ω ^ (j s : ℕ)) ^ e s * ((ω ^ (j s : ℕ)) ^ E s)⁻¹) =
            ∏ s : S, ∑ j : Fin N, (ω ^ (j : ℕ)) ^ e s * ((ω ^ (j : ℕ)) ^ E s)⁻¹ := by
          rw [Finset.prod_univ_sum]
          simp [Fintype.piFinset_univ]
        rw [h3, Finset.prod_congr rfl fun (s : S) _ => sum_root_pow hN hω (hlt e he (s : σ)) (hlt E hmem (s : σ))]
        split_ifs with h4
        · subst h4
          simp [mul_comm]
        · have : ∃ s : S, e s ≠ E s := by
            by_contra hc
            push Not at hc
            refine h4 (Finsupp.ext fun s => ?_)
            by_cases hs : s ∈ S
            · exact hc ⟨s, hs⟩
            · rw [Finsupp.notMem_support_iff.1 fun h => hs (hP e he h), Finsupp.notMem_support_iff.1 fun h => hs (hP E hmem h)]
          obtain ⟨s, hs⟩ := this
          rw [Finset.prod_eq_zero (Finset.mem_univ s) (if_neg hs), mul_zero]
      · simp only [if_neg hk, zero_mul, Finset.sum_const_zero]
        rw [if_neg fun h => hk (by rw [h, hE])]
    simp only [coeff_linePoly, Finset.sum_mul]
    rw [Finset.sum_comm, Finset.sum_congr rfl h1, Finset.sum_ite_eq' P.support E, if_pos hmem]
  have hle : ‖(N : ℂ) ^ S.card * P.coeff E‖ ≤ (N : ℝ) ^ S.card * B := by
    rw [← hsum]
    refine (norm_sum_le _ _).trans (le_trans (b := ∑ _j : S → Fin N, B) (Finset.sum_le_sum fun j _ => ?_) (le_of_eq ?_))
    · rw [norm_mul, norm_prod]
      simp only [norm_inv, norm_pow, hω1, one_pow, inv_one, Finset.prod_const_one, mul_one]
      exact h (y j) (hy1 j) (hy0 j)
    · simp
  rw [norm_mul, norm_pow, Complex.norm_natCast] at hle
  exact le_of_mul_le_mul_left hle (by positivity)

variable [DecidableEq σ] {F : (σ → ℂ) → ℂ} {a : σ → ℂ}

/-- The function of the parameter of a line is differentiable. -/
theorem IsTaylor.differentiable_line {x : σ → ℂ} {P : MvPolynomial σ ℂ} (h : IsTaylor x 1 F P) (S : Finset σ) {y : σ → ℂ} (hy : ∀ s, ‖y s‖ ≤ 1)
    (hyS : ∀ s, s ∉ S → y s = 0) : DifferentiableAt ℂ (fun t : ℂ => F fun s => x s + t * y s) 0 := by
  have hd : HasDerivAt (fun t : ℂ => (F fun s => x s + t * y s) - (linePoly y P).eval t) 0 0 := by
    rw [hasDerivAt_iff_isLittleO, Asymptotics.isLittleO_iff]
    intro ε hε
    obtain ⟨δ, hδ, hh⟩ := mem_nhdsGT_iff_exists_Ioo_subset.1 (h.peano S hε)
    have h0 : F x = eval (fun _ => 0) P := by
      have := h.val
      rw [this, ← constantCoeff_eq, ← eval_zero]
      rfl
    filter_upwards [Metric.ball_mem_nhds (0 : ℂ) hδ] with t ht
    have ht' : ‖t‖ < δ := by simpa using ht
    simp only [zero_mul, add_zero, eval_linePoly, sub_zero, smul_zero, ← h0, sub_self]
    by_cases hz : t = 0
    · subst hz
      simp only [zero_mul, add_zero, ← h0]
      simp
    · have h1 := hh ⟨norm_pos_iff.2 hz, ht'⟩ (fun s => x s + t * y s) ⟨fun s hs => by simp [hyS s hs], fun s => by
        rw [add_sub_cancel_left, norm_mul]
        exact mul_le_of_le_one_right (norm_nonneg _) (hy s)⟩
      simpa only [add_sub_cancel_left, pow_one] using h1
  have h2 := hd.differentiableAt.add (linePoly y P).differentiable.differentiableAt
  refine h2.congr_of_eventuallyEq (Eventually.of_forall fun t => ?_)
  simp

/-- Along each line, the Taylor polynomial of a holomorphic function has coefficients bounded by Cauchy's estimates, and is close to the function. -/
theorem holomorphic_line (S : Finset σ) {R M : ℝ} (hR : 0 < R) (hd : ∀ x, Near S a R x → ∃ P, IsTaylor x 1 F P) (hM : ∀ x, Near S a R x → ‖F x‖ ≤ M)
    {m : ℕ} {P : MvPolynomial σ ℂ} (h : IsTaylor a m F P) (hP : ∀ e ∈ P.support, e.degree ≤ m) {y : σ → ℂ} (hy : ∀ s, ‖y s‖ ≤ 1) (hyS : ∀ s, s ∉ S → y s = 0) :
    (∀ k, ‖(linePoly y P).coeff k‖ ≤ M / R ^ k) ∧
      ∀ t : ℂ, ‖t‖ < R → ‖(F fun s => a s + t * y s) - eval (fun s => t * y s) P‖ ≤ M * (‖t‖ / R) ^ (m + 1) / (1 - ‖t‖ / R) := by
  have hnear : ∀ t : ℂ, ‖t‖ ≤ R → Near S a R fun s => a s + t * y s := fun t ht => ⟨fun s hs => by simp [hyS s hs], fun s => by
    rw [add_sub_cancel_left, norm_mul]
    exact (mul_le_of_le_one_right (norm_nonneg _) (hy s)).trans ht⟩
  have hg : DifferentiableOn ℂ (fun t : ℂ => F fun s => a s + t * y s) (Metric.closedBall 0 R) := fun t ht => by
    obtain ⟨Q, hQ⟩ := hd _ (hnear t (by simpa using ht))
    have h1 := hQ.differentiable_line S hy hyS
    have h2 : DifferentiableAt ℂ (fun u : ℂ => F fun s => a s + t * y s + (u - t) * y s) t :=
      DifferentiableAt.comp (g := fun t' : ℂ => F fun s => a s + t * y s + t' * y s) (f := fun u : ℂ => u - t) t
        (by simpa using h1) (differentiableAt_id.sub_const t)
    refine DifferentiableAt.differentiableWithinAt ?_
    refine h2.congr_of_eventuallyEq (Eventually.of_forall fun u => congrArg F (_root_.funext fun s => ?_))
    ring
  obtain ⟨c, hc, hs⟩ := holomorphic_partialSum hR hg fun t ht => hM _ (hnear t ht)
  have hM0 : 0 ≤ M := (norm_nonneg _).trans (hM _ (hnear 0 (by simpa using hR.le)))
  have heq := h.line hP S hy hyS (c := c) (by
    refine ⟨M * (1 / R) ^ (m + 1) / (1 / 2), ?_⟩
    filter_upwards [Ioo_mem_nhdsGT (half_pos hR)] with t ht
    have h1 : ‖(t : ℂ)‖ = t := by simp [abs_of_pos ht.1]
    have h2 := hs m t (by rw [h1]; linarith [ht.2])
    rw [h1] at h2
    refine h2.trans ?_
    have h3 : t / R ≤ 1 / 2 := by rw [div_le_iff₀ hR]; linarith [ht.2]
    have h4 : 0 ≤ t / R := by have := ht.1; positivity
    calc M * (t / R) ^ (m + 1) / (1 - t / R) ≤ M * (t / R) ^ (m + 1) / (1 / 2) := div_le_div_of_nonneg_left (by positivity) (by norm_num) (by linarith)
      _ = _ := by rw [div_pow, div_pow, one_pow]; ring)
  refine ⟨fun k => ?_, fun t ht => ?_⟩
  · have h1 : linePoly y P = ∑ k ∈ Finset.range (m + 1), Polynomial.C (c k) * Polynomial.X ^ k := by
      refine Polynomial.funext fun t => ?_
      rw [eval_linePoly, Polynomial.eval_finsetSum]
      simpa only [Polynomial.eval_mul, Polynomial.eval_C, Polynomial.eval_pow, Polynomial.eval_X] using heq t
    rw [h1, Polynomial.finsetSum_coeff]
    simp only [Polynomial.coeff_C_mul_X_pow]
    rw [Finset.sum_ite_eq]
    split_ifs
    · exact hc k
    · rw [norm_zero]; positivity
  · have := hs m t ht
    rwa [← heq t] at this

/-- Distance of a holomorphic function from its Taylor polynomial. -/
theorem holomorphic_taylor (S : Finset σ) {R M : ℝ} (hR : 0 < R) (hd : ∀ x, Near S a R x → ∃ P, IsTaylor x 1 F P) (hM : ∀ x, Near S a R x → ‖F x‖ ≤ M)
    {m : ℕ} {P : MvPolynomial σ ℂ} (h : IsTaylor a m F P) (hP : ∀ e ∈ P.support, e.degree ≤ m) {ρ : ℝ} (h0 : 0 < ρ) (h1 : ρ < R) {x : σ → ℂ} (hx : Near S a ρ x) :
    ‖F x - eval (fun s => x s - a s) P‖ ≤ M * (ρ / R) ^ (m + 1) / (1 - ρ / R) := by
  have hρ : (ρ : ℂ) ≠ 0 := by exact_mod_cast h0.ne'
  have hn : ‖(ρ : ℂ)‖ = ρ := by simp [abs_of_pos h0]
  have h2 := (holomorphic_line S hR hd hM h hP (y := fun s => (x s - a s) / ρ) (fun s => by
    rw [norm_div, hn]
    exact (div_le_one h0).2 (hx.2 s)) fun s hs => by rw [hx.1 s hs, sub_self, zero_div]).2 ρ (by rwa [hn])
  simp only [mul_div_cancel₀ _ hρ, hn] at h2
  simpa using h2

/-- Cauchy's estimates for the coefficients of the Taylor polynomial. -/
theorem holomorphic_coeff (S : Finset σ) {R M : ℝ} (hR : 0 < R) (hd : ∀ x, Near S a R x → ∃ P, IsTaylor x 1 F P) (hM : ∀ x, Near S a R x → ‖F x‖ ≤ M)
    {m : ℕ} {P : MvPolynomial σ ℂ} (h : IsTaylor a m F P) (hP : ∀ e ∈ P.support, e.degree ≤ m ∧ e.support ⊆ S) (E : σ →₀ ℕ) :
    ‖P.coeff E‖ ≤ M / R ^ E.degree :=
  norm_coeff_le (fun e he => (hP e he).2) (fun y hy hyS => (holomorphic_line S hR hd hM h (fun e he => (hP e he).1) hy hyS).1 _) rfl

end Audi.Spec
