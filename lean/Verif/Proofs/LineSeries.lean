import Verif.Proofs.Peano
import Mathlib.Algebra.Polynomial.Degree.Lemmas
import Mathlib.Algebra.Polynomial.Eval.Degree
import Mathlib.Algebra.MvPolynomial.Degrees
import Mathlib.Topology.Algebra.Polynomial
import Mathlib.Analysis.Complex.CauchyIntegral
import Mathlib.Analysis.SpecificLimits.Normed
import Mathlib.Analysis.Complex.Liouville

/-! # Proofs: Taylor polynomials along lines, and the series of holomorphic functions -/

namespace Audi.Spec

open MvPolynomial Topology Filter

section
variable {𝕜 : Type*} [RCLike 𝕜]

/-- A polynomial of degree at most `n` which is smaller than every multiple of `t ^ n` near zero is zero. -/
theorem poly_eq_zero_of_small {P : Polynomial 𝕜} {n : ℕ} (hP : P.natDegree ≤ n)
    (h : ∀ ε : ℝ, 0 < ε → ∀ᶠ t : ℝ in 𝓝[>] 0, ‖P.eval (t : 𝕜)‖ ≤ ε * t ^ n) : P = 0 := by
  have key : ∀ k ≤ n, P.coeff k = 0 := by
    intro k
    induction k using Nat.strong_induction_on with
    | _ k ih =>
      intro hk
      obtain ⟨Q, rfl⟩ := Polynomial.X_pow_dvd_iff.2 fun j hj => ih j hj (by omega)
      have hc : Continuous fun t : ℝ => Q.eval (t : 𝕜) := Q.continuous.comp RCLike.continuous_ofReal
      have h1 : Tendsto (fun t : ℝ => Q.eval (t : 𝕜)) (𝓝[>] 0) (𝓝 (Q.eval 0)) := by
        have := (hc.tendsto 0).mono_left (nhdsWithin_le_nhds (s := Set.Ioi 0))
        simpa using this
      have h2 : Tendsto (fun t : ℝ => Q.eval (t : 𝕜)) (𝓝[>] 0) (𝓝 0) := by
        rw [Metric.tendsto_nhds]
        intro ε hε
        filter_upwards [h (ε / 2) (half_pos hε), Ioo_mem_nhdsGT one_pos] with t h3 ht
        rw [Polynomial.eval_mul, Polynomial.eval_pow, Polynomial.eval_X, norm_mul, norm_pow, RCLike.norm_ofReal, abs_of_pos ht.1] at h3
        have h4 : t ^ n ≤ t ^ k := pow_le_pow_of_le_one ht.1.le ht.2.le hk
        have h5 : t ^ k * ‖Q.eval (t : 𝕜)‖ ≤ t ^ k * (ε / 2) := h3.trans (by rw [mul_comm (t ^ k)]; exact mul_le_mul_of_nonneg_left h4 (half_pos hε).le)
        have h6 := le_of_mul_le_mul_left h5 (pow_pos ht.1 k)
        rw [dist_zero_right]
        linarith
      have h3 := tendsto_nhds_unique h1 h2
      rw [mul_comm, Polynomial.coeff_mul_X_pow', if_pos le_rfl, Nat.sub_self, Polynomial.coeff_zero_eq_eval_zero, h3]
  ext k
  rw [Polynomial.coeff_zero]
  rcases le_or_gt k n with hk | hk
  · exact key k hk
  · exact Polynomial.coeff_eq_zero_of_natDegree_lt (hP.trans_lt hk)

variable {σ : Type*}

/-- The polynomial `t ↦ P (t * y)`. -/
noncomputable def linePoly (y : σ → 𝕜) (P : MvPolynomial σ 𝕜) : Polynomial 𝕜 := aeval (fun s => Polynomial.C (y s) * Polynomial.X) P

theorem eval_linePoly (y : σ → 𝕜) (P : MvPolynomial σ 𝕜) (t : 𝕜) : (linePoly y P).eval t = eval (fun s => t * y s) P := by
  unfold linePoly
  induction P using MvPolynomial.induction_on with
  | C a => simp
  | add p q hp hq => rw [map_add, Polynomial.eval_add, hp, hq, map_add]
  | mul_X p u hp =>
    rw [map_mul, Polynomial.eval_mul, hp, map_mul, aeval_X, eval_X, Polynomial.eval_mul, Polynomial.eval_C, Polynomial.eval_X, mul_comm t]

theorem natDegree_linePoly {y : σ → 𝕜} {P : MvPolynomial σ 𝕜} {n : ℕ} (h : ∀ e ∈ P.support, e.degree ≤ n) : (linePoly y P).natDegree ≤ n := by
  unfold linePoly
  rw [aeval_def, eval₂_eq]
  refine Polynomial.natDegree_sum_le_of_forall_le _ _ fun e he => ?_
  refine (Polynomial.natDegree_C_mul_le _ _).trans ?_
  refine (Polynomial.natDegree_prod_le _ _).trans (le_trans (Finset.sum_le_sum fun s _ => ?_) (h e he))
  refine Polynomial.natDegree_pow_le.trans ?_
  calc e s * (Polynomial.C (y s) * Polynomial.X).natDegree ≤ e s * 1 := Nat.mul_le_mul_left _ ((Polynomial.natDegree_C_mul_le _ _).trans Polynomial.natDegree_X_le)
    _ = e s := mul_one _

variable [DecidableEq σ] {a : σ → 𝕜} {m : ℕ} {F : (σ → 𝕜) → 𝕜} {P : MvPolynomial σ 𝕜}

/-- Along a line, the Taylor polynomial is the polynomial with the coefficients of any expansion of the function of the parameter. -/
theorem IsTaylor.line (h : IsTaylor a m F P) (hP : ∀ e ∈ P.support, e.degree ≤ m) (S : Finset σ) {y : σ → 𝕜} (hy : ∀ s, ‖y s‖ ≤ 1) (hyS : ∀ s, s ∉ S → y s = 0)
    {c : ℕ → 𝕜} (hc : ∃ B : ℝ, ∀ᶠ t : ℝ in 𝓝[>] 0, ‖F (fun s => a s + t * y s) - ∑ k ∈ Finset.range (m + 1), c k * (t : 𝕜) ^ k‖ ≤ B * t ^ (m + 1)) (t : 𝕜) :
    eval (fun s => t * y s) P = ∑ k ∈ Finset.range (m + 1), c k * t ^ k := by
  obtain ⟨B, hB⟩ := hc
  have hz : linePoly y P - ∑ k ∈ Finset.range (m + 1), Polynomial.C (c k) * Polynomial.X ^ k = 0 := by
    refine poly_eq_zero_of_small (n := m) ?_ fun ε hε => ?_
    · refine (Polynomial.natDegree_sub_le _ _).trans (max_le (natDegree_linePoly hP) ?_)
      refine Polynomial.natDegree_sum_le_of_forall_le _ _ fun k hk => (Polynomial.natDegree_C_mul_X_pow_le _ _).trans ?_
      have := Finset.mem_range.1 hk
      omega
    · have hδ : (0 : ℝ) < ε / 2 / (|B| + 1) := by positivity
      filter_upwards [h.peano S (half_pos hε), hB, self_mem_nhdsWithin, Ioo_mem_nhdsGT hδ] with t h1 h2 ht h3
      have ht' : (0 : ℝ) < t := ht
      have h4 := h1 (fun s => a s + t * y s) ⟨fun s hs => by simp [hyS s hs], fun s => by
        rw [add_sub_cancel_left, norm_mul, RCLike.norm_ofReal, abs_of_pos ht']
        exact mul_le_of_le_one_right ht'.le (hy s)⟩
      simp only [add_sub_cancel_left] at h4
      rw [Polynomial.eval_sub, eval_linePoly, Polynomial.eval_finsetSum]
      simp only [Polynomial.eval_mul, Polynomial.eval_C, Polynomial.eval_pow, Polynomial.eval_X]
      have h5 : B * t ^ (m + 1) ≤ ε / 2 * t ^ m := by
        rw [pow_succ, mul_comm (t ^ m) t, ← mul_assoc]
        refine mul_le_mul_of_nonneg_right ?_ (by positivity)
        have := (lt_div_iff₀ (by positivity)).1 h3.2
        nlinarith [le_abs_self B]
      have e : eval (fun s => (t : 𝕜) * y s) P - ∑ k ∈ Finset.range (m + 1), c k * (t : 𝕜) ^ k =
          (F (fun s => a s + t * y s) - ∑ k ∈ Finset.range (m + 1), c k * (t : 𝕜) ^ k) - (F (fun s => a s + t * y s) - eval (fun s => (t : 𝕜) * y s) P) := by ring
      rw [e]
      refine (norm_sub_le _ _).trans ?_
      linarith
  have := congrArg (Polynomial.eval t) (sub_eq_zero.1 hz)
  rw [eval_linePoly, Polynomial.eval_finsetSum] at this
  simpa only [Polynomial.eval_mul, Polynomial.eval_C, Polynomial.eval_pow, Polynomial.eval_X] using this

end

/-- A holomorphic function on a disc is close to the partial sums of its series. -/
theorem holomorphic_partialSum {g : ℂ → ℂ} {R M : ℝ} (hR : 0 < R) (hg : DifferentiableOn ℂ g (Metric.closedBall 0 R)) (hM : ∀ z, ‖z‖ ≤ R → ‖g z‖ ≤ M) :
    ∃ c : ℕ → ℂ, (∀ k, ‖c k‖ ≤ M / R ^ k) ∧
      ∀ (m : ℕ) (z : ℂ), ‖z‖ < R → ‖g z - ∑ k ∈ Finset.range (m + 1), c k * z ^ k‖ ≤ M * (‖z‖ / R) ^ (m + 1) / (1 - ‖z‖ / R) := by
  have hM0 : 0 ≤ M := (norm_nonneg _).trans (hM 0 (by simpa using hR.le))
  lift R to NNReal using hR.le
  obtain ⟨p, hps⟩ : ∃ p, HasFPowerSeriesOnBall g p 0 R := ⟨_, hg.hasFPowerSeriesOnBall hR⟩
  have hck : ∀ k, ‖p.coeff k‖ ≤ M / R ^ k := fun k => by
    have h1 : p.coeff k = iteratedDeriv k g 0 / (k.factorial : ℂ) := by
      have := hps.hasFPowerSeriesAt.eq_formalMultilinearSeries
        (hps.analyticAt.hasFPowerSeriesAt)
      rw [this, FormalMultilinearSeries.coeff_ofScalars]
    have h2 := Complex.norm_iteratedDeriv_le_of_forall_mem_sphere_norm_le k hR (c := 0) (f := g) (C := M)
      ((hg.mono Metric.closure_ball_subset_closedBall).diffContOnCl) fun z hz => hM z (by simpa using (mem_sphere_zero_iff_norm.1 hz).le)
    rw [h1, norm_div, Complex.norm_natCast, div_le_iff₀ (by positivity)]
    calc _ ≤ k.factorial * M / R ^ k := h2
      _ = _ := by ring
  refine ⟨fun k => p.coeff k, hck, fun m z hz => ?_⟩
  have hs : HasSum (fun k => p.coeff k * z ^ k) (g z) := by
    have h1 := hps.hasSum (y := z) (by
      rw [Metric.mem_eball, edist_zero_right]
      exact_mod_cast hz)
    rw [zero_add] at h1
    refine h1.congr_fun ?_
    intro k
    rw [FormalMultilinearSeries.apply_eq_pow_smul_coeff, smul_eq_mul, mul_comm]
  have hθ0 : 0 ≤ ‖z‖ / R := by positivity
  have hθ1 : ‖z‖ / R < 1 := (div_lt_one hR).2 hz
  have htail := (hasSum_nat_add_iff' (m + 1)).2 hs
  have hgeo : HasSum (fun k => M * (‖z‖ / R) ^ (m + 1) * (‖z‖ / R) ^ k) (M * (‖z‖ / R) ^ (m + 1) * (1 - ‖z‖ / R)⁻¹) :=
    (hasSum_geometric_of_lt_one hθ0 hθ1).mul_left _
  rw [← htail.tsum_eq, div_eq_mul_inv]
  refine tsum_of_norm_bounded hgeo fun k => ?_
  rw [norm_mul, norm_pow]
  calc ‖p.coeff (k + (m + 1))‖ * ‖z‖ ^ (k + (m + 1)) ≤ M / R ^ (k + (m + 1)) * ‖z‖ ^ (k + (m + 1)) := mul_le_mul_of_nonneg_right (hck _) (by positivity)
    _ = _ := by rw [div_pow, div_pow, pow_add, pow_add]; field_simp; ring

end Audi.Spec
