import Verif.Proofs.LineSeries
import Verif.Spec.Expr
import Verif.Proofs.Analytic
import Mathlib.Analysis.SpecialFunctions.Complex.Analytic
import Mathlib.Analysis.SpecialFunctions.Trigonometric.InverseDeriv
import Mathlib.Analysis.SpecialFunctions.Trigonometric.ArctanDeriv
import Mathlib.Analysis.SpecialFunctions.Arsinh
import Mathlib.Analysis.SpecialFunctions.Arcosh
import Mathlib.Analysis.SpecialFunctions.Artanh
import Mathlib.Analysis.SpecialFunctions.Sqrt
import Mathlib.Analysis.SpecialFunctions.Pow.Real

/-! # Proofs: expressions denote analytic functions -/

namespace Audi

open Topology Filter

theorem analyticAt_sqrt {x : ℝ} (h : 0 < x) : AnalyticAt ℝ Real.sqrt x := (Real.contDiffAt_sqrt h.ne').analyticAt

theorem analyticAt_rpow {x : ℝ} (h : 0 < x) (α : ℝ) : AnalyticAt ℝ (fun x => x ^ α) x := by
  have h1 : AnalyticAt ℝ (fun x => Real.exp (Real.log x * α)) x := ((analyticAt_log h).mul analyticAt_const).rexp
  refine h1.congr ?_
  filter_upwards [lt_mem_nhds h] with y hy
  exact (Real.rpow_def_of_pos hy α).symm

theorem analyticAt_zpow {x : ℝ} {z : ℤ} (h : 0 ≤ z ∨ x ≠ 0) : AnalyticAt ℝ (fun x => x ^ z) x := by
  rcases h with h | h
  · exact AnalyticAt.zpow_nonneg analyticAt_id h
  · exact AnalyticAt.zpow analyticAt_id h

theorem Fn.analyticAt {f : Fn} {x : ℝ} (h : f.Dom x) : AnalyticAt ℝ f.real x := by
  cases f with
  | exp => exact analyticAt_rexp
  | log => exact analyticAt_log h
  | sqrt => exact analyticAt_sqrt h
  | cbrt =>
    rcases lt_or_gt_of_ne (show x ≠ 0 from h) with h | h
    · have h1 : AnalyticAt ℝ (fun y : ℝ => -((-y) ^ ((1 : ℝ) / 3))) x :=
        (AnalyticAt.comp (g := fun y : ℝ => y ^ ((1 : ℝ) / 3)) (f := fun y : ℝ => -y) (analyticAt_rpow (neg_pos.2 h) _) analyticAt_id.neg).neg
      refine h1.congr ?_
      filter_upwards [gt_mem_nhds h] with y hy
      exact (Spec.cbrt_of_neg hy).symm
    · refine (analyticAt_rpow h ((1 : ℝ) / 3)).congr ?_
      filter_upwards [lt_mem_nhds h] with y hy
      exact (Spec.cbrt_of_pos hy).symm
  | sin => exact Real.contDiff_sin.contDiffAt.analyticAt
  | cos => exact Real.contDiff_cos.contDiffAt.analyticAt
  | tan => exact (Real.contDiffAt_tan.2 h).analyticAt
  | sinh => exact Real.contDiff_sinh.contDiffAt.analyticAt
  | cosh => exact Real.contDiff_cosh.contDiffAt.analyticAt
  | tanh =>
    have h1 : AnalyticAt ℝ (fun y => Real.sinh y / Real.cosh y) x :=
      Real.contDiff_sinh.contDiffAt.analyticAt.div Real.contDiff_cosh.contDiffAt.analyticAt (Real.cosh_pos x).ne'
    exact h1.congr (Eventually.of_forall fun y => (Real.tanh_eq_sinh_div_cosh y).symm)
  | asinh => exact Real.contDiff_arsinh.contDiffAt.analyticAt
  | acosh =>
    have hx : 1 < x := h
    have h1 : AnalyticAt ℝ (fun y : ℝ => √(y ^ 2 - 1)) x :=
      AnalyticAt.comp (g := Real.sqrt) (f := fun y : ℝ => y ^ 2 - 1) (analyticAt_sqrt (by nlinarith)) ((analyticAt_id.pow 2).sub analyticAt_const)
    exact (analyticAt_id.add h1).log (add_pos_of_pos_of_nonneg (by change 0 < x; linarith) (Real.sqrt_nonneg _))
  | atanh =>
    obtain ⟨h1, h2⟩ := abs_lt.1 (show |x| < 1 from h)
    have h3 : 0 < (1 + x) / (1 - x) := div_pos (by linarith) (by linarith)
    have h4 : AnalyticAt ℝ (fun y : ℝ => √((1 + y) / (1 - y))) x :=
      AnalyticAt.comp (g := Real.sqrt) (f := fun y : ℝ => (1 + y) / (1 - y)) (analyticAt_sqrt h3)
        ((analyticAt_const.add analyticAt_id).div (analyticAt_const.sub analyticAt_id) (by change 1 - x ≠ 0; linarith))
    exact h4.log (Real.sqrt_pos.2 h3)
  | atan => exact Real.contDiff_arctan.contDiffAt.analyticAt
  | asin =>
    obtain ⟨h1, h2⟩ := abs_lt.1 h
    exact (Real.contDiffAt_arcsin h1.ne' h2.ne).analyticAt
  | acos =>
    obtain ⟨h1, h2⟩ := abs_lt.1 h
    exact (Real.contDiffAt_arccos h1.ne' h2.ne).analyticAt
  | neg => exact analyticAt_id.neg
  | powQ α =>
    obtain ⟨-, -, h | ⟨h1, h2⟩⟩ := h
    · exact analyticAt_rpow h _
    · have h3 : (α : ℝ) = (α.num : ℝ) := by
        conv_lhs => rw [← Rat.num_div_den α, h1]
        simp
      have h4 : AnalyticAt ℝ (fun y : ℝ => y ^ α.num) x := analyticAt_zpow (h2.imp (Rat.num_nonneg.2) id)
      refine h4.congr (Eventually.of_forall fun y => ?_)
      change y ^ α.num = y ^ (α : ℝ)
      rw [h3, Real.rpow_intCast]
  | powInt z => exact analyticAt_zpow h.2
  | powBase q =>
    have hq : (0 : ℝ) < q := by exact_mod_cast (show 0 < q from h)
    have h1 : AnalyticAt ℝ (fun y : ℝ => Real.exp (Real.log q * y)) x := (analyticAt_const.mul analyticAt_id).rexp
    exact h1.congr (Eventually.of_forall fun y => (Real.rpow_def_of_pos hq y).symm)

section
variable {E : Type} [NormedAddCommGroup E] [NormedSpace ℝ E] {C : Type} [CfFun C] {ι : Type} [Lanes C ι ℝ]

theorem Op.analyticAt {op : Op} {f g : E → ℝ} {y : E} (hf : AnalyticAt ℝ f y) (hg : AnalyticAt ℝ g y) (h : op.Dom (g y)) :
    AnalyticAt ℝ (fun z => op.real (f z) (g z)) y := by
  cases op with
  | add => exact hf.add hg
  | sub => exact hf.sub hg
  | mul => exact hf.mul hg
  | div => exact hf.div hg h

/-- Expressions of analytic functions are analytic. -/
theorem Expr.analyticAt (i : ι) {X : E → String → ℝ} {y : E} (hX : ∀ s, AnalyticAt ℝ (fun z => X z s) y) (e : Expr C) (hd : e.Dom i (X y)) :
    AnalyticAt ℝ (fun z => e.sem i (X z)) y := by
  induction e with
  | var s => exact hX s
  | const c => exact analyticAt_const
  | bin op e1 e2 ih1 ih2 => exact Op.analyticAt (ih1 hd.1) (ih2 hd.2.1) hd.2.2
  | left op c e ih => exact Op.analyticAt analyticAt_const (ih hd.1) hd.2
  | right op e c ih => exact Op.analyticAt (ih hd.1) analyticAt_const hd.2
  | fn f e ih => exact AnalyticAt.comp (g := f.real) (f := fun z => e.sem i (X z)) (Fn.analyticAt hd.2) (ih hd.1)
  | pow e1 e2 ih1 ih2 =>
    have h0 : AnalyticAt ℝ (fun z => Real.log (e1.sem i (X z))) y :=
      AnalyticAt.comp (g := Real.log) (f := fun z => e1.sem i (X z)) (analyticAt_log hd.2.2) (ih1 hd.1)
    have h1 : AnalyticAt ℝ (fun z => Real.log (e1.sem i (X z)) * e2.sem i (X z)) y := h0.mul (ih2 hd.2.1)
    refine (AnalyticAt.comp (g := Real.exp) (f := fun z => Real.log (e1.sem i (X z)) * e2.sem i (X z)) analyticAt_rexp h1).congr ?_
    filter_upwards [(ih1 hd.1).continuousAt.eventually (lt_mem_nhds hd.2.2)] with z hz
    exact (Real.rpow_def_of_pos hz _).symm

end

namespace Spec

open MvPolynomial

variable {σ : Type*} [DecidableEq σ] {𝕜 : Type*} [RCLike 𝕜] {a : σ → 𝕜} {F : (σ → 𝕜) → 𝕜}

/-- The points with the coordinates `y` in `S`, those of `a` elsewhere. -/
def extend (S : Finset σ) (a : σ → 𝕜) (y : S → 𝕜) (s : σ) : 𝕜 := if hs : s ∈ S then y ⟨s, hs⟩ else a s

theorem analyticAt_extend (S : Finset σ) (a : σ → 𝕜) (y : S → 𝕜) (s : σ) : AnalyticAt 𝕜 (fun z => extend S a z s) y := by
  unfold extend
  split_ifs with hs
  · exact (ContinuousLinearMap.proj (R := 𝕜) (φ := fun _ : S => 𝕜) ⟨s, hs⟩).analyticAt y
  · exact analyticAt_const

/-- Distance of an analytic function from its Taylor polynomials, for all orders. -/
theorem analytic_taylor (S : Finset σ) (hF : AnalyticAt 𝕜 (fun y => F (extend S a y)) fun s => a s) :
    ∃ r > 0, ∃ K > 0, ∀ (m : ℕ) (P : MvPolynomial σ 𝕜), IsTaylor a m F P → (∀ e ∈ P.support, e.degree ≤ m) →
      ∀ ρ : ℝ, 0 < ρ → ρ < r → ∀ x, Near S a ρ x → ‖F x - eval (fun s => x s - a s) P‖ ≤ K * (ρ / r) ^ (m + 1) := by
  obtain ⟨p, r0, hp⟩ := hF
  obtain ⟨r, hr0, hr⟩ := ENNReal.lt_iff_exists_nnreal_btwn.1 hp.r_pos
  have hr0' : 0 < r := by exact_mod_cast hr0
  obtain ⟨θ, hθ, K, hK, happ⟩ := hp.uniform_geometric_approx' hr
  refine ⟨r, by exact_mod_cast hr0', K, hK, fun m P hT hP ρ h0 h1 x hx => ?_⟩
  have hr' : (0 : ℝ) < r := by exact_mod_cast hr0'
  have hρ : (ρ : 𝕜) ≠ 0 := by exact_mod_cast h0.ne'
  have hn : ‖(ρ : 𝕜)‖ = ρ := by rw [RCLike.norm_ofReal, abs_of_pos h0]
  set y : σ → 𝕜 := fun s => (x s - a s) / ρ with hy
  have hy1 : ∀ s, ‖y s‖ ≤ 1 := fun s => by
    rw [hy]
    simp only [norm_div, hn]
    exact (div_le_one h0).2 (hx.2 s)
  have hyS : ∀ s, s ∉ S → y s = 0 := fun s hs => by simp [hy, hx.1 s hs]
  let z : S → 𝕜 := fun s => y s
  have hz : ‖z‖ ≤ 1 := (pi_norm_le_iff_of_nonneg zero_le_one).2 fun s => hy1 s
  have hext : ∀ t : 𝕜, extend S a ((fun s : S => a s) + t • z) = fun s => a s + t * y s := fun t => by
    funext s
    unfold extend
    split_ifs with hs
    · rfl
    · rw [hyS s hs, mul_zero, add_zero]
  have hsum : ∀ t : 𝕜, p.partialSum (m + 1) (t • z) = ∑ k ∈ Finset.range (m + 1), p k (fun _ => z) * t ^ k := fun t => by
    unfold FormalMultilinearSeries.partialSum
    refine Finset.sum_congr rfl fun k _ => ?_
    rw [ContinuousMultilinearMap.map_smul_univ]
    simp [mul_comm]
  have hbound : ∀ t : ℝ, 0 < t → t < r → ‖F (fun s => a s + t * y s) - ∑ k ∈ Finset.range (m + 1), p k (fun _ => z) * (t : 𝕜) ^ k‖ ≤ K * (t / r) ^ (m + 1) := fun t ht htr => by
    have hnt : ‖(t : 𝕜) • z‖ ≤ t := by
      rw [norm_smul, RCLike.norm_ofReal, abs_of_pos ht]
      exact mul_le_of_le_one_right ht.le hz
    have h2 := happ ((t : 𝕜) • z) (by rw [mem_ball_zero_iff]; exact hnt.trans_lt htr) (m + 1)
    rw [hext, hsum] at h2
    refine h2.trans (mul_le_mul_of_nonneg_left (pow_le_pow_left₀ ?_ ?_ _) hK.le)
    · have := hθ.1
      positivity
    · calc θ * (‖(t : 𝕜) • z‖ / r) ≤ 1 * (t / r) := mul_le_mul hθ.2.le (div_le_div_of_nonneg_right hnt hr'.le) (by positivity) zero_le_one
        _ = t / r := one_mul _
  have heq := hT.line hP S hy1 hyS (c := fun k => p k fun _ => z) (by
    refine ⟨K / r ^ (m + 1), ?_⟩
    filter_upwards [Ioo_mem_nhdsGT hr'] with t ht
    refine (hbound t ht.1 ht.2).trans (le_of_eq ?_)
    rw [div_pow]
    ring)
  have h3 := hbound ρ h0 h1
  rw [← heq] at h3
  simpa [hy, mul_div_cancel₀ _ hρ] using h3

end Spec

end Audi
