import Verif.Proofs.LibExpr
import Verif.Proofs.ExprAnalytic
import Mathlib.Analysis.Complex.HasPrimitives
import Mathlib.Analysis.Calculus.MeanValue

/-! # Proofs: expressions with all the functions denote analytic functions -/

namespace Audi

open Spec Filter Topology

/-- The error function is analytic: it is, up to constants, the real part of an entire primitive of `exp(-z²)`. -/
theorem analyticAt_erf (x : ℝ) : AnalyticAt ℝ Spec.erf x := by
  obtain ⟨G, hG⟩ := (show Differentiable ℂ fun z : ℂ => ((2 / √Real.pi : ℝ) : ℂ) * Complex.exp (-z * z) from by fun_prop).isExactOn_univ
  have hG' : ∀ z, HasDerivAt G (((2 / √Real.pi : ℝ) : ℂ) * Complex.exp (-z * z)) z := fun z => hG z (Set.mem_univ z)
  have hGa : AnalyticAt ℝ G (x : ℂ) := ((show Differentiable ℂ G from fun z => (hG' z).differentiableAt).analyticAt (x : ℂ)).restrictScalars
  have h1 : AnalyticAt ℝ (fun t : ℝ => (G (t : ℂ)).re) x :=
    (Complex.reCLM.analyticAt _).comp (AnalyticAt.comp (g := G) (f := fun t : ℝ => (t : ℂ)) hGa (Complex.ofRealCLM.analyticAt x))
  have h2 : ∀ t : ℝ, HasDerivAt (fun t : ℝ => Spec.erf t - (G (t : ℂ)).re) 0 t := fun t => by
    have h3 := (hG' (t : ℂ)).real_of_complex
    have h4 := (Spec.hasDerivAt_erf t).sub h3
    suffices h5 : 2 / √Real.pi * Real.exp (-t ^ 2) - (((2 / √Real.pi : ℝ) : ℂ) * Complex.exp (-(t : ℂ) * t)).re = 0 by
      rw [h5] at h4
      exact h4
    rw [Complex.re_ofReal_mul, ← Complex.ofReal_neg, ← Complex.ofReal_mul, Complex.exp_ofReal_re]
    ring_nf
  have h3 : ∀ t : ℝ, Spec.erf t - (G (t : ℂ)).re = Spec.erf 0 - (G ((0 : ℝ) : ℂ)).re := fun t =>
    is_const_of_deriv_eq_zero (f := fun t : ℝ => Spec.erf t - (G (t : ℂ)).re) (fun t => (h2 t).differentiableAt) (fun t => (h2 t).deriv) t 0
  have h4 : Spec.erf = fun t : ℝ => (G (t : ℂ)).re + (Spec.erf 0 - (G ((0 : ℝ) : ℂ)).re) := by
    funext t
    rw [← h3 t]
    ring
  rw [h4]
  exact h1.add analyticAt_const

theorem LFn.analyticAt {f : LFn} {x : ℝ} (h : f.Dom x) : AnalyticAt ℝ f.real x := by
  have hlog : ∀ b : ℝ, 0 < x → AnalyticAt ℝ (Real.logb b) x := fun b hx => by
    have h1 : AnalyticAt ℝ (fun y => Real.log y / Real.log b) x := by
      simp only [div_eq_mul_inv]
      exact (analyticAt_log hx).mul analyticAt_const
    exact h1
  cases f with
  | base f => exact Fn.analyticAt h
  | abs =>
    rcases lt_or_gt_of_ne (show x ≠ 0 from h) with h1 | h1
    · refine analyticAt_id.neg.congr ?_
      filter_upwards [gt_mem_nhds h1] with y hy
      exact (abs_of_neg hy).symm
    · refine analyticAt_id.congr ?_
      filter_upwards [lt_mem_nhds h1] with y hy
      exact (abs_of_pos hy).symm
  | sinOf => exact Fn.analyticAt (f := .sin) trivial
  | cosOf => exact Fn.analyticAt (f := .cos) trivial
  | sinhOf => exact Fn.analyticAt (f := .sinh) trivial
  | coshOf => exact Fn.analyticAt (f := .cosh) trivial
  | erf => exact analyticAt_erf x
  | atanD => exact Fn.analyticAt (f := .atan) trivial
  | atanhD => exact Fn.analyticAt (f := .atanh) h
  | asinD => exact Fn.analyticAt (f := .asin) h
  | acosD => exact Fn.analyticAt (f := .acos) h
  | asinhD => exact Fn.analyticAt (f := .asinh) trivial
  | acoshD => exact Fn.analyticAt (f := .acosh) h
  | log10 => exact hlog 10 h
  | log2 => exact hlog 2 h
  | log1p => exact AnalyticAt.comp (g := Real.log) (f := fun y => 1 + y) (analyticAt_log (by change -1 < x at h; linarith)) (analyticAt_const.add analyticAt_id)
  | expm1 => exact analyticAt_rexp.sub analyticAt_const
  | erfc => exact analyticAt_const.sub (analyticAt_erf x)

/-- Expressions of analytic functions are analytic. -/
theorem LExpr.analyticAt {C : Type} [CfFun C] {ι : Type} [Lanes C ι ℝ] {E : Type} [NormedAddCommGroup E] [NormedSpace ℝ E] (i : ι) {X : E → String → ℝ} {y : E}
    (hX : ∀ s, AnalyticAt ℝ (fun z => X z s) y) (e : LExpr C) (hd : e.Dom i (X y)) : AnalyticAt ℝ (fun z => e.sem i (X z)) y := by
  induction e with
  | var s => exact hX s
  | const c => exact analyticAt_const
  | bin op e1 e2 ih1 ih2 => exact Op.analyticAt (ih1 hd.1) (ih2 hd.2.1) hd.2.2
  | left op c e ih => exact Op.analyticAt analyticAt_const (ih hd.1) hd.2
  | right op e c ih => exact Op.analyticAt (ih hd.1) analyticAt_const hd.2
  | fn f e ih => exact AnalyticAt.comp (g := f.real) (f := fun z => e.sem i (X z)) (LFn.analyticAt hd.2) (ih hd.1)
  | pow e1 e2 ih1 ih2 =>
    have h0 : AnalyticAt ℝ (fun z => Real.log (e1.sem i (X z))) y :=
      AnalyticAt.comp (g := Real.log) (f := fun z => e1.sem i (X z)) (analyticAt_log hd.2.2) (ih1 hd.1)
    have h1 : AnalyticAt ℝ (fun z => Real.log (e1.sem i (X z)) * e2.sem i (X z)) y := h0.mul (ih2 hd.2.1)
    refine (AnalyticAt.comp (g := Real.exp) (f := fun z => Real.log (e1.sem i (X z)) * e2.sem i (X z)) analyticAt_rexp h1).congr ?_
    filter_upwards [(ih1 hd.1).continuousAt.eventually (lt_mem_nhds hd.2.2)] with z hz
    exact (Real.rpow_def_of_pos hz _).symm

end Audi
