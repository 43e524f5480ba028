import Verif.Proofs.Smooth
import Verif.Proofs.LibExpr
import Mathlib.Analysis.Calculus.ContDiff.Deriv
import Mathlib.Analysis.Calculus.Deriv.Abs

/-! Expressions with all the functions are smooth in their domains. -/

namespace Audi

theorem contDiff_erf (m : ℕ) : ContDiff ℝ m Spec.erf := by
  have hd : deriv Spec.erf = fun x => 2 / √Real.pi * Real.exp (-x ^ 2) := funext fun x => (Spec.hasDerivAt_erf x).deriv
  have h1 : ContDiff ℝ (m + 1) Spec.erf := by
    rw [contDiff_succ_iff_deriv]
    refine ⟨fun x => (Spec.hasDerivAt_erf x).differentiableAt, fun h => absurd h (by simp), ?_⟩
    rw [hd]
    fun_prop
  exact h1.of_le (by exact_mod_cast Nat.le_succ m)

theorem LFn.contDiffAt {f : LFn} {c : ℝ} (h : f.Dom c) (m : ℕ) : ContDiffAt ℝ m f.real c := by
  have hlog : ∀ b : ℝ, 0 < c → ContDiffAt ℝ m (Real.logb b) c := fun b hc => by
    have : Real.logb b = fun x => Real.log x / Real.log b := rfl
    rw [this]
    exact (Real.contDiffAt_log.2 hc.ne').div_const _
  cases f with
  | base f => exact Fn.contDiffAt h m
  | abs => exact contDiffAt_abs h
  | sinOf => exact Fn.contDiffAt (f := .sin) trivial m
  | cosOf => exact Fn.contDiffAt (f := .cos) trivial m
  | sinhOf => exact Fn.contDiffAt (f := .sinh) trivial m
  | coshOf => exact Fn.contDiffAt (f := .cosh) trivial m
  | erf => exact (contDiff_erf m).contDiffAt
  | atanD => exact Fn.contDiffAt (f := .atan) trivial m
  | atanhD => exact Fn.contDiffAt (f := .atanh) h m
  | asinD => exact Fn.contDiffAt (f := .asin) h m
  | acosD => exact Fn.contDiffAt (f := .acos) h m
  | asinhD => exact Fn.contDiffAt (f := .asinh) trivial m
  | acoshD => exact Fn.contDiffAt (f := .acosh) h m
  | log10 => exact hlog 10 h
  | log2 => exact hlog 2 h
  | log1p => exact (contDiffAt_const.add contDiffAt_id).log (by have h' : -1 < c := h; exact (by linarith : (0 : ℝ) < 1 + c).ne')
  | expm1 => exact Real.contDiff_exp.contDiffAt.sub contDiffAt_const
  | erfc => exact contDiffAt_const.sub (contDiff_erf m).contDiffAt

theorem LExpr.contDiffAt {E : Type*} [NormedAddCommGroup E] [NormedSpace ℝ E] {m : ℕ} {a : E} {C : Type} {ι : Type} [CfFun C] [Lanes C ι ℝ] (i : ι) {φ : String → E → ℝ}
    (hφ : ∀ s, ContDiffAt ℝ m (φ s) a) :
    ∀ e : LExpr C, e.Dom i (fun s => φ s a) → ContDiffAt ℝ m (fun y => e.sem i fun s => φ s y) a := by
  intro e
  induction e with
  | var s => exact fun _ => hφ s
  | const c => exact fun _ => contDiffAt_const
  | bin op e1 e2 ih1 ih2 => exact fun h => op.contDiffAt (ih1 h.1) (ih2 h.2.1) h.2.2
  | left op c e ih => exact fun h => op.contDiffAt contDiffAt_const (ih h.1) h.2
  | right op e c ih => exact fun h => op.contDiffAt (ih h.1) contDiffAt_const h.2
  | fn f e ih => exact fun h => (LFn.contDiffAt h.2 m).comp a (ih h.1)
  | pow e1 e2 ih1 ih2 => exact fun h => (ih1 h.1).rpow (ih2 h.2.1) h.2.2.ne'

end Audi
