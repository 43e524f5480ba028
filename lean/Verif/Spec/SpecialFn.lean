import Verif.Spec.Special
import Verif.Model.Functions

/-!
# Specification: the functions of the C library at special values

The functions of the coefficients are those of the C library. Only what C17, F.10 says about NaN, infinities, zeros and arguments outside of the domain is assumed.
-/

namespace Audi

/-- A number below zero, or minus infinity. -/
def XF.Neg {F : XFormat} (x : XF F) : Prop := x.v = .inf true ∨ ∃ q < 0, x.v = .fin q

/-- The functions of the C library on the values of a format (C17, F.10). -/
class XLibm (F : XFormat) where
  exp : XF F → XF F
  log : XF F → XF F
  sqrt : XF F → XF F
  cbrt : XF F → XF F
  sin : XF F → XF F
  cos : XF F → XF F
  tan : XF F → XF F
  sinh : XF F → XF F
  cosh : XF F → XF F
  tanh : XF F → XF F
  asin : XF F → XF F
  acos : XF F → XF F
  atan : XF F → XF F
  asinh : XF F → XF F
  acosh : XF F → XF F
  atanh : XF F → XF F
  erf : XF F → XF F
  pow : XF F → ℚ → XF F
  powBase : ℚ → XF F → XF F
  pi : XF F
  twoOverSqrtPi : XF F
  exp_nan : ∀ x, IsNaN x → IsNaN (exp x)
  log_nan : ∀ x, IsNaN x → IsNaN (log x)
  log_neg : ∀ x : XF F, x.Neg → IsNaN (log x)
  log_zero : ∀ x : XF F, x.v = .fin 0 → (log x).v = .inf true
  log_one : ∀ x : XF F, x.v = .fin 1 → (log x).v = .fin 0
  sqrt_nan : ∀ x, IsNaN x → IsNaN (sqrt x)
  sqrt_neg : ∀ x : XF F, x.Neg → IsNaN (sqrt x)
  sqrt_zero : ∀ x : XF F, x.v = .fin 0 → (sqrt x).v = .fin 0
  cbrt_nan : ∀ x, IsNaN x → IsNaN (cbrt x)
  cbrt_zero : ∀ x : XF F, x.v = .fin 0 → (cbrt x).v = .fin 0
  sin_nan : ∀ x, NonFinite x → IsNaN (sin x)
  cos_nan : ∀ x, NonFinite x → IsNaN (cos x)
  sin_zero : ∀ x : XF F, x.v = .fin 0 → (sin x).v = .fin 0
  cos_zero : ∀ x : XF F, x.v = .fin 0 → (cos x).v = .fin 1
  tan_nan : ∀ x, IsNaN x → IsNaN (tan x)
  sinh_nan : ∀ x, IsNaN x → IsNaN (sinh x)
  cosh_nan : ∀ x, IsNaN x → IsNaN (cosh x)
  tanh_nan : ∀ x, IsNaN x → IsNaN (tanh x)
  atanh_nan : ∀ x, IsNaN x → IsNaN (atanh x)
  atan_nan : ∀ x, IsNaN x → IsNaN (atan x)
  /-- plus or minus half pi -/
  atan_inf : ∀ (x : XF F) s, x.v = .inf s → ∃ q, (atan x).v = .fin q
  atanh_out : ∀ (x : XF F) q, x.v = .fin q → 1 < |q| → IsNaN (atanh x)
  atanh_one : ∀ (x : XF F) q, x.v = .fin q → |q| = 1 → (atanh x).v = .inf (decide (q < 0))

variable {F : XFormat}

/-- Coefficients with special values and the functions of the library. No tests are made: `...Ok` is constantly true. -/
instance XF.cfFun [XLibm F] : CfFun (XF F) where
  toCf := XF.cf.toCf
  exp := XLibm.exp
  log := XLibm.log
  sqrt := XLibm.sqrt
  cbrt := XLibm.cbrt
  sin := XLibm.sin
  cos := XLibm.cos
  tan := XLibm.tan
  sinh := XLibm.sinh
  cosh := XLibm.cosh
  tanh := XLibm.tanh
  asin := XLibm.asin
  acos := XLibm.acos
  atan := XLibm.atan
  asinh := XLibm.asinh
  acosh := XLibm.acosh
  atanh := XLibm.atanh
  erf := XLibm.erf
  pow := XLibm.pow
  powBase := XLibm.powBase
  pi := XLibm.pi
  twoOverSqrtPi := XLibm.twoOverSqrtPi
  logOk _ := true
  sqrtOk _ := true
  tanOk _ := true
  asinOk _ := true
  acoshOk _ := true
  atanhOk _ := true
  powOk _ _ := true
  powBaseOk _ _ := true

/-- A library (a crude one: it serves to show that the assumptions can be met). -/
@[reducible] def XLibm.crude (F : XFormat) : XLibm F where
  exp x := match x.v with
    | .nan => XF.nan F
    | .inf s => if s then XF.round F 0 else XF.inf F false
    | .fin q => if q < 0 then XF.round F 0 else XF.round F 1
  log x := match x.v with
    | .nan => XF.nan F
    | .inf s => if s then XF.nan F else XF.inf F false
    | .fin q => if q < 0 then XF.nan F else if q = 0 then XF.inf F true else XF.round F 0
  sqrt x := match x.v with
    | .nan => XF.nan F
    | .inf s => if s then XF.nan F else XF.inf F false
    | .fin q => if q < 0 then XF.nan F else if q = 0 then XF.round F 0 else XF.round F 1
  cbrt x := x
  sin x := match x.v with
    | .fin _ => XF.round F 0
    | _ => XF.nan F
  cos x := match x.v with
    | .fin _ => XF.round F 1
    | _ => XF.nan F
  tan x := x
  sinh x := x
  cosh x := x
  tanh x := x
  asin x := x
  acos x := x
  atan x := if x.v = .nan then XF.nan F else XF.round F 1
  asinh x := x
  acosh x := x
  atanh x := match x.v with
    | .fin q => if 1 < |q| then XF.nan F else if |q| = 1 then XF.inf F (decide (q < 0)) else XF.round F 0
    | _ => XF.nan F
  erf x := x
  pow x _ := x
  powBase _ x := x
  pi := XF.round F 1
  twoOverSqrtPi := XF.round F 1
  exp_nan x h := by rw [IsNaN] at h; simp [h, IsNaN, XF.nan]
  log_nan x h := by rw [IsNaN] at h; simp [h, IsNaN, XF.nan]
  log_neg x h := by
    rcases h with h | ⟨q, hq, h⟩
    · simp [h, IsNaN, XF.nan]
    · simp [h, hq, IsNaN, XF.nan]
  log_zero x h := by simp [h, XF.inf]
  log_one x h := by simp [h, XF.round, F.rnd_zero, not_lt.mpr (zero_le_one (α := ℚ))]
  sqrt_nan x h := by rw [IsNaN] at h; simp [h, IsNaN, XF.nan]
  sqrt_neg x h := by
    rcases h with h | ⟨q, hq, h⟩
    · simp [h, IsNaN, XF.nan]
    · simp [h, hq, IsNaN, XF.nan]
  sqrt_zero x h := by simp [h, XF.round, F.rnd_zero]
  cbrt_nan x h := h
  cbrt_zero x h := h
  sin_nan x h := by
    unfold NonFinite at h
    rcases hx : x.v with _ | s | q
    · rfl
    · rfl
    · exact absurd hx (h q)
  cos_nan x h := by
    unfold NonFinite at h
    rcases hx : x.v with _ | s | q
    · rfl
    · rfl
    · exact absurd hx (h q)
  sin_zero x h := by simp [h, XF.round, F.rnd_zero]
  cos_zero x h := by simp [h, XF.round, F.rnd_one]
  tan_nan x h := h
  sinh_nan x h := h
  cosh_nan x h := h
  tanh_nan x h := h
  atanh_nan x h := by rw [IsNaN] at h; simp [h, IsNaN, XF.nan]
  atan_nan x h := by rw [IsNaN] at h; simp [h, IsNaN, XF.nan]
  atan_inf x s h := ⟨1, by simp [h, XF.round, F.rnd_one]⟩
  atanh_out x q h hq := by simp [h, hq, IsNaN, XF.nan]
  atanh_one x q h hq := by simp [h, hq, XF.inf]

end Audi
