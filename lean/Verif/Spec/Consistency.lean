import Verif.Spec.RoundedFn
import Verif.Spec.Expr

/-!
# Specification: floating point arithmetics of increasing precision

All the arithmetics with functions whose errors are those of at most `A` roundings, and expressions with rounded constants.
-/

namespace Audi

/-- A floating point arithmetic with its library of functions: the relative errors of the functions are at most those of `A` roundings. -/
structure Arith (A : ℕ) where
  R : Rounding ℝ
  libm : Libm R
  acc_le : libm.acc ≤ A
  tan_err : ∀ x, Real.cos x.val ≠ 0 → |(libm.tan x).val - Real.tan x.val| ≤ ((1 + R.u) ^ A - 1) * |Real.tan x.val|
  tanh_err : ∀ x, |(libm.tanh x).val - Real.tanh x.val| ≤ ((1 + R.u) ^ A - 1) * |Real.tanh x.val|
  atan_err : ∀ x, |(libm.atan x).val - Real.arctan x.val| ≤ ((1 + R.u) ^ A - 1) * |Real.arctan x.val|
  atanh_err : ∀ x, |x.val| < 1 → |(libm.atanh x).val - Real.artanh x.val| ≤ ((1 + R.u) ^ A - 1) * |Real.artanh x.val|
  pow_err : ∀ x (q : ℚ), Spec.PowDom x.val q → |(libm.pow x q).val - x.val ^ (q : ℝ)| ≤ ((1 + R.u) ^ A - 1) * |x.val ^ (q : ℝ)|
  pi_err : |libm.pi.val - Real.pi| ≤ ((1 + R.u) ^ A - 1) * |Real.pi|
  asin_err : ∀ x, |x.val| < 1 → |(libm.asin x).val - Real.arcsin x.val| ≤ ((1 + R.u) ^ A - 1) * |Real.arcsin x.val|
  acos_err : ∀ x, |x.val| < 1 → |(libm.acos x).val - Real.arccos x.val| ≤ ((1 + R.u) ^ A - 1) * |Real.arccos x.val|
  asinh_err : ∀ x, |(libm.asinh x).val - Real.arsinh x.val| ≤ ((1 + R.u) ^ A - 1) * |Real.arsinh x.val|
  acosh_err : ∀ x, 1 < x.val → |(libm.acosh x).val - Real.arcosh x.val| ≤ ((1 + R.u) ^ A - 1) * |Real.arcosh x.val|
  erf_err : ∀ x, |(libm.erf x).val - Spec.erf x.val| ≤ ((1 + R.u) ^ A - 1) * |Spec.erf x.val|
  twoOverSqrtPi_err : |libm.twoOverSqrtPi.val - 2 / √Real.pi| ≤ ((1 + R.u) ^ A - 1) * |2 / √Real.pi|

instance {A : ℕ} (S : Arith A) : Libm S.R := S.libm

namespace Expr

/-- Change the constants. -/
def map {C D : Type} (f : C → D) : Expr C → Expr D
  | var s => var s
  | const c => const (f c)
  | bin op e1 e2 => bin op (e1.map f) (e2.map f)
  | left op c e => left op (f c) (e.map f)
  | right op e c => right op (e.map f) (f c)
  | fn g e => fn g (e.map f)
  | pow e1 e2 => pow (e1.map f) (e2.map f)

end Expr
end Audi
