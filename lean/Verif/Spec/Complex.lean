import Verif.Spec.Expr
import Mathlib.Analysis.SpecialFunctions.Complex.LogDeriv
import Mathlib.Analysis.SpecialFunctions.Pow.Deriv
import Mathlib.Analysis.SpecialFunctions.Trigonometric.ComplexDeriv

/-!
# Specification: complex coefficients

`audi.hpp:51` names `gdual_c = gdual<std::complex<double>>`. The coefficients are exact complex numbers here, the standard library functions are the
principal branches of Mathlib.

Modelled for complex coefficients: the arithmetic, `exp`, `log`, `sin`, `cos`, `tan`, `sinh`, `cosh`, `tanh`, `atanh` and the powers. The template
`binomial(T, unsigned)` (functions.hpp:140-148) subtracts an unsigned integer from a `T`, for which `std::complex` has no operator, so `sqrt`, `cbrt`, and
everything that calls them, cannot be instantiated (by reading: nothing was compiled); `erf` has no complex version in the standard library; `abs` compares
with `<`. These have no meaning for complex coefficients: their values below are arbitrary, no theorem mentions them, and their domain is empty.
-/

namespace Audi

open Spec

/-- The principal inverse hyperbolic tangent, `(log(1 + z) - log(1 - z)) / 2`. -/
noncomputable def Spec.catanh (z : ℂ) : ℂ := 1 / 2 * (Complex.log (1 + z) - Complex.log (1 - z))

/-- The branch of the logarithm near `z₀` whose value at `z₀` is the principal one. It is the principal logarithm near `z₀` unless `z₀` is a negative
number. -/
noncomputable def Spec.logNear (z₀ z : ℂ) : ℂ := Complex.log z₀ + Complex.log (z / z₀)

open Classical in
/-- Exact complex scalars. -/
noncomputable instance complexCfFun : CfFun ℂ where
  toCf := fieldCf
  exp := Complex.exp
  log := Complex.log
  sqrt := id
  cbrt := id
  sin := Complex.sin
  cos := Complex.cos
  tan := Complex.tan
  sinh := Complex.sinh
  cosh := Complex.cosh
  tanh := Complex.tanh
  asin := id
  acos := id
  atan := id
  asinh := id
  acosh := id
  atanh := Spec.catanh
  erf := id
  pow z q := z ^ (q : ℂ)
  powBase q z := (q : ℂ) ^ z
  pi := Real.pi
  twoOverSqrtPi := (2 / √Real.pi : ℝ)
  logOk z := decide (z ≠ 0)
  sqrtOk _ := false
  tanOk z := decide (Complex.cos z ≠ 0)
  asinOk _ := false
  acoshOk _ := false
  atanhOk z := decide (z ≠ 1 ∧ z ≠ -1)
  powOk z q := decide (z ≠ 0 ∨ 0 < q)
  powBaseOk q _ := decide (q ≠ 0)

open Classical in
noncomputable instance complexLanes : @Lanes ℂ (complexCfFun.toCf) Unit ℂ _ := fieldLanes

/-- The complex function. -/
noncomputable def Fn.cplx : Fn → ℂ → ℂ
  | .exp, z => Complex.exp z
  | .log, z => Complex.log z
  | .sin, z => Complex.sin z
  | .cos, z => Complex.cos z
  | .tan, z => Complex.tan z
  | .sinh, z => Complex.sinh z
  | .cosh, z => Complex.cosh z
  | .tanh, z => Complex.tanh z
  | .atanh, z => Spec.catanh z
  | .neg, z => -z
  | .powQ α, z => z ^ (α : ℂ)
  | .powInt k, z => z ^ k
  | .powBase q, z => (q : ℂ) ^ z
  | _, _ => 0

/-- Where the principal branch is differentiable. Empty for the functions which are not available. -/
def Fn.CDom : Fn → ℂ → Prop
  | .exp, _ => True
  | .log, z => z ∈ Complex.slitPlane
  | .sin, _ => True
  | .cos, _ => True
  | .tan, z => Complex.cos z ≠ 0
  | .sinh, _ => True
  | .cosh, _ => True
  | .tanh, z => Complex.cosh z ≠ 0
  | .atanh, z => 1 + z ∈ Complex.slitPlane ∧ 1 - z ∈ Complex.slitPlane
  | .neg, _ => True
  | .powQ α, z => -2147483649 < α ∧ α < 2147483648 ∧ (z ∈ Complex.slitPlane ∨ α.den = 1 ∧ (0 < α ∨ z ≠ 0))
  | .powInt k, z => -2147483648 < k ∧ (0 ≤ k ∨ z ≠ 0)
  | .powBase q, _ => q ≠ 0
  | _, _ => False

namespace Expr

/-- The complex function of the variables denoted by an expression. -/
noncomputable def csem : Expr ℂ → (String → ℂ) → ℂ
  | var s, x => x s
  | const c, _ => c
  | bin op e1 e2, x => op.real (e1.csem x) (e2.csem x)
  | left op c e, x => op.real c (e.csem x)
  | right op e c, x => op.real (e.csem x) c
  | fn f e, x => f.cplx (e.csem x)
  | pow e1 e2, x => e1.csem x ^ e2.csem x

/-- The point `x` is in the domain of all the functions and operators of the expression. -/
def CDom : Expr ℂ → (String → ℂ) → Prop
  | var _, _ => True
  | const _, _ => True
  | bin op e1 e2, x => e1.CDom x ∧ e2.CDom x ∧ op.Dom (e2.csem x)
  | left op _ e, x => e.CDom x ∧ op.Dom (e.csem x)
  | right op e c, x => e.CDom x ∧ op.Dom c
  | fn f e, x => e.CDom x ∧ f.CDom (e.csem x)
  | pow e1 e2, x => e1.CDom x ∧ e2.CDom x ∧ e1.csem x ∈ Complex.slitPlane

end Expr
end Audi
