import Verif.Spec.Deriv
import Verif.Spec.LibExpr

/-!
# Specification: symbolic differentiation with all the functions

The rules of differentiation for the expressions of Spec/LibExpr.lean.
-/

namespace Audi

/-- Put the expression `e` in the place of the variables. -/
def Expr.plug {C : Type} (e : LExpr C) : Expr C → LExpr C
  | .var _ => e
  | .const c => .const c
  | .bin op e1 e2 => .bin op (e1.plug e) (e2.plug e)
  | .left op c e1 => .left op c (e1.plug e)
  | .right op e1 c => .right op (e1.plug e) c
  | .fn f e1 => .fn (.base f) (e1.plug e)
  | .pow e1 e2 => .pow (e1.plug e) (e2.plug e)

/-- The derivative of the function `f` of Spec/Deriv.lean at `e`. -/
def Fn.derivAt {C : Type} [Cf C] (e : LExpr C) (f : Fn) : LExpr C := (f.deriv (.var "x")).plug e

variable {C : Type} [CfFun C]

/-- The derivative of the function, as an expression in its argument. -/
def LFn.deriv (e : LExpr C) : LFn → LExpr C
  | base f => f.derivAt e
  | abs => .bin .div (.fn .abs e) e
  | sinOf => .fn .cosOf e
  | cosOf => .fn (.base .neg) (.fn .sinOf e)
  | sinhOf => .fn .coshOf e
  | coshOf => .fn .sinhOf e
  | erf => .left .mul CfFun.twoOverSqrtPi (.fn (.base .exp) (.fn (.base .neg) (.bin .mul e e)))
  | atanD => Fn.derivAt e .atan
  | atanhD => Fn.derivAt e .atanh
  | asinD => Fn.derivAt e .asin
  | acosD => Fn.derivAt e .acos
  | asinhD => Fn.derivAt e .asinh
  | acoshD => Fn.derivAt e .acosh
  | log10 => .left .div Cf.one (.bin .mul (.fn (.base .log) (.const (Cf.ofRat 10))) e)
  | log2 => .left .div Cf.one (.bin .mul (.fn (.base .log) (.const (Cf.ofRat 2))) e)
  | log1p => .left .div Cf.one (.left .add Cf.one e)
  | expm1 => .fn (.base .exp) e
  | erfc => .fn (.base .neg) (.left .mul CfFun.twoOverSqrtPi (.fn (.base .exp) (.fn (.base .neg) (.bin .mul e e))))

namespace LExpr

/-- The partial derivative with respect to the variable `s`. -/
def deriv (s : String) : LExpr C → LExpr C
  | var u => .const (if u = s then Cf.one else Cf.zero)
  | const _ => .const Cf.zero
  | bin .add e1 e2 => .bin .add (e1.deriv s) (e2.deriv s)
  | bin .sub e1 e2 => .bin .sub (e1.deriv s) (e2.deriv s)
  | bin .mul e1 e2 => .bin .add (.bin .mul (e1.deriv s) e2) (.bin .mul e1 (e2.deriv s))
  | bin .div e1 e2 => .bin .div (.bin .sub (.bin .mul (e1.deriv s) e2) (.bin .mul e1 (e2.deriv s))) (.bin .mul e2 e2)
  | left .add _ e => e.deriv s
  | left .sub _ e => .fn (.base .neg) (e.deriv s)
  | left .mul c e => .left .mul c (e.deriv s)
  | left .div c e => .fn (.base .neg) (.bin .div (.left .mul c (e.deriv s)) (.bin .mul e e))
  | right .add e _ => e.deriv s
  | right .sub e _ => e.deriv s
  | right .mul e c => .right .mul (e.deriv s) c
  | right .div e c => .right .div (e.deriv s) c
  | fn f e => .bin .mul (f.deriv e) (e.deriv s)
  | pow e1 e2 => .bin .mul (.pow e1 e2) (.bin .add (.bin .mul (e2.deriv s) (.fn (.base .log) e1)) (.bin .mul e2 (.bin .div (e1.deriv s) e1)))

omit [CfFun C] in
/-- Negative exponents are far enough from the smallest integer, so that the exponent minus 1 is an integer of 32 bits as well. -/
def PowOk : LExpr C → Prop
  | var _ => True
  | const _ => True
  | bin _ e1 e2 => e1.PowOk ∧ e2.PowOk
  | left _ _ e => e.PowOk
  | right _ e _ => e.PowOk
  | fn (.base (.powQ α)) e => e.PowOk ∧ -2147483648 < α
  | fn (.base (.powInt z)) e => e.PowOk ∧ -2147483647 < z
  | fn _ e => e.PowOk
  | pow e1 e2 => e1.PowOk ∧ e2.PowOk

end LExpr

end Audi
