import Verif.Spec.Expr

/-!
# Specification: symbolic differentiation

The rules of differentiation, as a transformation of expressions.
-/

namespace Audi

variable {C : Type} [Cf C]

/-- The derivative of the function, as an expression in its argument. -/
def Fn.deriv (e : Expr C) : Fn → Expr C
  | exp => .fn .exp e
  | log => .left .div Cf.one e
  | sqrt => .left .div Cf.one (.left .mul (Cf.ofRat 2) (.fn .sqrt e))
  | cbrt => .left .div Cf.one (.left .mul (Cf.ofRat 3) (.bin .mul (.fn .cbrt e) (.fn .cbrt e)))
  | sin => .fn .cos e
  | cos => .fn .neg (.fn .sin e)
  | tan => .left .add Cf.one (.bin .mul (.fn .tan e) (.fn .tan e))
  | sinh => .fn .cosh e
  | cosh => .fn .sinh e
  | tanh => .left .sub Cf.one (.bin .mul (.fn .tanh e) (.fn .tanh e))
  | asinh => .left .div Cf.one (.fn .sqrt (.left .add Cf.one (.bin .mul e e)))
  | acosh => .left .div Cf.one (.fn .sqrt (.right .sub (.bin .mul e e) Cf.one))
  | atanh => .left .div Cf.one (.left .sub Cf.one (.bin .mul e e))
  | atan => .left .div Cf.one (.left .add Cf.one (.bin .mul e e))
  | asin => .left .div Cf.one (.fn .sqrt (.left .sub Cf.one (.bin .mul e e)))
  | acos => .left .div (Cf.ofRat (-1)) (.fn .sqrt (.left .sub Cf.one (.bin .mul e e)))
  | neg => .const (Cf.ofRat (-1))
  | powQ α => if α = 0 then .const Cf.zero else .left .mul (Cf.ofRat α) (.fn (.powQ (α - 1)) e)
  | powInt z => if z = 0 then .const Cf.zero else .left .mul (Cf.ofRat z) (.fn (.powInt (z - 1)) e)
  | powBase q => .bin .mul (.fn (.powBase q) e) (.fn .log (.const (Cf.ofRat q)))

namespace Expr

/-- The partial derivative with respect to the variable `s`. -/
def deriv (s : String) : Expr C → Expr C
  | var u => .const (if u = s then Cf.one else Cf.zero)
  | const _ => .const Cf.zero
  | bin .add e1 e2 => .bin .add (e1.deriv s) (e2.deriv s)
  | bin .sub e1 e2 => .bin .sub (e1.deriv s) (e2.deriv s)
  | bin .mul e1 e2 => .bin .add (.bin .mul (e1.deriv s) e2) (.bin .mul e1 (e2.deriv s))
  | bin .div e1 e2 => .bin .div (.bin .sub (.bin .mul (e1.deriv s) e2) (.bin .mul e1 (e2.deriv s))) (.bin .mul e2 e2)
  | left .add _ e => e.deriv s
  | left .sub _ e => .fn .neg (e.deriv s)
  | left .mul c e => .left .mul c (e.deriv s)
  | left .div c e => .fn .neg (.bin .div (.left .mul c (e.deriv s)) (.bin .mul e e))
  | right .add e _ => e.deriv s
  | right .sub e _ => e.deriv s
  | right .mul e c => .right .mul (e.deriv s) c
  | right .div e c => .right .div (e.deriv s) c
  | fn f e => .bin .mul (f.deriv e) (e.deriv s)
  | pow e1 e2 => .bin .mul (.pow e1 e2) (.bin .add (.bin .mul (e2.deriv s) (.fn .log e1)) (.bin .mul e2 (.bin .div (e1.deriv s) e1)))

omit [Cf C] in
/-- Negative exponents are far enough from the smallest integer, so that the exponent minus 1 is an integer of 32 bits as well. -/
def PowOk : Expr C → Prop
  | var _ => True
  | const _ => True
  | bin _ e1 e2 => e1.PowOk ∧ e2.PowOk
  | left _ _ e => e.PowOk
  | right _ e _ => e.PowOk
  | fn (.powQ α) e => e.PowOk ∧ -2147483648 < α
  | fn (.powInt z) e => e.PowOk ∧ -2147483647 < z
  | fn _ e => e.PowOk
  | pow e1 e2 => e1.PowOk ∧ e2.PowOk

end Expr

end Audi
