import Verif.Spec.Expr

/-! # Specification: the variables of an expression -/

namespace Audi

/-- The names of the variables of an expression, in the order of their occurrences. -/
def Expr.vars {C : Type} : Expr C → List String
  | var s => [s]
  | const _ => []
  | bin _ e1 e2 => e1.vars ++ e2.vars
  | left _ _ e => e.vars
  | right _ e _ => e.vars
  | fn _ e => e.vars
  | pow e1 e2 => e1.vars ++ e2.vars

/-- The expression has no power of a number to a gdual (`pow(double, gdual)`). -/
def Expr.BaseFree {C : Type} : Expr C → Prop
  | var _ => True
  | const _ => True
  | bin _ e1 e2 => e1.BaseFree ∧ e2.BaseFree
  | left _ _ e => e.BaseFree
  | right _ e _ => e.BaseFree
  | fn (.powBase _) _ => False
  | fn _ e => e.BaseFree
  | pow e1 e2 => e1.BaseFree ∧ e2.BaseFree

end Audi
