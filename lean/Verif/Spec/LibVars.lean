import Verif.Spec.LibExpr

/-!
# Specification: the variables of an expression with all the functions
-/

namespace Audi.LExpr

variable {C : Type}

/-- The variables which occur in an expression. -/
def vars : LExpr C → List String
  | var s => [s]
  | const _ => []
  | bin _ e1 e2 => e1.vars ++ e2.vars
  | left _ _ e => e.vars
  | right _ e _ => e.vars
  | fn _ e => e.vars
  | pow e1 e2 => e1.vars ++ e2.vars

/-- No power of a number to a gdual occurs. -/
def BaseFree : LExpr C → Prop
  | var _ => True
  | const _ => True
  | bin _ e1 e2 => e1.BaseFree ∧ e2.BaseFree
  | left _ _ e => e.BaseFree
  | right _ e _ => e.BaseFree
  | fn f e => (∀ q, f ≠ .base (.powBase q)) ∧ e.BaseFree
  | pow e1 e2 => e1.BaseFree ∧ e2.BaseFree

end Audi.LExpr
