import Verif.Spec.Rounding

/-!
# Specification: expressions whose intermediate results avoid certain values
-/

namespace Audi
variable {C : Type} [Cf C]

/-- No value of the table is in `N`. -/
def Free (N : C → Prop) (t : List (List ℕ × C)) : Prop := ∀ x ∈ t, ¬ N x.2

/-- Evaluation of the expression meets no value in `N`: no constant, no value of a variable, no reciprocal of a divisor, and no coefficient of the result of a subexpression is in `N`. -/
def AExpr.Quiet (N : C → Prop) (v : String → C) (m : ℕ) : AExpr C → Prop
  | var s => ¬ N (v s) ∧ ∀ r, GDual.mk3 (v s) s m = .ok r → Free N r.p.terms
  | const c => ¬ N c
  | bin op e1 e2 => e1.Quiet N v m ∧ e2.Quiet N v m ∧ ∀ r, (bin op e1 e2).run v m = .ok r → Free N r.p.terms
  | left op c e => ¬ N c ∧ e.Quiet N v m ∧ ∀ r, (left op c e).run v m = .ok r → Free N r.p.terms
  | right op e c => ¬ N c ∧ e.Quiet N v m ∧ ∀ r, (right op e c).run v m = .ok r → Free N r.p.terms
  | divc e c => ¬ N c ∧ ¬ N (Cf.div Cf.one c) ∧ e.Quiet N v m ∧ ∀ r, (divc e c).run v m = .ok r → Free N r.p.terms
  | neg e => e.Quiet N v m

end Audi
