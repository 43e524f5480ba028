import Verif.Spec.LibExpr

/-!
# Specification: variables of different orders, with all the functions
-/

namespace Audi

/-- Evaluation of an expression: each variable `s` is the gdual `gdual(v s, s, o s)`, with an order of its own. -/
def LExpr.runO {C : Type} [CfFun C] [AbsFn C] (v : String → C) (o : String → ℕ) : LExpr C → Res (GDual C)
  | var s => GDual.mk3 (v s) s (o s)
  | const c => .ok (GDual.ofCf c)
  | bin op e1 e2 => do op.run (← e1.runO v o) (← e2.runO v o)
  | left op c e => do op.runL c (← e.runO v o)
  | right op e c => do op.runR (← e.runO v o) c
  | fn f e => do f.run (← e.runO v o)
  | pow e1 e2 => do GDual.powG (← e1.runO v o) (← e2.runO v o)

end Audi
