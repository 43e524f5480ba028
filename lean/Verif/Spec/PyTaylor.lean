import Verif.Model.PyTaylor

/-!
# Specification: functions written in Python, called with Taylor models

Nothing says which operands are numbers and which are Taylor models. Evaluation with the operators of the module, and the meaning as real functions.
-/

namespace Audi

/-- Functions written in Python. -/
inductive PyTExpr
  | var (s : String)
  | const (c : PyNum)
  | bin (op : Op) (e1 e2 : PyTExpr)
  | fn (f : Fn) (e : PyTExpr)
  | pow (e1 e2 : PyTExpr)

namespace PyTExpr

/-- Evaluation; the arguments of the function are `σ`. -/
noncomputable def eval (ord : List String → List String) (σ : String → PyT) : PyTExpr → PyRes PyT
  | var s => .ok (σ s)
  | const c => .ok (.num c)
  | bin op e1 e2 => do PyT.bin ord op (← e1.eval ord σ) (← e2.eval ord σ)
  | fn f e => do PyT.fn ord f (← e.eval ord σ)
  | pow e1 e2 => do PyT.pow ord (← e1.eval ord σ) (← e2.eval ord σ)

/-- The real function. -/
noncomputable def sem : PyTExpr → (String → ℝ) → ℝ
  | var s, x => x s
  | const c, _ => c.val
  | bin op e1 e2, x => op.real (e1.sem x) (e2.sem x)
  | fn f e, x => f.real (e.sem x)
  | pow e1 e2, x => e1.sem x ^ e2.sem x

end PyTExpr
end Audi
