import Verif.Model.PyOps

/-!
# Specification: functions written in Python

Expressions as they are written in Python: nothing says which operands are numbers and which are gduals; this depends on the arguments of the function. Their evaluation with the operators of
the module, and their meaning as real functions.
-/

namespace Audi

/-- Expressions. -/
inductive PyExpr
  | var (s : String)
  | const (c : ℝ)
  | bin (op : Op) (e1 e2 : PyExpr)
  | fn (f : Fn) (e : PyExpr)
  | pow (e1 e2 : PyExpr)

namespace PyExpr

/-- Evaluation; the arguments of the function are `σ`. -/
noncomputable def eval (σ : String → PyV) : PyExpr → PyRes PyV
  | var s => .ok (σ s)
  | const c => .ok (.num c)
  | bin op e1 e2 => do PyV.bin op (← e1.eval σ) (← e2.eval σ)
  | fn f e => do PyV.fn f (← e.eval σ)
  | pow e1 e2 => do PyV.pow (← e1.eval σ) (← e2.eval σ)

/-- The real function. -/
noncomputable def sem : PyExpr → (String → ℝ) → ℝ
  | var s, x => x s
  | const c, _ => c
  | bin op e1 e2, x => op.real (e1.sem x) (e2.sem x)
  | fn f e, x => f.real (e.sem x)
  | pow e1 e2, x => e1.sem x ^ e2.sem x

/-- One of the variables in `G` occurs. -/
def Uses (G : String → Bool) : PyExpr → Bool
  | var s => G s
  | const _ => false
  | bin _ e1 e2 => e1.Uses G || e2.Uses G
  | fn _ e => e.Uses G
  | pow e1 e2 => e1.Uses G || e2.Uses G

/-- One of the variables in `G` occurs, not in the exponent of a number. -/
def Full (G : String → Bool) : PyExpr → Bool
  | var s => G s
  | const _ => false
  | bin _ e1 e2 => e1.Full G || e2.Full G
  | fn _ e => e.Full G
  | pow e1 e2 => (e1.Uses G && (e1.Full G || e2.Full G))

/-- The domain of a power. `a`, `b`: the base, the exponent depends on a variable in `G`. -/
def PowDom : (a b : Bool) → (x y : ℝ) → Prop
  | false, false, x, y => 0 < x ∨ ∃ n : ℤ, y = n ∧ (0 ≤ n ∨ x ≠ 0)
  | true, false, x, y => ∃ q : ℚ, y = q ∧ -2147483649 < q ∧ q < 2147483648 ∧ (0 < x ∨ q.den = 1 ∧ (0 ≤ q ∨ x ≠ 0))
  | false, true, x, _ => ∃ q : ℚ, x = q ∧ 0 < q
  | true, true, x, _ => 0 < x

/-- The point `x` is in the domain of all the functions and operators. -/
def Dom (G : String → Bool) (x : String → ℝ) : PyExpr → Prop
  | var _ => True
  | const _ => True
  | bin op e1 e2 => e1.Dom G x ∧ e2.Dom G x ∧ op.Dom (e2.sem x)
  | fn f e => e.Dom G x ∧ (if e.Uses G then f.Dom (e.sem x) else f.Defined (e.sem x))
  | pow e1 e2 => e1.Dom G x ∧ e2.Dom G x ∧ PowDom (e1.Uses G) (e2.Uses G) (e1.sem x) (e2.sem x)

/-- Functions of the module only, and those that get gduals are correct at order `m`. -/
def Legal (G : String → Bool) (m : ℕ) : PyExpr → Prop
  | var _ => True
  | const _ => True
  | bin _ e1 e2 => e1.Legal G m ∧ e2.Legal G m
  | fn f e => e.Legal G m ∧ f.InModule = true ∧ (e.Uses G = true → f.MaxOrder m)
  | pow e1 e2 => e1.Legal G m ∧ e2.Legal G m

end PyExpr

/-- The variables in `G` are those of `x`, the others have the values `v`. -/
def mixed (G : String → Bool) (v x : String → ℝ) : String → ℝ := fun s => if G s then x s else v s

end Audi
