import Verif.Model.Rounding
import Verif.Spec.Expr

/-!
# Specification: gduals with rounded coefficients

The exact value of a gdual with rounded coefficients, and expressions with the operations +, -, * (and division by numbers): their
evaluation, the expression with absolute values, and the number of roundings.
-/

namespace Audi

variable {K : Type} [Field K] [LinearOrder K] {R : Rounding K}

/-- The same table, its floating point numbers read as numbers. -/
def Poly.exact (p : Poly (Fl R)) : Poly K := ⟨p.syms, p.terms.map fun t => (t.1, t.2.val)⟩

/-- The same gdual, its floating point numbers read as numbers. -/
def GDual.exact (d : GDual (Fl R)) : GDual K := ⟨d.p.exact, d.order⟩

/-- The coefficient of a monomial. -/
noncomputable def GDual.coeffOf (d : GDual (Fl R)) (E : String →₀ ℕ) : K := (d.exact.toMv ()).coeff E

/-- The operations of arithmetic expressions. -/
inductive AOp
  | add | sub | mul

/-- Arithmetic expressions with constants in `C`: two operands, a number on the left, a number on the right, division by a number, unary minus. -/
inductive AExpr (C : Type)
  | var (s : String)
  | const (c : C)
  | bin (op : AOp) (e1 e2 : AExpr C)
  | left (op : AOp) (c : C) (e : AExpr C)
  | right (op : AOp) (e : AExpr C) (c : C)
  | divc (e : AExpr C) (c : C)
  | neg (e : AExpr C)

section
variable {C : Type} [Cf C]

/-- The operator on gduals. -/
def AOp.run : AOp → GDual C → GDual C → GDual C
  | add, a, b => a.add b
  | sub, a, b => a.sub b
  | mul, a, b => a.mul b

/-- The operator with a number on the left. -/
def AOp.runL : AOp → C → GDual C → GDual C
  | add, c, a => a.addSG c
  | sub, c, a => a.subSG c
  | mul, c, a => a.mulSG c

/-- The operator with a number on the right. -/
def AOp.runR : AOp → GDual C → C → GDual C
  | add, a, c => a.addGS c
  | sub, a, c => a.subGS c
  | mul, a, c => a.mulGS c

/-- Evaluation: each variable `s` is the gdual `gdual(v s, s, m)`. -/
def AExpr.run (v : String → C) (m : ℕ) : AExpr C → Res (GDual C)
  | var s => GDual.mk3 (v s) s m
  | const c => .ok (GDual.ofCf c)
  | bin op e1 e2 => do .ok (op.run (← e1.run v m) (← e2.run v m))
  | left op c e => do .ok (op.runL c (← e.run v m))
  | right op e c => do .ok (op.runR (← e.run v m) c)
  | divc e c => do (← e.run v m).divGS c
  | neg e => do .ok (← e.run v m).neg

end

/-- The same operation with operands of absolute values: differences become sums. -/
def AOp.abs : AOp → AOp
  | mul => mul
  | _ => add

/-- The operation as an operation of `Expr`. -/
def AOp.toOp : AOp → Op
  | add => .add
  | sub => .sub
  | mul => .mul

namespace AExpr

/-- Change the constants. -/
def map {C D : Type} (f : C → D) : AExpr C → AExpr D
  | var s => var s
  | const c => const (f c)
  | bin op e1 e2 => bin op (e1.map f) (e2.map f)
  | left op c e => left op (f c) (e.map f)
  | right op e c => right op (e.map f) (f c)
  | divc e c => divc (e.map f) (f c)
  | neg e => neg (e.map f)

/-- The expression with absolute values: constants are replaced with their absolute values, differences with sums. -/
def abs : AExpr K → AExpr K
  | var s => var s
  | const c => const |c|
  | bin op e1 e2 => bin op.abs e1.abs e2.abs
  | left op c e => left op.abs |c| e.abs
  | right op e c => right op.abs e.abs |c|
  | divc e c => divc e.abs |c|
  | neg e => e.abs

/-- An upper bound of the number of roundings that a coefficient of degree `j` of the result has gone through. A sum of two gduals rounds each coefficient once; a product rounds
the products and the sums of each coefficient, of which there are at most `2 ^ j`; division by a number is a multiplication with its rounded reciprocal. -/
def rounds {C : Type} : AExpr C → ℕ → ℕ
  | var _, _ => 0
  | const _, _ => 0
  | bin .mul e1 e2, j => e1.rounds j + e2.rounds j + 2 ^ j
  | bin _ e1 e2, j => max (e1.rounds j) (e2.rounds j) + 1
  | left _ _ e, j => e.rounds j + 1
  | right _ e _, j => e.rounds j + 1
  | divc e _, j => e.rounds j + 2
  | neg e, j => e.rounds j

/-- All variables have legal names, and no division is by zero. -/
def Legal {C : Type} (zero : C → Prop) : AExpr C → Prop
  | var s => ∃ c, s.toList.head? = some c ∧ c ≠ 'd'
  | const _ => True
  | bin _ e1 e2 => e1.Legal zero ∧ e2.Legal zero
  | left _ _ e => e.Legal zero
  | right _ e _ => e.Legal zero
  | divc e c => e.Legal zero ∧ ¬ zero c
  | neg e => e.Legal zero

/-- The expression as an `Expr`, whose meaning as a real function is `Expr.sem`. -/
def toExpr {C : Type} : AExpr C → Expr C
  | var s => .var s
  | const c => .const c
  | bin op e1 e2 => .bin op.toOp e1.toExpr e2.toExpr
  | left op c e => .left op.toOp c e.toExpr
  | right op e c => .right op.toOp e.toExpr c
  | divc e c => .right .div e.toExpr c
  | neg e => .fn .neg e.toExpr

end AExpr
end Audi
