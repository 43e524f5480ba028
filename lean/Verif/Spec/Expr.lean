import Verif.Spec.Functions

/-!
# Specification: expressions

Syntax trees for expressions over named variables, their evaluation on gduals (with the operators and functions of the model), their meaning as
real functions, and the domain of that meaning.
-/

namespace Audi

/-- Functions of one argument. -/
inductive Fn
  | exp | log | sqrt | cbrt | sin | cos | tan | sinh | cosh | tanh | asinh | acosh | atanh | atan | asin | acos | neg
  | powQ (α : ℚ) | powInt (z : ℤ) | powBase (q : ℚ)

/-- Operators with two arguments. -/
inductive Op
  | add | sub | mul | div

/-- Expressions with constants in `C`. -/
inductive Expr (C : Type)
  | var (s : String)
  | const (c : C)
  | bin (op : Op) (e1 e2 : Expr C)
  | left (op : Op) (c : C) (e : Expr C)
  | right (op : Op) (e : Expr C) (c : C)
  | fn (f : Fn) (e : Expr C)
  | pow (e1 e2 : Expr C)

variable {C : Type} [CfFun C]

/-- The function of gduals. -/
def Fn.run : Fn → GDual C → Res (GDual C)
  | exp, d => d.exp
  | log, d => d.log
  | sqrt, d => d.sqrt
  | cbrt, d => d.cbrt
  | sin, d => d.sin
  | cos, d => d.cos
  | tan, d => d.tan
  | sinh, d => d.sinh
  | cosh, d => d.cosh
  | tanh, d => d.tanh
  | asinh, d => d.asinh
  | acosh, d => d.acosh
  | atanh, d => d.atanh
  | atan, d => d.atan
  | asin, d => d.asin
  | acos, d => d.acos
  | neg, d => .ok d.neg
  | powQ α, d => d.powQ α
  | powInt z, d => d.powInt z
  | powBase q, d => d.powBase q

/-- The real function. -/
noncomputable def Fn.real : Fn → ℝ → ℝ
  | exp, x => Real.exp x
  | log, x => Real.log x
  | sqrt, x => √x
  | cbrt, x => Spec.cbrt x
  | sin, x => Real.sin x
  | cos, x => Real.cos x
  | tan, x => Real.tan x
  | sinh, x => Real.sinh x
  | cosh, x => Real.cosh x
  | tanh, x => Real.tanh x
  | asinh, x => Real.arsinh x
  | acosh, x => Real.arcosh x
  | atanh, x => Real.artanh x
  | atan, x => Real.arctan x
  | asin, x => Real.arcsin x
  | acos, x => Real.arccos x
  | neg, x => -x
  | powQ α, x => x ^ (α : ℝ)
  | powInt z, x => x ^ z
  | powBase q, x => (q : ℝ) ^ x

/-- The open domain in which the function is smooth. -/
def Fn.Dom : Fn → ℝ → Prop
  | log, x => 0 < x
  | sqrt, x => 0 < x
  | cbrt, x => x ≠ 0
  | tan, x => Real.cos x ≠ 0
  | acosh, x => 1 < x
  | atanh, x => |x| < 1
  | asin, x => |x| < 1
  | acos, x => |x| < 1
  | powQ α, x => -2147483649 < α ∧ α < 2147483648 ∧ (0 < x ∨ α.den = 1 ∧ (0 ≤ α ∨ x ≠ 0))
  | powInt z, x => -2147483648 < z ∧ (0 ≤ z ∨ x ≠ 0)
  | powBase q, _ => 0 < q
  | _, _ => True

/-- The functions that go through `atan` are correct up to order 30 only (32 bit overflow). -/
def Fn.MaxOrder : Fn → ℕ → Prop
  | atan, m => m ≤ 30
  | asin, m => m ≤ 30
  | acos, m => m ≤ 30
  | _, _ => True

/-- The operator on gduals. -/
def Op.run : Op → GDual C → GDual C → Res (GDual C)
  | add, a, b => .ok (a.add b)
  | sub, a, b => .ok (a.sub b)
  | mul, a, b => .ok (a.mul b)
  | div, a, b => a.div b

/-- The operator with a scalar on the left. -/
def Op.runL : Op → C → GDual C → Res (GDual C)
  | add, c, a => .ok (a.addSG c)
  | sub, c, a => .ok (a.subSG c)
  | mul, c, a => .ok (a.mulSG c)
  | div, c, a => GDual.divSG c a

/-- The operator with a scalar on the right. -/
def Op.runR : Op → GDual C → C → Res (GDual C)
  | add, a, c => .ok (a.addGS c)
  | sub, a, c => .ok (a.subGS c)
  | mul, a, c => .ok (a.mulGS c)
  | div, a, c => a.divGS c

/-- The operation on numbers (real or complex). -/
def Op.real {𝕜 : Type} [Field 𝕜] : Op → 𝕜 → 𝕜 → 𝕜
  | add, x, y => x + y
  | sub, x, y => x - y
  | mul, x, y => x * y
  | div, x, y => x / y

/-- The domain of the second operand. -/
def Op.Dom {𝕜 : Type} [Field 𝕜] : Op → 𝕜 → Prop
  | div, y => y ≠ 0
  | _, _ => True

namespace Expr

/-- Evaluation of an expression: each variable `s` is the gdual `gdual(v s, s, m)`. -/
def run (v : String → C) (m : ℕ) : Expr C → Res (GDual C)
  | var s => GDual.mk3 (v s) s m
  | const c => .ok (GDual.ofCf c)
  | bin op e1 e2 => do op.run (← e1.run v m) (← e2.run v m)
  | left op c e => do op.runL c (← e.run v m)
  | right op e c => do op.runR (← e.run v m) c
  | fn f e => do f.run (← e.run v m)
  | pow e1 e2 => do GDual.powG (← e1.run v m) (← e2.run v m)

variable {ι : Type} [Lanes C ι ℝ]

/-- The real function of the variables denoted by an expression, in one lane. -/
noncomputable def sem (i : ι) : Expr C → (String → ℝ) → ℝ
  | var s, x => x s
  | const c, _ => Lanes.lane i c
  | bin op e1 e2, x => op.real (e1.sem i x) (e2.sem i x)
  | left op c e, x => op.real (Lanes.lane i c) (e.sem i x)
  | right op e c, x => op.real (e.sem i x) (Lanes.lane i c)
  | fn f e, x => f.real (e.sem i x)
  | pow e1 e2, x => e1.sem i x ^ e2.sem i x

/-- The point `x` is in the domain of all the functions and operators of the expression. -/
def Dom (i : ι) : Expr C → (String → ℝ) → Prop
  | var _, _ => True
  | const _, _ => True
  | bin op e1 e2, x => e1.Dom i x ∧ e2.Dom i x ∧ op.Dom (e2.sem i x)
  | left op _ e, x => e.Dom i x ∧ op.Dom (e.sem i x)
  | right op e c, x => e.Dom i x ∧ op.Dom (Lanes.lane i c)
  | fn f e, x => e.Dom i x ∧ f.Dom (e.sem i x)
  | pow e1 e2, x => e1.Dom i x ∧ e2.Dom i x ∧ 0 < e1.sem i x

omit [CfFun C] in
/-- All variables have legal names and all functions are correct at order `m`. -/
def Legal (m : ℕ) : Expr C → Prop
  | var s => (∃ c, s.toList.head? = some c ∧ c ≠ 'd')
  | const _ => True
  | bin _ e1 e2 => e1.Legal m ∧ e2.Legal m
  | left _ _ e => e.Legal m
  | right _ e _ => e.Legal m
  | fn f e => e.Legal m ∧ f.MaxOrder m
  | pow e1 e2 => e1.Legal m ∧ e2.Legal m

omit [CfFun C] in
/-- The expression contains a variable which is not in the exponent of a numeric base. -/
def full : Expr C → Bool
  | var _ => true
  | const _ => false
  | bin _ e1 e2 => e1.full || e2.full
  | left _ _ e => e.full
  | right _ e _ => e.full
  | fn (.powBase _) _ => false
  | fn _ e => e.full
  | pow e1 e2 => e1.full || e2.full

end Expr
end Audi
