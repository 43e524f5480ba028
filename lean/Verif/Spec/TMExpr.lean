import Verif.Spec.Expr
import Verif.Spec.TaylorModel
import Verif.Model.TaylorModelFunctions

/-!
# Specification: expressions of Taylor models

Evaluation of the expressions of Spec/Expr.lean on Taylor models, with the operators and functions of the model.
-/

namespace Audi

/-- The function of Taylor models; `pow` with an exponent of type `double`. There is no `cbrt` and no power of a number for Taylor models: programs that
use them do not compile, here they have no result. -/
noncomputable def Fn.runTM (ord : List String → List String) : Fn → TM ℝ → Res (TM ℝ)
  | exp, t => TM.rexp ord t
  | log, t => TM.rlog ord t
  | sqrt, t => TM.sqrt ord t
  | cbrt, _ => .error .undefinedBehaviour
  | sin, t => TM.rsin ord t
  | cos, t => TM.rcos ord t
  | tan, t => TM.rtan ord t
  | sinh, t => TM.rsinh ord t
  | cosh, t => TM.rcosh ord t
  | tanh, t => TM.rtanh ord t
  | asinh, t => TM.rasinh ord t
  | acosh, t => TM.racosh ord t
  | atanh, t => TM.ratanh ord t
  | atan, t => TM.ratan ord t
  | asin, t => TM.rasin ord t
  | acos, t => TM.racos ord t
  | neg, t => TM.neg t
  | powQ α, t => TM.powT ord (1 / 2 ^ 52) t α
  | powInt z, t => TM.powInt ord t z
  | powBase _, _ => .error .undefinedBehaviour

/-- The operator on Taylor models. -/
noncomputable def Op.runTM (ord : List String → List String) : Op → TM ℝ → TM ℝ → Res (TM ℝ)
  | add, a, b => TM.add a b
  | sub, a, b => TM.sub a b
  | mul, a, b => TM.mul ord a b
  | div, a, b => TM.div ord a b

/-- The operator with a number on the left. -/
noncomputable def Op.runTML (ord : List String → List String) : Op → ℝ → TM ℝ → Res (TM ℝ)
  | add, c, a => TM.addST c a
  | sub, c, a => TM.subST c a
  | mul, c, a => TM.mulST c a
  | div, c, a => TM.divST ord c a

/-- The operator with a number on the right. -/
noncomputable def Op.runTMR : Op → TM ℝ → ℝ → Res (TM ℝ)
  | add, a, c => TM.addTS a c
  | sub, a, c => TM.subTS a c
  | mul, a, c => TM.mulTS a c
  | div, a, c => TM.divTS a c

/-- The functions of Taylor models that multiply. -/
def Fn.Multiplies : Fn → Prop
  | tan => True
  | tanh => True
  | asinh => True
  | acosh => True
  | atanh => True
  | atan => True
  | asin => True
  | acos => True
  | powQ _ => True
  | powInt _ => True
  | _ => False

/-- Exponents: integers, not 0, in the range of `int`; for `double` multiples of 1/2. -/
def Fn.GoodExponent : Fn → Prop
  | powQ α => α ≠ 0 ∧ (α * 2).den = 1
  | powInt z => z ≠ 0 ∧ -2147483648 < z
  | _ => True

/-- The operators that multiply. -/
def Op.Multiplies : Op → Prop
  | mul => True
  | div => True
  | _ => False

namespace Expr

/-- Evaluation of an expression on Taylor models: each variable `s` is the Taylor model with polynomial `gdual(v s, s, m)`, remainder `R s`, expansion
point `v s`, domain `D s`. There is no power of a Taylor model to a Taylor model. -/
noncomputable def runTM (ord : List String → List String) (v : String → ℝ) (D R : String → Itv ℝ) (m : ℕ) : Expr ℝ → Res (TM ℝ)
  | var s => do
    let g ← GDual.mk3 (v s) s m
    TM.make g (R s) [(s, v s)] [(s, D s)]
  | const c => .ok (TM.ofConst c)
  | bin op e1 e2 => do op.runTM ord (← e1.runTM ord v D R m) (← e2.runTM ord v D R m)
  | left op c e => do op.runTML ord c (← e.runTM ord v D R m)
  | right op e c => do op.runTMR (← e.runTM ord v D R m) c
  | fn f e => do f.runTM ord (← e.runTM ord v D R m)
  | pow _ _ => .error .undefinedBehaviour

/-- Exponents are good, and no multiplication involves only Taylor models of order 0: in a product or quotient one of the two operands has an order of
at least 1, and so has the argument of a function that multiplies. -/
def Proper (ord : List String → List String) (v : String → ℝ) (D R : String → Itv ℝ) (m : ℕ) : Expr ℝ → Prop
  | var _ => True
  | const _ => True
  | bin op e1 e2 => e1.Proper ord v D R m ∧ e2.Proper ord v D R m ∧
      (op.Multiplies → ∀ a b, e1.runTM ord v D R m = .ok a → e2.runTM ord v D R m = .ok b → 1 ≤ a.order ∨ 1 ≤ b.order)
  | left _ _ e => e.Proper ord v D R m
  | right _ e _ => e.Proper ord v D R m
  | fn f e => e.Proper ord v D R m ∧ f.GoodExponent ∧ (f.Multiplies → ∀ a, e.runTM ord v D R m = .ok a → 1 ≤ a.order)
  | pow e1 e2 => e1.Proper ord v D R m ∧ e2.Proper ord v D R m

end Expr
end Audi
