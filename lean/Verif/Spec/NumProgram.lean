import Verif.Spec.SpecialFn
import Verif.Spec.Program

/-!
# Specification: programs on floating point numbers

The programs of Spec/Program.lean run on the values of a floating point format, with the operators of the format and the functions of the C library.
-/

namespace Audi

variable {F : XFormat} [XLibm F]

/-- The operation on values. -/
def Op.num : Op → XF F → XF F → XF F
  | add => Cf.add
  | sub => Cf.sub
  | mul => Cf.mul
  | div => Cf.div

/-- The library function. -/
def Fn.num : Fn → XF F → XF F
  | exp, x => XLibm.exp x
  | log, x => XLibm.log x
  | sqrt, x => XLibm.sqrt x
  | cbrt, x => XLibm.cbrt x
  | sin, x => XLibm.sin x
  | cos, x => XLibm.cos x
  | tan, x => XLibm.tan x
  | sinh, x => XLibm.sinh x
  | cosh, x => XLibm.cosh x
  | tanh, x => XLibm.tanh x
  | asinh, x => XLibm.asinh x
  | acosh, x => XLibm.acosh x
  | atanh, x => XLibm.atanh x
  | atan, x => XLibm.atan x
  | asin, x => XLibm.asin x
  | acos, x => XLibm.acos x
  | neg, x => Cf.neg x
  | powQ α, x => XLibm.pow x α
  | powInt z, x => XLibm.pow x z
  | powBase q, x => XLibm.powBase q x

/-- The comparison of values. -/
def Cmp.num : Cmp → XF F → XF F → Bool
  | lt, x, y => CfOrd.lt x y
  | gt, x, y => CfOrd.gt x y
  | eq, x, y => Cf.beq x y

/-- The value is a number. -/
def XF.Fin (x : XF F) : Prop := ∃ q, x.v = .fin q

namespace Expr

/-- The value of an expression. -/
def num (s : String → XF F) : Expr (XF F) → XF F
  | var x => s x
  | const c => c
  | bin op e1 e2 => op.num (e1.num s) (e2.num s)
  | left op c e => op.num c (e.num s)
  | right op e c => op.num (e.num s) c
  | fn f e => f.num (e.num s)
  | pow e1 e2 => match (e2.num s).v with
    | .fin q => XLibm.pow (e1.num s) q
    | _ => XF.nan F

/-- The values of the expression and of its subexpressions are numbers: no overflow, no NaN. -/
def Finite (s : String → XF F) : Expr (XF F) → Prop
  | var x => (s x).Fin
  | const c => c.Fin
  | bin op e1 e2 => e1.Finite s ∧ e2.Finite s ∧ ((bin op e1 e2).num s).Fin
  | left op c e => c.Fin ∧ e.Finite s ∧ ((left op c e).num s).Fin
  | right op e c => e.Finite s ∧ c.Fin ∧ ((right op e c).num s).Fin
  | fn f e => e.Finite s ∧ ((fn f e).num s).Fin
  | pow e1 e2 => e1.Finite s ∧ e2.Finite s ∧ ((pow e1 e2).num s).Fin

end Expr

/-- Operators computed on constant coefficients as on numbers: all but the quotient. -/
def Op.Same : Op → Prop
  | div => False
  | _ => True

/-- Functions computed on constant coefficients by the library function of the same name. -/
def Fn.Same : Fn → Prop
  | asinh | acosh | asin | acos | powInt _ | powBase _ => False
  | powQ α => |α| < 2147483648 ∧ ¬ (α.den = 1 ∧ α > 0)
  | _ => True

/-- The expression is built from such operators and functions. -/
def Expr.Same {C : Type} : Expr C → Prop
  | var _ => True
  | const _ => True
  | bin op e1 e2 => op.Same ∧ e1.Same ∧ e2.Same
  | left op _ e => op.Same ∧ e.Same
  | right op e _ => op.Same ∧ e.Same
  | fn f e => f.Same ∧ e.Same
  | pow _ _ => False

namespace Prog

/-- The program is built from such operators and functions, and compares with `<` and `>`. -/
def Same {C : Type} : Prog C → Prop
  | skip => True
  | assign _ e => e.Same
  | opAssign op _ e => op.Same ∧ e.Same
  | seq p q => p.Same ∧ q.Same
  | ite c e1 e2 p q => c ≠ .eq ∧ e1.Same ∧ e2.Same ∧ p.Same ∧ q.Same
  | loop c e1 e2 p => c ≠ .eq ∧ e1.Same ∧ e2.Same ∧ p.Same

/-- Running a program on the values of the format; all values it uses are numbers. -/
inductive NRun : Prog (XF F) → (String → XF F) → (String → XF F) → Prop
  | skip (s) : NRun skip s s
  | assign (s x e) : e.Finite s → NRun (assign x e) s (Function.update s x (e.num s))
  | opAssign (s op x e) : (s x).Fin → e.Finite s → NRun (opAssign op x e) s (Function.update s x (op.num (s x) (e.num s)))
  | seq (s s' s'' p q) : NRun p s s' → NRun q s' s'' → NRun (seq p q) s s''
  | iteT (s s' c e1 e2 p q) : e1.Finite s → e2.Finite s → c.num (e1.num s) (e2.num s) = true → NRun p s s' → NRun (ite c e1 e2 p q) s s'
  | iteF (s s' c e1 e2 p q) : e1.Finite s → e2.Finite s → c.num (e1.num s) (e2.num s) = false → NRun q s s' → NRun (ite c e1 e2 p q) s s'
  | loopT (s s' s'' c e1 e2 p) : e1.Finite s → e2.Finite s → c.num (e1.num s) (e2.num s) = true → NRun p s s' → NRun (loop c e1 e2 p) s' s'' →
      NRun (loop c e1 e2 p) s s''
  | loopF (s c e1 e2 p) : e1.Finite s → e2.Finite s → c.num (e1.num s) (e2.num s) = false → NRun (loop c e1 e2 p) s s

end Prog
end Audi
