import Verif.Spec.NumProgram

/-!
# Specification: programs on floating point numbers, with the formulas that gduals use

As Spec/NumProgram.lean, but with the operations on numbers by which the library computes values: quotients are products with reciprocals, the inverse functions, integer powers and powers with
gdual exponents are formulas.
-/

namespace Audi

variable {F : XFormat}

/-- `x * x * ... * x` from the left, `k + 1` factors, each product rounded. -/
def XF.prods (x : XF F) : ℕ → XF F
  | 0 => x
  | k + 1 => Cf.mul (prods x k) x

/-- `1 / x / x / ... / x` with the quotients of gduals: each is a product with the rounded reciprocal. -/
def XF.quots (x : XF F) : ℕ → XF F
  | 0 => Cf.div Cf.one x
  | k + 1 => Cf.mul (quots x k) (Cf.div Cf.one x)

variable [XLibm F]

/-- The operation on values: `x / y` is `x * (1 / y)`. -/
def Op.formula : Op → XF F → XF F → XF F
  | div, x, y => Cf.mul x (Cf.div Cf.one y)
  | op, x, y => op.num x y

/-- The intermediate results are numbers. -/
def Op.Steps : Op → XF F → XF F → Prop
  | div, _, y => (Cf.div Cf.one y).Fin
  | _, _, _ => True

/-- The function of values. -/
def Fn.formula : Fn → XF F → XF F
  | asinh, x => XLibm.log (Cf.add x (XLibm.sqrt (Cf.add Cf.one (Cf.mul x x))))
  | acosh, x => XLibm.log (Cf.add x (XLibm.sqrt (Cf.sub (Cf.mul x x) Cf.one)))
  | asin, x => XLibm.atan (Cf.mul x (Cf.div Cf.one (XLibm.sqrt (Cf.sub Cf.one (Cf.mul x x)))))
  | acos, x => Cf.sub (Cf.mul (Cf.ofRat (1 / 2)) XLibm.pi) (XLibm.atan (Cf.mul x (Cf.div Cf.one (XLibm.sqrt (Cf.sub Cf.one (Cf.mul x x))))))
  | powInt z, x => if z = 0 then Cf.one else if 0 < z then x.prods (z.toNat - 1) else x.quots ((-z).toNat - 1)
  | powQ α, x => if α.den = 1 ∧ α > 0 then x.prods (α.num.toNat - 1) else XLibm.pow x α
  | f, x => f.num x

/-- The intermediate results are numbers. -/
def Fn.Steps : Fn → XF F → Prop
  | asinh, x => (Cf.add Cf.one (Cf.mul x x)).Fin ∧ (Cf.add x (XLibm.sqrt (Cf.add Cf.one (Cf.mul x x)))).Fin
  | acosh, x => (Cf.sub (Cf.mul x x) Cf.one).Fin ∧ (Cf.add x (XLibm.sqrt (Cf.sub (Cf.mul x x) Cf.one))).Fin
  | asin, x | acos, x => (Cf.sub Cf.one (Cf.mul x x)).Fin ∧ (XLibm.sqrt (Cf.sub Cf.one (Cf.mul x x))).Fin ∧
      (Cf.div Cf.one (XLibm.sqrt (Cf.sub Cf.one (Cf.mul x x)))).Fin ∧ (Cf.mul x (Cf.div Cf.one (XLibm.sqrt (Cf.sub Cf.one (Cf.mul x x))))).Fin
  | powInt z, x => (∀ j : ℕ, (j : ℤ) + 1 < z → (x.prods j).Fin) ∧ (z < 0 → (Cf.div Cf.one x).Fin) ∧ ∀ j : ℕ, (j : ℤ) + 1 < -z → (x.quots j).Fin
  | powQ α, x => α.den = 1 → ∀ j : ℕ, (j : ℤ) + 1 < α.num → (x.prods j).Fin
  | _, _ => True

/-- Functions with such a formula: all but `pow` of a number with a gdual as the exponent; exponents are in the range of `int`. -/
def Fn.HasFormula : Fn → Prop
  | powBase _ => False
  | powInt z => |z| < 2147483648
  | powQ α => |α| < 2147483648
  | _ => True

namespace Expr

/-- The value of an expression. -/
def formula (s : String → XF F) : Expr (XF F) → XF F
  | var x => s x
  | const c => c
  | bin op e1 e2 => op.formula (e1.formula s) (e2.formula s)
  | left op c e => op.formula c (e.formula s)
  | right op e c => op.formula (e.formula s) c
  | fn f e => f.formula (e.formula s)
  | pow e1 e2 => XLibm.exp (Cf.mul (e2.formula s) (XLibm.log (e1.formula s)))

/-- All results are numbers: no overflow, no NaN. -/
def Steps (s : String → XF F) : Expr (XF F) → Prop
  | var x => (s x).Fin
  | const c => c.Fin
  | bin op e1 e2 => e1.Steps s ∧ e2.Steps s ∧ op.Steps (e1.formula s) (e2.formula s) ∧ ((bin op e1 e2).formula s).Fin
  | left op c e => c.Fin ∧ e.Steps s ∧ op.Steps c (e.formula s) ∧ ((left op c e).formula s).Fin
  | right op e c => e.Steps s ∧ c.Fin ∧ op.Steps (e.formula s) c ∧ ((right op e c).formula s).Fin
  | fn f e => e.Steps s ∧ f.Steps (e.formula s) ∧ ((fn f e).formula s).Fin
  | pow e1 e2 => e1.Steps s ∧ e2.Steps s ∧ (XLibm.log (e1.formula s)).Fin ∧ (Cf.mul (e2.formula s) (XLibm.log (e1.formula s))).Fin ∧ ((pow e1 e2).formula s).Fin

/-- The functions of the expression have a formula. -/
def HasFormula {C : Type} : Expr C → Prop
  | var _ => True
  | const _ => True
  | bin _ e1 e2 => e1.HasFormula ∧ e2.HasFormula
  | left _ _ e => e.HasFormula
  | right _ e _ => e.HasFormula
  | fn f e => f.HasFormula ∧ e.HasFormula
  | pow e1 e2 => e1.HasFormula ∧ e2.HasFormula

end Expr

namespace Prog

/-- The functions of the program have a formula, and it compares with `<` and `>`. -/
def HasFormula {C : Type} : Prog C → Prop
  | skip => True
  | assign _ e => e.HasFormula
  | opAssign _ _ e => e.HasFormula
  | seq p q => p.HasFormula ∧ q.HasFormula
  | ite c e1 e2 p q => c ≠ .eq ∧ e1.HasFormula ∧ e2.HasFormula ∧ p.HasFormula ∧ q.HasFormula
  | loop c e1 e2 p => c ≠ .eq ∧ e1.HasFormula ∧ e2.HasFormula ∧ p.HasFormula

/-- Running a program on the values of the format with the formulas; all values it uses are numbers. -/
inductive FRun : Prog (XF F) → (String → XF F) → (String → XF F) → Prop
  | skip (s) : FRun skip s s
  | assign (s x e) : e.Steps s → FRun (assign x e) s (Function.update s x (e.formula s))
  | opAssign (s op x e) : (s x).Fin → e.Steps s → op.Steps (s x) (e.formula s) → FRun (opAssign op x e) s (Function.update s x (op.formula (s x) (e.formula s)))
  | seq (s s' s'' p q) : FRun p s s' → FRun q s' s'' → FRun (seq p q) s s''
  | iteT (s s' c e1 e2 p q) : e1.Steps s → e2.Steps s → c.num (e1.formula s) (e2.formula s) = true → FRun p s s' → FRun (ite c e1 e2 p q) s s'
  | iteF (s s' c e1 e2 p q) : e1.Steps s → e2.Steps s → c.num (e1.formula s) (e2.formula s) = false → FRun q s s' → FRun (ite c e1 e2 p q) s s'
  | loopT (s s' s'' c e1 e2 p) : e1.Steps s → e2.Steps s → c.num (e1.formula s) (e2.formula s) = true → FRun p s s' → FRun (loop c e1 e2 p) s' s'' →
      FRun (loop c e1 e2 p) s s''
  | loopF (s c e1 e2 p) : e1.Steps s → e2.Steps s → c.num (e1.formula s) (e2.formula s) = false → FRun (loop c e1 e2 p) s s

end Prog
end Audi
