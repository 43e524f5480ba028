import Verif.Spec.Expr
import Verif.Model.MoreFunctions
import Verif.Model.Vectorized
import Mathlib.Analysis.SpecialFunctions.Log.Base

/-!
# Specification: expressions with all the functions

As Spec/Expr.lean, with the functions that are missing there: `abs`, the two results of `sin_and_cos` and of `sinh_and_cosh`, `erf`, the functions of functions_from_d.hpp, and the functions added by the Python
module.
-/

namespace Audi

/-- The type of coefficients has a version of `abs`. -/
class AbsFn (C : Type) where
  abs : GDual C → Res (GDual C)

/-- Scalar coefficients. -/
noncomputable instance : AbsFn ℝ := ⟨GDual.absScalar⟩

/-- Vectorized coefficients. -/
noncomputable instance {n : ℕ} : AbsFn (VecN n ℝ) := ⟨GDual.absVec⟩

/-- Functions of one argument. -/
inductive LFn
  | base (f : Fn)
  | abs | sinOf | cosOf | sinhOf | coshOf
  | erf | atanD | atanhD | asinD | acosD | asinhD | acoshD
  | log10 | log2 | log1p | expm1 | erfc

section
variable {C : Type} [CfFun C] [AbsFn C]

/-- The function of gduals. -/
def LFn.run : LFn → GDual C → Res (GDual C)
  | base f, d => f.run d
  | abs, d => AbsFn.abs d
  | sinOf, d => do let r ← d.sinAndCos; .ok r.1
  | cosOf, d => do let r ← d.sinAndCos; .ok r.2
  | sinhOf, d => do let r ← d.sinhAndCosh; .ok r.1
  | coshOf, d => do let r ← d.sinhAndCosh; .ok r.2
  | erf, d => d.erf
  | atanD, d => d.atanD
  | atanhD, d => d.atanhD
  | asinD, d => d.asinD
  | acosD, d => d.acosD
  | asinhD, d => d.asinhD
  | acoshD, d => d.acoshD
  | log10, d => d.pyLog10
  | log2, d => d.pyLog2
  | log1p, d => d.pyLog1p
  | expm1, d => d.pyExpm1
  | erfc, d => d.pyErfc

/-- The real function. -/
noncomputable def LFn.real : LFn → ℝ → ℝ
  | base f, x => f.real x
  | abs, x => |x|
  | sinOf, x => Real.sin x
  | cosOf, x => Real.cos x
  | sinhOf, x => Real.sinh x
  | coshOf, x => Real.cosh x
  | erf, x => Spec.erf x
  | atanD, x => Real.arctan x
  | atanhD, x => Real.artanh x
  | asinD, x => Real.arcsin x
  | acosD, x => Real.arccos x
  | asinhD, x => Real.arsinh x
  | acoshD, x => Real.arcosh x
  | log10, x => Real.logb 10 x
  | log2, x => Real.logb 2 x
  | log1p, x => Real.log (1 + x)
  | expm1, x => Real.exp x - 1
  | erfc, x => 1 - Spec.erf x

/-- The open domain in which the function is smooth. -/
def LFn.Dom : LFn → ℝ → Prop
  | base f, x => f.Dom x
  | abs, x => x ≠ 0
  | atanhD, x => |x| < 1
  | asinD, x => |x| < 1
  | acosD, x => |x| < 1
  | acoshD, x => 1 < x
  | log10, x => 0 < x
  | log2, x => 0 < x
  | log1p, x => -1 < x
  | _, _ => True

/-- Restrictions of the order: `atan`, `asin`, `acos` as in Spec/Expr.lean, none for the other functions. -/
def LFn.MaxOrder : LFn → ℕ → Prop
  | base f, m => f.MaxOrder m
  | _, _ => True

/-- Expressions with constants in `C`. -/
inductive LExpr (C : Type)
  | var (s : String)
  | const (c : C)
  | bin (op : Op) (e1 e2 : LExpr C)
  | left (op : Op) (c : C) (e : LExpr C)
  | right (op : Op) (e : LExpr C) (c : C)
  | fn (f : LFn) (e : LExpr C)
  | pow (e1 e2 : LExpr C)

namespace LExpr

/-- Evaluation of an expression: each variable `s` is the gdual `gdual(v s, s, m)`. -/
def run (v : String → C) (m : ℕ) : LExpr C → Res (GDual C)
  | var s => GDual.mk3 (v s) s m
  | const c => .ok (GDual.ofCf c)
  | bin op e1 e2 => do op.run (← e1.run v m) (← e2.run v m)
  | left op c e => do op.runL c (← e.run v m)
  | right op e c => do op.runR (← e.run v m) c
  | fn f e => do f.run (← e.run v m)
  | pow e1 e2 => do GDual.powG (← e1.run v m) (← e2.run v m)

variable {ι : Type} [Lanes C ι ℝ]

omit [AbsFn C] in
/-- The real function of the variables denoted by an expression, in one lane. -/
noncomputable def sem (i : ι) : LExpr C → (String → ℝ) → ℝ
  | var s, x => x s
  | const c, _ => Lanes.lane i c
  | bin op e1 e2, x => op.real (e1.sem i x) (e2.sem i x)
  | left op c e, x => op.real (Lanes.lane i c) (e.sem i x)
  | right op e c, x => op.real (e.sem i x) (Lanes.lane i c)
  | fn f e, x => f.real (e.sem i x)
  | pow e1 e2, x => e1.sem i x ^ e2.sem i x

omit [AbsFn C] in
/-- The point `x` is in the domain of all the functions and operators of the expression. -/
def Dom (i : ι) : LExpr C → (String → ℝ) → Prop
  | var _, _ => True
  | const _, _ => True
  | bin op e1 e2, x => e1.Dom i x ∧ e2.Dom i x ∧ op.Dom (e2.sem i x)
  | left op _ e, x => e.Dom i x ∧ op.Dom (e.sem i x)
  | right op e c, x => e.Dom i x ∧ op.Dom (Lanes.lane i c)
  | fn f e, x => e.Dom i x ∧ f.Dom (e.sem i x)
  | pow e1 e2, x => e1.Dom i x ∧ e2.Dom i x ∧ 0 < e1.sem i x

omit [CfFun C] [AbsFn C] in
/-- All variables have legal names and all functions are correct at order `m`. -/
def Legal (m : ℕ) : LExpr C → Prop
  | var s => (∃ c, s.toList.head? = some c ∧ c ≠ 'd')
  | const _ => True
  | bin _ e1 e2 => e1.Legal m ∧ e2.Legal m
  | left _ _ e => e.Legal m
  | right _ e _ => e.Legal m
  | fn f e => e.Legal m ∧ f.MaxOrder m
  | pow e1 e2 => e1.Legal m ∧ e2.Legal m

omit [CfFun C] [AbsFn C] in
/-- The expression contains a variable which is not in the exponent of a numeric base. -/
def full : LExpr C → Bool
  | var _ => true
  | const _ => false
  | bin _ e1 e2 => e1.full || e2.full
  | left _ _ e => e.full
  | right _ e _ => e.full
  | fn (.base (.powBase _)) _ => false
  | fn _ e => e.full
  | pow e1 e2 => e1.full || e2.full

omit [CfFun C] [AbsFn C] in
/-- `abs` does not occur. -/
def NoAbs : LExpr C → Prop
  | var _ => True
  | const _ => True
  | bin _ e1 e2 => e1.NoAbs ∧ e2.NoAbs
  | left _ _ e => e.NoAbs
  | right _ e _ => e.NoAbs
  | fn f e => e.NoAbs ∧ f ≠ .abs
  | pow e1 e2 => e1.NoAbs ∧ e2.NoAbs

end LExpr
end
end Audi
