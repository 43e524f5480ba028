import Verif.Spec.Program
import Verif.Spec.LibExpr

/-!
# Specification: programs with all the functions

As Spec/Program.lean, for the expressions of Spec/LibExpr.lean: with `abs`, `sin_and_cos`, `sinh_and_cosh`, `erf`, the functions of functions_from_d.hpp and those added by the
Python module.
-/

namespace Audi

/-- LPrograms with constants in `C`; variables are named by strings. -/
inductive LProg (C : Type)
  | skip
  | assign (x : String) (e : LExpr C)
  | opAssign (op : Op) (x : String) (e : LExpr C)
  | seq (p q : LProg C)
  | ite (c : Cmp) (e1 e2 : LExpr C) (p q : LProg C)
  | loop (c : Cmp) (e1 e2 : LExpr C) (p : LProg C)

/-- Evaluation of an expression, its variables being those of the program. -/
def LExpr.eval {C : Type} [CfFun C] [AbsFn C] (σ : String → GDual C) : LExpr C → Res (GDual C)
  | var s => .ok (σ s)
  | const c => .ok (GDual.ofCf c)
  | bin op e1 e2 => do op.run (← e1.eval σ) (← e2.eval σ)
  | left op c e => do op.runL c (← e.eval σ)
  | right op e c => do op.runR (← e.eval σ) c
  | fn f e => do f.run (← e.eval σ)
  | pow e1 e2 => do GDual.powG (← e1.eval σ) (← e2.eval σ)

/-- All functions of the expression are correct at order `m`. -/
def LExpr.FnOrder {C : Type} (m : ℕ) : LExpr C → Prop
  | var _ => True
  | const _ => True
  | bin _ e1 e2 => e1.FnOrder m ∧ e2.FnOrder m
  | left _ _ e => e.FnOrder m
  | right _ e _ => e.FnOrder m
  | fn f e => e.FnOrder m ∧ f.MaxOrder m
  | pow e1 e2 => e1.FnOrder m ∧ e2.FnOrder m

namespace LProg

/-- Running a program on gduals. The compound assignments are `*this = *this op d1` (gdual.hpp:830-865). -/
inductive Run {C : Type} [CfFun C] [AbsFn C] [CfOrd C] : LProg C → (String → GDual C) → (String → GDual C) → Prop
  | skip (σ) : Run skip σ σ
  | assign (σ x e r) : e.eval σ = .ok r → Run (assign x e) σ (Function.update σ x r)
  | opAssign (σ op x e d r) : e.eval σ = .ok d → op.run (σ x) d = .ok r → Run (opAssign op x e) σ (Function.update σ x r)
  | seq (σ σ' σ'' p q) : Run p σ σ' → Run q σ' σ'' → Run (seq p q) σ σ''
  | iteT (σ σ' c e1 e2 p q r1 r2) : e1.eval σ = .ok r1 → e2.eval σ = .ok r2 → c.run r1 r2 = .ok true → Run p σ σ' →
      Run (ite c e1 e2 p q) σ σ'
  | iteF (σ σ' c e1 e2 p q r1 r2) : e1.eval σ = .ok r1 → e2.eval σ = .ok r2 → c.run r1 r2 = .ok false → Run q σ σ' →
      Run (ite c e1 e2 p q) σ σ'
  | loopT (σ σ' σ'' c e1 e2 p r1 r2) : e1.eval σ = .ok r1 → e2.eval σ = .ok r2 → c.run r1 r2 = .ok true → Run p σ σ' →
      Run (loop c e1 e2 p) σ' σ'' → Run (loop c e1 e2 p) σ σ''
  | loopF (σ c e1 e2 p r1 r2) : e1.eval σ = .ok r1 → e2.eval σ = .ok r2 → c.run r1 r2 = .ok false →
      Run (loop c e1 e2 p) σ σ

/-- Running a program on real numbers (one lane). All values stay in the domains of the functions and operators, and each pair of compared
values satisfies `ok`. -/
inductive Exec {C : Type} [CfFun C] {ι : Type} [Lanes C ι ℝ] (i : ι) (ok : ℝ → ℝ → Prop) : LProg C → (String → ℝ) → (String → ℝ) → Prop
  | skip (s) : Exec i ok skip s s
  | assign (s x e) : e.Dom i s → Exec i ok (assign x e) s (Function.update s x (e.sem i s))
  | opAssign (s op x e) : e.Dom i s → op.Dom (e.sem i s) → Exec i ok (opAssign op x e) s (Function.update s x (op.real (s x) (e.sem i s)))
  | seq (s s' s'' p q) : Exec i ok p s s' → Exec i ok q s' s'' → Exec i ok (seq p q) s s''
  | iteT (s s' c e1 e2 p q) : e1.Dom i s → e2.Dom i s → ok (e1.sem i s) (e2.sem i s) → c.real (e1.sem i s) (e2.sem i s) → Exec i ok p s s' →
      Exec i ok (ite c e1 e2 p q) s s'
  | iteF (s s' c e1 e2 p q) : e1.Dom i s → e2.Dom i s → ok (e1.sem i s) (e2.sem i s) → ¬ c.real (e1.sem i s) (e2.sem i s) → Exec i ok q s s' →
      Exec i ok (ite c e1 e2 p q) s s'
  | loopT (s s' s'' c e1 e2 p) : e1.Dom i s → e2.Dom i s → ok (e1.sem i s) (e2.sem i s) → c.real (e1.sem i s) (e2.sem i s) →
      Exec i ok p s s' → Exec i ok (loop c e1 e2 p) s' s'' → Exec i ok (loop c e1 e2 p) s s''
  | loopF (s c e1 e2 p) : e1.Dom i s → e2.Dom i s → ok (e1.sem i s) (e2.sem i s) → ¬ c.real (e1.sem i s) (e2.sem i s) →
      Exec i ok (loop c e1 e2 p) s s

/-- All functions of the program are correct at order `m`. -/
def FnOrder {C : Type} (m : ℕ) : LProg C → Prop
  | skip => True
  | assign _ e => e.FnOrder m
  | opAssign _ _ e => e.FnOrder m
  | seq p q => p.FnOrder m ∧ q.FnOrder m
  | ite _ e1 e2 p q => e1.FnOrder m ∧ e2.FnOrder m ∧ p.FnOrder m ∧ q.FnOrder m
  | loop _ e1 e2 p => e1.FnOrder m ∧ e2.FnOrder m ∧ p.FnOrder m

/-- `abs` does not occur. -/
def NoAbs {C : Type} : LProg C → Prop
  | skip => True
  | assign _ e => e.NoAbs
  | opAssign _ _ e => e.NoAbs
  | seq p q => p.NoAbs ∧ q.NoAbs
  | ite _ e1 e2 p q => e1.NoAbs ∧ e2.NoAbs ∧ p.NoAbs ∧ q.NoAbs
  | loop _ e1 e2 p => e1.NoAbs ∧ e2.NoAbs ∧ p.NoAbs

/-- Executions on the numbers `s i`, one for each component `i`, that all take the same branches. All values stay in the domains, and the values compared are different in each component. -/
inductive ExecAll {C : Type} [CfFun C] {ι : Type} [Lanes C ι ℝ] : LProg C → (ι → String → ℝ) → (ι → String → ℝ) → Prop
  | skip (s) : ExecAll skip s s
  | assign (s x e) : (∀ i, e.Dom i (s i)) → ExecAll (assign x e) s fun i => Function.update (s i) x (e.sem i (s i))
  | opAssign (s op x e) : (∀ i, e.Dom i (s i)) → (∀ i, op.Dom (e.sem i (s i))) → ExecAll (opAssign op x e) s fun i => Function.update (s i) x (op.real (s i x) (e.sem i (s i)))
  | seq (s s' s'' p q) : ExecAll p s s' → ExecAll q s' s'' → ExecAll (seq p q) s s''
  | iteT (s s' c e1 e2 p q) : (∀ i, e1.Dom i (s i)) → (∀ i, e2.Dom i (s i)) → (∀ i, e1.sem i (s i) ≠ e2.sem i (s i)) →
      (∀ i, c.real (e1.sem i (s i)) (e2.sem i (s i))) → ExecAll p s s' → ExecAll (ite c e1 e2 p q) s s'
  | iteF (s s' c e1 e2 p q) : (∀ i, e1.Dom i (s i)) → (∀ i, e2.Dom i (s i)) → (∀ i, e1.sem i (s i) ≠ e2.sem i (s i)) →
      (∀ i, ¬ c.real (e1.sem i (s i)) (e2.sem i (s i))) → ExecAll q s s' → ExecAll (ite c e1 e2 p q) s s'
  | loopT (s s' s'' c e1 e2 p) : (∀ i, e1.Dom i (s i)) → (∀ i, e2.Dom i (s i)) → (∀ i, e1.sem i (s i) ≠ e2.sem i (s i)) →
      (∀ i, c.real (e1.sem i (s i)) (e2.sem i (s i))) → ExecAll p s s' → ExecAll (loop c e1 e2 p) s' s'' → ExecAll (loop c e1 e2 p) s s''
  | loopF (s c e1 e2 p) : (∀ i, e1.Dom i (s i)) → (∀ i, e2.Dom i (s i)) → (∀ i, e1.sem i (s i) ≠ e2.sem i (s i)) →
      (∀ i, ¬ c.real (e1.sem i (s i)) (e2.sem i (s i))) → ExecAll (loop c e1 e2 p) s s

end LProg
end Audi
