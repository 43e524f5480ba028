import Verif.Spec.Expr

/-!
# Specification: programs

Imperative programs as a user writes them with a template parameter for the number type: assignments, compound assignments, branches and loops whose
conditions compare two values. The same program is run on gduals (`Run`, with the operators of the model) and on real numbers (`Exec`).
Both are big step relations: `Run p s s'` says that `p`, started in the store `s`, ends without an exception in the store `s'`.
-/

namespace Audi

/-- The comparisons `<`, `>`, `==`. -/
inductive Cmp
  | lt | gt | eq

/-- Programs with constants in `C`; variables are named by strings. -/
inductive Prog (C : Type)
  | skip
  | assign (x : String) (e : Expr C)
  | opAssign (op : Op) (x : String) (e : Expr C)
  | seq (p q : Prog C)
  | ite (c : Cmp) (e1 e2 : Expr C) (p q : Prog C)
  | loop (c : Cmp) (e1 e2 : Expr C) (p : Prog C)

/-- Evaluation of an expression, its variables being those of the program. -/
def Expr.eval {C : Type} [CfFun C] (σ : String → GDual C) : Expr C → Res (GDual C)
  | var s => .ok (σ s)
  | const c => .ok (GDual.ofCf c)
  | bin op e1 e2 => do op.run (← e1.eval σ) (← e2.eval σ)
  | left op c e => do op.runL c (← e.eval σ)
  | right op e c => do op.runR (← e.eval σ) c
  | fn f e => do f.run (← e.eval σ)
  | pow e1 e2 => do GDual.powG (← e1.eval σ) (← e2.eval σ)

/-- All functions of the expression are correct at order `m`. -/
def Expr.FnOrder {C : Type} (m : ℕ) : Expr C → Prop
  | var _ => True
  | const _ => True
  | bin _ e1 e2 => e1.FnOrder m ∧ e2.FnOrder m
  | left _ _ e => e.FnOrder m
  | right _ e _ => e.FnOrder m
  | fn f e => e.FnOrder m ∧ f.MaxOrder m
  | pow e1 e2 => e1.FnOrder m ∧ e2.FnOrder m

/-- The comparison of gduals (gdual.hpp:774-777, 803-806, 817-820). -/
def Cmp.run {C : Type} [CfOrd C] : Cmp → GDual C → GDual C → Res Bool
  | lt, a, b => a.lt b
  | gt, a, b => a.gt b
  | eq, a, b => .ok (a.eq b)

/-- The comparison of real numbers. -/
def Cmp.real : Cmp → ℝ → ℝ → Prop
  | lt, x, y => x < y
  | gt, x, y => x > y
  | eq, x, y => x = y

namespace Prog

/-- Running a program on gduals. The compound assignments are `*this = *this op d1` (gdual.hpp:830-865). -/
inductive Run {C : Type} [CfFun C] [CfOrd C] : Prog C → (String → GDual C) → (String → GDual C) → Prop
  | skip (σ) : Run skip σ σ
  | assign (σ x e r) : e.eval σ = .ok r → Run (assign x e) σ (Function.update σ x r)
  | opAssign (σ op x e d r) : e.eval σ = .ok d → op.run (σ x) d = .ok r → Run (opAssign op x e) σ (Function.update σ x r)
  | seq (σ σ' σ'' p q) : Run p σ σ' → Run q σ' σ'' → Run (seq p q) σ σ''
  | iteT (σ σ' c e1 e2 p q r1 r2) : e1.eval σ = .ok r1 → e2.eval σ = .ok r2 → c.run r1 r2 = .ok true → Run p σ σ' →
      Run (ite c e1 e2 p q) σ σ'
  | iteF (σ σ' c e1 e2 p q r1 r2) : e1.eval σ = .ok r1 → e2.eval σ = .ok r2 → c.run r1 r2 = .ok false → Run q σ σ' →
      Run (ite c e1 e2 p q) σ σ'
  | loopT (σ σ' σ'' c e1 e2 p r1 r2) : e1.eval σ = .ok r1 → e2.eval σ = .ok r2 → c.run r1 r2 = .ok true → Run p σ σ' →
      Run (loop c e1 e2 p) σ' σ'' → Run (loop c e1 e2 p) σ σ''
  | loopF (σ c e1 e2 p r1 r2) : e1.eval σ = .ok r1 → e2.eval σ = .ok r2 → c.run r1 r2 = .ok false →
      Run (loop c e1 e2 p) σ σ

/-- Running a program on real numbers (one lane). All values stay in the domains of the functions and operators, and each pair of compared
values satisfies `ok`. -/
inductive Exec {C : Type} [CfFun C] {ι : Type} [Lanes C ι ℝ] (i : ι) (ok : ℝ → ℝ → Prop) : Prog C → (String → ℝ) → (String → ℝ) → Prop
  | skip (s) : Exec i ok skip s s
  | assign (s x e) : e.Dom i s → Exec i ok (assign x e) s (Function.update s x (e.sem i s))
  | opAssign (s op x e) : e.Dom i s → op.Dom (e.sem i s) → Exec i ok (opAssign op x e) s (Function.update s x (op.real (s x) (e.sem i s)))
  | seq (s s' s'' p q) : Exec i ok p s s' → Exec i ok q s' s'' → Exec i ok (seq p q) s s''
  | iteT (s s' c e1 e2 p q) : e1.Dom i s → e2.Dom i s → ok (e1.sem i s) (e2.sem i s) → c.real (e1.sem i s) (e2.sem i s) → Exec i ok p s s' →
      Exec i ok (ite c e1 e2 p q) s s'
  | iteF (s s' c e1 e2 p q) : e1.Dom i s → e2.Dom i s → ok (e1.sem i s) (e2.sem i s) → ¬ c.real (e1.sem i s) (e2.sem i s) → Exec i ok q s s' →
      Exec i ok (ite c e1 e2 p q) s s'
  | loopT (s s' s'' c e1 e2 p) : e1.Dom i s → e2.Dom i s → ok (e1.sem i s) (e2.sem i s) → c.real (e1.sem i s) (e2.sem i s) →
      Exec i ok p s s' → Exec i ok (loop c e1 e2 p) s' s'' → Exec i ok (loop c e1 e2 p) s s''
  | loopF (s c e1 e2 p) : e1.Dom i s → e2.Dom i s → ok (e1.sem i s) (e2.sem i s) → ¬ c.real (e1.sem i s) (e2.sem i s) →
      Exec i ok (loop c e1 e2 p) s s

/-- All functions of the program are correct at order `m`. -/
def FnOrder {C : Type} (m : ℕ) : Prog C → Prop
  | skip => True
  | assign _ e => e.FnOrder m
  | opAssign _ _ e => e.FnOrder m
  | seq p q => p.FnOrder m ∧ q.FnOrder m
  | ite _ e1 e2 p q => e1.FnOrder m ∧ e2.FnOrder m ∧ p.FnOrder m ∧ q.FnOrder m
  | loop _ e1 e2 p => e1.FnOrder m ∧ e2.FnOrder m ∧ p.FnOrder m

end Prog
end Audi
