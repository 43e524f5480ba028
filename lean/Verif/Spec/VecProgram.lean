import Verif.Spec.Program

/-! # Specification: a program on the numbers of all components at once -/

namespace Audi.Prog

/-- Executions on the numbers `s i`, one for each component `i`, that all take the same branches. All values stay in the domains, and the values compared are different in each component. -/
inductive ExecAll {C : Type} [CfFun C] {ι : Type} [Lanes C ι ℝ] : Prog C → (ι → String → ℝ) → (ι → String → ℝ) → Prop
  | skip (s) : ExecAll skip s s
  | assign (s x e) : (∀ i, e.Dom i (s i)) → ExecAll (assign x e) s fun i => Function.update (s i) x (e.sem i (s i))
  | opAssign (s op x e) : (∀ i, e.Dom i (s i)) → (∀ i, op.Dom (e.sem i (s i))) → ExecAll (opAssign op x e) s fun i => Function.update (s i) x (op.real (s i x) (e.sem i (s i)))
  | seq (s s' s'' p q) : ExecAll p s s' → ExecAll q s' s'' → ExecAll (seq p q) s s''
  | iteT (s s' c e1 e2 p q) : (∀ i, e1.Dom i (s i)) → (∀ i, e2.Dom i (s i)) → (∀ i, e1.sem i (s i) ≠ e2.sem i (s i)) →
      (∀ i, c.real (e1.sem i (s i)) (e2.sem i (s i))) → ExecAll p s s' → ExecAll (ite c e1 e2 p q) s s'
  | iteF (s s' c e1 e2 p q) : (∀ i, e1.Dom i (s i)) → (∀ i, e2.Dom i (s i)) → (∀ i, e1.sem i (s i) ≠ e2.sem i (s i)) →
      (∀ i, ¬ c.real (e1.sem i (s i)) (e2.sem i (s i))) → ExecAll q s s' → ExecAll (ite c e1 e2 p q) s s'
  | loopT (s s' s'' c e1 e2 p) : (∀ i, e1.Dom i (s i)) → (∀ i, e2.Dom i (s i)) → (∀ i, e1.sem i (s i) ≠ e2.sem i (s i)) →
      (∀ i, c.real (e1.sem i (s i)) (e2.sem i (s i))) → ExecAll p s s' → ExecAll (loop c e1 e2 p) s' s'' → ExecAll (loop c e1 e2 p) s s''
  | loopF (s c e1 e2 p) : (∀ i, e1.Dom i (s i)) → (∀ i, e2.Dom i (s i)) → (∀ i, e1.sem i (s i) ≠ e2.sem i (s i)) →
      (∀ i, ¬ c.real (e1.sem i (s i)) (e2.sem i (s i))) → ExecAll (loop c e1 e2 p) s s

end Audi.Prog
