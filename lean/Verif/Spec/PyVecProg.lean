import Verif.Model.PyVec
import Verif.Spec.PyProg

/-! # Specification: expressions and programs written in Python, with objects of type `gdual_vdouble` -/

namespace Audi

variable {n : ℕ} [NeZero n]

/-- Evaluation; the arguments of the function are `σ`. -/
noncomputable def PyExpr.evalW (σ : String → PyW n) : PyExpr → PyRes (PyW n)
  | var s => .ok (σ s)
  | const c => .ok (.base (.num c))
  | bin op e1 e2 => do PyW.bin op (← e1.evalW σ) (← e2.evalW σ)
  | fn f e => do PyW.fn f (← e.evalW σ)
  | pow e1 e2 => do PyW.pow (← e1.evalW σ) (← e2.evalW σ)

/-- The comparison of Python values. -/
noncomputable def Cmp.pyW : Cmp → PyW n → PyW n → PyRes Bool
  | lt, a, b => PyW.lt a b
  | gt, a, b => PyW.gt a b
  | eq, a, b => .ok (PyW.eq a b)

namespace PyProg

/-- Running a program: `q`, started with the variables `σ`, ends without an exception with the variables `σ'`. -/
inductive RunW : PyProg → (String → PyW n) → (String → PyW n) → Prop
  | skip (σ) : RunW skip σ σ
  | assign (σ x e r) : e.evalW σ = .ok r → RunW (assign x e) σ (Function.update σ x r)
  | seq (σ σ' σ'' p q) : RunW p σ σ' → RunW q σ' σ'' → RunW (seq p q) σ σ''
  | iteT (σ σ' c e1 e2 p q r1 r2) : e1.evalW σ = .ok r1 → e2.evalW σ = .ok r2 → c.pyW r1 r2 = .ok true → RunW p σ σ' → RunW (ite c e1 e2 p q) σ σ'
  | iteF (σ σ' c e1 e2 p q r1 r2) : e1.evalW σ = .ok r1 → e2.evalW σ = .ok r2 → c.pyW r1 r2 = .ok false → RunW q σ σ' → RunW (ite c e1 e2 p q) σ σ'
  | loopT (σ σ' σ'' c e1 e2 p r1 r2) : e1.evalW σ = .ok r1 → e2.evalW σ = .ok r2 → c.pyW r1 r2 = .ok true → RunW p σ σ' → RunW (loop c e1 e2 p) σ' σ'' →
      RunW (loop c e1 e2 p) σ σ''
  | loopF (σ c e1 e2 p r1 r2) : e1.evalW σ = .ok r1 → e2.evalW σ = .ok r2 → c.pyW r1 r2 = .ok false → RunW (loop c e1 e2 p) σ σ

/-- Executions on the numbers `s i`, one for each component `i`, that all take the same branches. Otherwise as `Exec`. -/
inductive ExecW : PyProg → (String → Bool) → (Fin n → String → ℝ) → (String → Bool) → (Fin n → String → ℝ) → Prop
  | skip (κ s) : ExecW skip κ s κ s
  | assign (κ s x e) : (∀ i, e.Dom κ (s i)) → ExecW (assign x e) κ s (Function.update κ x (e.Uses κ)) fun i => Function.update (s i) x (e.sem (s i))
  | seq (κ s κ' s' κ'' s'' p q) : ExecW p κ s κ' s' → ExecW q κ' s' κ'' s'' → ExecW (seq p q) κ s κ'' s''
  | iteT (κ s κ' s' c e1 e2 p q) : (∀ i, e1.Dom κ (s i)) → (∀ i, e2.Dom κ (s i)) → (∀ i, c.Ok (e1.Uses κ) (e2.Uses κ) (e1.sem (s i)) (e2.sem (s i))) →
      (∀ i, c.real (e1.sem (s i)) (e2.sem (s i))) → ExecW p κ s κ' s' → ExecW (ite c e1 e2 p q) κ s κ' s'
  | iteF (κ s κ' s' c e1 e2 p q) : (∀ i, e1.Dom κ (s i)) → (∀ i, e2.Dom κ (s i)) → (∀ i, c.Ok (e1.Uses κ) (e2.Uses κ) (e1.sem (s i)) (e2.sem (s i))) →
      (∀ i, ¬ c.real (e1.sem (s i)) (e2.sem (s i))) → ExecW q κ s κ' s' → ExecW (ite c e1 e2 p q) κ s κ' s'
  | loopT (κ s κ' s' κ'' s'' c e1 e2 p) : (∀ i, e1.Dom κ (s i)) → (∀ i, e2.Dom κ (s i)) → (∀ i, c.Ok (e1.Uses κ) (e2.Uses κ) (e1.sem (s i)) (e2.sem (s i))) →
      (∀ i, c.real (e1.sem (s i)) (e2.sem (s i))) → ExecW p κ s κ' s' → ExecW (loop c e1 e2 p) κ' s' κ'' s'' → ExecW (loop c e1 e2 p) κ s κ'' s''
  | loopF (κ s c e1 e2 p) : (∀ i, e1.Dom κ (s i)) → (∀ i, e2.Dom κ (s i)) → (∀ i, c.Ok (e1.Uses κ) (e2.Uses κ) (e1.sem (s i)) (e2.sem (s i))) →
      (∀ i, ¬ c.real (e1.sem (s i)) (e2.sem (s i))) → ExecW (loop c e1 e2 p) κ s κ s

end PyProg
end Audi
