import Verif.Spec.PyExpr
import Verif.Spec.Program

/-!
# Specification: programs written in Python

Assignments, branches and loops. Variables hold numbers or gduals, and may change from one to the other: after `s = 0`, `s = s + x` makes `s` a gdual if `x` is one. (`s += x` is the same: the classes define no
operators `__iadd__` etc., for which Python then uses `s = s + x`.)
-/

namespace Audi

/-- Programs. -/
inductive PyProg
  | skip
  | assign (x : String) (e : PyExpr)
  | seq (p q : PyProg)
  | ite (c : Cmp) (e1 e2 : PyExpr) (p q : PyProg)
  | loop (c : Cmp) (e1 e2 : PyExpr) (p : PyProg)

/-- The comparison of Python values. -/
noncomputable def Cmp.py : Cmp → PyV → PyV → PyRes Bool
  | lt, a, b => PyV.lt a b
  | gt, a, b => PyV.gt a b
  | eq, a, b => .ok (PyV.eq a b)

/-- The comparisons covered: of numbers; of different values by `==`; of gduals with different values. `k1`, `k2`: the operand is a gdual. -/
def Cmp.Ok (c : Cmp) (k1 k2 : Bool) (x y : ℝ) : Prop := (k1 = k2 ∨ c = .eq) ∧ (k1 = false ∧ k2 = false ∨ x ≠ y)

/-- Functions of the module only, all correct at order `m`. -/
def PyExpr.FnOk (m : ℕ) : PyExpr → Prop
  | var _ => True
  | const _ => True
  | bin _ e1 e2 => e1.FnOk m ∧ e2.FnOk m
  | fn f e => e.FnOk m ∧ f.InModule = true ∧ f.MaxOrder m
  | pow e1 e2 => e1.FnOk m ∧ e2.FnOk m

namespace PyProg

/-- Running a program: `q`, started with the variables `σ`, ends without an exception with the variables `σ'`. -/
inductive Run : PyProg → (String → PyV) → (String → PyV) → Prop
  | skip (σ) : Run skip σ σ
  | assign (σ x e r) : e.eval σ = .ok r → Run (assign x e) σ (Function.update σ x r)
  | seq (σ σ' σ'' p q) : Run p σ σ' → Run q σ' σ'' → Run (seq p q) σ σ''
  | iteT (σ σ' c e1 e2 p q r1 r2) : e1.eval σ = .ok r1 → e2.eval σ = .ok r2 → c.py r1 r2 = .ok true → Run p σ σ' → Run (ite c e1 e2 p q) σ σ'
  | iteF (σ σ' c e1 e2 p q r1 r2) : e1.eval σ = .ok r1 → e2.eval σ = .ok r2 → c.py r1 r2 = .ok false → Run q σ σ' → Run (ite c e1 e2 p q) σ σ'
  | loopT (σ σ' σ'' c e1 e2 p r1 r2) : e1.eval σ = .ok r1 → e2.eval σ = .ok r2 → c.py r1 r2 = .ok true → Run p σ σ' → Run (loop c e1 e2 p) σ' σ'' →
      Run (loop c e1 e2 p) σ σ''
  | loopF (σ c e1 e2 p r1 r2) : e1.eval σ = .ok r1 → e2.eval σ = .ok r2 → c.py r1 r2 = .ok false → Run (loop c e1 e2 p) σ σ

/-- The execution on real numbers, with a record `κ` of the variables that would hold gduals. All values stay in the domains; a value that would be a gdual is compared by `<` and `>` only with
another such value, and is not equal to the value with which it is compared. -/
inductive Exec : PyProg → (String → Bool) → (String → ℝ) → (String → Bool) → (String → ℝ) → Prop
  | skip (κ s) : Exec skip κ s κ s
  | assign (κ s x e) : e.Dom κ s → Exec (assign x e) κ s (Function.update κ x (e.Uses κ)) (Function.update s x (e.sem s))
  | seq (κ s κ' s' κ'' s'' p q) : Exec p κ s κ' s' → Exec q κ' s' κ'' s'' → Exec (seq p q) κ s κ'' s''
  | iteT (κ s κ' s' c e1 e2 p q) : e1.Dom κ s → e2.Dom κ s → c.Ok (e1.Uses κ) (e2.Uses κ) (e1.sem s) (e2.sem s) → c.real (e1.sem s) (e2.sem s) →
      Exec p κ s κ' s' → Exec (ite c e1 e2 p q) κ s κ' s'
  | iteF (κ s κ' s' c e1 e2 p q) : e1.Dom κ s → e2.Dom κ s → c.Ok (e1.Uses κ) (e2.Uses κ) (e1.sem s) (e2.sem s) → ¬ c.real (e1.sem s) (e2.sem s) →
      Exec q κ s κ' s' → Exec (ite c e1 e2 p q) κ s κ' s'
  | loopT (κ s κ' s' κ'' s'' c e1 e2 p) : e1.Dom κ s → e2.Dom κ s → c.Ok (e1.Uses κ) (e2.Uses κ) (e1.sem s) (e2.sem s) → c.real (e1.sem s) (e2.sem s) →
      Exec p κ s κ' s' → Exec (loop c e1 e2 p) κ' s' κ'' s'' → Exec (loop c e1 e2 p) κ s κ'' s''
  | loopF (κ s c e1 e2 p) : e1.Dom κ s → e2.Dom κ s → c.Ok (e1.Uses κ) (e2.Uses κ) (e1.sem s) (e2.sem s) → ¬ c.real (e1.sem s) (e2.sem s) →
      Exec (loop c e1 e2 p) κ s κ s

/-- All functions are functions of the module and correct at order `m`. -/
def FnOk (m : ℕ) : PyProg → Prop
  | skip => True
  | assign _ e => e.FnOk m
  | seq p q => p.FnOk m ∧ q.FnOk m
  | ite _ e1 e2 p q => e1.FnOk m ∧ e2.FnOk m ∧ p.FnOk m ∧ q.FnOk m
  | loop _ e1 e2 p => e1.FnOk m ∧ e2.FnOk m ∧ p.FnOk m

end PyProg
end Audi
