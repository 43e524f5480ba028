import Verif.Spec.PyTaylor
import Verif.Spec.Program

/-!
# Specification: programs written in Python, called with Taylor models

Assignments, branches and loops. Variables hold numbers, intervals or Taylor models, and may change from one to the other.
-/

namespace Audi

/-- Programs. -/
inductive PyTProg
  | skip
  | assign (x : String) (e : PyTExpr)
  | seq (p q : PyTProg)
  | ite (c : Cmp) (e1 e2 : PyTExpr) (p q : PyTProg)
  | loop (c : Cmp) (e1 e2 : PyTExpr) (p : PyTProg)

/-- The comparison of Python values. `a > b` is `b < a`: Taylor models have none of the methods `__lt__` and `__gt__`, and for numbers it is the same. -/
noncomputable def Cmp.pyT : Cmp → PyT → PyT → PyRes Bool
  | lt, a, b => PyT.lt a b
  | gt, a, b => PyT.lt b a
  | eq, a, b => .ok (PyT.eq a b)

namespace PyTProg

/-- Running a program: `q`, started with the variables `σ`, ends without an exception with the variables `σ'`. -/
inductive Run (ord : List String → List String) : PyTProg → (String → PyT) → (String → PyT) → Prop
  | skip (σ) : Run ord skip σ σ
  | assign (σ x e r) : e.eval ord σ = .ok r → Run ord (assign x e) σ (Function.update σ x r)
  | seq (σ σ' σ'' p q) : Run ord p σ σ' → Run ord q σ' σ'' → Run ord (seq p q) σ σ''
  | iteT (σ σ' c e1 e2 p q r1 r2) : e1.eval ord σ = .ok r1 → e2.eval ord σ = .ok r2 → c.pyT r1 r2 = .ok true → Run ord p σ σ' → Run ord (ite c e1 e2 p q) σ σ'
  | iteF (σ σ' c e1 e2 p q r1 r2) : e1.eval ord σ = .ok r1 → e2.eval ord σ = .ok r2 → c.pyT r1 r2 = .ok false → Run ord q σ σ' → Run ord (ite c e1 e2 p q) σ σ'
  | loopT (σ σ' σ'' c e1 e2 p r1 r2) : e1.eval ord σ = .ok r1 → e2.eval ord σ = .ok r2 → c.pyT r1 r2 = .ok true → Run ord p σ σ' →
      Run ord (loop c e1 e2 p) σ' σ'' → Run ord (loop c e1 e2 p) σ σ''
  | loopF (σ c e1 e2 p r1 r2) : e1.eval ord σ = .ok r1 → e2.eval ord σ = .ok r2 → c.pyT r1 r2 = .ok false → Run ord (loop c e1 e2 p) σ σ

/-- A run during which every expression `e` that is evaluated, the variables being `σ`, satisfies `S σ e`, and every comparison that is made satisfies `T`. -/
inductive RunWith (ord : List String → List String) (S : (String → PyT) → PyTExpr → Prop) (T : Cmp → PyT → PyT → Prop) : PyTProg → (String → PyT) → (String → PyT) → Prop
  | skip (σ) : RunWith ord S T skip σ σ
  | assign (σ x e r) : S σ e → e.eval ord σ = .ok r → RunWith ord S T (assign x e) σ (Function.update σ x r)
  | seq (σ σ' σ'' p q) : RunWith ord S T p σ σ' → RunWith ord S T q σ' σ'' → RunWith ord S T (seq p q) σ σ''
  | iteT (σ σ' c e1 e2 p q r1 r2) : S σ e1 → S σ e2 → T c r1 r2 → e1.eval ord σ = .ok r1 → e2.eval ord σ = .ok r2 → c.pyT r1 r2 = .ok true →
      RunWith ord S T p σ σ' → RunWith ord S T (ite c e1 e2 p q) σ σ'
  | iteF (σ σ' c e1 e2 p q r1 r2) : S σ e1 → S σ e2 → T c r1 r2 → e1.eval ord σ = .ok r1 → e2.eval ord σ = .ok r2 → c.pyT r1 r2 = .ok false →
      RunWith ord S T q σ σ' → RunWith ord S T (ite c e1 e2 p q) σ σ'
  | loopT (σ σ' σ'' c e1 e2 p r1 r2) : S σ e1 → S σ e2 → T c r1 r2 → e1.eval ord σ = .ok r1 → e2.eval ord σ = .ok r2 → c.pyT r1 r2 = .ok true →
      RunWith ord S T p σ σ' → RunWith ord S T (loop c e1 e2 p) σ' σ'' → RunWith ord S T (loop c e1 e2 p) σ σ''
  | loopF (σ c e1 e2 p r1 r2) : S σ e1 → S σ e2 → T c r1 r2 → e1.eval ord σ = .ok r1 → e2.eval ord σ = .ok r2 → c.pyT r1 r2 = .ok false →
      RunWith ord S T (loop c e1 e2 p) σ σ

end PyTProg
end Audi
