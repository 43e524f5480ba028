import Verif.Spec.Newton
import Verif.Spec.LibOde

/-!
# Specification: fixed point iterations with all the functions

As Spec/Newton.lean, for the expressions of Spec/LibExpr.lean.
-/

namespace Audi

variable {C : Type} [CfFun C] [AbsFn C]

/-- One step: each `y ∈ ys` becomes `rhs y`, computed with the previous values; the other variables are unchanged. -/
def LFixStep (ys : List String) (rhs : String → LExpr C) (σ σ' : String → GDual C) : Prop :=
  (∀ y ∈ ys, (rhs y).eval σ = .ok (σ' y)) ∧ ∀ y ∉ ys, σ' y = σ y

/-- `k` steps. -/
inductive LFixIter (ys : List String) (rhs : String → LExpr C) (σ0 : String → GDual C) : ℕ → (String → GDual C) → Prop
  | zero : LFixIter ys rhs σ0 0 σ0
  | succ {k σ σ'} : LFixIter ys rhs σ0 k σ → LFixStep ys rhs σ σ' → LFixIter ys rhs σ0 (k + 1) σ'

/-- The data of the iterations. The variables in `I` (the parameters) are `gdual(v s, s, m)`, all the others, among them the unknowns `ys`, are `gdual(v s)`. The functions `ψ y`,
which have an expansion of order `m` at the point `v`, take the values `v y` there and satisfy `ψ y = rhs y` near `v`.

Restrictions: the order is at most 30 if `atan`, `asin` or `acos` occurs (finding 1); each right hand side uses a variable of order `m`. -/
structure LImplicit {ι : Type} [Lanes C ι ℝ] (ys I : List String) (rhs : String → LExpr C) (m : ℕ) (v : String → C) (σ0 : String → GDual C) (ψ : ι → String → (String → ℝ) → ℝ) : Prop where
  order : 0 < m
  disj : ∀ y ∈ ys, y ∉ I
  params : ∀ s ∈ I, GDual.mk3 (v s) s m = .ok (σ0 s)
  others : ∀ s ∉ I, σ0 s = GDual.ofCf (v s)
  fnOrder : ∀ y ∈ ys, (rhs y).FnOrder m
  full : ∀ y ∈ ys, (rhs y).FullIn (· ∈ I)
  dom : ∀ y ∈ ys, ∀ i : ι, (rhs y).Dom i fun s => Lanes.lane i (v s)
  smooth : ∀ y ∈ ys, ∀ i : ι, ∃ P, Spec.IsTaylor (fun s => Lanes.lane i (v s)) m (ψ i y) P
  init : ∀ y ∈ ys, ∀ i : ι, ψ i y (fun s => Lanes.lane i (v s)) = Lanes.lane i (v y)
  eqn : ∀ y ∈ ys, ∀ i : ι, ∀ᶠ x in nhds fun s => Lanes.lane i (v s), ψ i y x = (rhs y).sem i (solEnv ys I (fun s => Lanes.lane i (v s)) (ψ i) x)

end Audi
