import Verif.Spec.Program
import Verif.Spec.Taylor
import Verif.Spec.Denote

/-!
# Specification: Picard iteration on gduals

The iteration `y := y0 + integrate(f(t, y), t)` by which expansions of solutions of differential equations are computed with gduals.
-/

namespace Audi

/-- The expression contains a variable satisfying `V` which is not in the exponent of a numeric base. -/
def Expr.FullIn {C : Type} (V : String → Prop) : Expr C → Prop
  | var s => V s
  | const _ => False
  | bin _ e1 e2 => e1.FullIn V ∨ e2.FullIn V
  | left _ _ e => e.FullIn V
  | right _ e _ => e.FullIn V
  | fn (.powBase _) _ => False
  | fn _ e => e.FullIn V
  | pow e1 e2 => e1.FullIn V ∨ e2.FullIn V

variable {C : Type} [CfFun C]

/-- One step for the equations `y' = rhs y`, `y ∈ ys`, where the right hand sides may use all the variables: each `y ∈ ys` becomes
`y0 + integrate(rhs y, t)`, the other variables are unchanged. -/
def PicardStep (ys : List String) (rhs : String → Expr C) (t : String) (σ0 σ σ' : String → GDual C) : Prop :=
  (∀ y ∈ ys, ∃ r s, (rhs y).eval σ = .ok r ∧ r.integrate t = .ok s ∧ σ' y = (σ0 y).add s) ∧ ∀ y ∉ ys, σ' y = σ0 y

/-- `k` steps, starting with the initial values. -/
inductive Picard (ys : List String) (rhs : String → Expr C) (t : String) (σ0 : String → GDual C) : ℕ → (String → GDual C) → Prop
  | zero : Picard ys rhs t σ0 0 σ0
  | succ {k σ σ'} : Picard ys rhs t σ0 k σ → PicardStep ys rhs t σ0 σ σ' → Picard ys rhs t σ0 (k + 1) σ'

/-- The functions `φ` of the displacements from the centre (named as the symbols of the gduals: `d` followed by the name) solve the equations
`∂y/∂t = rhs y` with the initial values `σ0`, near the centre.

* `base`: the initial values have order `m`, or are constants of a smaller order;
* `full`: each right hand side uses a variable of order `m`;
* `noT`: the initial values do not depend on `t`. -/
structure Solves {ι : Type} [Lanes C ι ℝ] (ys : List String) (rhs : String → Expr C) (t : String) (m : ℕ) (σ0 : String → GDual C)
    (φ : ι → String → (String → ℝ) → ℝ) : Prop where
  base : ∀ s, (σ0 s).Valid ∧ (σ0 s).order ≤ m ∧ ((σ0 s).order = m ∨ ∀ i : ι, (σ0 s).toMv i = MvPolynomial.C (MvPolynomial.coeff 0 ((σ0 s).toMv i) : ℝ))
  fnOrder : ∀ y ∈ ys, (rhs y).FnOrder m
  full : ∀ y ∈ ys, (rhs y).FullIn fun s => (σ0 s).order = m
  dom : ∀ y ∈ ys, ∀ i : ι, (rhs y).Dom i fun s => φ i s 0
  other : ∀ s ∉ ys, ∀ (i : ι) x, φ i s x = MvPolynomial.eval x ((σ0 s).toMv i)
  init : ∀ y ∈ ys, ∀ i : ι, ∀ᶠ x in nhds 0, x ("d" ++ t) = 0 → φ i y x = MvPolynomial.eval x ((σ0 y).toMv i)
  noT : ∀ y ∈ ys, ∀ (i : ι) (e : String →₀ ℕ), e ("d" ++ t) ≠ 0 → MvPolynomial.coeff e ((σ0 y).toMv i : MvPolynomial String ℝ) = 0
  eqn : ∀ y ∈ ys, ∀ i : ι, ∀ᶠ x in nhds 0, Spec.HasPartialAt (φ i y) ((rhs y).sem i fun s => φ i s x) ("d" ++ t) x

end Audi
