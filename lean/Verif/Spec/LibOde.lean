import Verif.Spec.LibProgram
import Verif.Spec.Ode

/-!
# Specification: Picard iteration with all the functions

As Spec/Ode.lean, for the expressions of Spec/LibExpr.lean.
-/

namespace Audi

/-- The expression contains a variable satisfying `V` which is not in the exponent of a numeric base. -/
def LExpr.FullIn {C : Type} (V : String → Prop) : LExpr C → Prop
  | var s => V s
  | const _ => False
  | bin _ e1 e2 => e1.FullIn V ∨ e2.FullIn V
  | left _ _ e => e.FullIn V
  | right _ e _ => e.FullIn V
  | fn (.base (.powBase _)) _ => False
  | fn _ e => e.FullIn V
  | pow e1 e2 => e1.FullIn V ∨ e2.FullIn V

variable {C : Type} [CfFun C] [AbsFn C]

/-- One step for the equations `y' = rhs y`, `y ∈ ys`, where the right hand sides may use all the variables: each `y ∈ ys` becomes
`y0 + integrate(rhs y, t)`, the other variables are unchanged. -/
def LPicardStep (ys : List String) (rhs : String → LExpr C) (t : String) (σ0 σ σ' : String → GDual C) : Prop :=
  (∀ y ∈ ys, ∃ r s, (rhs y).eval σ = .ok r ∧ r.integrate t = .ok s ∧ σ' y = (σ0 y).add s) ∧ ∀ y ∉ ys, σ' y = σ0 y

/-- `k` steps, starting with the initial values. -/
inductive LPicard (ys : List String) (rhs : String → LExpr C) (t : String) (σ0 : String → GDual C) : ℕ → (String → GDual C) → Prop
  | zero : LPicard ys rhs t σ0 0 σ0
  | succ {k σ σ'} : LPicard ys rhs t σ0 k σ → LPicardStep ys rhs t σ0 σ σ' → LPicard ys rhs t σ0 (k + 1) σ'

end Audi
