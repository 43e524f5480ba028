import Verif.Spec.Newton
import Verif.Spec.Vars
import Verif.Spec.Map

/-!
# Specification: local inverses of functions given by expressions
-/

namespace Audi

open Spec Filter Topology

/-- The Jacobian matrix of the functions `es` of the variables `ss` at the point `v`. -/
noncomputable def jacobian (es : List (Expr ℝ)) (ss : List String) (v : String → ℝ) : Matrix (Fin es.length) (Fin es.length) ℝ :=
  fun i j => pds [ss.getD j ""] ((es.get i).sem ()) v

/-- The point of the variables `ss` with coordinates `ψ s x`; the remaining variables are not used. -/
def atPoint (ss : List String) (v : String → ℝ) (ψ : String → (String → ℝ) → ℝ) (x : String → ℝ) : String → ℝ :=
  fun s => if s ∈ ss then ψ s x else v s

/-- The functions `es` depend on the variables `ss` (in alphabetical order), as many as functions; all of the variables occur in each of them. The point `v` is in their domain. -/
structure SquareSystem (es : List (Expr ℝ)) (ss : List String) (m : ℕ) (v : String → ℝ) : Prop where
  nonempty : es ≠ []
  size : ss.length = es.length
  sorted : ss.Pairwise (· < ·)
  order : 1 ≤ m
  max : m < UINT_MAX - 10
  legal : ∀ e ∈ es, e.Legal m
  baseFree : ∀ e ∈ es, e.BaseFree
  vars : ∀ e ∈ es, ∀ s, s ∈ e.vars ↔ s ∈ ss
  dom : ∀ e ∈ es, e.Dom () v

/-- The functions `ψ s` of the variables `p0, p1, …` are the local inverse of `es` at `v`: the functions `es` at `ψ` have the values at `v` plus `p0, p1, …`. -/
structure LocalInverse (es : List (Expr ℝ)) (ss : List String) (m : ℕ) (v : String → ℝ) (ψ : String → (String → ℝ) → ℝ) : Prop where
  smooth : ∀ s ∈ ss, ∃ P, IsTaylor 0 m (ψ s) P
  init : ∀ s ∈ ss, ψ s 0 = v s
  eqn : ∀ k : Fin es.length, ∀ᶠ x in 𝓝 0, (es.get k).sem () (atPoint ss v ψ x) = (es.get k).sem () v + x ("p" ++ toString (k : ℕ))

end Audi
