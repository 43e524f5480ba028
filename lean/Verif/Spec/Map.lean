import Verif.Spec.Denote
import Mathlib.Data.Matrix.Basic

/-!
# Specification: simultaneous substitution

Independent of the model.
-/

namespace Audi.Spec

open MvPolynomial

variable {K : Type} [Field K]

/-- The polynomial that replaces the symbol `s`: the one paired with `s` in `l`, the symbol itself if there is none. -/
noncomputable def replacement (l : List (String × MvPolynomial String K)) (s : String) : MvPolynomial String K :=
  match l.lookup s with
  | some g => g
  | none => X s

/-- Simultaneous substitution of the symbols paired with a polynomial in `l`. -/
noncomputable def substAt (l : List (String × MvPolynomial String K)) : MvPolynomial String K →ₐ[K] MvPolynomial String K :=
  aeval (replacement l)

/-- The coefficients of the linear part of the polynomials `F` in the symbols `xs`. -/
noncomputable def linearMatrix (n : ℕ) (xs : List String) (F : List (MvPolynomial String K)) : Matrix (Fin n) (Fin n) K :=
  fun i j => coeff (Finsupp.single (xs.getD j "") 1) (F.getD i 0)

/-- The polynomials of a map. -/
noncomputable def mapPolys [DecidableEq K] (f : List (GDual K)) : List (MvPolynomial String K) := f.map fun d => d.toMv ()

/-- The polynomials without their constant terms. -/
noncomputable def dropConst (F : List (MvPolynomial String K)) : List (MvPolynomial String K) := F.map fun P => P - C (coeff 0 P)

/-- What holds for the gduals that a user can make: the invariant, symbols that are differentials, orders that the constructors accept. -/
structure Admissible [DecidableEq K] (f : List (GDual K)) : Prop where
  valid : ∀ d ∈ f, d.Valid
  names : ∀ d ∈ f, ∀ s ∈ d.p.syms, ∃ t, s = "d" ++ t
  order : ∀ d ∈ f, d.getOrder < UINT_MAX - 10

/-- A square map of order `m` in the symbols `xs`. -/
structure IsSquare [DecidableEq K] (xs : List String) (m : ℕ) (f : List (GDual K)) : Prop where
  nonempty : f ≠ []
  syms : ∀ d ∈ f, d.p.syms = xs
  order : ∀ d ∈ f, d.getOrder = m
  size : xs.length = f.length

/-- The symbols of the inverse map. -/
def inverseSymbols (n : ℕ) : List String := (List.range n).map fun i => "dp" ++ toString i

end Audi.Spec
