import Verif.Model.GDual
import Verif.Spec.Trunc
import Mathlib.Algebra.MvPolynomial.Eval
import Mathlib.Data.String.Basic

/-!
# Specification: what a polynomial table means

The denotation of the data structures (`Poly`, `GDual`) as Mathlib polynomials, one for each lane of the coefficients,
and the well-formedness predicate. Nothing here refers to the operations of the model.
-/

namespace Audi

open MvPolynomial

/-- The exponent function of a monomial over the symbols `ss`. -/
noncomputable def toExp : List String → List ℕ → (String →₀ ℕ)
  | s :: ss, k :: ks => Finsupp.single s k + toExp ss ks
  | _, _ => 0

variable {C : Type} [Cf C] {ι : Type} {K : Type} [Field K] [Lanes C ι K]

/-- The polynomial denoted by a table of terms, in lane `i`. -/
noncomputable def den (i : ι) (ss : List String) (t : List (List ℕ × C)) : MvPolynomial String K :=
  (t.map fun x => monomial (toExp ss x.1) (Lanes.lane i x.2)).sum

/-- The polynomial denoted by `p`, in lane `i`. -/
noncomputable def Poly.toMv (i : ι) (p : Poly C) : MvPolynomial String K := den i p.syms p.terms

/-- The polynomial denoted by a gdual, in lane `i`. -/
noncomputable def GDual.toMv (i : ι) (d : GDual C) : MvPolynomial String K := d.p.toMv i

/-- A well formed table: sorted symbols without repetitions, one exponent per symbol, no repeated monomial, no
zero coefficient. -/
structure Poly.WF (p : Poly C) : Prop where
  sorted : p.syms.Pairwise (· < ·)
  len : ∀ t ∈ p.terms, t.1.length = p.syms.length
  nodup : (p.terms.map (·.1)).Nodup
  nz : ∀ t ∈ p.terms, Cf.isZero t.2 = false

/-- The invariant of gduals: well formed table and degree not larger than the order. -/
structure GDual.Valid (d : GDual C) : Prop where
  wf : d.p.WF
  deg : ∀ t ∈ d.p.terms, t.1.sum ≤ d.order

end Audi
