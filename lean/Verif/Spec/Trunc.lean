import Mathlib.Algebra.MvPolynomial.PDeriv
import Mathlib.Algebra.MvPolynomial.Degrees
import Mathlib.Data.Finsupp.Weight

/-!
# Specification: polynomials up to a total degree

Independent of the model. A truncated Taylor polynomial of order `m` is a polynomial whose
coefficients are only meaningful up to total degree `m`.
-/

namespace Audi.Spec

open MvPolynomial

variable {σ : Type*} {K : Type*} [CommSemiring K]

/-- `P` and `Q` have the same coefficients for all monomials of total degree at most `m`. -/
def EqUpTo (m : ℕ) (P Q : MvPolynomial σ K) : Prop :=
  ∀ e : σ →₀ ℕ, e.degree ≤ m → P.coeff e = Q.coeff e

/-- All monomials of `P` have total degree at most `m`. -/
def DegLE (m : ℕ) (P : MvPolynomial σ K) : Prop :=
  ∀ e : σ →₀ ℕ, m < e.degree → P.coeff e = 0

end Audi.Spec
