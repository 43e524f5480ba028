import Verif.Model.GDual
import Mathlib.Algebra.Order.Field.Basic
import Mathlib.Algebra.Order.Ring.Abs

/-!
# Model: rounded coefficients

The other files take `double` to be an exact field. Here the coefficients are numbers of a floating point format and each operation on
coefficients is followed by a rounding, so that the definitions of Model/Poly.lean and Model/GDual.lean, which are generic in the coefficient type, become
the operations of `gdual<double>` (or `long double`, `real128`: gdual.hpp:98-104) with rounding errors.

What is assumed of the format is the standard model of floating point arithmetic (structure `Rounding`): overflow and underflow are left out, and a fused
multiply-add (which obake may use in products) is taken as two operations.
-/

namespace Audi

/-- Rounding to a floating point format without limits on the exponent, with unit roundoff `u`. -/
structure Rounding (K : Type) [Field K] [LinearOrder K] where
  rnd : K → K
  u : K
  u_lt_one : u < 1
  err : ∀ x, |rnd x - x| ≤ u * |x|
  idem : ∀ x, rnd (rnd x) = rnd x
  rnd_neg : ∀ x, rnd (-x) = -rnd x
  rnd_one : rnd 1 = 1

variable {K : Type} [Field K] [LinearOrder K]

/-- The numbers of the format: those that rounding does not change. -/
structure Fl (R : Rounding K) where
  val : K
  repr : R.rnd val = val

namespace Fl
variable {R : Rounding K}

/-- The number nearest to `x`. -/
def round (R : Rounding K) (x : K) : Fl R := ⟨R.rnd x, R.idem x⟩

/-- Floating point coefficients: every operation of `Cf` is the exact operation followed by a rounding. Negation is exact. -/
instance cf : Cf (Fl R) where
  ofRat q := round R (q : K)
  add x y := round R (x.val + y.val)
  sub x y := round R (x.val - y.val)
  mul x y := round R (x.val * y.val)
  neg x := ⟨-x.val, by rw [R.rnd_neg, x.repr]⟩
  div x y := round R (x.val / y.val)
  isZero x := decide (x.val = 0)
  isUnit x := !decide (x.val = 0)
  beq x y := decide (x.val = y.val)

end Fl
end Audi
