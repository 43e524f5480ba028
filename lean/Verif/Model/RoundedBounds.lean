import Verif.Model.Rounding
import Verif.Model.Bounding
import Mathlib.Order.Lattice

/-!
# Model: the arithmetic of the bounds with rounding

`get_bounds` and the functions of taylor_model_bounding.hpp compute in plain `double` arithmetic, to the nearest number: no operation there is rounded
outwards. With the operations below the definitions of Model/Bounding.lean and `TM.getBounds` become these computations with rounding errors.
-/

namespace Audi

variable {K : Type} [Field K] [LinearOrder K] [IsStrictOrderedRing K] {R : Rounding K}

namespace Fl

theorem val_injective : Function.Injective (Fl.val (R := R)) := fun x y h => by
  cases x; cases y; cases h; rfl

/-- Floating point numbers are compared as numbers. -/
instance linearOrder : LinearOrder (Fl R) := LinearOrder.lift' Fl.val Fl.val_injective

/-- `0.0`. -/
instance : Zero (Fl R) := ⟨⟨0, by simpa using R.err 0⟩⟩
/-- `1.0`. -/
instance : One (Fl R) := ⟨⟨1, R.rnd_one⟩⟩
/-- `a + b` of doubles. -/
instance : Add (Fl R) := ⟨Cf.add⟩
/-- `a - b` of doubles. -/
instance : Sub (Fl R) := ⟨Cf.sub⟩
/-- `a * b` of doubles. -/
instance : Mul (Fl R) := ⟨Cf.mul⟩
/-- `a / b` of doubles. -/
instance : Div (Fl R) := ⟨Cf.div⟩
/-- `static_cast<double>` of an `unsigned long long` (taylor_model_bounding.hpp:408, 478). -/
instance : NatCast (Fl R) := ⟨fun n => round R (n : K)⟩

end Fl

/-- `std::pow(double, int)`, with an error of `acc` roundings (taylor_model_bounding.hpp:444). -/
class FlPow (R : Rounding K) where
  acc : ℕ
  pow : Fl R → ℕ → Fl R
  pow_err : ∀ x n, |(pow x n).val - x.val ^ n| ≤ ((1 + R.u) ^ acc - 1) * |x.val ^ n|

/-- `std::pow` of doubles. -/
instance Fl.instPow [FlPow R] : Pow (Fl R) ℕ := ⟨FlPow.pow⟩

end Audi
