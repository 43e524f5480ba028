import Verif.Spec.Denote
import Mathlib.Algebra.Order.Field.Basic
import Mathlib.Data.Rat.Cast.Order

/-!
# Specification: comparisons of coefficients with a tolerance

`audi::abs(c) < eps` and `audi::abs(c) > tol` for a number `eps`, `tol`. For scalars this is the comparison. For
vectorized coefficients the number is a vector of size 1, so the comparison is
`std::all_of` (vectorized.hpp:379-383, 404-408): it holds when it holds in every lane.
-/

namespace Audi

class LanesOrd (C : Type) [CfOrd C] (ι : outParam Type) (K : outParam Type) [Field K] [LinearOrder K]
    [Lanes C ι K] : Prop where
  absLt_iff : ∀ (c : C) (q : ℚ), CfOrd.absLt c q = true ↔ ∀ i : ι, |(Lanes.lane i c : K)| < (q : K)
  absGt_iff : ∀ (c : C) (q : ℚ), CfOrd.absGt c q = true ↔ ∀ i : ι, |(Lanes.lane i c : K)| > (q : K)

instance fieldLanesOrd {K : Type} [Field K] [LinearOrder K] : LanesOrd K Unit K where
  absLt_iff c q := by
    change decide (|c| < (q : K)) = true ↔ ∀ _ : Unit, |c| < (q : K)
    simp
  absGt_iff c q := by
    change decide (|c| > (q : K)) = true ↔ ∀ _ : Unit, |c| > (q : K)
    simp

end Audi
