import Mathlib.Algebra.Order.Field.Basic
import Mathlib.Order.MinMax
import Verif.Model.Cf

/-!
# Model: intervals (contract of the external library Boost.Interval)

`int_d` is `boost::numeric::interval<double, …>` (taylor_model_bounding.hpp:41-44). Boost is not part of /repo; this file is the contract
assumed of it, in exact arithmetic: Boost rounds outwards, here the end points are exact. A constructor call with `lower > upper`
gives the empty interval, whose end points are NaN: outcome `nonFinite`.
-/

namespace Audi

/-- `boost::numeric::interval`: lower and upper end points. -/
structure Itv (K : Type) where
  lo : K
  hi : K
deriving DecidableEq, Repr

namespace Itv
variable {K : Type} [Field K] [LinearOrder K]

/-- `int_d(l, u)`. -/
def make (l u : K) : Res (Itv K) := if l ≤ u then .ok ⟨l, u⟩ else .error .nonFinite

/-- `int_d(x)`: conversion from a number. -/
def point (x : K) : Itv K := ⟨x, x⟩

/-- `operator+` of two intervals. -/
def add (a b : Itv K) : Itv K := ⟨a.lo + b.lo, a.hi + b.hi⟩

/-- `operator-` of two intervals. -/
def sub (a b : Itv K) : Itv K := ⟨a.lo - b.hi, a.hi - b.lo⟩

/-- Unary minus. -/
def neg (a : Itv K) : Itv K := ⟨-a.hi, -a.lo⟩

/-- `operator*` of two intervals: the smallest and the largest of the products of the end points. -/
def mul (a b : Itv K) : Itv K :=
  ⟨min (min (a.lo * b.lo) (a.lo * b.hi)) (min (a.hi * b.lo) (a.hi * b.hi)),
   max (max (a.lo * b.lo) (a.lo * b.hi)) (max (a.hi * b.lo) (a.hi * b.hi))⟩

/-- `boost::numeric::zero_in`. -/
def zeroIn (a : Itv K) : Bool := decide (a.lo ≤ 0) && decide (0 ≤ a.hi)

/-- Reciprocal. The quotient by an interval that contains 0 is unbounded: not finite. -/
def inv (a : Itv K) : Res (Itv K) := if a.zeroIn then .error .nonFinite else .ok ⟨a.hi⁻¹, a.lo⁻¹⟩

/-- `operator/` of two intervals. -/
def div (a b : Itv K) : Res (Itv K) := do
  let c ← b.inv
  .ok (a.mul c)

/-- `boost::numeric::pow(x, n)` for a natural exponent: the range of the power. -/
def pow (a : Itv K) (n : ℕ) : Itv K :=
  if n = 0 then ⟨1, 1⟩
  else if n % 2 = 1 then ⟨a.lo ^ n, a.hi ^ n⟩
  else if 0 ≤ a.lo then ⟨a.lo ^ n, a.hi ^ n⟩
  else if a.hi ≤ 0 then ⟨a.hi ^ n, a.lo ^ n⟩
  else ⟨0, max (a.lo ^ n) (a.hi ^ n)⟩

/-- `boost::numeric::abs`. -/
def abs (a : Itv K) : Itv K :=
  if 0 ≤ a.lo then a else if a.hi ≤ 0 then a.neg else ⟨0, max (-a.lo) a.hi⟩

/-- `boost::numeric::hull(a, b)` of two numbers. -/
def hull (x y : K) : Itv K := ⟨min x y, max x y⟩

end Itv
end Audi
