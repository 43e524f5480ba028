import Mathlib.Algebra.Field.Rat
import Mathlib.Data.Rat.Cast.Defs

/-!
# Model: outcomes and coefficient types

`gdual<Cf, Monomial>` (include/audi/gdual.hpp:98-104) is a template on the coefficient type `Cf`. What the code asks of
a coefficient is collected in the class `Cf`. Exact arithmetic: rounding is not modelled.
-/

namespace Audi

/-- Abnormal outcomes. The first four are C++ exceptions. `nonFinite` stands for a computation that
the C++ code carries on with inf/NaN values (division by zero, logarithm of a non positive number, ...): the exact model
has no such values, so that outcome is kept apart. `undefinedBehaviour` is an unchecked
access out of bounds or an unchecked conversion. -/
inductive Exn
  | invalidArgument
  | outOfRange
  | runtimeError
  | overflowError
  | nonFinite
  | undefinedBehaviour
deriving DecidableEq, Repr

/-- Result of a C++ function that may throw. -/
abbrev Res (α : Type) := Except Exn α

/-- The operations of a coefficient type used by gdual (gdual.hpp:98-265, and obake's `is_cf` requirements listed in
vectorized.hpp:423-552).

* `ofRat q` : conversion from a `double`/`int`/`unsigned` value; finite doubles are rational numbers;
* `isZero` : obake's zero test, which removes terms from the table (vectorized.hpp:424-428);
* `isUnit` : no component is zero, i.e. dividing by it gives finite values;
* `beq` : `operator==` (vectorized.hpp:341-352). -/
class Cf (C : Type) where
  ofRat : ℚ → C
  add : C → C → C
  sub : C → C → C
  mul : C → C → C
  neg : C → C
  div : C → C → C
  isZero : C → Bool
  isUnit : C → Bool
  beq : C → C → Bool

namespace Cf
variable {C : Type} [Cf C]

/-- `Cf(0)`. -/
def zero : C := ofRat 0

/-- `Cf(1)`. -/
def one : C := ofRat 1

/-- `obake::pow(c, n)` for a natural exponent: repeated product. For vectorized coefficients it is
component-wise (vectorized.hpp:436-442). -/
def npow (c : C) : ℕ → C
  | 0 => one
  | n + 1 => mul (npow c n) c

end Cf

/-- Exact scalars (`double`, `long double`, `complex` idealised as a field). -/
instance fieldCf {K : Type} [Field K] [DecidableEq K] : Cf K where
  ofRat q := (q : K)
  add := (· + ·)
  sub := (· - ·)
  mul := (· * ·)
  neg := (- ·)
  div := (· / ·)
  isZero x := decide (x = 0)
  isUnit x := !decide (x = 0)
  beq x y := decide (x = y)

/-- A family of components ("lanes") of a coefficient type with values in a field: each
operation acts on each component. Scalars have one lane. -/
class Lanes (C : Type) [Cf C] (ι : outParam Type) (K : outParam Type) [Field K] where
  lane : ι → C → K
  lane_ofRat : ∀ i q, lane i (Cf.ofRat q) = (q : K)
  lane_add : ∀ i a b, lane i (Cf.add a b) = lane i a + lane i b
  lane_sub : ∀ i a b, lane i (Cf.sub a b) = lane i a - lane i b
  lane_mul : ∀ i a b, lane i (Cf.mul a b) = lane i a * lane i b
  lane_neg : ∀ i a, lane i (Cf.neg a) = -lane i a
  lane_div : ∀ i a b, lane i (Cf.div a b) = lane i a / lane i b
  isZero_iff : ∀ a : C, Cf.isZero a = true ↔ ∀ i, lane i a = 0
  isUnit_iff : ∀ a : C, Cf.isUnit a = true ↔ ∀ i, lane i a ≠ 0
  beq_iff : ∀ a b : C, Cf.beq a b = true ↔ ∀ i, lane i a = lane i b
  nonempty : Nonempty ι

instance fieldLanes {K : Type} [Field K] [DecidableEq K] : Lanes K Unit K where
  lane _ x := x
  lane_ofRat _ _ := rfl
  lane_add _ _ _ := rfl
  lane_sub _ _ _ := rfl
  lane_mul _ _ _ := rfl
  lane_neg _ _ := rfl
  lane_div _ _ _ := rfl
  isZero_iff a := by simp [Cf.isZero]
  isUnit_iff a := by simp [Cf.isUnit]
  beq_iff a b := by simp [Cf.beq]
  nonempty := ⟨()⟩

end Audi
