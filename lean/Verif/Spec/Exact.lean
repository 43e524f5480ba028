import Verif.Spec.Rounding
import Verif.Proofs.Binary64
import Verif.Model.Special

/-!
# Specification: arithmetic expressions with integers

A bound of the numbers that occur in the evaluation of an arithmetic expression with integer constants at integers.
-/

namespace Audi

/-- The `double` nearest to an integer. -/
def dbl (n : ℤ) : XF .binary64 := XF.round .binary64 n

/-- The size of a constant. -/
def sizeZ (c : ℤ) : ℕ := max 1 c.natAbs

/-- The size of the result of an operation. -/
def AOp.size : AOp → ℕ → ℕ → ℕ
  | mul, a, b => a * b
  | _, a, b => a + b

/-- The number that the expression gives if each constant `c` is replaced with `max 1 |c|`, each variable with its absolute value plus one, and differences with sums. -/
def AExpr.size (v : String → ℤ) : AExpr ℤ → ℕ
  | var s => (v s).natAbs + 1
  | const c => sizeZ c
  | bin op e1 e2 => op.size (e1.size v) (e2.size v)
  | left op c e => op.size (sizeZ c) (e.size v)
  | right op e c => op.size (e.size v) (sizeZ c)
  | divc e _ => e.size v
  | neg e => e.size v

end Audi
