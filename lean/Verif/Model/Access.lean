import Verif.Model.GDual

/-!
# Model: the machine integers of `find_cf` and `get_derivative`

`GDual.findCf` and `GDual.getDerivative` of Model/GDual.lean take exponents in `ℕ` and sum and multiply without bounds.
Here are the same functions with what the C++ types do: the exponents are `int` or `unsigned`, given as integers; the
sum is in `unsigned`; the key is built by obake, which has a largest exponent `L`; the factorials and their product are
`double`. The rounding of the product is left out, its overflow is not.
-/

namespace Audi.GDual

variable {C : Type} [Cf C]

/-- `static_cast<unsigned>(k)` (gdual.hpp:633, 659): modulo 2^32. -/
def toUnsigned (k : ℤ) : ℕ := (k % 4294967296).toNat

/-- `std::accumulate(c.begin(), c.end(), 0u)` (gdual.hpp:566, 596): the accumulator is `unsigned`, so is each sum. -/
def expSumU (e : List ℤ) : ℕ := e.foldl (fun acc k => toUnsigned ((acc : ℤ) + k)) 0

/-- `key_type(c.begin(), c.end())` (gdual.hpp:573, 603): obake throws `std::overflow_error` when an exponent does not fit
in its field. The largest exponent `L` is that of `d_packed_monomial<std::uint64_t, 8>` (gdual.hpp:98); obake is not part
of the repository, so `L` is a parameter. -/
def mkKey (L : ℕ) (e : List ℤ) : Res (List ℕ) :=
  if e.all fun k => decide (0 ≤ k ∧ k ≤ L) then .ok (e.map Int.toNat) else .error .overflowError

/-- `find_cf` (gdual.hpp:563-579, 593-609). -/
def findCfU (L : ℕ) (d : GDual C) (e : List ℤ) : Res C :=
  if expSumU e > d.order then .error .invalidArgument
  else if e.length ≠ d.symbolSetSize then .error .invalidArgument
  else do
    let k ← mkKey L e
    match d.p.find? k with
      | none => .ok Cf.zero
      | some c => .ok c

/-- `constant_cf` (gdual.hpp:702-706): through a `std::vector<int>` of zeros. -/
def constantCfU (L : ℕ) (d : GDual C) : Res C := d.findCfU L (List.replicate d.symbolSetSize 0)

/-- `boost::math::factorial<double>` (used at gdual.hpp:633, 659): a table up to 170; beyond, the default policy throws
`std::overflow_error`. -/
def factorialD (k : ℕ) : Res ℕ := if k > 170 then .error .overflowError else .ok k.factorial

/-- The first power of 2 that is not a finite `double`. -/
def doubleLimit : ℕ := 2 ^ 1024

/-- The product of two `double`s that are at least 1; `none` is infinity. The rounding is left out. -/
def mulD (x : Option ℕ) (f : ℕ) : Option ℕ := x.bind fun c => if c * f < doubleLimit then some (c * f) else none

/-- The loop of `get_derivative` (gdual.hpp:631-634, 657-660). -/
def cumfact (e : List ℤ) : Res (Option ℕ) :=
  e.foldlM (fun acc k => do
    let f ← factorialD (toUnsigned k)
    .ok (mulD acc f)) (some 1)

/-- `get_derivative` (gdual.hpp:628-636, 654-662). Infinity times the coefficient is infinite or NaN. -/
def getDerivativeU (L : ℕ) (d : GDual C) (e : List ℤ) : Res C := do
  let f ← cumfact e
  let c ← d.findCfU L e
  match f with
    | none => .error .nonFinite
    | some q => .ok (Cf.mul c (Cf.ofRat (q : ℚ)))

/-- `get_derivative(dict)` (gdual.hpp:681-693): the orders of the dictionary are `unsigned`. -/
def getDerivativeDictU (L : ℕ) (d : GDual C) (dict : List (String × ℕ)) : Res C :=
  match dictCoeff d.p.syms dict (List.replicate d.symbolSetSize 0) with
  | none => .ok (Cf.ofRat 0)
  | some e => d.getDerivativeU L (e.map fun k : ℕ => (k : ℤ))

end Audi.GDual
