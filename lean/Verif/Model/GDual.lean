import Verif.Model.Poly
import Mathlib.Data.Nat.Factorial.Basic

/-!
# Model: gdual (include/audi/gdual.hpp)
-/

namespace Audi

/-- Comparison operations on coefficients used by `trim`, `is_zero`, `<`, `>` (gdual.hpp:477, 716, 805, 819).

* `absLt c eps` : `audi::abs(c) < eps`
* `absGt c tol` : `audi::abs(c) > tol`
* `lt`, `gt` : `operator<`, `operator>` -/
class CfOrd (C : Type) extends Cf C where
  absLt : C → ℚ → Bool
  absGt : C → ℚ → Bool
  lt : C → C → Bool
  gt : C → C → Bool

/-- `gdual` (gdual.hpp:98-99, 267-268): the polynomial `m_p` in the variations and the truncation order `m_order`. -/
structure GDual (C : Type) where
  p : Poly C
  order : ℕ
deriving Repr, DecidableEq

/-- `std::numeric_limits<unsigned int>::max()`. -/
def UINT_MAX : ℕ := 4294967295

/-- `name.at(0)` (gdual.hpp:143, 150): `std::out_of_range` on the empty string. -/
def nameAt0 (name : String) : Res Char :=
  match name.toList with
  | [] => .error .outOfRange
  | c :: _ => .ok c

/-- `check_var_name` (gdual.hpp:141-146). -/
def checkVarName (name : String) : Res Unit := do
  if (← nameAt0 name) = 'd' then .error .invalidArgument else .ok ()

/-- `check_var_name_has_d` (gdual.hpp:148-153). -/
def checkVarNameHasD (name : String) : Res Unit := do
  if (← nameAt0 name) ≠ 'd' then .error .invalidArgument else .ok ()

/-- `check_order` (gdual.hpp:134-139). -/
def checkOrder (order : ℕ) : Res Unit :=
  if order ≥ UINT_MAX - 10 then .error .invalidArgument else .ok ()

namespace GDual
variable {C : Type} [Cf C]

/-- Generic constructor from a value, order 0 (gdual.hpp:284-288); also the default constructor (276) with `Cf(0)`. -/
def ofCf (c : C) : GDual C := ⟨Poly.const c, 0⟩

/-- Generic constructor from a number. -/
def ofRat (q : ℚ) : GDual C := ofCf (Cf.ofRat q)

/-- Private constructor from a value and an order (gdual.hpp:159-162). -/
def ofCfOrder (c : C) (order : ℕ) : GDual C := ⟨Poly.const c, order⟩

/-- `extend_symbol_set` (gdual.hpp:368-374). All names are checked before the polynomial is changed. -/
def extendSymbolSet (d : GDual C) (names : List String) : Res (GDual C) := do
  names.forM checkVarNameHasD
  .ok ⟨d.p.addSymbols (mergeSyms [] names), d.order⟩

/-- Constructor from value, name and order (gdual.hpp:295-306; 308-320 is the same for an initializer list). -/
def mk3 (value : C) (symbol : String) (order : ℕ) : Res (GDual C) := do
  checkOrder order
  checkVarName symbol
  let p ← if order = 0 then (do
      let g ← extendSymbolSet (⟨Poly.zero, order⟩ : GDual C) ["d" ++ symbol]
      Except.ok g.p)
    else Except.ok (Poly.var ("d" ++ symbol))
  .ok ⟨p.add (Poly.const value), order⟩

/-- `get_symbol_set_size` (gdual.hpp:333-336). -/
def symbolSetSize (d : GDual C) : ℕ := d.p.syms.length

/-- `get_symbol_set` (gdual.hpp:344-352): the names without their first character. -/
def symbolSet (d : GDual C) : List String := d.p.syms.map fun s => String.ofList (s.toList.drop 1)

/-- `get_order` (gdual.hpp:536-539). -/
def getOrder (d : GDual C) : ℕ := d.order

/-- `degree` (gdual.hpp:525-528). -/
def degree (d : GDual C) : ℕ := d.p.degree

/-- `add(gdual, gdual)` (gdual.hpp:165-168). -/
def add (a b : GDual C) : GDual C := ⟨a.p.add b.p, max a.order b.order⟩

/-- `add(T, gdual)` (gdual.hpp:170-174). -/
def addSG (s : C) (b : GDual C) : GDual C := ⟨(Poly.const s).add b.p, b.order⟩

/-- `add(gdual, T)` (gdual.hpp:176-180). -/
def addGS (a : GDual C) (s : C) : GDual C := ⟨(Poly.const s).add a.p, a.order⟩

/-- `sub(gdual, gdual)` (gdual.hpp:183-186). -/
def sub (a b : GDual C) : GDual C := ⟨a.p.sub b.p, max a.order b.order⟩

/-- `sub(T, gdual)` (gdual.hpp:188-192). -/
def subSG (s : C) (b : GDual C) : GDual C := ⟨(Poly.const s).sub b.p, b.order⟩

/-- `sub(gdual, T)` (gdual.hpp:194-198). -/
def subGS (a : GDual C) (s : C) : GDual C := ⟨a.p.sub (Poly.const s), a.order⟩

/-- `mul(gdual, gdual)` (gdual.hpp:201-205). -/
def mul (a b : GDual C) : GDual C :=
  let order := max a.order b.order
  ⟨Poly.truncMul a.p b.p order, order⟩

/-- `mul(T, gdual)` (gdual.hpp:207-211). -/
def mulSG (s : C) (b : GDual C) : GDual C := mul (ofCfOrder s b.order) b

/-- `mul(gdual, T)` (gdual.hpp:213-217). -/
def mulGS (a : GDual C) (s : C) : GDual C := mul a (ofCfOrder s a.order)

/-- Unary minus (gdual.hpp:857-860). -/
def neg (a : GDual C) : GDual C := ⟨a.p.neg, a.order⟩

/-- `div(gdual, T)` (gdual.hpp:259-265): `d1 * (1. / Cf(d2))`. When a component of the divisor is zero the C++ multiplies by
`inf`: the coefficients become inf/NaN, unless the polynomial is empty and there is nothing to multiply. -/
def divGS (a : GDual C) (s : C) : Res (GDual C) :=
  if Cf.isUnit s then .ok (a.mulGS (Cf.div Cf.one s))
  else if a.p.terms.isEmpty then .ok a
  else .error .nonFinite

/-- `std::accumulate` of the exponents (gdual.hpp:566): idealised, without wrap around at 2^32. -/
def expSum (e : List ℕ) : ℕ := e.sum

/-- `find_cf` (gdual.hpp:563-579, 593-609). -/
def findCf (d : GDual C) (e : List ℕ) : Res C :=
  if expSum e > d.order then .error .invalidArgument
  else if e.length ≠ d.symbolSetSize then .error .invalidArgument
  else match d.p.find? e with
    | none => .ok Cf.zero
    | some c => .ok c

/-- `constant_cf` (gdual.hpp:702-706). -/
def constantCf (d : GDual C) : Res C := d.findCf (List.replicate d.symbolSetSize 0)

/-- State of the loops of `div` (gdual.hpp:229-234): `retval`, `fatt`, `phat`. -/
structure DivSt (C : Type) where
  retval : GDual C
  fatt : C
  phat : GDual C

/-- One iteration of the loop of `div` (gdual.hpp:231-233 and 252-254). -/
def divStep (tmp : GDual C) (s : DivSt C) : DivSt C :=
  let fatt := Cf.mul (Cf.ofRat (-1)) s.fatt
  let phat := s.phat.mul tmp
  ⟨s.retval.add (phat.mulSG fatt), fatt, phat⟩

/-- Common part of the two `div` overloads with a gdual denominator (gdual.hpp:222-234, 242-255):
the truncated geometric series `1/(1 + phat)` with `phat = (d2 - p0)/p0`. -/
def divSeries (d2 : GDual C) (p0 : C) : Res (GDual C) := do
  let phat ← (d2.subGS p0).divGS p0
  let tmp := phat
  let st : DivSt C := ⟨(ofRat 1).sub phat, Cf.ofRat (-1), phat⟩
  .ok ((List.range' 2 (d2.order - 1)).foldl (fun s _ => divStep tmp s) st).retval

/-- `div(gdual, gdual)` (gdual.hpp:220-237). When a component of `p0` is zero, the polynomial `d1 * retval` is multiplied
by `inf` in the last line, and is empty exactly when `d1` is (`retval` has a constant term which is 1 or NaN): the result is
an empty polynomial if `d1` is empty, otherwise it has inf/NaN coefficients. -/
def div (d1 d2 : GDual C) : Res (GDual C) := do
  let p0 ← d2.constantCf
  if Cf.isUnit p0 then do
    let retval ← divSeries d2 p0
    (d1.mul retval).divGS p0
  else if d1.p.terms.isEmpty then .ok (d1.mul d2)
  else .error .nonFinite

/-- `div(T, gdual)` (gdual.hpp:239-257). As for the other overload when a component of `p0` is zero. -/
def divSG (s : C) (d2 : GDual C) : Res (GDual C) := do
  let p0 ← d2.constantCf
  if Cf.isUnit p0 then do
    let retval ← divSeries d2 p0
    (mulSG s retval).divGS p0
  else if Cf.isZero s then .ok (mulSG s d2)
  else .error .nonFinite

/-- `integrate` (gdual.hpp:393-400). -/
def integrate (d : GDual C) (name : String) : Res (GDual C) := do
  checkVarName name
  .ok ⟨(d.p.integrate ("d" ++ name)).truncate d.order, d.order⟩

/-- `partial` (gdual.hpp:416-422). -/
def partial' (d : GDual C) (name : String) : Res (GDual C) := do
  checkVarName name
  .ok ⟨d.p.diff ("d" ++ name), d.order⟩

/-- `subs` with a value (gdual.hpp:431-436). -/
def subsVal (d : GDual C) (s : String) (v : C) : GDual C := ⟨d.p.subsVal s v, d.order⟩

/-- `subs` with a gdual (gdual.hpp:453-459). -/
def subs (d : GDual C) (s : String) (v : GDual C) : GDual C :=
  ⟨((d.p.subsPoly s v.p).truncate d.order).trimSyms, d.order⟩

/-- `trim` (gdual.hpp:469-479). -/
def trim {C : Type} [CfOrd C] (d : GDual C) (eps : ℚ) : Res (GDual C) :=
  if eps < 0 then .error .invalidArgument
  else .ok ⟨d.p.filter fun t => !CfOrd.absLt t.2 eps, d.order⟩

/-- `extract_terms` (gdual.hpp:492-502). -/
def extractTerms (d : GDual C) (order : ℕ) : Res (GDual C) :=
  if order > d.order then .error .invalidArgument
  else .ok ⟨d.p.filter fun t => Poly.keyDegree t.1 = order, order⟩

/-- `evaluate` (gdual.hpp:512-515). -/
def evaluate (d : GDual C) (dict : List (String × C)) : Res C := d.p.evaluate dict

/-- `get_derivative` (gdual.hpp:628-636, 654-662): coefficient times the product of the factorials. -/
def getDerivative (d : GDual C) (e : List ℕ) : Res C := do
  let cumfact : ℚ := (e.map fun k => (Nat.factorial k : ℚ)).prod
  let c ← d.findCf e
  .ok (Cf.mul c (Cf.ofRat cumfact))

/-- The loop of the dictionary form (gdual.hpp:685-691); `none` when a name is not in the symbol set. The
dictionary is the list of the entries of the `unordered_map` in iteration order. -/
def dictCoeff (ss : List String) : List (String × ℕ) → List ℕ → Option (List ℕ)
  | [], coeff => some coeff
  | (s, k) :: t, coeff => if s ∈ ss then dictCoeff ss t (Poly.setExp ss coeff s k) else none

/-- `get_derivative(dict)` (gdual.hpp:681-693). -/
def getDerivativeDict (d : GDual C) (dict : List (String × ℕ)) : Res C :=
  match dictCoeff d.p.syms dict (List.replicate d.symbolSetSize 0) with
  | none => .ok (Cf.ofRat 0)
  | some e => d.getDerivative e

/-- `is_zero(tol)` (gdual.hpp:713-722). -/
def isZeroTol {C : Type} [CfOrd C] (d : GDual C) (tol : ℚ) : Bool := d.p.terms.all fun t => !CfOrd.absGt t.2 tol

/-- `operator==` (gdual.hpp:774-777): the order is not compared. -/
def eq (a b : GDual C) : Bool := a.p.eq b.p

/-- `operator!=` (gdual.hpp:789-792). -/
def ne (a b : GDual C) : Bool := !(eq a b)

/-- `operator<` (gdual.hpp:803-806). -/
def lt {C : Type} [CfOrd C] (a b : GDual C) : Res Bool := do
  let x ← a.constantCf
  let y ← b.constantCf
  .ok (CfOrd.lt x y)

/-- `operator>` (gdual.hpp:817-820). -/
def gt {C : Type} [CfOrd C] (a b : GDual C) : Res Bool := do
  let x ← a.constantCf
  let y ← b.constantCf
  .ok (CfOrd.gt x y)

end GDual

/-- Exact ordered scalars. -/
instance fieldCfOrd {K : Type} [Field K] [LinearOrder K] : CfOrd K where
  absLt x eps := decide (|x| < (eps : K))
  absGt x tol := decide (|x| > (tol : K))
  lt x y := decide (x < y)
  gt x y := decide (x > y)

end Audi
