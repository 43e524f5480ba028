import Verif.Model.GDual
import Mathlib.Data.Rat.Floor
import Mathlib.Data.Int.Log
import Mathlib.Algebra.Order.Field.Basic

/-!
# Model: coefficients with infinities and NaN

The exact model (Model/Cf.lean) has no inf and no NaN: it reports `nonFinite` where the C++ code would go on with them. Here the coefficients are the values of a floating
point format of IEEE 754 with infinities and NaN, so that the definitions of Model/Poly.lean and Model/GDual.lean, generic in the coefficient type, follow what
`gdual<double>` does with such values, line by line. `isUnit` is constantly true: the C++ code does not test divisors.

Simplified: one zero only. The sign of a zero is visible in `1./Cf(d2)` (gdual.hpp:264) when the divisor is the number `-0.`; a coefficient of a gdual is never a
zero, and `find_cf` returns `Cf(0)` for an absent one (gdual.hpp:575). One NaN only. A fused multiply-add is two operations.
-/

namespace Audi

/-- A value of a floating point type: NaN, an infinity (`true` for the negative one) or a number. -/
inductive Xv
  | nan
  | inf (neg : Bool)
  | fin (q : ℚ)
deriving DecidableEq, Repr

namespace Xv

/-- `-x`. -/
def neg : Xv → Xv
  | nan => nan
  | inf s => inf !s
  | fin q => fin (-q)

end Xv

/-- A floating point format: the rounding of a number to a value of the format. The result may be an infinity (overflow) or zero (underflow). -/
structure XFormat where
  rnd : ℚ → Xv
  rnd_ne_nan : ∀ q, rnd q ≠ .nan
  rnd_zero : rnd 0 = .fin 0
  rnd_one : rnd 1 = .fin 1
  rnd_idem : ∀ q r, rnd q = .fin r → rnd r = .fin r
  rnd_neg : ∀ q, rnd (-q) = (rnd q).neg

/-- The values of the format: NaN, the infinities, and the numbers which rounding does not change. -/
structure XF (F : XFormat) where
  v : Xv
  repr : ∀ q, v = .fin q → F.rnd q = .fin q

namespace XF
variable {F : XFormat}

instance : DecidableEq (XF F) := fun a b =>
  if h : a.v = b.v then .isTrue (by cases a; cases b; cases h; rfl) else .isFalse (by rintro rfl; exact h rfl)

/-- NaN. -/
def nan (F : XFormat) : XF F := ⟨.nan, by simp⟩

/-- An infinity. -/
def inf (F : XFormat) (s : Bool) : XF F := ⟨.inf s, by simp⟩

/-- The number nearest to `q`, or an infinity. -/
def round (F : XFormat) (q : ℚ) : XF F := ⟨F.rnd q, fun r h => F.rnd_idem q r h⟩

/-- `-x` (IEEE 754: exact). -/
def neg (x : XF F) : XF F := ⟨x.v.neg, by
  intro q h
  obtain ⟨v, hv⟩ := x
  cases v with
  | nan => simp [Xv.neg] at h
  | inf s => simp [Xv.neg] at h
  | fin r => simp only [Xv.neg, Xv.fin.injEq] at h; subst h; rw [F.rnd_neg, hv r rfl]; rfl⟩

/-- `x + y` (IEEE 754). -/
def add (x y : XF F) : XF F :=
  match x.v, y.v with
  | .fin p, .fin q => round F (p + q)
  | .nan, _ => nan F
  | _, .nan => nan F
  | .inf s, .inf t => if s = t then inf F s else nan F
  | .inf s, .fin _ => inf F s
  | .fin _, .inf t => inf F t

/-- `x * y` (IEEE 754). -/
def mul (x y : XF F) : XF F :=
  match x.v, y.v with
  | .fin p, .fin q => round F (p * q)
  | .nan, _ => nan F
  | _, .nan => nan F
  | .inf s, .inf t => inf F (s ^^ t)
  | .inf s, .fin q => if q = 0 then nan F else inf F (s ^^ decide (q < 0))
  | .fin p, .inf t => if p = 0 then nan F else inf F (decide (p < 0) ^^ t)

/-- `x / y` (IEEE 754). -/
def div (x y : XF F) : XF F :=
  match x.v, y.v with
  | .fin p, .fin q =>
    if q = 0 then (if p = 0 then nan F else inf F (decide (p < 0))) else round F (p / q)
  | .nan, _ => nan F
  | _, .nan => nan F
  | .inf _, .inf _ => nan F
  | .inf s, .fin q => inf F (s ^^ decide (q < 0))
  | .fin _, .inf _ => round F 0

/-- `x < y` (IEEE 754): false if one of them is NaN. -/
def lt (x y : XF F) : Bool :=
  match x.v, y.v with
  | .fin p, .fin q => p < q
  | .nan, _ => false
  | _, .nan => false
  | .inf s, .inf t => s && !t
  | .inf s, .fin _ => s
  | .fin _, .inf t => !t

/-- `|x|` as a value to be compared with a number. -/
def abs (x : XF F) : Xv :=
  match x.v with
  | .nan => .nan
  | .inf _ => .inf false
  | .fin q => .fin |q|

/-- Coefficients of `gdual<double>` with special values (gdual.hpp:98-104). The zero test is `x == 0`, `beq` is `operator==` of the type: NaN differs from itself. -/
instance cf : CfOrd (XF F) where
  ofRat q := round F q
  add := add
  sub x y := add x (neg y)
  mul := mul
  neg := neg
  div := div
  isZero x := decide (x.v = .fin 0)
  isUnit _ := true
  beq x y := decide (x.v ≠ .nan ∧ x.v = y.v)
  absLt x eps := match abs x with
    | .nan => false
    | .inf _ => false
    | .fin q => q < eps
  absGt x tol := match abs x with
    | .nan => false
    | .inf _ => true
    | .fin q => tol < q
  lt := lt
  gt x y := lt y x

end XF

/-- The format without rounding and without overflow. -/
def XFormat.exact : XFormat where
  rnd := .fin
  rnd_ne_nan _ := by simp
  rnd_zero := rfl
  rnd_one := rfl
  rnd_idem _ _ _ := rfl
  rnd_neg _ := rfl

end Audi
