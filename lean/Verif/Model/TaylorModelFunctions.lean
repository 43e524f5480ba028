import Verif.Model.TaylorModel
import Verif.Model.Functions
import Verif.Spec.Functions

/-!
# Model: functions of Taylor models

include/audi/taylor_model_functions.hpp, over the exact real numbers. The functions of the polynomial part are the model of
functions.hpp with the real functions (instance `realCfFun` of Spec/Functions.lean).

The functions of intervals (`exp`, `sin`, …) belong to Boost.Interval, which is not part of /repo. Their contract here: the smallest
interval that contains the values of the real function on the interval. An interval on which the function has no value gives the
outcome `nonFinite`; unbounded results likewise.
-/

namespace Audi

namespace Itv

/-- `boost::numeric::exp`. -/
noncomputable def rexp (a : Itv ℝ) : Itv ℝ := ⟨Real.exp a.lo, Real.exp a.hi⟩

/-- `boost::numeric::sqrt`: the part of the interval below 0 is ignored. -/
noncomputable def rsqrt (a : Itv ℝ) : Res (Itv ℝ) := if a.hi < 0 then .error .nonFinite else .ok ⟨√a.lo, √a.hi⟩

/-- `boost::numeric::sin`. -/
noncomputable def rsin (a : Itv ℝ) : Itv ℝ := ⟨sInf (Real.sin '' Set.Icc a.lo a.hi), sSup (Real.sin '' Set.Icc a.lo a.hi)⟩

/-- `boost::numeric::cos`. -/
noncomputable def rcos (a : Itv ℝ) : Itv ℝ := ⟨sInf (Real.cos '' Set.Icc a.lo a.hi), sSup (Real.cos '' Set.Icc a.lo a.hi)⟩

/-- `boost::numeric::sinh`. -/
noncomputable def rsinh (a : Itv ℝ) : Itv ℝ := ⟨Real.sinh a.lo, Real.sinh a.hi⟩

/-- `boost::numeric::cosh`. -/
noncomputable def rcosh (a : Itv ℝ) : Itv ℝ :=
  if 0 ≤ a.lo then ⟨Real.cosh a.lo, Real.cosh a.hi⟩
  else if a.hi ≤ 0 then ⟨Real.cosh a.hi, Real.cosh a.lo⟩
  else ⟨1, max (Real.cosh a.lo) (Real.cosh a.hi)⟩

/-- `boost::numeric::asin`: the part of the interval outside [-1, 1] is ignored. -/
noncomputable def rasin (a : Itv ℝ) : Res (Itv ℝ) :=
  if a.hi < -1 ∨ 1 < a.lo then .error .nonFinite else .ok ⟨Real.arcsin a.lo, Real.arcsin a.hi⟩

/-- `boost::numeric::atan`. -/
noncomputable def ratan (a : Itv ℝ) : Itv ℝ := ⟨Real.arctan a.lo, Real.arctan a.hi⟩

end Itv

namespace TM

/-- `boost::math::factorial<double>(n)`: `std::overflow_error`, a `std::runtime_error`, above 170!. -/
noncomputable def factorial (n : ℕ) : Res ℝ := if n ≤ 170 then .ok (n.factorial : ℝ) else .error .runtimeError

/-- The product computed by the loop of `factorial2` (taylor_model_functions.hpp:99-103). -/
def fact2Loop : ℕ → ℕ
  | 0 => 1
  | 1 => 1
  | n + 2 => (n + 2) * fact2Loop n

/-- `static_cast<int>` of an `unsigned` value, that is of an integer taken modulo 2^32. -/
def toInt32 (n : ℤ) : ℤ := (n + 2 ^ 31) % 2 ^ 32 - 2 ^ 31

/-- `factorial2(unsigned)` (taylor_model_functions.hpp:94-104). The product is a `long long`: overflow is undefined behaviour. The loop
does not run for a negative value. -/
def fact2 (n : ℤ) : Res ℕ :=
  let r := fact2Loop (toInt32 n).toNat
  if r < 2 ^ 63 then .ok r else .error .undefinedBehaviour

/-- The common start of the functions: constant term, bounds of the rest plus remainder, order (taylor_model_functions.hpp:172-177,
241-246, 278-283, 341-346, 404-409, 442-447, 525-530, 571-576, 603-608). -/
noncomputable def prologue (ord : List String → List String) (tm : TM ℝ) : Res (ℝ × Itv ℝ × ℕ) := do
  let c ← tm.tpol.constantCf
  let fb ← getBounds ord (tm.tpol.subGS c) tm.exp tm.dom
  .ok (c, fb.add tm.rem, tm.tpol.getOrder)

/-- `subset(tm.get_bounds() + tm.get_rem(), int_d(l, infinity))`, else `std::runtime_error` (taylor_model_functions.hpp:181-185,
197-201, 274-277, 849-853). -/
noncomputable def requireAbove (ord : List String → List String) (tm : TM ℝ) (l : ℝ) : Res Unit := do
  let b ← tm.bounds ord
  if l ≤ (b.add tm.rem).lo then .ok () else .error .runtimeError

/-- `pow(tm, n)` for `n == 1.0 / 2.0` (taylor_model_functions.hpp:168-195, 218-221). -/
noncomputable def powHalf (ord : List String → List String) (tm : TM ℝ) : Res (TM ℝ) := do
  let (c, B, k) ← prologue ord tm
  requireAbove ord tm 0
  let q ← sdiv B c
  let den ← (((Itv.point 1).add (q.mul ⟨0, 1⟩)).pow (2 * k + 1)).rsqrt
  let f2 ← fact2 (2 * k - 1)
  let f1 ← factorial (k + 1)
  let num ← sdiv (smul ((-1) ^ k * √c * f2 / (f1 * 2 ^ (k + 1))) (B.pow (k + 1))) (c ^ (k + 1))
  let rem ← (num.mul (Itv.point 1)).div den
  let p ← tm.tpol.powQ (1 / 2)
  let ne ← trimMap p.symbolSet tm.exp
  let nd ← trimMap p.symbolSet tm.dom
  make p rem ne nd

/-- `pow(tm, n)` for `n == -1.0 / 2.0` (taylor_model_functions.hpp:168-177, 196-209, 218-221). -/
noncomputable def powMinusHalf (ord : List String → List String) (tm : TM ℝ) : Res (TM ℝ) := do
  let (c, B, k) ← prologue ord tm
  requireAbove ord tm 0
  let q ← sdiv B c
  let den ← (((Itv.point 1).add (q.mul ⟨0, 1⟩)).pow (2 * k + 3)).rsqrt
  let f2 ← fact2 (2 * k + 1)
  let f1 ← factorial (k + 1)
  let num ← sdiv (smul ((-1) ^ (k + 1) * (√c)⁻¹ * f2 / f1 * 2 ^ (k + 1)) (B.pow (k + 1))) (c ^ (k + 1))
  let rem ← (num.mul (Itv.point 1)).div den
  let p ← tm.tpol.powQ (-(1 / 2))
  let ne ← trimMap p.symbolSet tm.exp
  let nd ← trimMap p.symbolSet tm.dom
  make p rem ne nd

/-- `std::round`: halves away from zero. -/
def roundQ (q : ℚ) : ℤ := if 0 ≤ q then ⌊q + 1 / 2⌋ else ⌈q - 1 / 2⌉

/-- `static_cast<int>` of a floating point number: the fractional part is discarded; out of range it is undefined behaviour. -/
def truncQ (q : ℚ) : Res ℤ :=
  let z := if 0 ≤ q then ⌊q⌋ else ⌈q⌉
  if -(2 ^ 31) ≤ z ∧ z < 2 ^ 31 then .ok z else .error .undefinedBehaviour

/-- `pow(tm, T)` (taylor_model_functions.hpp:168-222). `eps` is `std::numeric_limits<T>::epsilon()`, which is 0 for integral types. The
values computed before the case distinction may fail even where they are not used. -/
noncomputable def powT (ord : List String → List String) (eps : ℚ) (tm : TM ℝ) (n : ℚ) : Res (TM ℝ) := do
  let _ ← prologue ord tm
  if n = 1 / 2 then powHalf ord tm
  else if n = -(1 / 2) then powMinusHalf ord tm
  else if |n - roundQ n| < eps * 10 then do
    let i ← truncQ n
    powInt ord tm i
  else if |n * 2 - roundQ (n * 2)| < eps * 10 then do
    let i ← truncQ (n * 2)
    let s ← powInt ord tm i
    powHalf ord s
  else .error .runtimeError

/-- `sqrt` (taylor_model_functions.hpp:300-303). -/
noncomputable def sqrt (ord : List String → List String) (tm : TM ℝ) : Res (TM ℝ) := powHalf ord tm

/-- `exp` (taylor_model_functions.hpp:239-253). -/
noncomputable def rexp (ord : List String → List String) (tm : TM ℝ) : Res (TM ℝ) := do
  let (c, B, k) ← prologue ord tm
  let f1 ← factorial (k + 1)
  let p ← tm.tpol.exp
  make p ((smul (Real.exp c * (1 / f1)) (B.pow (k + 1))).mul (B.mul ⟨0, 1⟩).rexp) tm.exp tm.dom

/-- `log` (taylor_model_functions.hpp:272-291). -/
noncomputable def rlog (ord : List String → List String) (tm : TM ℝ) : Res (TM ℝ) := do
  requireAbove ord tm 0
  let (c, B, k) ← prologue ord tm
  let num ← sdiv ((Itv.point ((-1) ^ (k + 2) * (1 / (k + 1 : ℝ)))).mul (B.pow (k + 1))) (c ^ (k + 1))
  let q ← sdiv B c
  let den ← (Itv.point 1).div ((Itv.point 1).add (q.mul ⟨0, 1⟩))
  let p ← tm.tpol.log
  make p (num.mul (den.pow (k + 1))) tm.exp tm.dom

/-- The remainder of `sin`, `cos`, `sinh`, `cosh`: `1 / (k+1)! * J * B^(k+1)` (taylor_model_functions.hpp:362, 425, 539, 585). -/
noncomputable def trigRem (f1 : ℝ) (J B : Itv ℝ) (k : ℕ) : Itv ℝ := ((Itv.point (1 / f1)).mul J).mul (B.pow (k + 1))

/-- The argument `const_term + f_bar_remainder_bounds * int_d(0, 1)` (taylor_model_functions.hpp:350 and others). -/
noncomputable def thetaArg (c : ℝ) (B : Itv ℝ) : Itv ℝ := (Itv.point c).add (B.mul ⟨0, 1⟩)

/-- `conditional_func_2` of `sin` (taylor_model_functions.hpp:348-360, 449-464). -/
noncomputable def sinCond (k : ℕ) (A : Itv ℝ) : Itv ℝ :=
  let J := if k % 2 = 0 then A.rcos else A.rsin
  if k % 4 = 1 ∨ k % 4 = 2 then J.neg else J

/-- `conditional_func_2` of `cos` (taylor_model_functions.hpp:411-423, 450-471). -/
noncomputable def cosCond (k : ℕ) (A : Itv ℝ) : Itv ℝ :=
  let J := if k % 2 = 0 then A.rsin else A.rcos
  if k % 4 = 0 ∨ k % 4 = 1 then J.neg else J

/-- `conditional_func` of `sinh` (taylor_model_functions.hpp:532-537, 610-617). -/
noncomputable def sinhCond (k : ℕ) (A : Itv ℝ) : Itv ℝ := if k % 2 = 0 then A.rcosh else A.rsinh

/-- `conditional_func` of `cosh` (taylor_model_functions.hpp:578-583, 611-618). -/
noncomputable def coshCond (k : ℕ) (A : Itv ℝ) : Itv ℝ := if k % 2 = 0 then A.rsinh else A.rcosh

/-- The common form of `sin`, `cos`, `sinh`, `cosh` (taylor_model_functions.hpp:339-366, 402-429, 523-543, 569-589). -/
noncomputable def trig (fn : GDual ℝ → Res (GDual ℝ)) (cond : ℕ → Itv ℝ → Itv ℝ) (ord : List String → List String) (tm : TM ℝ) :
    Res (TM ℝ) := do
  let (c, B, k) ← prologue ord tm
  let f1 ← factorial (k + 1)
  let p ← fn tm.tpol
  make p (trigRem f1 (cond k (thetaArg c B)) B k) tm.exp tm.dom

/-- `sin` (taylor_model_functions.hpp:339-366). -/
noncomputable def rsin (ord : List String → List String) (tm : TM ℝ) : Res (TM ℝ) := trig GDual.sin sinCond ord tm

/-- `cos` (taylor_model_functions.hpp:402-429). -/
noncomputable def rcos (ord : List String → List String) (tm : TM ℝ) : Res (TM ℝ) := trig GDual.cos cosCond ord tm

/-- `sinh` (taylor_model_functions.hpp:523-543). -/
noncomputable def rsinh (ord : List String → List String) (tm : TM ℝ) : Res (TM ℝ) := trig GDual.sinh sinhCond ord tm

/-- `cosh` (taylor_model_functions.hpp:569-589). -/
noncomputable def rcosh (ord : List String → List String) (tm : TM ℝ) : Res (TM ℝ) := trig GDual.cosh coshCond ord tm

/-- The common form of `sin_and_cos` and `sinh_and_cosh` (taylor_model_functions.hpp:440-483, 601-630): both remainders are computed
before both polynomials. -/
noncomputable def trigPair (fn₁ fn₂ : GDual ℝ → Res (GDual ℝ)) (cond₁ cond₂ : ℕ → Itv ℝ → Itv ℝ) (ord : List String → List String)
    (tm : TM ℝ) : Res (TM ℝ × TM ℝ) := do
  let (c, B, k) ← prologue ord tm
  let f1 ← factorial (k + 1)
  let p ← fn₁ tm.tpol
  let r ← make p (trigRem f1 (cond₁ k (thetaArg c B)) B k) tm.exp tm.dom
  let p' ← fn₂ tm.tpol
  let r' ← make p' (trigRem f1 (cond₂ k (thetaArg c B)) B k) tm.exp tm.dom
  .ok (r, r')

/-- `sin_and_cos` (taylor_model_functions.hpp:440-483). -/
noncomputable def sinAndCos (ord : List String → List String) (tm : TM ℝ) : Res (TM ℝ × TM ℝ) :=
  trigPair GDual.sin GDual.cos sinCond cosCond ord tm

/-- `sinh_and_cosh` (taylor_model_functions.hpp:601-630). -/
noncomputable def sinhAndCosh (ord : List String → List String) (tm : TM ℝ) : Res (TM ℝ × TM ℝ) :=
  trigPair GDual.sinh GDual.cosh sinhCond coshCond ord tm

/-- `tan` (taylor_model_functions.hpp:494-497). -/
noncomputable def rtan (ord : List String → List String) (tm : TM ℝ) : Res (TM ℝ) := do
  let s ← rsin ord tm
  let c ← rcos ord tm
  div ord s c

/-- `tanh` (taylor_model_functions.hpp:641-644). -/
noncomputable def rtanh (ord : List String → List String) (tm : TM ℝ) : Res (TM ℝ) := do
  let s ← rsinh ord tm
  let c ← rcosh ord tm
  div ord s c

/-- `int_d(1.0) - a * a` (taylor_model_functions.hpp:687-694). -/
noncomputable def oneMinusSq (a : Itv ℝ) : Itv ℝ := (Itv.point 1).sub (a.mul a)

/-- `derivs[1]` of `asin_derivative` (taylor_model_functions.hpp:687). -/
noncomputable def asinD1 (a : Itv ℝ) : Res (Itv ℝ) := do
  let s ← (oneMinusSq a).rsqrt
  (Itv.point 1).div s

/-- `derivs[2]` of `asin_derivative` (taylor_model_functions.hpp:688-690). -/
noncomputable def asinD2 (a : Itv ℝ) : Res (Itv ℝ) := (a.mul ((oneMinusSq a).pow 2)).div ((oneMinusSq a).pow 3)

/-- `asin_derivative` for `order ≥ 1` (taylor_model_functions.hpp:684-697): the pair of the entries `n + 1` and `n + 2`. The loop
computes `derivs[k+2]` from `derivs[k+1]` and `derivs[k]`, `k ≥ 1`. -/
noncomputable def asinDPair (a : Itv ℝ) : ℕ → Res (Itv ℝ × Itv ℝ)
  | 0 => do
    let d1 ← asinD1 a
    let d2 ← asinD2 a
    .ok (d1, d2)
  | n + 1 => do
    let (dk, dk1) ← asinDPair a n
    let q ← (Itv.point 1).div (oneMinusSq a)
    let k : ℝ := n + 1
    .ok (dk1, q.mul ((((Itv.point (2 * k + 1)).mul a).mul dk1).add ((Itv.point (k * k)).mul dk)))

/-- `asin_derivative(a, order)` (taylor_model_functions.hpp:679-698). -/
noncomputable def asinDerivative (a : Itv ℝ) (order : ℕ) : Res (Itv ℝ) :=
  match order with
  | 0 => a.rasin
  | 1 => asinD1 a
  | n + 2 => do
    let d ← asinDPair a n
    .ok d.2

/-- `asin` (taylor_model_functions.hpp:725-746). -/
noncomputable def rasin (ord : List String → List String) (tm : TM ℝ) : Res (TM ℝ) := do
  let b ← tm.bounds ord
  if ¬ (-1 ≤ (b.add tm.rem).lo ∧ (b.add tm.rem).hi ≤ 1) then .error .runtimeError
  else do
    let c ← tm.tpol.constantCf
    let l ← mulTS tm (√(1 - c ^ 2))
    let sq ← powInt ord tm 2
    let om ← subST 1 sq
    let rt ← sqrt ord om
    let r ← mulST c rt
    let ad ← sub l r
    let ab ← getBounds ord ad.tpol ad.exp ad.dom
    let G := ab.add ad.rem
    let k := tm.tpol.getOrder
    let dv ← asinDerivative ((⟨0, 1⟩ : Itv ℝ).mul G) (k + 1)
    let f1 ← factorial (k + 1)
    let p ← tm.tpol.asin
    make p (((Itv.point (1 / f1)).mul (G.pow (k + 1))).mul dv) tm.exp tm.dom

/-- `acos` (taylor_model_functions.hpp:761-764). -/
noncomputable def racos (ord : List String → List String) (tm : TM ℝ) : Res (TM ℝ) := do
  let s ← rasin ord tm
  subST (Real.pi / 2) s

/-- The remainder of `atan` (taylor_model_functions.hpp:798-804). -/
noncomputable def atanRem (G : Itv ℝ) (k : ℕ) : Itv ℝ :=
  let A := ((⟨0, 1⟩ : Itv ℝ).mul G).ratan
  (((Itv.point (1 / (k + 1 : ℝ))).mul (G.pow (k + 1))).mul (A.rcos.pow (k + 1))).mul
    ((Itv.point (k + 1 : ℝ)).mul (A.add (Itv.point (Real.pi / 2)))).rsin

/-- `atan` (taylor_model_functions.hpp:787-807). -/
noncomputable def ratan (ord : List String → List String) (tm : TM ℝ) : Res (TM ℝ) := do
  let c ← tm.tpol.constantCf
  let bar ← subTS tm c
  let m ← mulST c tm
  let d ← addST 1 m
  let ad ← div ord bar d
  let ab ← getBounds ord ad.tpol ad.exp ad.dom
  let p ← tm.tpol.atan
  make p (atanRem (ab.add ad.rem) tm.tpol.getOrder) tm.exp tm.dom

/-- `asinh` (taylor_model_functions.hpp:824-827). -/
noncomputable def rasinh (ord : List String → List String) (tm : TM ℝ) : Res (TM ℝ) := do
  let sq ← powInt ord tm 2
  let s1 ← addTS sq 1
  let rt ← sqrt ord s1
  let s ← add tm rt
  rlog ord s

/-- `acosh` (taylor_model_functions.hpp:846-856). -/
noncomputable def racosh (ord : List String → List String) (tm : TM ℝ) : Res (TM ℝ) := do
  let sq ← powInt ord tm 2
  requireAbove ord sq 1
  let s1 ← subTS sq 1
  let rt ← sqrt ord s1
  let s ← add tm rt
  rlog ord s

/-- `atanh` (taylor_model_functions.hpp:872-875). -/
noncomputable def ratanh (ord : List String → List String) (tm : TM ℝ) : Res (TM ℝ) := do
  let n ← addST 1 tm
  let d ← subST 1 tm
  let q ← div ord n d
  let l ← rlog ord q
  mulST (1 / 2) l

/-- `abs` (taylor_model_functions.hpp:887-890). -/
noncomputable def rabs (tm : TM ℝ) : Res (TM ℝ) := do
  let p ← tm.tpol.absScalar
  make p tm.rem.abs tm.exp tm.dom

end TM
end Audi
