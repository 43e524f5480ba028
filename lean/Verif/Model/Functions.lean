import Verif.Model.GDual
import Mathlib.NumberTheory.Bernoulli

/-!
# Model: functions of gduals (include/audi/functions.hpp, include/audi/functions_from_d.hpp)

The functions of the coefficients themselves (`audi::exp(p0)`, ... detail/overloads.hpp:66-130,
detail/overloads_vectorized.hpp:52-84) are those of the C++ standard library; they are the fields of the class
`CfFun`. The `...Ok` fields say when the library returns finite values (otherwise the
outcome is `Exn.nonFinite`). Loop counters are natural numbers: the 32 bit products `i * (i - 1)` at functions.hpp:349 and
361 do not wrap for orders below 65536.
-/

namespace Audi

/-- Functions on coefficients provided by the standard library. -/
class CfFun (C : Type) extends Cf C where
  exp : C → C
  log : C → C
  sqrt : C → C
  cbrt : C → C
  sin : C → C
  cos : C → C
  tan : C → C
  sinh : C → C
  cosh : C → C
  tanh : C → C
  asin : C → C
  acos : C → C
  atan : C → C
  asinh : C → C
  acosh : C → C
  atanh : C → C
  erf : C → C
  /-- `audi::pow(c, q)` with a numeric exponent. -/
  pow : C → ℚ → C
  /-- `audi::pow(q, c)` with a numeric base. -/
  powBase : ℚ → C → C
  /-- `boost::math::constants::pi<double>()`. -/
  pi : C
  /-- `2. / std::sqrt(boost::math::constants::pi<double>())`. -/
  twoOverSqrtPi : C
  logOk : C → Bool
  sqrtOk : C → Bool
  tanOk : C → Bool
  asinOk : C → Bool
  acoshOk : C → Bool
  atanhOk : C → Bool
  powOk : C → ℚ → Bool
  powBaseOk : ℚ → C → Bool

namespace GDual
variable {C : Type} [CfFun C]

/-- Stop with the non finite outcome unless the library function is defined at the argument. -/
def guardFinite (b : Bool) : Res Unit := if b then .ok () else .error .nonFinite

/-! ## exp -/

/-- Loop variables of `exp` (functions.hpp:63-69). -/
structure ExpSt (C : Type) where
  retval : GDual C
  fact : GDual C
  phat : GDual C

/-- Loop body of `exp` (functions.hpp:71-75). -/
def expStep (tmp : GDual C) (s : ExpSt C) (i : ℕ) : Res (ExpSt C) := do
  let phat := s.phat.mul tmp
  let fact := s.fact.mulGS (Cf.ofRat i)
  let q ← phat.div fact
  .ok ⟨s.retval.add q, fact, phat⟩

/-- `exp` (functions.hpp:61-77). -/
def exp (d : GDual C) : Res (GDual C) := do
  let p0 ← d.constantCf
  let phat := d.subGS p0
  let tmp := phat
  let st ← (List.range' 2 (d.order - 1)).foldlM (expStep tmp) ⟨(ofRat 1).add phat, ofRat 1, phat⟩
  .ok (st.retval.mulGS (CfFun.exp p0))

/-! ## log -/

/-- Loop variables of `log` (functions.hpp:98-107). -/
structure LogSt (C : Type) where
  retval : GDual C
  fatt : GDual C
  phat : GDual C

/-- Loop body of `log` (functions.hpp:109-113). -/
def logStep (tmp : GDual C) (s : LogSt C) (i : ℕ) : Res (LogSt C) := do
  let fatt := s.fatt.mulGS (Cf.ofRat (-1))
  let phat := s.phat.mul tmp
  let q ← (fatt.mul phat).divGS (Cf.ofRat i)
  .ok ⟨s.retval.add q, fatt, phat⟩

/-- `log` (functions.hpp:96-115). -/
def log (d : GDual C) : Res (GDual C) := do
  let p0 ← d.constantCf
  guardFinite (CfFun.logOk p0)
  let logp0 := CfFun.log p0
  let phat ← (d.subGS p0).divGS p0
  let tmp := phat
  let st ← (List.range' 2 (d.order - 1)).foldlM (logStep tmp) ⟨phat.addSG logp0, ofRat 1, phat⟩
  .ok st.retval

/-! ## pow -/

/-- `pow(base, gdual)` (functions.hpp:128-138). -/
def powBase (base : ℚ) (d : GDual C) : Res (GDual C) := do
  if d.degree = 0 then
    let p0 ← d.constantCf
    guardFinite (CfFun.powBaseOk base p0)
    .ok (ofCf (CfFun.powBase base p0))
  else
    guardFinite (CfFun.logOk (Cf.ofRat base : C))
    exp (d.mulSG (CfFun.log (Cf.ofRat base : C)))

/-- `binomial(x, y)` (functions.hpp:140-148) for numbers. -/
def binomialQ (x : ℚ) (y : ℕ) : ℚ :=
  (List.range' 1 (y - 1)).foldl (fun (retval : ℚ) (i : ℕ) => retval * (x - i) / (i + 1)) x

/-- `binomial(x, y)` (functions.hpp:140-148) for a coefficient. -/
def binomialC (x : C) (y : ℕ) : C :=
  (List.range' 1 (y - 1)).foldl
    (fun (retval : C) (i : ℕ) => Cf.div (Cf.mul retval (Cf.sub x (Cf.ofRat i))) (Cf.ofRat ((i : ℚ) + 1))) x

/-- `audi::pow(p0, q)` with its finiteness condition. -/
def cfPow (p0 : C) (q : ℚ) : Res C := do
  guardFinite (CfFun.powOk p0 q)
  .ok (CfFun.pow p0 q)

/-- Loop variables of `pow` (functions.hpp:181-184). -/
structure PowSt (C : Type) where
  retval : GDual C
  phat : GDual C

/-- `t * audi::pow(p0, q)`. If the power is inf/NaN so are the coefficients of the product, unless `t` is empty. -/
def mulCfPow (t : GDual C) (p0 : C) (q : ℚ) : Res (GDual C) :=
  if CfFun.powOk p0 q then .ok (t.mulGS (CfFun.pow p0 q))
  else if t.p.terms.isEmpty then .ok t
  else .error .nonFinite

/-- Loop body of `pow(gdual, U)` (functions.hpp:186-190). -/
def powStep (alpha : ℚ) (p0 : C) (tmp : GDual C) (s : PowSt C) (i : ℕ) : Res (PowSt C) := do
  let phat := s.phat.mul tmp
  let t ← mulCfPow (phat.mulSG (Cf.ofRat (binomialQ alpha i))) p0 (alpha - i)
  .ok ⟨s.retval.add t, phat⟩

/-- `d * d * ... * d`, `n` factors (functions.hpp:174-177 and 211-214). -/
def mulLoop (d : GDual C) (n : ℕ) : GDual C := (List.range' 1 (n - 1)).foldl (fun r _ => r.mul d) d

/-- `pow(gdual, U)` (functions.hpp:168-193) for a floating point exponent; finite doubles are rational numbers. The
conversion to `int` is undefined behaviour out of range. -/
def powQ (d : GDual C) (alpha : ℚ) : Res (GDual C) := do
  if alpha ≥ 2147483648 ∨ alpha ≤ -2147483649 then .error .undefinedBehaviour
  else if alpha.den = 1 ∧ alpha > 0 then .ok (mulLoop d alpha.num.toNat)
  else
    let p0 ← d.constantCf
    let phat := d.subGS p0
    let c0 ← cfPow p0 alpha
    let tmp := phat
    let t ← mulCfPow (phat.mulSG (Cf.ofRat alpha)) p0 (alpha - 1)
    let st ← (List.range' 2 (d.order - 1)).foldlM (powStep alpha p0 tmp) ⟨(ofCf c0).add t, phat⟩
    .ok st.retval

/-- `pow(gdual, int)` (functions.hpp:203-221). The negation of the smallest `int` is undefined behaviour. -/
def powInt (d : GDual C) (n : ℤ) : Res (GDual C) := do
  if n < 0 then
    if n = -2147483648 then .error .undefinedBehaviour
    else
      let r ← divSG Cf.one d
      (List.range' 1 ((-n).toNat - 1)).foldlM (fun r _ => r.div d) r
  else if n > 0 then .ok (mulLoop d n.toNat)
  else .ok ((d.sub d).addGS (Cf.ofRat 1))

/-- `pow(gdual, gdual)` (functions.hpp:235-239). -/
def powG (d1 d2 : GDual C) : Res (GDual C) := do
  let l ← log d1
  exp (d2.mul l)

/-! ## roots -/

/-- Loop body of `sqrt` and `cbrt` (functions.hpp:271-274, 309-312). -/
def rootStep (alpha : C) (tmp : GDual C) (s : PowSt C) (i : ℕ) : PowSt C :=
  let phat := s.phat.mul tmp
  ⟨s.retval.add (phat.mulSG (binomialC alpha i)), phat⟩

/-- Common text of `sqrt` and `cbrt`: `root_p0` is the root of the constant part. -/
def rootSeries (d : GDual C) (alpha p0 rootp0 : C) : Res (GDual C) := do
  let phat ← (d.subGS p0).divGS p0
  let tmp := phat
  let st := (List.range' 2 (d.order - 1)).foldl (rootStep alpha tmp) ⟨(ofRat 1).add (phat.mulSG alpha), phat⟩
  .ok (st.retval.mulGS rootp0)

/-- `sqrt` (functions.hpp:258-277). -/
def sqrt (d : GDual C) : Res (GDual C) := do
  let p0 ← d.constantCf
  guardFinite (CfFun.sqrtOk p0)
  rootSeries d (Cf.ofRat (1 / 2)) p0 (CfFun.sqrt p0)

/-- `cbrt` (functions.hpp:296-315). -/
def cbrt (d : GDual C) : Res (GDual C) := do
  let p0 ← d.constantCf
  rootSeries d (Cf.div (Cf.ofRat 1) (Cf.ofRat 3)) p0 (CfFun.cbrt p0)

/-! ## trigonometric functions -/

/-- Loop variables of the series of sine and cosine (functions.hpp:342-345, 353-356). -/
structure TrigSt (C : Type) where
  taylor : GDual C
  tmp : GDual C
  factorial : C
  coeff : ℚ

/-- Loop body of the series of sine and cosine (functions.hpp:347-350, 358-361 and the same text in `cos`, `sin_and_cos`). -/
def trigStep (phat2 : GDual C) (s : TrigSt C) (i : ℕ) : Res (TrigSt C) := do
  let coeff := -s.coeff
  let tmp := s.tmp.mul phat2
  let factorial := Cf.mul s.factorial (Cf.ofRat (i * (i - 1)))
  let q ← (tmp.mulSG (Cf.ofRat coeff)).divGS factorial
  .ok ⟨s.taylor.add q, tmp, factorial, coeff⟩

/-- `cos_taylor`: loop `i = 2, 4, ...` (functions.hpp:342-351, 392-401, 437-446). -/
def cosTaylor (order : ℕ) (phat2 : GDual C) : Res (GDual C) := do
  let st ← (List.range' 2 (order / 2) 2).foldlM (trigStep phat2) ⟨ofRat 1, ofRat 1, Cf.ofRat 1, 1⟩
  .ok st.taylor

/-- `sin_taylor`: loop `i = 3, 5, ...` (functions.hpp:353-363, 403-413, 448-458). -/
def sinTaylor (order : ℕ) (phat phat2 : GDual C) : Res (GDual C) := do
  let st ← (List.range' 3 ((order - 1) / 2) 2).foldlM (trigStep phat2) ⟨phat, phat, Cf.ofRat 1, 1⟩
  .ok st.taylor

/-- `sin` (functions.hpp:333-365). -/
def sin (d : GDual C) : Res (GDual C) := do
  let p0 ← d.constantCf
  let phat := d.subGS p0
  let phat2 := phat.mul phat
  let c ← cosTaylor d.order phat2
  let s ← sinTaylor d.order phat phat2
  .ok ((c.mulSG (CfFun.sin p0)).add (s.mulSG (CfFun.cos p0)))

/-- `cos` (functions.hpp:383-415). -/
def cos (d : GDual C) : Res (GDual C) := do
  let p0 ← d.constantCf
  let phat := d.subGS p0
  let phat2 := phat.mul phat
  let c ← cosTaylor d.order phat2
  let s ← sinTaylor d.order phat phat2
  .ok ((c.mulSG (CfFun.cos p0)).sub (s.mulSG (CfFun.sin p0)))

/-- `sin_and_cos` (functions.hpp:428-462). -/
def sinAndCos (d : GDual C) : Res (GDual C × GDual C) := do
  let p0 ← d.constantCf
  let phat := d.subGS p0
  let phat2 := phat.mul phat
  let c ← cosTaylor d.order phat2
  let s ← sinTaylor d.order phat phat2
  .ok ((c.mulSG (CfFun.sin p0)).add (s.mulSG (CfFun.cos p0)),
    (c.mulSG (CfFun.cos p0)).sub (s.mulSG (CfFun.sin p0)))

/-- Loop variables of `tan` and `tanh` (functions.hpp:492-496, 670-674). -/
structure TanSt (C : Type) where
  taylor : GDual C
  phat : GDual C
  factorial : ℚ
  fourK : ℚ

/-- Loop body of `tan` (functions.hpp:497-502). `bn[k]` is the Bernoulli number `B_{2k}`
(contract of `boost::math::bernoulli_b2n`). -/
def tanStep (phat2 : GDual C) (s : TanSt C) (k : ℕ) : TanSt C :=
  let phat := s.phat.mul phat2
  ⟨s.taylor.add (phat.mulSG (Cf.ofRat (bernoulli (2 * k) * s.fourK * (1 - |s.fourK|) / s.factorial))), phat,
    s.factorial * ((2 * k + 1) * (2 * k + 2)), s.fourK * (-4)⟩

/-- `tan` (functions.hpp:481-505). The loop runs over `k = 2, 3, ...` while `2k - 1 <= order`. -/
def tan (d : GDual C) : Res (GDual C) := do
  let p0 ← d.constantCf
  guardFinite (CfFun.tanOk p0)
  let phat := d.subGS p0
  let phat2 := phat.mul phat
  let tanp0 := CfFun.tan p0
  let t := ((List.range' 2 ((d.order + 1) / 2 - 1)).foldl (tanStep phat2) ⟨phat, phat, 24, 16⟩).taylor
  (t.addSG tanp0).div ((t.mulSG tanp0).subSG (Cf.ofRat 1))

/-! ## hyperbolic functions -/

/-- Loop body of the series of the hyperbolic functions (functions.hpp:535-539, 545-549 and the same text in `cosh`,
`sinh_and_cosh`). -/
def hypStep (phat2 : GDual C) (s : TrigSt C) (i : ℕ) : Res (TrigSt C) := do
  let tmp := s.tmp.mul phat2
  let factorial := Cf.mul s.factorial (Cf.ofRat (i * (i - 1)))
  let q ← tmp.divGS factorial
  .ok ⟨s.taylor.add q, tmp, factorial, s.coeff⟩

/-- `cosh_taylor` (functions.hpp:532-539, 578-585, 619-626). -/
def coshTaylor (order : ℕ) (phat2 : GDual C) : Res (GDual C) := do
  let st ← (List.range' 2 (order / 2) 2).foldlM (hypStep phat2) ⟨ofRat 1, ofRat 1, Cf.ofRat 1, 1⟩
  .ok st.taylor

/-- `sinh_taylor` (functions.hpp:541-549, 587-595, 628-636). -/
def sinhTaylor (order : ℕ) (phat phat2 : GDual C) : Res (GDual C) := do
  let st ← (List.range' 3 ((order - 1) / 2) 2).foldlM (hypStep phat2) ⟨phat, phat, Cf.ofRat 1, 1⟩
  .ok st.taylor

/-- `sinh` (functions.hpp:523-551). -/
def sinh (d : GDual C) : Res (GDual C) := do
  let p0 ← d.constantCf
  let phat := d.subGS p0
  let phat2 := phat.mul phat
  let c ← coshTaylor d.order phat2
  let s ← sinhTaylor d.order phat phat2
  .ok ((c.mulSG (CfFun.sinh p0)).add (s.mulSG (CfFun.cosh p0)))

/-- `cosh` (functions.hpp:569-597). -/
def cosh (d : GDual C) : Res (GDual C) := do
  let p0 ← d.constantCf
  let phat := d.subGS p0
  let phat2 := phat.mul phat
  let c ← coshTaylor d.order phat2
  let s ← sinhTaylor d.order phat phat2
  .ok ((c.mulSG (CfFun.cosh p0)).add (s.mulSG (CfFun.sinh p0)))

/-- `sinh_and_cosh` (functions.hpp:610-640). -/
def sinhAndCosh (d : GDual C) : Res (GDual C × GDual C) := do
  let p0 ← d.constantCf
  let phat := d.subGS p0
  let phat2 := phat.mul phat
  let c ← coshTaylor d.order phat2
  let s ← sinhTaylor d.order phat phat2
  .ok ((c.mulSG (CfFun.sinh p0)).add (s.mulSG (CfFun.cosh p0)),
    (c.mulSG (CfFun.cosh p0)).add (s.mulSG (CfFun.sinh p0)))

/-- Loop body of `tanh` (functions.hpp:675-680). -/
def tanhStep (phat2 : GDual C) (s : TanSt C) (k : ℕ) : TanSt C :=
  let phat := s.phat.mul phat2
  ⟨s.taylor.add (phat.mulSG (Cf.ofRat (bernoulli (2 * k) * s.fourK * (s.fourK - 1) / s.factorial))), phat,
    s.factorial * ((2 * k + 1) * (2 * k + 2)), s.fourK * 4⟩

/-- `tanh` (functions.hpp:659-683). -/
def tanh (d : GDual C) : Res (GDual C) := do
  let p0 ← d.constantCf
  let phat := d.subGS p0
  let phat2 := phat.mul phat
  let tanhp0 := CfFun.tanh p0
  let t := ((List.range' 2 ((d.order + 1) / 2 - 1)).foldl (tanhStep phat2) ⟨phat, phat, 24, 16⟩).taylor
  (t.addSG tanhp0).div ((t.mulSG tanhp0).addSG (Cf.ofRat 1))

/-! ## inverse functions -/

/-- Loop variables of `atanh` (functions.hpp:703-709). -/
structure AtanhSt (C : Type) where
  retval : GDual C
  powphat : GDual C
  coeff : ℚ

/-- Loop body of `atanh` (functions.hpp:712-716). -/
def atanhStep (p0 : C) (phat : GDual C) (s : AtanhSt C) (k : ℕ) : AtanhSt C :=
  let add := Cf.div (Cf.add (Cf.div (Cf.ofRat 1) (CfFun.pow (Cf.sub (Cf.ofRat 1) p0) k))
    (Cf.div (Cf.ofRat s.coeff) (CfFun.pow (Cf.add (Cf.ofRat 1) p0) k))) (Cf.ofRat k)
  ⟨s.retval.add (s.powphat.mulSG add), s.powphat.mul phat, s.coeff * (-1)⟩

/-- `atanh` (functions.hpp:701-719). -/
def atanh (d : GDual C) : Res (GDual C) := do
  let p0 ← d.constantCf
  guardFinite (CfFun.atanhOk p0)
  let phat := d.subGS p0
  let st := (List.range' 1 d.order).foldl (atanhStep p0 phat) ⟨ofRat 0, phat, 1⟩
  .ok ((st.retval.mulSG (Cf.ofRat (1 / 2))).addSG (CfFun.atanh p0))

/-- `binomial(x, y)` (functions.hpp:140-148) instantiated with `T = unsigned`: 32 bit arithmetic. -/
def binomialU32 (x y : ℕ) : ℕ :=
  (List.range' 1 (y - 1)).foldl (fun retval i => (retval * (x - i)) % 4294967296 / (i + 1)) (x % 4294967296)

/-- Variables of the inner loops of `atan` (functions.hpp:753-755, 764-766). -/
structure AtanIn (C : Type) where
  binom : C
  f0 : C
  cfi : C

/-- Inner loop for odd `k` (functions.hpp:753-760); `bin` computes the binomial coefficients. -/
def atanOdd (bin : ℕ → ℕ → ℕ) (p0 : C) (k : ℕ) : C :=
  ((List.range' 1 (k / 2)).foldl (fun (s : AtanIn C) j =>
    ⟨Cf.add s.binom (Cf.mul (Cf.mul (Cf.ofRat (bin k (2 * j))) s.cfi) s.f0), Cf.mul s.f0 (Cf.mul p0 p0), Cf.neg s.cfi⟩)
    ⟨Cf.ofRat 1, Cf.mul p0 p0, Cf.ofRat (-1)⟩).binom

/-- Inner loop for even `k` (functions.hpp:764-771). -/
def atanEven (bin : ℕ → ℕ → ℕ) (p0 : C) (k : ℕ) : C :=
  ((List.range' 1 ((k + 1) / 2)).foldl (fun (s : AtanIn C) j =>
    ⟨Cf.add s.binom (Cf.mul (Cf.mul (Cf.ofRat (bin k (2 * j - 1))) s.cfi) s.f0), Cf.mul s.f0 (Cf.mul p0 p0),
      Cf.neg s.cfi⟩)
    ⟨Cf.ofRat 0, p0, Cf.ofRat 1⟩).binom

/-- Loop variables of `atan` (functions.hpp:743-749). -/
structure AtanSt (C : Type) where
  retval : GDual C
  powphat : GDual C
  coeff1 : C
  coeff2 : C

/-- Loop body of `atan` (functions.hpp:751-777). -/
def atanStep (bin : ℕ → ℕ → ℕ) (p0 : C) (phat : GDual C) (s : AtanSt C) (k : ℕ) : Res (AtanSt C) := do
  if k % 2 = 1 then
    let q ← ((s.powphat.mulSG (atanOdd bin p0 k)).mulGS s.coeff1).divGS (Cf.ofRat k)
    .ok ⟨s.retval.add q, s.powphat.mul phat, Cf.neg s.coeff1, s.coeff2⟩
  else
    let q ← ((s.powphat.mulSG (atanEven bin p0 k)).mulGS s.coeff2).divGS (Cf.ofRat k)
    .ok ⟨s.retval.add q, s.powphat.mul phat, s.coeff1, Cf.neg s.coeff2⟩

/-- `atan` (functions.hpp:741-779), with the function computing the binomial coefficients as a parameter. -/
def atanWith (bin : ℕ → ℕ → ℕ) (d : GDual C) : Res (GDual C) := do
  let p0 ← d.constantCf
  let phat ← (d.subGS p0).divGS (Cf.add (Cf.ofRat 1) (Cf.mul p0 p0))
  let st ← (List.range' 1 d.order).foldlM (atanStep bin p0 phat)
    ⟨ofCf (CfFun.atan p0), phat, Cf.ofRat 1, Cf.ofRat (-1)⟩
  .ok st.retval

/-- `atan` (functions.hpp:741-779): the binomial coefficients are computed on `unsigned` (757, 768). -/
def atan (d : GDual C) : Res (GDual C) := atanWith binomialU32 d

/-- `asinh` (functions.hpp:797-801). -/
def asinh (d : GDual C) : Res (GDual C) := do
  let s ← sqrt ((d.mul d).addSG (Cf.ofRat 1))
  log (d.add s)

/-- `acosh` (functions.hpp:819-823). -/
def acosh (d : GDual C) : Res (GDual C) := do
  let s ← sqrt ((d.mul d).subGS (Cf.ofRat 1))
  log (d.add s)

/-- `asin` (functions.hpp:841-845), with the function computing binomial coefficients as a parameter. -/
def asinWith (bin : ℕ → ℕ → ℕ) (d : GDual C) : Res (GDual C) := do
  let s ← sqrt ((d.mul d).subSG (Cf.ofRat 1))
  let q ← d.div s
  atanWith bin q

/-- `asin` (functions.hpp:841-845). -/
def asin (d : GDual C) : Res (GDual C) := asinWith binomialU32 d

/-- `acos` (functions.hpp:863-867), with the function computing binomial coefficients as a parameter. -/
def acosWith (bin : ℕ → ℕ → ℕ) (d : GDual C) : Res (GDual C) := do
  let s ← asinWith bin d
  .ok (s.subSG (Cf.mul (Cf.ofRat (1 / 2)) CfFun.pi))

/-- `acos` (functions.hpp:863-867). -/
def acos (d : GDual C) : Res (GDual C) := acosWith binomialU32 d

/-- `abs` for scalar coefficients (functions.hpp:889-897). -/
def absScalar {K : Type} [Cf K] [Zero K] [LE K] [DecidableLE K] (d : GDual K) : Res (GDual K) := do
  let p0 ← d.constantCf
  if p0 ≥ 0 then .ok d else .ok d.neg

/-! ## functions_from_d.hpp -/

/-- Loop of `_compose_from_derivative` (functions_from_d.hpp:70-74): the state is `f`, `dg`, `retval`; `prev` is
`ss[i-1]`. -/
def composeLoop (prev : String) : List String → GDual C → GDual C → GDual C → Res (GDual C)
  | [], _, _, retval => .ok retval
  | s :: ss, f, dg, retval => do
    let f := f.subsVal ("d" ++ prev) (Cf.ofRat 0)
    let dg := dg.subsVal ("d" ++ prev) (Cf.ofRat 0)
    let fp ← f.partial' s
    let t ← (dg.mul fp).integrate s
    composeLoop s ss f dg (retval.add t)

/-- `_compose_from_derivative` (functions_from_d.hpp:62-76). -/
def composeFromDerivative (f dg : GDual C) (g0 : C) : Res (GDual C) :=
  match f.symbolSet with
  | [] => .ok (ofCf g0)
  | s :: ss => do
    let fp ← f.partial' s
    let r0 ← (dg.mul fp).integrate s
    let r ← composeLoop s ss f dg r0
    .ok (r.addSG g0)

/-- `_compose_from_derivative(f, dg, g0)` where the computation of `dg` may have given inf/NaN coefficients. These are multiplied by
the partial derivatives of `f`: all of them are empty exactly when the degree of `f` is 0, and then so are the products. -/
def composeD (f : GDual C) (dg : Res (GDual C)) (g0 : C) : Res (GDual C) :=
  match dg with
  | .ok dg => composeFromDerivative f dg g0
  | .error e => if f.degree = 0 then composeFromDerivative f (f.sub f) g0 else .error e

/-- `atanh_d` (functions_from_d.hpp:89-96). -/
def atanhD (f : GDual C) : Res (GDual C) := do
  let f0 ← f.constantCf
  guardFinite (CfFun.atanhOk f0)
  composeD f (divSG (Cf.ofRat 1) ((f.mul f).subSG (Cf.ofRat 1))) (CfFun.atanh f0)

/-- `atan_d` (functions_from_d.hpp:109-116). -/
def atanD (f : GDual C) : Res (GDual C) := do
  let f0 ← f.constantCf
  composeD f (divSG (Cf.ofRat 1) ((f.mul f).addSG (Cf.ofRat 1))) (CfFun.atan f0)

/-- `asin_d` (functions_from_d.hpp:129-136). -/
def asinD (f : GDual C) : Res (GDual C) := do
  let f0 ← f.constantCf
  guardFinite (CfFun.asinOk f0)
  composeD f (sqrt ((f.mul f).subSG (Cf.ofRat 1)) >>= divSG (Cf.ofRat 1)) (CfFun.asin f0)

/-- `asinh_d` (functions_from_d.hpp:149-156). -/
def asinhD (f : GDual C) : Res (GDual C) := do
  let f0 ← f.constantCf
  composeD f (sqrt ((f.mul f).addSG (Cf.ofRat 1)) >>= divSG (Cf.ofRat 1)) (CfFun.asinh f0)

/-- `acos_d` (functions_from_d.hpp:169-176). -/
def acosD (f : GDual C) : Res (GDual C) := do
  let f0 ← f.constantCf
  guardFinite (CfFun.asinOk f0)
  composeD f (sqrt ((f.mul f).subSG (Cf.ofRat 1)) >>= divSG (Cf.ofRat (-1))) (CfFun.acos f0)

/-- `acosh_d` (functions_from_d.hpp:189-196). -/
def acoshD (f : GDual C) : Res (GDual C) := do
  let f0 ← f.constantCf
  guardFinite (CfFun.acoshOk f0)
  composeD f (sqrt ((f.subGS (Cf.ofRat 1)).mul (f.addGS (Cf.ofRat 1))) >>= divSG (Cf.ofRat 1)) (CfFun.acosh f0)

/-- `erf` (functions_from_d.hpp:209-216). -/
def erf (d : GDual C) : Res (GDual C) := do
  let f0 ← d.constantCf
  composeD d ((exp (d.neg.mul d)).map fun e => e.mulSG CfFun.twoOverSqrtPi) (CfFun.erf f0)

end GDual
end Audi
