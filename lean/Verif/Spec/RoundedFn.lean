import Verif.Spec.Rounding
import Verif.Spec.Functions
import Mathlib.Analysis.Calculus.IteratedDeriv.Defs

/-!
# Specification: functions of gduals with rounded coefficients

The functions of the standard library with a bound of their errors, and the coefficients of the Taylor expansion of a composed function, exact and with absolute values.
-/

namespace Audi

open MvPolynomial

/-- The functions of the standard library on numbers of the format. `acc` bounds the errors of those which the claims are about: the relative error is at most that of `acc` roundings. -/
class Libm (R : Rounding ℝ) where
  acc : ℕ
  exp : Fl R → Fl R
  log : Fl R → Fl R
  sqrt : Fl R → Fl R
  cbrt : Fl R → Fl R
  sin : Fl R → Fl R
  cos : Fl R → Fl R
  tan : Fl R → Fl R
  sinh : Fl R → Fl R
  cosh : Fl R → Fl R
  tanh : Fl R → Fl R
  asin : Fl R → Fl R
  acos : Fl R → Fl R
  atan : Fl R → Fl R
  asinh : Fl R → Fl R
  acosh : Fl R → Fl R
  atanh : Fl R → Fl R
  erf : Fl R → Fl R
  pow : Fl R → ℚ → Fl R
  powBase : ℚ → Fl R → Fl R
  pi : Fl R
  twoOverSqrtPi : Fl R
  exp_err : ∀ x, |(exp x).val - Real.exp x.val| ≤ ((1 + R.u) ^ acc - 1) * |Real.exp x.val|
  log_err : ∀ x, 0 < x.val → |(log x).val - Real.log x.val| ≤ ((1 + R.u) ^ acc - 1) * |Real.log x.val|
  sqrt_err : ∀ x, 0 ≤ x.val → |(sqrt x).val - √x.val| ≤ ((1 + R.u) ^ acc - 1) * |√x.val|
  cbrt_err : ∀ x, |(cbrt x).val - Spec.cbrt x.val| ≤ ((1 + R.u) ^ acc - 1) * |Spec.cbrt x.val|
  sin_err : ∀ x, |(sin x).val - Real.sin x.val| ≤ ((1 + R.u) ^ acc - 1) * |Real.sin x.val|
  cos_err : ∀ x, |(cos x).val - Real.cos x.val| ≤ ((1 + R.u) ^ acc - 1) * |Real.cos x.val|
  sinh_err : ∀ x, |(sinh x).val - Real.sinh x.val| ≤ ((1 + R.u) ^ acc - 1) * |Real.sinh x.val|
  cosh_err : ∀ x, |(cosh x).val - Real.cosh x.val| ≤ ((1 + R.u) ^ acc - 1) * |Real.cosh x.val|

variable {R : Rounding ℝ}

open Classical in
/-- Rounded coefficients with the functions of the library. -/
noncomputable instance Fl.cfFun [Libm R] : CfFun (Fl R) where
  toCf := Fl.cf
  exp := Libm.exp
  log := Libm.log
  sqrt := Libm.sqrt
  cbrt := Libm.cbrt
  sin := Libm.sin
  cos := Libm.cos
  tan := Libm.tan
  sinh := Libm.sinh
  cosh := Libm.cosh
  tanh := Libm.tanh
  asin := Libm.asin
  acos := Libm.acos
  atan := Libm.atan
  asinh := Libm.asinh
  acosh := Libm.acosh
  atanh := Libm.atanh
  erf := Libm.erf
  pow := Libm.pow
  powBase := Libm.powBase
  pi := Libm.pi
  twoOverSqrtPi := Libm.twoOverSqrtPi
  logOk x := decide (0 < x.val)
  sqrtOk x := decide (0 ≤ x.val)
  tanOk x := decide (Real.cos x.val ≠ 0)
  asinOk x := decide (|x.val| ≤ 1)
  acoshOk x := decide (1 ≤ x.val)
  atanhOk x := decide (|x.val| < 1)
  powOk x q := decide (Spec.PowDom x.val q)
  powBaseOk q x := decide (Spec.PowDom q x.val)

namespace GDual

/-- The polynomial of the gdual without its constant term. -/
noncomputable def varPart (d : GDual (Fl R)) : MvPolynomial String ℝ := d.exact.toMv () - C (d.coeffOf 0)

/-- The polynomial with the absolute values of the coefficients. -/
noncomputable def absPoly (P : MvPolynomial String ℝ) : MvPolynomial String ℝ := ∑ E ∈ P.support, monomial E |coeff E P|

/-- The coefficient of a monomial in the expansion of `f(d)`: that of `∑ f⁽ᵏ⁾(d₀) / k! (d - d₀) ^ k`. -/
noncomputable def taylorCoeff (f : ℝ → ℝ) (d : GDual (Fl R)) (E : String →₀ ℕ) : ℝ :=
  ∑ k ∈ Finset.range (E.degree + 1), iteratedDeriv k f (d.coeffOf 0) / k.factorial * coeff E (d.varPart ^ k)

/-- The same with the absolute values of the derivatives and of the coefficients of `d - d₀`. -/
noncomputable def taylorAbs (f : ℝ → ℝ) (d : GDual (Fl R)) (E : String →₀ ℕ) : ℝ :=
  ∑ k ∈ Finset.range (E.degree + 1), |iteratedDeriv k f (d.coeffOf 0)| / k.factorial * coeff E (absPoly d.varPart ^ k)

/-- The result has the order of `d`, and each of its coefficients is that of the expansion of `f(d)`, with the error of `N` roundings relative to the expansion with absolute values. -/
def RoundedTaylor (f : ℝ → ℝ) (d : GDual (Fl R)) (N : ℕ → ℕ) (res : Res (GDual (Fl R))) : Prop :=
  ∃ r, res = .ok r ∧ r.Valid ∧ r.getOrder = d.getOrder ∧
    ∀ E : String →₀ ℕ, E.degree ≤ d.getOrder → |r.coeffOf E - d.taylorCoeff f E| ≤ ((1 + R.u) ^ N E.degree - 1) * d.taylorAbs f E

end GDual
end Audi
