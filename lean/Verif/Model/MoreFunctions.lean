import Verif.Model.Functions

/-!
# Model: the functions for quadruple precision and the functions added by the Python module

* include/audi/functions.hpp:918-943: `tan`, `acos`, `tanh` for `gdual<mppp::real128>`. `acos` is `0.5 * pi - asin(d)`, as in the generic version
  (`GDual.acos`), and `erf` (functions_from_d.hpp:219-226) differs from the generic version by the constant `2 / sqrt(pi)` in the precision of the
  coefficients, which is the same number here (`GDual.erf`).
* pyaudi/expose_gdual.hpp:219-228: `log10`, `log2`, `log1p`, `expm1`, `erfc`; the module level functions of the same names
  (pyaudi/core.cpp:141-149, 199-207, 304-312) call the same expressions.
-/

namespace Audi
namespace GDual

variable {C : Type} [CfFun C]

/-- `tan` for quadruple precision (functions.hpp:921-926). -/
def tanQuad (d : GDual C) : Res (GDual C) := do
  let (s, c) ← sinAndCos d
  s.div c

/-- `tanh` for quadruple precision (functions.hpp:938-943). -/
def tanhQuad (d : GDual C) : Res (GDual C) := do
  let (s, c) ← sinhAndCosh d
  s.div c

/-- `log10` (expose_gdual.hpp:219-220): `log(d) / std::log(10.)`. -/
def pyLog10 (d : GDual C) : Res (GDual C) := do
  let l ← log d
  l.divGS (CfFun.log (Cf.ofRat 10))

/-- `log2` (expose_gdual.hpp:221-222): `log(d) / std::log(2)`. -/
def pyLog2 (d : GDual C) : Res (GDual C) := do
  let l ← log d
  l.divGS (CfFun.log (Cf.ofRat 2))

/-- `log1p` (expose_gdual.hpp:223-224): `log(d + 1.0)`. -/
def pyLog1p (d : GDual C) : Res (GDual C) := log (d.addGS (Cf.ofRat 1))

/-- `expm1` (expose_gdual.hpp:225-226): `exp(d) - 1.0`. -/
def pyExpm1 (d : GDual C) : Res (GDual C) := do
  let e ← exp d
  .ok (e.subGS (Cf.ofRat 1))

/-- `erfc` (expose_gdual.hpp:227-228): `1.0 - erf(d)`. -/
def pyErfc (d : GDual C) : Res (GDual C) := do
  let e ← erf d
  .ok (e.subSG (Cf.ofRat 1))

end GDual
end Audi
