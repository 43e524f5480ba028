import Verif.Model.PyOps
import Verif.Proofs.Vectorized

/-!
# Model: operators of `gdual_vdouble` in the Python module

pyaudi/core.cpp:152-207 and pyaudi/expose_gdual.hpp:114-140 (a template for all coefficient types), for objects of type `gdual_vdouble`, `gdual_double` and Python numbers. A number is
converted to a `vectorized` of size 1 when it meets a `gdual_vdouble`. There are no operators between gduals of different types, nor between a `gdual_vdouble` and a list.
The vectors have the size 1 or `n` (Model/Vectorized.lean).
-/

namespace Audi

/-- Python values: numbers and objects of type `gdual_double` (`base`), objects of type `gdual_vdouble`. -/
inductive PyW (n : ℕ)
  | base (a : PyV)
  | gv (d : GDual (VecN n ℝ))

namespace PyW

variable {n : ℕ} [NeZero n]

/-- Result of a C++ function that returns a gdual. -/
def lift : Res (GDual (VecN n ℝ)) → PyRes (PyW n)
  | .ok d => .ok (.gv d)
  | .error e => .error (.cpp e)

/-- `a.__add__(b)`, `a.__sub__(b)`, ...; `none` is `NotImplemented` (expose_gdual.hpp:114-121). -/
noncomputable def method (op : Op) : PyW n → PyW n → Option (PyRes (PyW n))
  | gv a, gv b => some (lift (op.run a b))
  | gv a, base (.num y) => some (lift (op.runR a (VecN.ofScalar y)))
  | gv _, base (.gd _) => none
  | base a, base b => (PyV.method op a b).map fun r => r.map base
  | base _, gv _ => none

/-- `b.__radd__(a)`, `b.__rsub__(a)`, ... (expose_gdual.hpp:124-127). -/
noncomputable def rmethod (op : Op) : PyW n → PyW n → Option (PyRes (PyW n))
  | gv b, base (.num x) => some (lift (op.runL (VecN.ofScalar x) b))
  | gv _, base (.gd _) => none
  | base b, base a => (PyV.rmethod op b a).map fun r => r.map base
  | _, gv _ => none

/-- `a + b`, `a - b`, `a * b`, `a / b`. -/
noncomputable def bin (op : Op) (a b : PyW n) : PyRes (PyW n) :=
  match method op a b with
  | some r => r
  | none => match rmethod op b a with
    | some r => r
    | none => .error .typeError

/-- `a ** b` (expose_gdual.hpp:132-140). `__pow__` of gduals raises a `TypeError` for arguments of other types; that of numbers returns `NotImplemented` for gduals, and `__rpow__` is called. -/
noncomputable def pow : PyW n → PyW n → PyRes (PyW n)
  | gv a, base (.num y) => match PyV.toRat y with
    | some q => lift (a.powQ q)
    | none => .error (.cpp .nonFinite)
  | gv a, gv b => lift (a.powG b)
  | base (.num x), gv b => match PyV.toRat x with
    | some q => lift (b.powBase q)
    | none => .error (.cpp .nonFinite)
  | base a, base b => (PyV.pow a b).map base
  | _, _ => .error .typeError

/-- The functions `exp`, `log`, ... of the module (core.cpp:157-205) and `-a` (expose_gdual.hpp:122). -/
noncomputable def fn (f : Fn) : PyW n → PyRes (PyW n)
  | gv a => if f.InModule then lift (f.run a) else .error .typeError
  | base a => (PyV.fn f a).map base

/-- `a == b` (expose_gdual.hpp:128); objects of different types are different. -/
noncomputable def eq : PyW n → PyW n → Bool
  | gv a, gv b => a.eq b
  | base a, base b => PyV.eq a b
  | _, _ => false

/-- `a != b` (expose_gdual.hpp:129). -/
noncomputable def ne : PyW n → PyW n → Bool
  | gv a, gv b => a.ne b
  | base a, base b => PyV.ne a b
  | _, _ => true

/-- `a < b` (expose_gdual.hpp:130). -/
noncomputable def lt : PyW n → PyW n → PyRes Bool
  | gv a, gv b => (a.lt b).mapError .cpp
  | base a, base b => PyV.lt a b
  | _, _ => .error .typeError

/-- `a > b` (expose_gdual.hpp:131). -/
noncomputable def gt : PyW n → PyW n → PyRes Bool
  | gv a, gv b => (a.gt b).mapError .cpp
  | base a, base b => PyV.gt a b
  | _, _ => .error .typeError

end PyW

end Audi
