import Verif.Spec.Expr

/-!
# Model: operators and functions of the Python module

pyaudi/expose_gdual.hpp:114-140 and pyaudi/core.cpp:45-149, for `gdual_double` and Python numbers. Python finds the method at run time: `a + b` is `a.__add__(b)`, or, if this returns
`NotImplemented`, `b.__radd__(a)`, or else a `TypeError`. The operators that pybind11 makes from `py::self + double()` etc. return `NotImplemented` for arguments of other types; those of Python
numbers do so for gduals. (This is taken from the documentation of Python and pybind11; no implicit conversions are declared in the module.)
Simplified: Python numbers are real numbers; `int` and `float` are not told apart.
-/

namespace Audi

/-- Exceptions that a Python program sees: those of the C++ functions, `TypeError`, `ZeroDivisionError`. -/
inductive PyExn
  | cpp (e : Exn)
  | typeError
  | zeroDivision
deriving DecidableEq, Repr

/-- Outcomes. -/
abbrev PyRes (α : Type) := Except PyExn α

/-- Python values: numbers and objects of type `gdual_double`. -/
inductive PyV
  | num (x : ℝ)
  | gd (d : GDual ℝ)

namespace PyV

/-- Result of a C++ function that returns a gdual. -/
def lift : Res (GDual ℝ) → PyRes PyV
  | .ok d => .ok (.gd d)
  | .error e => .error (.cpp e)

/-- The operators of Python numbers. -/
noncomputable def numOp : Op → ℝ → ℝ → PyRes PyV
  | .div, x, y => if y = 0 then .error .zeroDivision else .ok (.num (x / y))
  | .add, x, y => .ok (.num (x + y))
  | .sub, x, y => .ok (.num (x - y))
  | .mul, x, y => .ok (.num (x * y))

/-- `a.__add__(b)`, `a.__sub__(b)`, ...; `none` is `NotImplemented` (expose_gdual.hpp:114-121; Python numbers). -/
noncomputable def method (op : Op) : PyV → PyV → Option (PyRes PyV)
  | gd a, gd b => some (lift (op.run a b))
  | gd a, num y => some (lift (op.runR a y))
  | num x, num y => some (numOp op x y)
  | num _, gd _ => none

/-- `b.__radd__(a)`, `b.__rsub__(a)`, ... (expose_gdual.hpp:124-127). -/
noncomputable def rmethod (op : Op) : PyV → PyV → Option (PyRes PyV)
  | gd b, num x => some (lift (op.runL x b))
  | num y, num x => some (numOp op x y)
  | _, gd _ => none

/-- `a + b`, `a - b`, `a * b`, `a / b`. -/
noncomputable def bin (op : Op) (a b : PyV) : PyRes PyV :=
  match method op a b with
  | some r => r
  | none => match rmethod op b a with
    | some r => r
    | none => .error .typeError

/-- The power of Python numbers. A power of 0 with a negative exponent raises an exception; a power of a negative number with an exponent that is not an integer is a complex number, which
is left out here. -/
noncomputable def numPow (x y : ℝ) : PyRes PyV :=
  open Classical in
  if x = 0 ∧ y < 0 then .error .zeroDivision
  else if x < 0 ∧ ¬ ∃ n : ℤ, y = n then .error (.cpp .nonFinite)
  else .ok (.num (x ^ y))

/-- The rational number of a Python number. All `double` are rational; the exact model has other numbers too, for which it has no result. -/
noncomputable def toRat (x : ℝ) : Option ℚ :=
  open Classical in if h : ∃ q : ℚ, (q : ℝ) = x then some h.choose else none

/-- `a.__pow__(b)` (expose_gdual.hpp:132-137). -/
noncomputable def powMethod : PyV → PyV → Option (PyRes PyV)
  | gd a, num y => some (match toRat y with
    | some q => lift (a.powQ q)
    | none => .error (.cpp .nonFinite))
  | gd a, gd b => some (lift (a.powG b))
  | num x, num y => some (numPow x y)
  | num _, gd _ => none

/-- `b.__rpow__(a)` (expose_gdual.hpp:138-140). -/
noncomputable def rpowMethod : PyV → PyV → Option (PyRes PyV)
  | gd b, num x => some (match toRat x with
    | some q => lift (b.powBase q)
    | none => .error (.cpp .nonFinite))
  | num y, num x => some (numPow x y)
  | _, gd _ => none

/-- `a ** b`. -/
noncomputable def pow (a b : PyV) : PyRes PyV :=
  match powMethod a b with
  | some r => r
  | none => match rpowMethod b a with
    | some r => r
    | none => .error .typeError

/-- Where the function of the C library returns a number. -/
def _root_.Audi.Fn.Defined : Fn → ℝ → Prop
  | .log, x => 0 < x
  | .sqrt, x => 0 ≤ x
  | .tan, x => Real.cos x ≠ 0
  | .acosh, x => 1 ≤ x
  | .atanh, x => |x| < 1
  | .asin, x => |x| ≤ 1
  | .acos, x => |x| ≤ 1
  | _, _ => True

/-- The functions of the module and the unary minus; powers are operators. -/
def _root_.Audi.Fn.InModule : Fn → Bool
  | .powQ _ | .powInt _ | .powBase _ => false
  | _ => true

/-- The functions `exp`, `log`, ... of the module, overloaded for `double` (core.cpp:48-94) and for gduals (core.cpp:99-149), and `-a` (expose_gdual.hpp:122). -/
noncomputable def fn (f : Fn) : PyV → PyRes PyV
  | gd a => if f.InModule then lift (f.run a) else .error .typeError
  | num x => open Classical in
    if f.InModule then (if f.Defined x then .ok (.num (f.real x)) else .error (.cpp .nonFinite)) else .error .typeError

/-- `a == b` (expose_gdual.hpp:128). If both `a.__eq__(b)` and `b.__eq__(a)` return `NotImplemented`, the result is `a is b`; a number and a gdual are different objects. -/
noncomputable def eq : PyV → PyV → Bool
  | gd a, gd b => a.eq b
  | num x, num y => decide (x = y)
  | _, _ => false

/-- `a != b` (expose_gdual.hpp:129); if both methods return `NotImplemented`, the result is `a is not b`. -/
noncomputable def ne : PyV → PyV → Bool
  | gd a, gd b => a.ne b
  | num x, num y => decide (x ≠ y)
  | _, _ => true

/-- `a < b` (expose_gdual.hpp:130): `a.__lt__(b)`, or `b.__gt__(a)`, or a `TypeError`. -/
noncomputable def lt : PyV → PyV → PyRes Bool
  | gd a, gd b => (a.lt b).mapError .cpp
  | num x, num y => .ok (decide (x < y))
  | _, _ => .error .typeError

/-- `a > b` (expose_gdual.hpp:131). -/
noncomputable def gt : PyV → PyV → PyRes Bool
  | gd a, gd b => (a.gt b).mapError .cpp
  | num x, num y => .ok (decide (x > y))
  | _, _ => .error .typeError

end PyV
end Audi
