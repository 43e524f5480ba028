import Verif.Model.PyOps
import Verif.Spec.TMExpr

/-!
# Model: operators of Taylor models in the Python module

pyaudi/expose_taylor_model.hpp:60-67 (`int_d`), 126-154 (operators) and pyaudi/core.cpp:48-94, 213-249 (functions), for Python numbers, objects of type `int_d` and objects of type
`taylor_model`. Python finds the method at run time, as in Model/PyOps.lean. `int` and `float` are told apart, because `__pow__` has an overload for each.
Simplified: a `float` is a real number and the conversion from `int` to `double` is exact. Taken from the documentation of pybind11: overloads are tried in the order of their definition, at first
without conversions; a `float` is never converted to a C++ `int`; an `int` that does not fit into a C++ `int` is not accepted by that overload.
-/

namespace Audi

/-- Python numbers. -/
inductive PyNum
  | int (z : ℤ)
  | float (x : ℝ)

namespace PyNum

/-- The number. -/
noncomputable def val : PyNum → ℝ
  | int z => z
  | float x => x

/-- The operators of Python numbers: sums, differences and products of `int` are `int`, quotients are `float`. -/
noncomputable def op : Op → PyNum → PyNum → PyRes PyNum
  | .div, x, y => if y.val = 0 then .error .zeroDivision else .ok (float (x.val / y.val))
  | .add, int a, int b => .ok (int (a + b))
  | .sub, int a, int b => .ok (int (a - b))
  | .mul, int a, int b => .ok (int (a * b))
  | .add, x, y => .ok (float (x.val + y.val))
  | .sub, x, y => .ok (float (x.val - y.val))
  | .mul, x, y => .ok (float (x.val * y.val))

/-- The power of Python numbers; `int ** int` is an `int` if the exponent is not negative. Complex results are left out. -/
noncomputable def pow (x y : PyNum) : PyRes PyNum :=
  open Classical in
  if x.val = 0 ∧ y.val < 0 then .error .zeroDivision
  else if x.val < 0 ∧ ¬ ∃ n : ℤ, y.val = n then .error (.cpp .nonFinite)
  else match x, y with
    | int a, int b => if 0 ≤ b then .ok (int (a ^ b.toNat)) else .ok (float ((a : ℝ) ^ b))
    | x, y => .ok (float (x.val ^ y.val))

/-- The functions of the module for `double` (core.cpp:48-94), and the unary minus of Python numbers. -/
noncomputable def fn (f : Fn) (x : PyNum) : PyRes PyNum :=
  open Classical in
  match f, x with
  | .neg, int z => .ok (int (-z))
  | f, x => if f.InModule then (if f.Defined x.val then .ok (float (f.real x.val)) else .error (.cpp .nonFinite)) else .error .typeError

end PyNum

/-- Python values: numbers, intervals, Taylor models. -/
inductive PyT
  | num (x : PyNum)
  | itv (J : Itv ℝ)
  | tm (t : TM ℝ)

namespace PyT

variable (ord : List String → List String)

/-- Result of a C++ function that returns a Taylor model. -/
def lift : Res (TM ℝ) → PyRes PyT
  | .ok t => .ok (.tm t)
  | .error e => .error (.cpp e)

/-- Result of an operation on numbers. -/
def liftN : PyRes PyNum → PyRes PyT
  | .ok x => .ok (.num x)
  | .error e => .error e

/-- The operators of C++ between a Taylor model and an interval. -/
noncomputable def opTI : Op → TM ℝ → Itv ℝ → Res (TM ℝ)
  | .add, t, J => t.addTI J
  | .sub, t, J => t.subTI J
  | .mul, t, J => t.mulTI ord J
  | .div, t, J => t.divTI ord J

/-- The operators of C++ between an interval and a Taylor model. -/
noncomputable def opIT : Op → Itv ℝ → TM ℝ → Res (TM ℝ)
  | .add, J, t => TM.addIT J t
  | .sub, J, t => TM.subIT J t
  | .mul, J, t => TM.mulIT ord J t
  | .div, J, t => TM.divIT ord J t

/-- `a.__add__(b)`, `a.__sub__(b)`, ...; `none` is `NotImplemented` (expose_taylor_model.hpp:126-146). `int_d` has no operators (expose_taylor_model.hpp:60-67). -/
noncomputable def method (op : Op) : PyT → PyT → Option (PyRes PyT)
  | tm a, tm b => some (lift (op.runTM ord a b))
  | tm a, num y => some (lift (op.runTMR a y.val))
  | tm a, itv J => some (lift (opTI ord op a J))
  | num x, num y => some (liftN (PyNum.op op x y))
  | num _, _ => none
  | itv _, _ => none

/-- `b.__radd__(a)`, `b.__rsub__(a)`, ... (expose_taylor_model.hpp:128-129, 133-134, 138, 140, 144-145). -/
noncomputable def rmethod (op : Op) : PyT → PyT → Option (PyRes PyT)
  | tm b, num x => some (lift (op.runTML ord x.val b))
  | tm b, itv J => some (lift (opIT ord op J b))
  | tm _, tm _ => none
  | num y, num x => some (liftN (PyNum.op op x y))
  | num _, _ => none
  | itv _, _ => none

/-- `a + b`, `a - b`, `a * b`, `a / b`. -/
noncomputable def bin (op : Op) (a b : PyT) : PyRes PyT :=
  match method ord op a b with
  | some r => r
  | none => match rmethod ord op b a with
    | some r => r
    | none => .error .typeError

/-- `pow(tm, double)`. All `double` are rational; the exact model has other numbers too, for which it has no result. -/
noncomputable def powDouble (t : TM ℝ) (x : ℝ) : PyRes PyT :=
  match PyV.toRat x with
  | some q => lift (TM.powT ord (1 / 2 ^ 52) t q)
  | none => .error (.cpp .nonFinite)

/-- `a ** b` (expose_taylor_model.hpp:149-154). The overload for `int` is first; an integer out of its range is taken by the one for `double`. For other arguments `__pow__` raises a `TypeError`;
there is no `__rpow__`. -/
noncomputable def pow : PyT → PyT → PyRes PyT
  | tm t, num (.int z) => if -(2 ^ 31) ≤ z ∧ z < 2 ^ 31 then lift (TM.powInt ord t z) else powDouble ord t z
  | tm t, num (.float x) => powDouble ord t x
  | num x, num y => liftN (x.pow y)
  | _, _ => .error .typeError

/-- The functions of the module for Taylor models (core.cpp:213-249): no `cbrt`. (`abs`, `sin_and_cos` and `sinh_and_cosh` are not in the expressions here.) -/
def _root_.Audi.Fn.InModuleTM : Fn → Bool
  | .cbrt => false
  | f => f.InModule

/-- The functions `exp`, `log`, ... of the module and `-a` (expose_taylor_model.hpp:136). -/
noncomputable def fn (f : Fn) : PyT → PyRes PyT
  | tm t => if f.InModuleTM then lift (f.runTM ord t) else .error .typeError
  | num x => liftN (x.fn f)
  | itv _ => .error .typeError

/-- `a == b` (expose_taylor_model.hpp:147). If both methods return `NotImplemented`, the result is `a is b`. Two intervals (`int_d` has no `__eq__`) are given as different objects here. -/
noncomputable def eq : PyT → PyT → Bool
  | tm a, tm b => a.eq b
  | num x, num y => decide (x.val = y.val)
  | _, _ => false

/-- `a != b` (expose_taylor_model.hpp:148). -/
noncomputable def ne : PyT → PyT → Bool
  | tm a, tm b => a.ne b
  | num x, num y => decide (x.val ≠ y.val)
  | _, _ => true

/-- `a < b`: no methods for Taylor models. -/
noncomputable def lt : PyT → PyT → PyRes Bool
  | num x, num y => .ok (decide (x.val < y.val))
  | _, _ => .error .typeError

end PyT

end Audi
