import Verif.Spec.Setters

/-!
# Model: objects of the Python module

pyaudi/expose_taylor_model.hpp and pyaudi/expose_gdual.hpp. A Python variable is a reference. The operators, functions and constructors return objects by value, for which pybind11 makes new
Python objects. The getters `get_tpol` and `get_rem` (taylor_model.hpp:211-219) return references to members. `def_property` (expose_taylor_model.hpp:93-94) returns these by its default policy
`reference_internal`: the Python object is the member itself. `exp_point` and `domain` are converted to dictionaries by pybind11/stl.h, which copies them. (The policies of pybind11 are taken
from its documentation.)
-/

namespace Audi

/-- Objects: a gdual, a Taylor model, an interval (`int_d`, without methods that change it: expose_taylor_model.hpp:60-67). -/
inductive PyObj (K : Type)
  | gd (d : GDual K)
  | tm (t : TM K)
  | itv (I : Itv K)

/-- References: an object, or the polynomial or the remainder of the Taylor model at an address. -/
inductive PyRef
  | own (a : ℕ)
  | tpol (a : ℕ)
  | rem (a : ℕ)

/-- The address of the object in which the reference lies. -/
def PyRef.addr : PyRef → ℕ
  | own a => a
  | tpol a => a
  | rem a => a

/-- The reference is to a member of another object. -/
def PyRef.Inside : PyRef → Prop
  | own _ => False
  | _ => True

/-- Objects and variables. -/
structure PySt (K : Type) where
  heap : List (PyObj K)
  env : String → Option PyRef

/-- Statements; each one catches its exceptions. -/
inductive PyStmt (K : Type)
  /-- `x = f(y1, y2, ...)`: constructors, operators and functions, which return new objects -/
  | call (x : String) (f : List (PyObj K) → Res (PyObj K)) (ys : List String)
  /-- `x = y` -/
  | assign (x y : String)
  /-- `x = t.tpol` -/
  | getTpol (x t : String)
  /-- `x = t.rem_bound` -/
  | getRem (x t : String)
  /-- `t.tpol = ...`, `t.rem_bound = ...`, `t.exp_point = ...`, `t.domain = ...`, `t.extend_symbol_set(...)`, with arguments computed from the values of variables -/
  | change (t : String) (ys : List String) (c : List (PyObj K) → Option (TM.Change K))
  /-- `x.extend_symbol_set(ss)` of a gdual -/
  | extend (x : String) (ss : List String)

variable {K : Type}

/-- The object to which the reference leads. -/
def deref (h : List (PyObj K)) : PyRef → Option (PyObj K)
  | .own a => h[a]?
  | .tpol a => match h[a]? with
    | some (.tm t) => some (.gd t.tpol)
    | _ => none
  | .rem a => match h[a]? with
    | some (.tm t) => some (.itv t.rem)
    | _ => none

namespace PySt

/-- The value of a variable. -/
def value (s : PySt K) (x : String) : Option (PyObj K) := (s.env x).bind (deref s.heap)

/-- Bind a variable to a reference. -/
def bindVar (s : PySt K) (x : String) (r : PyRef) : PySt K := ⟨s.heap, Function.update s.env x (some r)⟩

/-- Bind a variable to a new object. -/
def alloc (s : PySt K) (x : String) (o : PyObj K) : PySt K := ⟨s.heap ++ [o], Function.update s.env x (some (.own s.heap.length))⟩

/-- Python errors (unknown variable, wrong type). -/
def pyError : Res Unit := .error .invalidArgument

variable [Field K] [LinearOrder K]

/-- One statement. `byRef`: whether the properties `tpol` and `rem_bound` give references to members (as the module does), or copies. -/
def step (byRef : Bool) (s : PySt K) : PyStmt K → PySt K × Res Unit
  | .call x f ys => match ys.mapM s.value with
    | none => (s, pyError)
    | some os => match f os with
      | .error e => (s, .error e)
      | .ok o => (s.alloc x o, .ok ())
  | .assign x y => match s.env y with
    | none => (s, pyError)
    | some r => (s.bindVar x r, .ok ())
  | .getTpol x t => match s.env t with
    | some (.own a) => match s.heap[a]? with
      | some (.tm m) => (if byRef then s.bindVar x (.tpol a) else s.alloc x (.gd m.tpol), .ok ())
      | _ => (s, pyError)
    | _ => (s, pyError)
  | .getRem x t => match s.env t with
    | some (.own a) => match s.heap[a]? with
      | some (.tm m) => (if byRef then s.bindVar x (.rem a) else s.alloc x (.itv m.rem), .ok ())
      | _ => (s, pyError)
    | _ => (s, pyError)
  | .change t ys c => match s.env t with
    | some (.own a) => match s.heap[a]?, ys.mapM s.value with
      | some (.tm m), some os => match c os with
        | some c => (⟨s.heap.set a (.tm (c.call m).1), s.env⟩, (c.call m).2)
        | none => (s, pyError)
      | _, _ => (s, pyError)
    | _ => (s, pyError)
  | .extend x ss => match s.env x with
    | some (.own a) => match s.heap[a]? with
      | some (.gd d) => match d.extendSymbolSet ss with
        | .ok d' => (⟨s.heap.set a (.gd d'), s.env⟩, .ok ())
        | .error e => (s, .error e)
      | _ => (s, pyError)
    | some (.tpol a) => match s.heap[a]? with
      | some (.tm m) => match m.tpol.extendSymbolSet ss with
        | .ok d' => (⟨s.heap.set a (.tm { m with tpol := d' }), s.env⟩, .ok ())
        | .error e => (s, .error e)
      | _ => (s, pyError)
    | _ => (s, pyError)

/-- A program: the state at the end and the outcomes of the statements. -/
def exec (byRef : Bool) (s : PySt K) : List (PyStmt K) → PySt K × List (Res Unit)
  | [] => (s, [])
  | p :: ps => let r := s.step byRef p; let r' := r.1.exec byRef ps; (r'.1, r.2 :: r'.2)

end PySt
end Audi
