import Verif.Model.Vectorized

/-!
# Model: vectorized and numbers, streams, conversions of the Python module

* include/audi/vectorized.hpp:167-172 (`/=` by a number), 186-202 (stream), 270-337 and 354-421 (operators that mix a vectorized with a number);
* pyaudi/common_utils.hpp:40-56 (`py_dict_to_obake_sm`), 80-105 (conversions between Python lists and vectorized).
-/

namespace Audi
namespace Vec

variable {T : Type}

/-- `v + s` (vectorized.hpp:270-275): the number is converted to a vectorized of size 1. -/
def addS [Add T] (v : Vec T) (s : T) : Res (Vec T) := v.add (ofScalar s)

/-- `s + v` (vectorized.hpp:276-281). -/
def sAdd [Add T] (s : T) (v : Vec T) : Res (Vec T) := (ofScalar s).add v

/-- `v - s` (vectorized.hpp:289-294). -/
def subS [Sub T] (v : Vec T) (s : T) : Res (Vec T) := v.sub (ofScalar s)

/-- `s - v` (vectorized.hpp:295-300). -/
def sSub [Sub T] (s : T) (v : Vec T) : Res (Vec T) := (ofScalar s).sub v

/-- `v * s` (vectorized.hpp:308-313). -/
def mulS [Mul T] (v : Vec T) (s : T) : Res (Vec T) := v.mul (ofScalar s)

/-- `s * v` (vectorized.hpp:314-319). -/
def sMul [Mul T] (s : T) (v : Vec T) : Res (Vec T) := (ofScalar s).mul v

/-- `v / s` (vectorized.hpp:327-332). -/
def divS [Div T] [Zero T] [DecidableEq T] (v : Vec T) (s : T) : Res (Vec T) := v.div (ofScalar s)

/-- `s / v` (vectorized.hpp:333-338). -/
def sDiv [Div T] [Zero T] [DecidableEq T] (s : T) (v : Vec T) : Res (Vec T) := (ofScalar s).div v

/-- `v /= s` for a number `s` that is not stored in `v` (vectorized.hpp:167-172). Not finite if `s` is zero. -/
def divAssignS [Div T] [Zero T] [DecidableEq T] (v : Vec T) (s : T) : Res (Vec T) :=
  if s = 0 ∧ v.c ≠ [] then .error .nonFinite else .ok ⟨v.c.map fun x => x / s⟩

/-- The loop of `std::transform` in `v /= s` when `s` is a reference to component `k` of `v` (vectorized.hpp:167-172): the parameter is taken by
reference, and the lambda reads it anew for every component. -/
def divAliasLoop [Div T] (k : ℕ) : List T → ℕ → List T
  | c, 0 => c
  | c, i + 1 =>
    let c' := divAliasLoop k c i
    match c'[i]?, c'[k]? with
    | some x, some s => c'.set i (x / s)
    | _, _ => c'

/-- `v /= s` where `s` is a reference to component `k` of `v`, as `*(v.begin() + k)` or `v.m_c[k]`. -/
def divAssignRef [Div T] [Zero T] [DecidableEq T] (v : Vec T) (k : ℕ) : Res (Vec T) :=
  match v.c[k]? with
  | none => .error .undefinedBehaviour
  | some s => if s = 0 then .error .nonFinite else .ok ⟨divAliasLoop k v.c v.size⟩

/-- `v == s`, `v > s`, `v < s` (vectorized.hpp:354-359, 385-390, 410-415). -/
def eqS [DecidableEq T] (v : Vec T) (s : T) : Bool := v.eq (ofScalar s)
def gtS [LT T] [DecidableLT T] (v : Vec T) (s : T) : Bool := v.gt (ofScalar s)
def ltS [LT T] [DecidableLT T] (v : Vec T) (s : T) : Bool := v.lt (ofScalar s)

/-- `s == v`, `s > v`, `s < v` (vectorized.hpp:360-365, 391-396, 416-421). -/
def sEq [DecidableEq T] (s : T) (v : Vec T) : Bool := (ofScalar s).eq v
def sGt [LT T] [DecidableLT T] (s : T) (v : Vec T) : Bool := (ofScalar s).gt v
def sLt [LT T] [DecidableLT T] (s : T) (v : Vec T) : Bool := (ofScalar s).lt v

/-- The loops of the stream operator: the first `n` components, each followed by a comma (vectorized.hpp:190-192, 195-197). Reading outside the
container is undefined. -/
def streamLoop (sh : T → String) (c : List T) : ℕ → Res String
  | 0 => .ok ""
  | n + 1 => do
    let s ← streamLoop sh c n
    match c[n]? with
    | some x => .ok (s ++ sh x ++ ", ")
    | none => .error .undefinedBehaviour

/-- The stream operator (vectorized.hpp:186-201), `sh` being the one of the components, `MAX_STREAMED_COMPONENTS` being 5 (line 46). For an empty container
`d.size() - 1u` is `2^64 - 1`. -/
def stream (sh : T → String) (v : Vec T) : Res String :=
  if v.size ≤ 5 then do
    let s ← streamLoop sh v.c (if v.size = 0 then 2 ^ 64 - 1 else v.size - 1)
    match v.c.getLast? with
    | some x => .ok ("[" ++ s ++ sh x ++ "]")
    | none => .error .undefinedBehaviour
  else do
    let s ← streamLoop sh v.c 5
    .ok ("[" ++ s ++ "... ]")

/-- `type_caster::load` (common_utils.hpp:80-89) for a list of numbers: the container is cleared and filled, without the check of the constructors. -/
def pyLoad (l : List T) : Vec T := ⟨l.foldl (fun c x => c ++ [x]) []⟩

/-- `type_caster::cast` (common_utils.hpp:98-105): a list with `size()` entries, filled by `operator[]`. -/
def pyCast (v : Vec T) : Res (List T) := (List.range v.size).mapM v.get

end Vec

/-- `py_dict_to_obake_sm` (common_utils.hpp:40-56): the entries of the dictionary in the order of its iteration, sorted by name. `std::sort` is not stable; the
keys of a dictionary are distinct. -/
def pyDict {T : Type} (d : List (String × T)) : List (String × T) := d.insertionSort fun p q => p.1 ≤ q.1

end Audi
