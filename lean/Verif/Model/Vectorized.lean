import Verif.Model.Functions
import Mathlib.Order.Defs.LinearOrder

/-!
# Model: vectorized coefficients (include/audi/vectorized.hpp, include/audi/detail/overloads_vectorized.hpp)

`vectorized<T>` wraps a `std::vector<T>`. Two layers:

* `Vec T` with the operations of the C++ class, sizes and exceptions included;
* `VecN n T`, the vectors of size 1 or `n`: on those the operations never throw, and they make a coefficient type (`Cf`)
  for gduals.

Unchecked accesses out of bounds give `Exn.undefinedBehaviour`; divisions by zero give `Exn.nonFinite`.
-/

namespace Audi

/-- `vectorized<T>` (vectorized.hpp:55-58, 244): the container `m_c`. -/
structure Vec (T : Type) where
  c : List T
deriving DecidableEq, Repr

namespace Vec
variable {T : Type}

/-- Default constructor (vectorized.hpp:66). -/
def default [Zero T] : Vec T := ⟨[0]⟩

/-- Constructor from a value (vectorized.hpp:69-72). -/
def ofScalar (a : T) : Vec T := ⟨[a]⟩

/-- Constructors from a `std::vector` or an initializer list (vectorized.hpp:75-93). -/
def ofList (l : List T) : Res (Vec T) := if l.length = 0 then .error .invalidArgument else .ok ⟨l⟩

/-- `size` (vectorized.hpp:202-205). -/
def size (v : Vec T) : ℕ := v.c.length

/-- Common structure of `+=`, `-=`, `*=`, `/=` (vectorized.hpp:95-166). `full x y` is used for equal sizes, `right x y` when
the argument has size 1 (its element is `y`), `left x y` when `*this` has size 1 (its element is `x`). -/
def opAssign (full right left : T → T → T) (a b : Vec T) : Res (Vec T) :=
  if b.size = a.size then .ok ⟨List.zipWith full a.c b.c⟩
  else match a.c, b.c with
    | _, [y] => .ok ⟨a.c.map fun x => right x y⟩
    | [x], _ => .ok ⟨b.c.map fun y => left x y⟩
    | _, _ => .error .invalidArgument

/-- `operator+=` (vectorized.hpp:95-112) and `operator+` (260-278). -/
def add [Add T] (a b : Vec T) : Res (Vec T) := opAssign (fun x y => x + y) (fun x y => x + y) (fun s x => x + s) a b

/-- `operator-=` (vectorized.hpp:113-130) and `operator-` (280-298). -/
def sub [Sub T] (a b : Vec T) : Res (Vec T) := opAssign (fun x y => x - y) (fun x y => x - y) (fun s x => s - x) a b

/-- `operator*=` (vectorized.hpp:131-148) and `operator*` (300-318). -/
def mul [Mul T] (a b : Vec T) : Res (Vec T) := opAssign (fun x y => x * y) (fun x y => x * y) (fun s x => s * x) a b

/-- `operator/=` (vectorized.hpp:149-166) and `operator/` (320-338). Not finite if some element is divided by 0. -/
def div [Div T] [Zero T] [DecidableEq T] (a b : Vec T) : Res (Vec T) := do
  let r ← opAssign (fun x y => x / y) (fun x y => x / y) (fun s x => s / x) a b
  if b.c.any (fun y => y = 0) && !r.c.isEmpty then .error .nonFinite else .ok r

/-- Unary minus (vectorized.hpp:173-178) and `negate` (444-450). -/
def neg [Neg T] (a : Vec T) : Vec T := ⟨a.c.map fun x => -x⟩

/-- `operator[]` (vectorized.hpp:179-185): a vector of size 1 has the same value at all indices. -/
def get (v : Vec T) (i : ℕ) : Res T :=
  match v.c with
  | [x] => .ok x
  | c => match c[i]? with
    | some x => .ok x
    | none => .error .undefinedBehaviour

/-- `resize(new_size, val)` (vectorized.hpp:226-229); `resize(new_size)` (223-226) is the same with `T(0)`. -/
def resize (v : Vec T) (n : ℕ) (val : T) : Vec T := ⟨v.c.take n ++ List.replicate (n - v.c.length) val⟩

/-- `set_value` (vectorized.hpp:230-233). -/
def setValue (v : Vec T) (i : ℕ) (val : T) : Res (Vec T) :=
  if i < v.c.length then .ok ⟨v.c.set i val⟩ else .error .undefinedBehaviour

/-- `operator==` (vectorized.hpp:340-352). -/
def eq [DecidableEq T] (a b : Vec T) : Bool :=
  if a.size = b.size then decide (a.c = b.c)
  else match a.c, b.c with
    | [x], _ => b.c.all fun y => decide (y = x)
    | _, [y] => a.c.all fun x => decide (x = y)
    | _, _ => false

/-- `operator!=` (vectorized.hpp:367-371). -/
def ne [DecidableEq T] (a b : Vec T) : Bool := !eq a b

/-- `operator<` of `std::vector` (lexicographic). -/
def lexLt [LT T] [DecidableLT T] : List T → List T → Bool
  | _, [] => false
  | [], _ :: _ => true
  | x :: xs, y :: ys => if x < y then true else if y < x then false else lexLt xs ys

/-- `operator>` (vectorized.hpp:372-384). -/
def gt [LT T] [DecidableLT T] (a b : Vec T) : Bool :=
  if a.size = b.size then lexLt b.c a.c
  else match a.c, b.c with
    | [x], _ => b.c.all fun y => decide (y < x)
    | _, [y] => a.c.all fun x => decide (y < x)
    | _, _ => false

/-- `operator<` (vectorized.hpp:398-409). -/
def lt [LT T] [DecidableLT T] (a b : Vec T) : Bool :=
  if a.size = b.size then lexLt a.c b.c
  else match a.c, b.c with
    | [x], _ => b.c.all fun y => decide (x < y)
    | _, [y] => a.c.all fun x => decide (x < y)
    | _, _ => false

/-- `is_zero` (vectorized.hpp:424-428). -/
def isZero [Zero T] [DecidableEq T] (v : Vec T) : Bool := v.c.all fun x => decide (x = 0)

/-- `diff` (vectorized.hpp:430-434). -/
def diff [Zero T] (v : Vec T) : Res (Vec T) := ofList (List.replicate v.size 0)

/-- Element-wise functions: `VECTORIZED_OVERLOAD` (overloads_vectorized.hpp:36-65), `pow` (vectorized.hpp:436-442,
overloads_vectorized.hpp:67-84). -/
def map (f : T → T) (v : Vec T) : Vec T := ⟨v.c.map f⟩

/-- `fma3` (vectorized.hpp:458-552). The four throwing branches and the branches without effect (all three sizes larger than 1 and not
equal: there is no final `else`) are kept. -/
def fma3 [Add T] [Mul T] (ret x y : Vec T) : Res (Vec T) :=
  if x.size = y.size ∧ x.size = ret.size then
    .ok ⟨List.zipWith (fun r p => r + p) ret.c (List.zipWith (fun a b => a * b) x.c y.c)⟩
  else match ret.c, x.c, y.c with
    | [r], [x0], _ => .ok ⟨y.c.map fun b => r + x0 * b⟩
    | [r], _, [y0] => .ok ⟨x.c.map fun a => r + a * y0⟩
    | [r], _, _ =>
      if y.size = x.size then .ok ⟨List.zipWith (fun a b => r + a * b) x.c y.c⟩ else .error .invalidArgument
    | _, [x0], [y0] => .ok ⟨ret.c.map fun r => r + x0 * y0⟩
    | _, [x0], _ =>
      if y.size = ret.size then .ok ⟨List.zipWith (fun r b => r + x0 * b) ret.c y.c⟩ else .error .invalidArgument
    | _, _, [y0] =>
      if ret.size = x.size then .ok ⟨List.zipWith (fun r a => r + a * y0) ret.c x.c⟩ else .error .invalidArgument
    | _, _, _ => .ok ret

end Vec

/-- Vectors of size 1 or `n`. -/
def VecN (n : ℕ) (T : Type) := {v : Vec T // v.size = 1 ∨ v.size = n}

namespace VecN
variable {n : ℕ} {T : Type}

/-- The coefficient type made of one number. -/
def ofScalar (a : T) : VecN n T := ⟨Vec.ofScalar a, Or.inl rfl⟩

/-- Read the result of an operation; for vectors of size 1 or `n` the operations do not fail (`add_spec`, ...). -/
def ofRes (dflt : VecN n T) (r : Res (Vec T)) : VecN n T :=
  match r with
  | .ok v => if h : v.size = 1 ∨ v.size = n then ⟨v, h⟩ else dflt
  | .error _ => dflt

/-- Element-wise functions. -/
def map (f : T → T) (v : VecN n T) : VecN n T := ⟨v.1.map f, by
  unfold Vec.map Vec.size
  simp only [List.length_map]
  exact v.2⟩

/-- The vectors of size 1 or `n` are a coefficient type. Quotients by 0 have the value 0 here; the model of gduals does not
use them. -/
instance vecCf {K : Type} [Field K] [DecidableEq K] : Cf (VecN n K) where
  ofRat q := ofScalar (q : K)
  add a b := ofRes a (Vec.add a.1 b.1)
  sub a b := ofRes a (Vec.sub a.1 b.1)
  mul a b := ofRes a (Vec.mul a.1 b.1)
  neg a := map (fun x => -x) a
  div a b := ofRes a (Vec.opAssign (fun x y => x / y) (fun x y => x / y) (fun s x => s / x) a.1 b.1)
  isZero a := a.1.isZero
  isUnit a := a.1.c.all fun x => !decide (x = 0)
  beq a b := Vec.eq a.1 b.1

/-- Comparisons: `audi::abs(c) < eps` compares the vector of the absolute values with the vector `[eps]`. -/
instance vecCfOrd {K : Type} [Field K] [LinearOrder K] : CfOrd (VecN n K) where
  absLt a eps := Vec.lt (Vec.map (fun x => |x|) a.1) (Vec.ofScalar (eps : K))
  absGt a tol := Vec.gt (Vec.map (fun x => |x|) a.1) (Vec.ofScalar (tol : K))
  lt a b := Vec.lt a.1 b.1
  gt a b := Vec.gt a.1 b.1

end VecN

namespace GDual

/-- Body of the loop over the components in `abs` for vectorized coefficients (functions.hpp:909-913). -/
def absLane {K : Type} [Field K] [LinearOrder K] (p0 : Vec K) (c : Vec K) (i : ℕ) : Res (Vec K) := do
  if (← p0.get i) < 0 then
    let x ← c.get i
    c.setValue i (-x)
  else .ok c

/-- The coefficients of size 1 get the size of the constant part (functions.hpp:906-908). -/
def absResize {K : Type} (p0 : Vec K) (c : Vec K) : Res (Vec K) :=
  if c.size = 1 then do
    let x ← c.get 0
    .ok (c.resize p0.size x)
  else .ok c

/-- Loop over the terms in `abs` for vectorized coefficients (functions.hpp:904-914). -/
def absCoeff {K : Type} [Field K] [LinearOrder K] (p0 : Vec K) (c : Vec K) : Res (Vec K) := do
  let c ← absResize p0 c
  (List.range p0.size).foldlM (absLane p0) c

/-- `abs` for vectorized coefficients (functions.hpp:899-916). The coefficients are modified in place. -/
def absVec {n : ℕ} {K : Type} [Field K] [LinearOrder K] (d : GDual (VecN n K)) : Res (GDual (VecN n K)) := do
  let p0 ← d.constantCf
  let terms ← d.p.terms.mapM fun t => do
    let c ← absCoeff p0.1 t.2.1
    .ok (t.1, VecN.ofRes t.2 (.ok c))
  .ok ⟨⟨d.p.syms, terms⟩, d.order⟩

end GDual
end Audi
