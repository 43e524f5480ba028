import Verif.Model.Bounding

/-!
# Model: Taylor models

include/audi/taylor_model.hpp.

`double` is an exact ordered field `K`, intervals are the exact intervals of Model/Interval.lean. An `unordered_map` is the list of
its entries (distinct keys, any order); look-up is by key. The only place where the result of the code depends on the order in which a
map is traversed is `build_dim_to_var_map`, called by `get_bounds` on a map that it has filled in the order of the symbols: the
parameter `ord` gives the keys in iteration order. Orders are natural numbers (no wrap around at 2^32).
-/

namespace Audi

/-- Contents of an `unordered_map` with `std::string` keys. -/
abbrev VMap (α : Type) := List (String × α)

namespace VMap
variable {α : Type}

/-- The keys. -/
def keys (m : VMap α) : List String := m.map Prod.fst

/-- `m.at(k)`. -/
def at' (m : VMap α) (k : String) : Res α :=
  match m.lookup k with
  | none => .error .outOfRange
  | some x => .ok x

/-- `m.insert({k, v})`: an existing entry is not changed. -/
def insertNew (m : VMap α) (k : String) (v : α) : VMap α :=
  match m.lookup k with
  | none => m ++ [(k, v)]
  | some _ => m

end VMap

/-- The data of a `taylor_model` (taylor_model.hpp:91-102). -/
structure TM (K : Type) where
  tpol : GDual K
  order : ℕ
  ndim : ℕ
  rem : Itv K
  exp : VMap K
  dom : VMap (Itv K)

namespace TM

/-- `std::logic_error` (taylor_model.hpp:283, 290, 488). The class has `invalid_argument` as a subclass; both are reported as the same
outcome here. -/
def logicError {α : Type} : Res α := .error .invalidArgument

section
variable {K : Type} [LinearOrder K]

/-- Whether the expansion point lies in the interval (taylor_model.hpp:121-127). -/
def pointInside (exp : VMap K) (e : String × Itv K) : Bool :=
  match exp.lookup e.1 with
  | none => false
  | some x => decide (e.2.lo ≤ x) && decide (x ≤ e.2.hi)

/-- `check_input_validity` (taylor_model.hpp:104-134). All failures throw `std::invalid_argument`. -/
def checkInput (ndim : ℕ) (exp : VMap K) (dom : VMap (Itv K)) : Res Unit :=
  if ¬ (exp.keys ⊆ dom.keys ∧ dom.keys ⊆ exp.keys) then .error .invalidArgument
  else if ¬ dom.all (pointInside exp) then .error .invalidArgument
  else if dom.length ≠ ndim then .error .invalidArgument
  else .ok ()

/-- The complete constructor (taylor_model.hpp:154-166). -/
def make (tpol : GDual K) (rem : Itv K) (exp : VMap K) (dom : VMap (Itv K)) : Res (TM K) := do
  checkInput tpol.symbolSetSize exp dom
  .ok ⟨tpol, tpol.getOrder, tpol.symbolSetSize, rem, exp, dom⟩

variable [Field K]

/-- Construction of a constant (taylor_model.hpp:169-177). -/
def ofConst (c : K) : TM K := ⟨GDual.ofCf c, 0, 0, ⟨0, 0⟩, [], []⟩

/-- `identity()` (taylor_model.hpp:181-191). -/
def identity : TM K := ⟨GDual.ofCf 1, 0, 0, ⟨0, 0⟩, [], []⟩

/-- `identity(rem, exp, domain)` (taylor_model.hpp:195-205): no check. -/
def identityWith (rem : Itv K) (exp : VMap K) (dom : VMap (Itv K)) : TM K := ⟨GDual.ofCf 1, 0, 0, rem, exp, dom⟩

/-! ### Setters: they change the object before checking, so the object is returned also when they throw -/

/-- `set_tpol` (taylor_model.hpp:245-251). -/
def setTpol (tm : TM K) (tpol : GDual K) : TM K × Res Unit :=
  ({ tm with tpol := tpol, order := tpol.getOrder, ndim := tpol.symbolSetSize }, checkInput tpol.symbolSetSize tm.exp tm.dom)

/-- `set_rem` (taylor_model.hpp:253-256). -/
def setRem (tm : TM K) (rem : Itv K) : TM K := { tm with rem := rem }

/-- `set_exp` (taylor_model.hpp:258-262). -/
def setExp (tm : TM K) (exp : VMap K) : TM K × Res Unit := ({ tm with exp := exp }, checkInput tm.ndim exp tm.dom)

/-- `set_dom` (taylor_model.hpp:264-268). -/
def setDom (tm : TM K) (dom : VMap (Itv K)) : TM K × Res Unit := ({ tm with dom := dom }, checkInput tm.ndim tm.exp dom)

/-- The loop of `extend_symbol_set` (taylor_model.hpp:276-292): the maps so far, and whether it was left by an exception. -/
def extendLoop (e : VMap K) (d : VMap (Itv K)) : List String → VMap K × VMap (Itv K) → (VMap K × VMap (Itv K)) × Bool
  | [], s => (s, true)
  | v :: vs, s =>
    match e.lookup v with
    | none => (s, false)
    | some x =>
      match d.lookup v with
      | none => ((s.1.insertNew v x, s.2), false)
      | some I => extendLoop e d vs (s.1.insertNew v x, s.2.insertNew v I)

/-- `extend_symbol_set` (taylor_model.hpp:270-297). -/
def extendSymbolSet (tm : TM K) (symVars : List String) (e : VMap K) (d : VMap (Itv K)) : TM K × Res Unit :=
  let r := extendLoop e d symVars (tm.exp, tm.dom)
  let tm1 : TM K := { tm with exp := r.1.1, dom := r.1.2 }
  if r.2 then
    match tm.tpol.extendSymbolSet (symVars.map fun v => "d" ++ v) with
    | .error x => (tm1, .error x)
    | .ok p => ({ tm1 with tpol := p, ndim := p.symbolSetSize }, checkInput p.symbolSetSize tm1.exp tm1.dom)
  else (tm1, logicError)

/-- `get_increased_order` (taylor_model.hpp:316-324). -/
def increasedOrder (p : GDual K) (newOrder : ℕ) : Res (GDual K) := do
  let temp ← GDual.mk3 (0 : K) "temp" newOrder
  .ok (temp.subs "dtemp" p)

/-- `std::minmax_element` of a vector, dereferenced (taylor_model.hpp:402-404). -/
def minmax (l : List K) : Res (Itv K) :=
  match l with
  | [] => .error .undefinedBehaviour
  | x :: xs => Itv.make (xs.foldl min x) (xs.foldl max x)

/-- The shifted domain (taylor_model.hpp:383-389), in the order of insertion. -/
def shiftedDomain {K : Type} [LinearOrder K] [Sub K] (vars : List String) (exp : VMap K) (dom : VMap (Itv K)) : Res (VMap (Itv K)) :=
  vars.mapM fun v => do
    let I ← dom.at' v
    let x ← exp.at' v
    let J ← Itv.make (I.lo - x) (I.hi - x)
    .ok (v, J)

/-- The entries of a map in iteration order. -/
def iterate {α : Type} (ord : List String → List String) (m : VMap α) : VMap α :=
  (ord m.keys).filterMap fun v => (m.lookup v).map fun I => (v, I)

/-- `get_bounds(tpol, exp_points, domain)` (taylor_model.hpp:371-405). -/
def getBounds {K : Type} [LinearOrder K] [Cf K] [Zero K] [One K] [Add K] [Sub K] [Mul K] [Div K] [Pow K ℕ] [NatCast K] (ord : List String → List String) (tpol : GDual K) (exp : VMap K) (dom : VMap (Itv K)) : Res (Itv K) := do
  let ce ← Bounding.getPoly tpol
  let ndim ← Bounding.getNdim ce.1 ce.2
  if 1 ≤ ndim then do
    let shifted ← shiftedDomain tpol.symbolSet exp dom
    let patch ← Bounding.bernsteinPatch ce.1 ce.2 (iterate ord shifted)
    minmax patch.flatten
  else do
    let c ← tpol.constantCf
    .ok ⟨c, c⟩

/-- `get_bounds()` (taylor_model.hpp:353-356). -/
def bounds {K : Type} [LinearOrder K] [Cf K] [Zero K] [One K] [Add K] [Sub K] [Mul K] [Div K] [Pow K ℕ] [NatCast K] (ord : List String → List String) (tm : TM K) : Res (Itv K) := getBounds ord tm.tpol tm.exp tm.dom

/-! ### Comparison of values with tolerance -/

/-- `std::numeric_limits<double>::epsilon() * 10`. -/
def defaultTol : ℚ := 10 / 2 ^ 52

/-- `interval_equal` for two numbers (taylor_model.hpp:986-997). -/
def numEqual (tol : Option ℚ) (a b : K) : Bool := decide (|a - b| < ((tol.getD defaultTol : ℚ) : K))

/-- `interval_equal` for two intervals (taylor_model.hpp:1013-1025). -/
def itvEqual (tol : Option ℚ) (a b : Itv K) : Bool := numEqual tol a.lo b.lo && numEqual tol a.hi b.hi

/-- `map_interval_equal` (taylor_model.hpp:1039-1049). -/
def mapItvEqual (tol : Option ℚ) (a b : VMap (Itv K)) : Bool :=
  decide (a.length = b.length) && a.all fun e => match b.lookup e.1 with
    | none => false
    | some y => itvEqual tol e.2 y

/-- `map_equal` (taylor_model.hpp:1065-1080). -/
def mapEqual (tol : Option ℚ) (a b : VMap K) : Bool :=
  decide (a.length = b.length) && a.all fun e => match b.lookup e.1 with
    | none => false
    | some y => match tol with
      | none => decide (e.2 = y)
      | some t => decide (|e.2 - y| < (t : K))

/-- `operator==` (taylor_model.hpp:1116-1120). -/
def eq (a b : TM K) : Bool := a.tpol.eq b.tpol && itvEqual none a.rem b.rem && mapEqual none a.exp b.exp && mapItvEqual none a.dom b.dom

/-- `operator!=` (taylor_model.hpp:1131-1135). -/
def ne (a b : TM K) : Bool := a.tpol.ne b.tpol || !itvEqual none a.rem b.rem || !mapEqual none a.exp b.exp || !mapItvEqual none a.dom b.dom

/-! ### Maps -/

/-- The keys of both maps, once (taylor_model.hpp:431-435). -/
def allKeys {α : Type} (a b : VMap α) : List String := a.keys ++ b.keys.filter fun k => decide (k ∉ a.keys)

/-- `get_common_map` (taylor_model.hpp:428-456); `same` is `interval_equal` for the type of the values. -/
def commonMap {α : Type} (same : α → α → Bool) (a b : VMap α) : Res (VMap α) :=
  (allKeys a b).mapM fun k =>
    match a.lookup k, b.lookup k with
    | some x, some y => if same x y then .ok (k, x) else .error .runtimeError
    | some x, none => .ok (k, x)
    | none, some y => .ok (k, y)
    | none, none => .error .undefinedBehaviour

/-- `get_common_map` for expansion points. -/
def commonExp (a b : VMap K) : Res (VMap K) := commonMap (numEqual none) a b

/-- `get_common_map` for domains. -/
def commonDom (a b : VMap (Itv K)) : Res (VMap (Itv K)) := commonMap (itvEqual none) a b

/-- `trim_map` (taylor_model.hpp:477-494). -/
def trimMap {α : Type} (vars : List String) (a : VMap α) : Res (VMap α) :=
  vars.foldlM (fun (r : VMap α) (v : String) =>
    match a.lookup v with
    | none => logicError
    | some x => .ok (r.insertNew v x)) []

/-! ### Sum and difference -/

/-- `add(tm, tm)` (taylor_model.hpp:517-527). -/
def add (d1 d2 : TM K) : Res (TM K) := do
  let ce ← commonExp d1.exp d2.exp
  let cd ← commonDom d1.dom d2.dom
  let p := d1.tpol.add d2.tpol
  let ne ← trimMap p.symbolSet ce
  let nd ← trimMap p.symbolSet cd
  make p (d1.rem.add d2.rem) ne nd

/-- `add(T, tm)` (taylor_model.hpp:530-534). -/
def addST {C : Type} [Cf C] [LinearOrder C] (s : C) (d : TM C) : Res (TM C) := make (GDual.addSG s d.tpol) d.rem d.exp d.dom

/-- `add(tm, T)` (taylor_model.hpp:537-541). -/
def addTS {C : Type} [Cf C] [LinearOrder C] (d : TM C) (s : C) : Res (TM C) := make (d.tpol.addGS s) d.rem d.exp d.dom

/-- `add(interval, tm)` (taylor_model.hpp:544-548). -/
def addIT (J : Itv K) (d : TM K) : Res (TM K) := make d.tpol (J.add d.rem) d.exp d.dom

/-- `add(tm, interval)` (taylor_model.hpp:551-555). -/
def addTI (d : TM K) (J : Itv K) : Res (TM K) := make d.tpol (d.rem.add J) d.exp d.dom

/-- `sub(tm, tm)` (taylor_model.hpp:577-587). -/
def sub (d1 d2 : TM K) : Res (TM K) := do
  let ce ← commonExp d1.exp d2.exp
  let cd ← commonDom d1.dom d2.dom
  let p := d1.tpol.sub d2.tpol
  let ne ← trimMap p.symbolSet ce
  let nd ← trimMap p.symbolSet cd
  make p (d1.rem.sub d2.rem) ne nd

/-- `sub(T, tm)` (taylor_model.hpp:590-594). -/
def subST {C : Type} [Cf C] [LinearOrder C] (s : C) (d : TM C) : Res (TM C) := make (GDual.subSG s d.tpol) d.rem d.exp d.dom

/-- `sub(tm, T)` (taylor_model.hpp:597-601). -/
def subTS {C : Type} [Cf C] [LinearOrder C] (d : TM C) (s : C) : Res (TM C) := make (d.tpol.subGS s) d.rem d.exp d.dom

/-- `sub(interval, tm)` (taylor_model.hpp:604-608). -/
def subIT (J : Itv K) (d : TM K) : Res (TM K) := make d.tpol (J.sub d.rem) d.exp d.dom

/-- `sub(tm, interval)` (taylor_model.hpp:611-615). -/
def subTI (d : TM K) (J : Itv K) : Res (TM K) := make d.tpol (d.rem.sub J) d.exp d.dom

/-- Unary minus (taylor_model.hpp:895-898). -/
def neg (d : TM K) : Res (TM K) := subST 0 d

/-! ### Product -/

/-- The loop that collects the terms up to the larger order (taylor_model.hpp:667-670). -/
def agreeable (product : GDual K) (degree : ℕ) : Res (GDual K) :=
  (List.range (degree + 1)).foldlM (fun (a : GDual K) (i : ℕ) => do
    let t ← product.extractTerms i
    .ok (a.add t)) (GDual.ofCf (0 : K))

/-- `1e-16` as a rational number (the double nearest to it differs in the 17th digit). -/
def tiny : ℚ := 1 / 10 ^ 16

/-- Bounds of the truncated part (taylor_model.hpp:676-692). `operator[]` inserts a zero when the key is missing. -/
def truncationBounds (ord : List String → List String) (polE : GDual K) (ce : VMap K) (cd : VMap (Itv K)) : Res (Itv K) :=
  if polE.isZeroTol tiny then .ok ⟨0, 0⟩
  else getBounds ord polE (polE.symbolSet.map fun v => (v, (ce.lookup v).getD 0)) (polE.symbolSet.map fun v => (v, (cd.lookup v).getD ⟨0, 0⟩))

/-- `multiply(tm, tm)` (taylor_model.hpp:644-698). -/
def mul (ord : List String → List String) (d1 d2 : TM K) : Res (TM K) := do
  let z ← GDual.mk3 (0 : K) "irrelevant" 0
  if d1.tpol.eq z || d2.tpol.eq z then .ok (ofConst 0)
  else do
    let ce ← commonExp d1.exp d2.exp
    let cd ← commonDom d1.dom d2.dom
    let newOrder := d1.tpol.getOrder + d2.tpol.getOrder
    let h1 ← increasedOrder d1.tpol newOrder
    let h2 ← increasedOrder d2.tpol newOrder
    let product := h1.mul h2
    let agr ← agreeable product (max d1.tpol.getOrder d2.tpol.getOrder)
    let ne ← trimMap agr.symbolSet ce
    let nd ← trimMap agr.symbolSet cd
    let eb ← truncationBounds ord (product.sub agr) ce cd
    let b1 ← d1.bounds ord
    let b2 ← d2.bounds ord
    make agr (((eb.add (b1.mul d2.rem)).add (d1.rem.mul b2)).add (d1.rem.mul d2.rem)) ne nd

/-- `multiply(T, tm)` (taylor_model.hpp:701-705). -/
def mulST (s : K) (d : TM K) : Res (TM K) := make (GDual.mulSG s d.tpol) ((Itv.point s).mul d.rem) d.exp d.dom

/-- `multiply(tm, T)` (taylor_model.hpp:708-712). -/
def mulTS (d : TM K) (s : K) : Res (TM K) := make (d.tpol.mulGS s) (d.rem.mul (Itv.point s)) d.exp d.dom

/-- `multiply(interval, tm)` (taylor_model.hpp:715-721). -/
def mulIT (ord : List String → List String) (J : Itv K) (d : TM K) : Res (TM K) := do
  let one ← make (GDual.ofCf (1 : K)) J d.exp d.dom
  mul ord one d

/-- `multiply(tm, interval)` (taylor_model.hpp:724-730). -/
def mulTI (ord : List String → List String) (d : TM K) (J : Itv K) : Res (TM K) := do
  let g ← GDual.mk3 (1 : K) "x" 0
  let one ← make g J d.exp d.dom
  mul ord d one

/-! ### Quotient -/

/-- Product of a number and an interval. -/
def smul (s : K) (I : Itv K) : Itv K := (Itv.point s).mul I

/-- Quotient of an interval by a number. -/
def sdiv (I : Itv K) (s : K) : Res (Itv K) := I.div (Itv.point s)

/-- `div(T, tm)` (taylor_model.hpp:767-787). -/
def divST (ord : List String → List String) (s : K) (d : TM K) : Res (TM K) := do
  let b ← d.bounds ord
  if (b.add d.rem).zeroIn then .error .runtimeError
  else do
    let c ← d.tpol.constantCf
    let fBar := d.tpol.subGS c
    let fb ← getBounds ord fBar d.exp d.dom
    let B := fb.add d.rem
    let k := d.tpol.getOrder
    let num ← sdiv (smul ((-1) ^ (k + 1)) (B.pow (k + 1))) (c ^ (k + 2))
    let q ← sdiv B c
    let den ← (Itv.point 1).div (((Itv.point 1).add (q.mul ⟨0, 1⟩)).pow (k + 2))
    let p ← GDual.divSG s d.tpol
    make p (num.mul den) d.exp d.dom

/-- `div(tm, tm)` (taylor_model.hpp:761-764). -/
def div (ord : List String → List String) (d1 d2 : TM K) : Res (TM K) := do
  let r ← divST ord 1 d2
  mul ord d1 r

/-- `div(tm, T)` (taylor_model.hpp:790-794). -/
def divTS (d : TM K) (s : K) : Res (TM K) := do
  let p ← d.tpol.divGS s
  let r ← sdiv d.rem s
  make p r d.exp d.dom

/-- `div(interval, tm)` (taylor_model.hpp:797-803): multiplies. -/
def divIT (ord : List String → List String) (J : Itv K) (d : TM K) : Res (TM K) := mulIT ord J d

/-- `div(tm, interval)` (taylor_model.hpp:806-812): multiplies. -/
def divTI (ord : List String → List String) (d : TM K) (J : Itv K) : Res (TM K) := mulTI ord d J

/-! ### Integer powers -/

/-- `pow(tm, int)` (taylor_model_functions.hpp:117-139). -/
def powInt (ord : List String → List String) (tm : TM K) (n : ℤ) : Res (TM K) :=
  if n = 0 then .ok (identityWith tm.rem tm.exp tm.dom)
  else if n = 1 then .ok tm
  else if n > 1 then do
    let p ← mulST 1 tm
    (List.range (n - 1).toNat).foldlM (fun (p : TM K) (_ : ℕ) => mul ord p tm) p
  else do
    let p ← divST ord 1 tm
    (List.range (-n - 1).toNat).foldlM (fun (p : TM K) (_ : ℕ) => do
      let q ← mulTS p 1
      div ord q tm) p

end
end TM
end Audi
