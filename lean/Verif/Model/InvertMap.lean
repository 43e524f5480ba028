import Verif.Model.GDual
import Mathlib.LinearAlgebra.Matrix.Adjugate

/-!
# Model: Taylor maps (include/audi/invert_map.hpp)

`taylor_map` is a `std::vector` of gduals (invert_map.hpp:41-43). Eigen (external) is replaced by its contract: `determinant()` is the
determinant and `inverse()` is the inverse matrix, in exact arithmetic. The text printed with `verbose` is not modelled.
-/

namespace Audi
namespace TMap

section operators
variable {C : Type} [Cf C]

/-- Substitutions made by `operator&` in one component (invert_map.hpp:55-58). -/
def substAll (a : GDual C) (l : List (String × GDual C)) : GDual C := l.foldl (fun tmp x => tmp.subs ("d" ++ x.1) x.2) a

/-- `operator&` (invert_map.hpp:50-63). `A[0]` and `ss[j]` are not checked. -/
def compose (A B : List (GDual C)) : Res (List (GDual C)) :=
  match A with
  | [] => .error .undefinedBehaviour
  | a0 :: _ =>
    if B.length ≤ a0.symbolSet.length then .ok (A.map fun a => substAll a (a0.symbolSet.zip B))
    else .error .undefinedBehaviour

/-- `operator+` (invert_map.hpp:66-74). `A[i]` is not checked. -/
def add (A B : List (GDual C)) : Res (List (GDual C)) :=
  if B.length ≤ A.length then .ok (List.zipWith GDual.add A B) else .error .undefinedBehaviour

/-- `operator-` (invert_map.hpp:77-85). `A[i]` is not checked. -/
def sub (A B : List (GDual C)) : Res (List (GDual C)) :=
  if B.length ≤ A.length then .ok (List.zipWith GDual.sub A B) else .error .undefinedBehaviour

/-- `operator*` with a scalar on the left (invert_map.hpp:88-96). -/
def smul (c : C) (A : List (GDual C)) : List (GDual C) := A.map fun a => a.mulGS c

/-- `trim` (invert_map.hpp:98-106). -/
def trim {C : Type} [CfOrd C] (A : List (GDual C)) (eps : ℚ) : Res (List (GDual C)) := A.mapM fun a => a.trim eps

end operators

/-! ### invert_map

The linear part is stored in an `Eigen::MatrixXd`, so the coefficients are scalars. -/

section invert
variable {K : Type} [Field K] [LinearOrder K]

/-- The checks at the beginning of `invert_map` (invert_map.hpp:192-216). -/
def check (f : List (GDual K)) : Res Unit :=
  match f with
  | [] => .error .invalidArgument
  | f0 :: _ =>
    if !f.all (fun el => decide (el.getOrder = f0.getOrder)) then .error .invalidArgument
    else if !f.all (fun el => decide (el.symbolSet = f0.symbolSet)) then .error .invalidArgument
    else if f0.symbolSet.length ≠ f.length then .error .invalidArgument
    else .ok ()

/-- Component of the identity map (invert_map.hpp:234-237). -/
def identityAt (ssInv : List String) (m i : ℕ) : Res (GDual K) := do
  let d ← GDual.mk3 (0 : K) ("p" ++ toString i) m
  d.extendSymbolSet ssInv

/-- Linear part of a component (invert_map.hpp:240-243). -/
def linearPart (ss : List String) (f : GDual K) : Res (GDual K) := do
  let l ← f.extractTerms 1
  l.extendSymbolSet ss

/-- Non linear part of a component (invert_map.hpp:246-251): starts from `gdual(0)`. -/
def nonLinearPart (ss : List String) (m : ℕ) (f : GDual K) : Res (GDual K) := do
  let r ← (List.range' 2 (m - 1)).foldlM (fun (acc : GDual K) (j : ℕ) => do
    let t ← f.extractTerms j
    .ok (acc.add t)) (GDual.ofRat 0)
  r.extendSymbolSet ss

/-- The exponents `monomial` (invert_map.hpp:258-259). -/
def unitExp (n j : ℕ) : List ℕ := (List.replicate n 0).set j 1

/-- The rows of the matrix `mat` (invert_map.hpp:255-262). -/
def linearRows (n : ℕ) (M : List (GDual K)) : Res (List (List K)) :=
  M.mapM fun (f : GDual K) => (List.range n).mapM fun (j : ℕ) => f.findCf (unitExp n j)

/-- The matrix `mat` (invert_map.hpp:255-262). -/
def matrixOf (n : ℕ) (rows : List (List K)) : Matrix (Fin n) (Fin n) K := fun i j => (rows.getD i []).getD j 0

/-- `mat.inverse()` (invert_map.hpp:269), contract of Eigen. -/
def inverse {n : ℕ} (mat : Matrix (Fin n) (Fin n) K) : Matrix (Fin n) (Fin n) K := fun i j => mat.det⁻¹ * mat.adjugate i j

/-- A row of `Minv` (`pre = "p"`) or `Minv2` (`pre = "pdummy"`) (invert_map.hpp:277-288). -/
def linComb {n : ℕ} (invm : Matrix (Fin n) (Fin n) K) (pre : String) (m : ℕ) (i : Fin n) : Res (GDual K) :=
  (List.finRange n).foldlM (fun (acc : GDual K) (j : Fin n) => do
    let dummy ← GDual.mk3 (0 : K) (pre ++ toString (j : ℕ)) m
    .ok (acc.add (dummy.mulGS (invm i j)))) (GDual.ofRat 0)

/-- One Picard iteration `Minv2 & (I - (N & retval))` (invert_map.hpp:298). -/
def picard (I N Minv2 : List (GDual K)) (r : List (GDual K)) : Res (List (GDual K)) := do
  let c ← compose N r
  let s ← sub I c
  compose Minv2 s

/-- The Picard iterations (invert_map.hpp:293-302). -/
def iterate {n : ℕ} (mat : Matrix (Fin n) (Fin n) K) (m : ℕ) (I N : List (GDual K)) : Res (List (GDual K)) := do
  let Minv ← (List.finRange n).mapM (linComb (inverse mat) "p" m)
  let Minv2 ← (List.finRange n).mapM (linComb (inverse mat) "pdummy" m)
  (List.range' 1 (m - 1)).foldlM (fun (r : List (GDual K)) (_ : ℕ) => picard I N Minv2 r) Minv

/-- The symbols of the inverse map (invert_map.hpp:222-225). -/
def invNames (n : ℕ) : List String := (List.range n).map fun i => "dp" ++ toString i

/-- `invert_map` after the checks (invert_map.hpp:217-305), for a map of size `n` and order `m` with the symbol set `ss0`. The threshold
`1e-10` is taken to be the number 10⁻¹⁰. -/
def invertChecked (n m : ℕ) (ss0 : List String) (f : List (GDual K)) : Res (List (GDual K)) := do
  let I ← (List.range n).mapM (identityAt (invNames n) m)
  let M ← f.mapM (linearPart (ss0.map fun s => "d" ++ s))
  let N ← f.mapM (nonLinearPart (ss0.map fun s => "d" ++ s) m)
  let rows ← linearRows n M
  if |(matrixOf n rows).det| < ((1 / 10 ^ 10 : ℚ) : K) then .error .invalidArgument
  else iterate (matrixOf n rows) m I N

/-- `invert_map` (invert_map.hpp:187-305). -/
def invert (f : List (GDual K)) : Res (List (GDual K)) := do
  check f
  match f with
  | [] => .error .invalidArgument
  | f0 :: _ => invertChecked f.length f0.getOrder f0.symbolSet f

end invert
end TMap
end Audi
