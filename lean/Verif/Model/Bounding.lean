import Verif.Model.GDual
import Verif.Model.Interval
import Mathlib.Algebra.Order.Ring.Int

/-!
# Model: bounds of polynomials by Bernstein coefficients

include/audi/taylor_model_bounding.hpp and `matmul`, `transpose` of include/audi/taylor_model_utilities.hpp.

`int` and `size_t` are unbounded integers here, except in `binomial`, which computes modulo 2^64 as the C++ does.
The definitions are generic in the type of numbers: `double` is an exact ordered field, or the
numbers of a floating point format (Model/RoundedBounds.lean). `std::vector<std::vector<double>>` is a list of rows. Accesses out of bounds are
`Exn.undefinedBehaviour`. An `unordered_map` is the list of its entries in iteration order.
-/

namespace Audi
namespace Bounding

/-! ### Exponents -/

/-- One iteration of the outer loop of `generate_combinations` (taylor_model_bounding.hpp:74-89). -/
def genStep (capSum : Bool) (cap : ℤ) (result : List (List ℕ)) (limit : ℤ) : List (List ℕ) :=
  result.flatMap fun comb =>
    ((List.range (limit + 1).toNat).map fun i => comb ++ [i]).filter fun copy => (decide ((copy.sum : ℤ) ≤ cap) && capSum) || !capSum

/-- `generate_combinations` (taylor_model_bounding.hpp:67-92). -/
def generateCombinations (limits : List ℤ) (capSum : Bool) : List (List ℕ) :=
  match limits with
  | [] => []
  | l :: ls => (l :: ls).foldl (genStep capSum (ls.foldl max l)) [[]]

/-- The exponents visited by `get_poly` (taylor_model_bounding.hpp:118-127). -/
def polyCombs (ndim deg : ℕ) : List (List ℕ) :=
  if ndim = 1 then (List.range (deg + 1)).map fun i => [i]
  else if ndim > 1 then generateCombinations (List.replicate ndim (deg : ℤ)) true
  else []

/-- `get_poly` (taylor_model_bounding.hpp:113-142). -/
def getPoly {C : Type} [Cf C] (tpol : GDual C) : Res (List C × List (List ℕ)) := do
  let r ← (polyCombs tpol.symbolSetSize tpol.degree).foldlM (fun (acc : List C × List (List ℕ)) (exps : List ℕ) => do
    let cf ← tpol.findCf exps
    .ok (if !Cf.beq cf Cf.zero then (acc.1 ++ [cf], acc.2 ++ [exps]) else acc)) ([], [])
  .ok r

/-- `get_ndim` (taylor_model_bounding.hpp:159-178). -/
def getNdim {K : Type} (coeffs : List K) (exps : List (List ℕ)) : Res ℕ :=
  match coeffs, exps with
  | [], _ => .ok 0
  | _, [] => .ok 0
  | _, e0 :: _ =>
    if coeffs.length ≠ exps.length then .error .invalidArgument
    else if exps.all fun row => row.length = e0.length then .ok e0.length
    else .error .invalidArgument

/-- `get_max_degrees` (taylor_model_bounding.hpp:200-228). -/
def getMaxDegrees (exponents : List (List ℕ)) (ndim : ℕ) : Res (List ℕ) :=
  if ndim > 1 then
    match exponents with
    | [] => .error .undefinedBehaviour
    | e0 :: _ =>
      if exponents.all fun row => row.length = e0.length then
        .ok (exponents.foldl (fun md row => List.zipWith max md row) (List.replicate e0.length 0))
      else .error .invalidArgument
  else if ndim = 1 then .ok [exponents.foldl (fun md row => row.foldl max md) 0]
  else .ok [0]

/-- `get_coefficient` (taylor_model_bounding.hpp:245-254). -/
def getCoefficient {K : Type} [Zero K] (comb : List ℕ) : List K → List (List ℕ) → Res K
  | _, [] => .ok 0
  | c :: cs, e :: es => if e = comb then .ok c else getCoefficient comb cs es
  | [], e :: es => if e = comb then .error .undefinedBehaviour else getCoefficient comb [] es

/-! ### Matrices -/

/-- `std::vector<std::vector<double>>`. -/
abbrev Mat (K : Type) := List (List K)

/-- A matrix given by its entries: the loops that fill a matrix of known size. -/
def Mat.ofFn {K : Type} (m n : ℕ) (f : ℕ → ℕ → K) : Mat K := (List.range m).map fun i => (List.range n).map fun j => f i j

/-- `A[i][j]`. -/
def Mat.at {K : Type} (A : Mat K) (i j : ℕ) : Res K :=
  match A[i]? with
  | none => .error .undefinedBehaviour
  | some row => match row[j]? with
    | none => .error .undefinedBehaviour
    | some x => .ok x

/-- `A[i][j] = v`. -/
def Mat.set {K : Type} (A : Mat K) (i j : ℕ) (v : K) : Res (Mat K) :=
  match A[i]? with
  | none => .error .undefinedBehaviour
  | some row => if j < row.length then .ok (List.set A i (List.set row j v)) else .error .undefinedBehaviour

/-- `A[0].size()`. -/
def Mat.cols {K : Type} (A : Mat K) : Res ℕ :=
  match A with
  | [] => .error .undefinedBehaviour
  | row :: _ => .ok row.length

section numbers
variable {K : Type} [Zero K] [One K] [Add K] [Sub K] [Mul K] [Div K] [Pow K ℕ] [NatCast K] [DecidableEq K]

/-- `matmul` (taylor_model_utilities.hpp:55-71). -/
def matmul (A B : Mat K) : Res (Mat K) := do
  let n ← B.cols
  let p ← A.cols
  (List.range A.length).mapM fun (i : ℕ) => (List.range n).mapM fun (j : ℕ) =>
    (List.range p).foldlM (fun (c : K) (k : ℕ) => do
      let a ← A.at i k
      let b ← B.at k j
      .ok (c + a * b)) 0

/-- `transpose` (taylor_model_utilities.hpp:83-92). -/
def transpose (M : Mat K) : Res (Mat K) := do
  let cols ← M.cols
  (List.range cols).mapM fun (j : ℕ) => (List.range M.length).mapM fun (i : ℕ) => M.at i j

/-- Row and column of an exponent vector in the coefficient matrix (taylor_model_bounding.hpp:300-309). -/
def colIndex (maxDegrees comb : List ℕ) : ℕ :=
  ((comb.zip maxDegrees).tail.foldl (fun (s : ℕ × ℕ) (x : ℕ × ℕ) => (s.1 + x.1 * s.2, s.2 * (x.2 + 1))) (0, 1)).1

/-- `get_a_matrix_vec` (taylor_model_bounding.hpp:277-319). -/
def getAMatrix (coeffs : List K) (exps : List (List ℕ)) : Res (Mat K) := do
  let ndim ← getNdim coeffs exps
  let maxDegrees ← getMaxDegrees exps ndim
  let lStar := (maxDegrees.tail.take (ndim - 1)).foldl (fun l d => l * (d + 1)) 1
  let A : Mat K := List.replicate (maxDegrees.headD 0 + 1) (List.replicate lStar 0)
  (generateCombinations (maxDegrees.map Int.ofNat) false).foldlM (fun (A : Mat K) (comb : List ℕ) => do
    let a ← getCoefficient comb coeffs exps
    A.set (comb.headD 0) (colIndex maxDegrees comb) a) A

/-- The loop of `binomial` (taylor_model_bounding.hpp:343-347), in `unsigned long long`. -/
def binomialLoop (n k : ℕ) : ℕ := (List.range' 1 k).foldl (fun res i => res * (n - (k - i)) % 2 ^ 64 / i) 1

/-- `binomial` (taylor_model_bounding.hpp:337-349). -/
def binomial (n k : ℤ) : ℕ :=
  if k < 0 ∨ k > n then 0
  else if k = 0 ∨ k = n then 1
  else if k > n - k then binomialLoop n.toNat (n - k).toNat
  else binomialLoop n.toNat k.toNat

/-- `binom_product` (taylor_model_bounding.hpp:369-378). -/
def binomProduct (n k : List ℤ) : Res ℕ :=
  if n.length ≠ k.length then .error .runtimeError
  else .ok ((n.zip k).foldl (fun r x => r * binomial x.1 x.2 % 2 ^ 64) 1)

/-- `max_degrees[dim]`, unchecked. -/
def degAt (maxDegrees : List ℕ) (dim : ℕ) : Res ℕ :=
  match maxDegrees[dim]? with
  | none => .error .undefinedBehaviour
  | some n => .ok n

/-- `get_d_acc_matrix` (taylor_model_bounding.hpp:397-413). A binomial coefficient that has become 0 modulo 2^64 gives `inf`. -/
def getDAcc (maxDegrees : List ℕ) (dim : ℕ) : Res (Mat K) :=
  match maxDegrees[dim]? with
  | none => .error .outOfRange
  | some n =>
    if (List.range (n + 1)).any fun k => binomial n k = 0 then .error .nonFinite
    else .ok (Mat.ofFn (n + 1) (n + 1) fun i j => if i = j then 1 / (binomial n i : K) else 0)

/-- `get_d_matrix` (taylor_model_bounding.hpp:436-448). -/
def getD (maxDegrees : List ℕ) (dim : ℕ) (t : K) : Res (Mat K) := do
  let n ← degAt maxDegrees dim
  .ok (Mat.ofFn (n + 1) (n + 1) fun i j => if i = j then (if i = 0 then 1 else t ^ i) else 0)

/-- `get_lower_pascal_matrix` (taylor_model_bounding.hpp:470-483). -/
def getPascal (maxDegrees : List ℕ) (dim : ℕ) : Res (Mat K) := do
  let n ← degAt maxDegrees dim
  .ok (Mat.ofFn (n + 1) (n + 1) fun i j => if j ≤ i then (binomial i j : K) else 0)

/-- `get_q_matrix` (taylor_model_bounding.hpp:532-558) with `build_dim_to_var_map` (494-503): dimension `dim` is the entry number `dim`
of the `unordered_map` in iteration order. -/
def getQ (maxDegrees : List ℕ) (domain : List (String × Itv K)) (dim : ℕ) : Res (Mat K) :=
  if dim < maxDegrees.length then
    match domain[dim]? with
    | none => .error .runtimeError
    | some (_, ab) =>
      if ab.lo = 0 then getD maxDegrees dim ab.hi
      else do
        let D2 ← getD maxDegrees dim ((ab.hi - ab.lo) / ab.lo)
        let P ← getPascal maxDegrees dim
        let D1 ← getD maxDegrees dim ab.lo
        let PT ← transpose P
        let temp ← matmul D2 PT
        matmul temp D1
  else .error .outOfRange

/-- Product of `max_degrees[m] + 1` over the dimensions satisfying `keep` (taylor_model_bounding.hpp:611-616, 626-631). -/
def sizeProd (maxDegrees : List ℕ) (keep : ℕ → Bool) : ℕ :=
  (List.range maxDegrees.length).foldl (fun l m => if keep m then l * (maxDegrees.getD m 0 + 1) else l) 1

/-- `get_cycled_2d_array_vec` (taylor_model_bounding.hpp:595-639). -/
def cycle (arr : Mat K) (maxDegrees : List ℕ) (dim : ℕ) : Res (Mat K) := do
  let numCols ← arr.cols
  let ndim := maxDegrees.length
  if ndim = 1 then .ok arr
  else if ndim = 0 then .error .undefinedBehaviour
  else do
    let next := (dim + 1) % ndim
    let nNext := maxDegrees.getD next 0 + 1
    let stride := sizeProd maxDegrees fun m => m ≠ dim % ndim && m ≠ next
    let A : Mat K := List.replicate nNext (List.replicate (sizeProd maxDegrees fun m => m ≠ next) 0)
    ((List.range arr.length).flatMap fun (i : ℕ) => (List.range numCols).map fun (j : ℕ) => (i, j)).foldlM
      (fun (A : Mat K) (ij : ℕ × ℕ) => do
        let v ← arr.at ij.1 ij.2
        A.set (ij.2 % nNext) (ij.2 / nNext + ij.1 * stride) v) A

/-- One iteration of the loop of `get_titi_base_lambda_generalbox` (taylor_model_bounding.hpp:685-697). -/
def lambdaStep (maxDegrees : List ℕ) (domain : List (String × Itv K)) (L : Mat K) (dim : ℕ) : Res (Mat K) := do
  let dacc ← getDAcc maxDegrees dim
  let Q ← getQ maxDegrees domain dim
  let temp ← matmul dacc Q
  let lam ← matmul temp L
  cycle lam maxDegrees dim

/-- `get_titi_base_lambda_generalbox` (taylor_model_bounding.hpp:660-701). -/
def baseLambda (coeffs : List K) (exps : List (List ℕ)) (domain : List (String × Itv K)) : Res (Mat K) := do
  let ndim ← getNdim coeffs exps
  let A ← getAMatrix coeffs exps
  let maxDegrees ← getMaxDegrees exps ndim
  (List.range ndim).foldlM (lambdaStep maxDegrees domain) A

/-- One iteration of the loop of `get_titi_bernstein_patch_ndim_generalbox` (taylor_model_bounding.hpp:743-755). -/
def patchStep (maxDegrees : List ℕ) (L : Mat K) (dim : ℕ) : Res (Mat K) := do
  let P ← getPascal maxDegrees dim
  let lam ← matmul P L
  cycle lam maxDegrees dim

/-- `get_titi_bernstein_patch_ndim_generalbox` (taylor_model_bounding.hpp:719-758). -/
def bernsteinPatch (coeffs : List K) (exps : List (List ℕ)) (domain : List (String × Itv K)) : Res (Mat K) := do
  let ndim ← getNdim coeffs exps
  let L ← baseLambda coeffs exps domain
  let maxDegrees ← getMaxDegrees exps ndim
  (List.range ndim).foldlM (patchStep maxDegrees) L

end numbers
end Bounding
end Audi
