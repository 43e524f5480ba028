import Verif.Model.TaylorModelFunctions

/-! # Model of small helper functions of the Taylor models -/

namespace Audi.TM

/-- The loop of `factorial2(int)` (taylor_model_functions.hpp:87-89); `result` is a `long long`, whose overflow is undefined behaviour. -/
def fact2IntLoop (result : ℤ) : ℕ → Res ℤ
  | 0 => .ok result
  | k + 1 => if result * (k + 1 : ℕ) < 2 ^ 63 then fact2IntLoop (result * (k + 1 : ℕ)) (k - 1) else .error .undefinedBehaviour

/-- `factorial2(int)` (taylor_model_functions.hpp:78-91). -/
def fact2Int (n : ℤ) : Res ℤ :=
  if n < -1 then .error .invalidArgument
  else if n = 0 ∨ n = -1 then .ok 1
  else fact2IntLoop 1 n.toNat

/-- `std::rotate(first, middle, last)` with `middle = first + k`: the elements from `middle` on come first. -/
def stdRotate {α : Type} (k : ℕ) (l : List α) : List α := l.drop k ++ l.take k

/-- `shift_indices` (taylor_model_bounding.hpp:572-578). -/
def shiftIndices {α : Type} (indices : List α) : List α := if indices = [] then [] else stdRotate 1 indices

/-- The loop of `build_dim_to_var_map` (taylor_model_bounding.hpp:498-501), with the next dimension `dim`. The keys are new, so that `operator[]` adds entries. -/
def dimLoop {α : Type} (m : List (ℕ × α)) (dim : ℕ) : List α → List (ℕ × α)
  | [] => m
  | p :: dom => dimLoop (m ++ [(dim, p)]) (dim + 1) dom

/-- `build_dim_to_var_map` (taylor_model_bounding.hpp:494-503); the domain in the order of iteration. -/
def buildDimToVarMap {α : Type} (domain : List α) : List (ℕ × α) := dimLoop [] 0 domain

/-- `flatten` (taylor_model.hpp:337-343). -/
def flatten {α : Type} (orig : List (List α)) : List α := orig.foldl (fun ret v => ret ++ v) []

end Audi.TM
