import Mathlib.Data.List.Basic

/-!
# Model of io.hpp and of the stream operators of Taylor models and their maps

Streams are lists of characters that grow at the end. Values with an `operator<<` of their own (numbers, strings, gduals) are represented by the characters which it writes.
-/

namespace Audi.Io

/-- Strings and the contents of streams. -/
abbrev Str := List Char

/-- `AUDI_MAX_OUTPUT_LENGTH` (io.hpp:42). -/
def maxOutput : ℕ := 5

/-- The overload for `bool` (io.hpp:60-67). -/
def streamBool (os : Str) (b : Bool) : Str := if b then os ++ "true".toList else os ++ "false".toList

/-- The loop of io.hpp:75-80 from index `i` on, `fuel` iterations being left; `v` holds the outputs of the elements. -/
def vecLoop (v : List Str) (os : Str) (i : ℕ) : ℕ → Str
  | 0 => os
  | fuel + 1 =>
    let os := os ++ v.getD i []
    vecLoop v (if i ≠ v.length - 1 then os ++ ", ".toList else os) (i + 1) fuel

/-- The loop of io.hpp:84-86: the elements from `i` on, each one followed by a comma. -/
def vecLoopLong (v : List Str) (os : Str) (i : ℕ) : ℕ → Str
  | 0 => os
  | fuel + 1 => vecLoopLong v (os ++ v.getD i [] ++ ", ".toList) (i + 1) fuel

/-- The overload for vectors (io.hpp:69-89). -/
def streamVec (os : Str) (v : List Str) : Str :=
  if v.length ≤ maxOutput then vecLoop v (os ++ ['[']) 0 v.length ++ [']']
  else vecLoopLong v (os ++ ['[']) 0 maxOutput ++ "... ]".toList

/-- The overload for pairs (io.hpp:91-95). -/
def streamPair (os : Str) (a b : Str) : Str := os ++ ['('] ++ a ++ [','] ++ b ++ [')']

/-- The loop of io.hpp:102-112. -/
def mapLoop (os : Str) (counter : ℕ) : List (Str × Str) → Str
  | [] => os
  | (k, x) :: it =>
    if counter = maxOutput then os ++ "...".toList
    else
      let os := os ++ k ++ " : ".toList ++ x
      mapLoop (if it = [] then os else os ++ ",  ".toList) (counter + 1) it

/-- The overload for maps (io.hpp:97-114); the entries in the order of the keys. -/
def streamMap (os : Str) (m : List (Str × Str)) : Str := mapLoop (os ++ ['{']) 0 m ++ ['}']

/-- The overload for several arguments (io.hpp:116-121), of which at least one is needed. -/
def streamArgs (os : Str) : List Str → Str
  | [] => os
  | x :: args => streamArgs (os ++ x) args

/-- The loop of the stream operator for `var_map_d` (taylor_model_utilities.hpp:108-113); the entries in the order of iteration, the values as they are written. -/
def mapDLoop (os : Str) (first : Bool) : List (Str × Str) → Str
  | [] => os
  | (key, value) :: m =>
    let os := if !first then os ++ ", ".toList else os
    mapDLoop (os ++ key ++ ": ".toList ++ value) false m

/-- The stream operator for `var_map_d` (taylor_model_utilities.hpp:105-116). -/
def streamMapD (os : Str) (m : List (Str × Str)) : Str := mapDLoop (os ++ ['{']) true m ++ ['}']

/-- The loop of the stream operator for `var_map_i` (taylor_model_utilities.hpp:134-140). -/
def mapILoop (os : Str) (first : Bool) : List (Str × Str × Str) → Str
  | [] => os
  | (key, lo, hi) :: m =>
    let os := if !first then os ++ ", ".toList else os
    mapILoop (os ++ key ++ ":".toList ++ "[".toList ++ lo ++ ", ".toList ++ hi ++ "]".toList) false m

/-- The stream operator for `var_map_i` (taylor_model_utilities.hpp:131-143). -/
def streamMapI (os : Str) (m : List (Str × Str × Str)) : Str := mapILoop (os ++ ['{']) true m ++ ['}']

/-- The stream operator of Taylor models (taylor_model.hpp:1096-1102). -/
def streamTM (os : Str) (tpol lo hi : Str) (exp : List (Str × Str)) (dom : List (Str × Str × Str)) : Str :=
  let os := os ++ "Taylor Polynomial:\n".toList ++ tpol ++ "\nRemainder Bound: [".toList ++ lo ++ ", ".toList ++ hi ++ "]".toList
  let os := streamMapD (os ++ "\nExpansion Point: ".toList) exp
  streamMapI (os ++ "\nDomain: ".toList) dom

/-- `table` (io.hpp:133-192). -/
structure Table where
  indent : Str
  headers : List Str
  sizes : List ℕ
  rows : List (List Str)

/-- The exceptions of `table`. -/
inductive Exn
  | invalidArgument

namespace Table

/-- The constructor (io.hpp:140-145). -/
def new (headers : List Str) (indent : Str) : Table := ⟨indent, headers, headers.map List.length, []⟩

/-- `std::transform` of the new row and the column widths (io.hpp:160-161), which writes as many widths as the row has elements. -/
def grow : List Str → List ℕ → List ℕ
  | s :: row, n :: sizes => max s.length n :: grow row sizes
  | _, sizes => sizes

/-- `add_row` (io.hpp:149-162): the table afterwards, and the exception, if one is thrown. -/
def addRow (t : Table) (row : List Str) : Table × Option Exn :=
  if row.length ≠ t.headers.length then (t, some .invalidArgument)
  else (⟨t.indent, t.headers, grow row t.sizes, t.rows ++ [row]⟩, none)

/-- `print_row` (io.hpp:167-172). No outcome: a string is longer than the column, so that the unsigned difference wraps, or there are fewer widths than strings (undefined behaviour). -/
def printRow (os : Str) : List Str → List ℕ → Option Str
  | [], _ => some os
  | _ :: _, [] => none
  | s :: row, n :: sizes => if s.length ≤ n then printRow (os ++ s ++ List.replicate (n - s.length + 2) ' ') row sizes else none

/-- The loop over the rows (io.hpp:179-183). -/
def printRows (t : Table) (os : Str) : List (List Str) → Option Str
  | [] => some os
  | v :: rows => do
    let os ← printRow (os ++ t.indent) v t.sizes
    printRows t (os ++ ['\n']) rows

/-- The stream operator (io.hpp:164-185). -/
def print (os : Str) (t : Table) : Option Str := do
  let os ← printRow (os ++ t.indent) t.headers t.sizes
  let os := os ++ ['\n'] ++ t.indent
  let os := t.sizes.foldl (fun os n => os ++ List.replicate (n + 2) '-') os
  t.printRows (os ++ ['\n']) t.rows

end Table
end Audi.Io
