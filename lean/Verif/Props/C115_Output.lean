import Verif.Model.Io
import Mathlib.Data.List.Forall2
import Mathlib.Tactic.Ring
import Mathlib.Algebra.BigOperators.Group.List.Basic

/-!
# C115: the output of vectors, maps and tables (io.hpp)
-/

namespace Audi.Io

/-- The strings one after the other, `sep` between each two of them. -/
def joined (sep : Str) : List Str → Str
  | [] => []
  | [x] => x
  | x :: y :: l => x ++ sep ++ joined sep (y :: l)

theorem vecLoop_eq (w : List Str) : ∀ (u : List Str) (os : Str), vecLoop (u ++ w) os u.length w.length = os ++ joined ", ".toList w := by
  induction w with
  | nil => intro u os; simp [vecLoop, joined]
  | cons x w ih =>
    intro u os
    have h1 : (u ++ x :: w).getD u.length [] = x := by simp
    have h2 := ih (u ++ [x])
    simp only [List.append_assoc, List.singleton_append, List.length_append, List.length_singleton] at h2
    cases w with
    | nil => simp [vecLoop, joined]
    | cons y w =>
      have h3 : u.length ≠ (u ++ x :: y :: w).length - 1 := by simp
      rw [List.length_cons, vecLoop, h1]
      simp only [if_pos h3]
      rw [h2]
      simp [joined]

theorem vecLoopLong_eq (w r : List Str) : ∀ (u : List Str) (os : Str), vecLoopLong (u ++ w ++ r) os u.length w.length = os ++ (w.map (· ++ ", ".toList)).flatten := by
  induction w with
  | nil => intro u os; simp [vecLoopLong]
  | cons x w ih =>
    intro u os
    have h2 := ih (u ++ [x])
    simp only [List.append_assoc, List.cons_append, List.nil_append, List.length_append, List.length_singleton] at h2
    rw [List.length_cons, vecLoopLong]
    simp only [List.append_assoc, List.cons_append]
    rw [h2]
    simp

/-- **C115 (vectors).** A vector of at most five elements is written as `[a, b, c]`, a longer one as `[a, b, c, d, e, ... ]` with its first five elements. What has been written before stays. -/
theorem C115_vector (os : Str) (v : List Str) :
    (v.length ≤ 5 → streamVec os v = os ++ "[".toList ++ joined ", ".toList v ++ "]".toList) ∧
    (5 < v.length → streamVec os v = os ++ "[".toList ++ joined ", ".toList (v.take 5 ++ ["... ".toList]) ++ "]".toList) := by
  refine ⟨fun h => ?_, fun h => ?_⟩
  · rw [streamVec, if_pos (show v.length ≤ maxOutput from h)]
    have := vecLoop_eq v [] (os ++ ['['])
    simp only [List.nil_append, List.length_nil] at this
    rw [this]; simp
  · rw [streamVec, if_neg (by simpa [maxOutput] using h)]
    have := vecLoopLong_eq (v.take 5) (v.drop 5) [] (os ++ ['['])
    rw [List.nil_append, List.take_append_drop, List.length_take, min_eq_left h.le] at this
    rw [show maxOutput = 5 from rfl]
    rw [show vecLoopLong v (os ++ ['[']) 0 5 = _ from this]
    have hj : ∀ l : List Str, joined ", ".toList (l ++ ["... ".toList]) = (l.map (· ++ ", ".toList)).flatten ++ "... ".toList := fun l => by
      induction l with
      | nil => simp [joined]
      | cons x l ih =>
        cases l with
        | nil => simp [joined]
        | cons y l => simp only [List.cons_append, joined] at ih ⊢; rw [ih]; simp
    rw [hj]
    simp

theorem joined_split {s t r r' : Str} (hs : ',' ∉ s) (ht : ',' ∉ t) (h : s ++ ',' :: r = t ++ ',' :: r') : s = t ∧ r = r' := by
  induction s generalizing t with
  | nil =>
    cases t with
    | nil => simpa using h
    | cons c t => simp only [List.nil_append, List.cons_append, List.cons.injEq] at h; exact absurd (h.1 ▸ List.mem_cons_self) ht
  | cons c s ih =>
    cases t with
    | nil => simp only [List.nil_append, List.cons_append, List.cons.injEq] at h; exact absurd (h.1 ▸ List.mem_cons_self) hs
    | cons d t =>
      simp only [List.cons_append, List.cons.injEq] at h
      obtain ⟨h1, h2⟩ := ih (fun hm => hs (List.mem_cons_of_mem _ hm)) (fun hm => ht (List.mem_cons_of_mem _ hm)) h.2
      exact ⟨by rw [h.1, h1], h2⟩

theorem joined_inj {v w : List Str} (hv : ∀ x ∈ v, ',' ∉ x ∧ x ≠ []) (hw : ∀ x ∈ w, ',' ∉ x ∧ x ≠ []) (h : joined ", ".toList v = joined ", ".toList w) : v = w := by
  have e : ", ".toList = [',', ' '] := rfl
  rw [e] at h
  induction v generalizing w with
  | nil =>
    cases w with
    | nil => rfl
    | cons x w =>
      cases w with
      | nil => exact absurd h.symm (hw x (by simp)).2
      | cons y w => simp [joined] at h
  | cons x v ih =>
    have hx := hv x (by simp)
    cases w with
    | nil =>
      cases v with
      | nil => exact absurd h hx.2
      | cons y v => simp [joined] at h
    | cons y w =>
      have hy := hw y (by simp)
      cases v with
      | nil =>
        cases w with
        | nil => simpa [joined] using h
        | cons z w =>
          refine absurd ?_ hx.1
          simp only [joined] at h
          rw [h]; simp
      | cons z v =>
        cases w with
        | nil =>
          refine absurd ?_ hy.1
          simp only [joined] at h
          rw [← h]; simp
        | cons z' w =>
          simp only [joined, List.append_assoc, List.cons_append, List.nil_append] at h
          obtain ⟨h1, h2⟩ := joined_split hx.1 hy.1 h
          rw [h1, ih (fun a ha => hv a (List.mem_cons_of_mem _ ha)) (fun a ha => hw a (List.mem_cons_of_mem _ ha)) (by simpa using h2)]

/-- **C115 (partial, vectors can be told apart).** Different vectors of at most five elements are written differently, if the elements are written without commas (as numbers are) and not as nothing. A vector of more than
five elements is not written like one of at most five, if no element is written with a blank at the end.

Missing: longer vectors (`C115_vector_counterexample`), elements written with commas (`C115_comma_counterexample`). -/
theorem C115_vector_unique_partial {os : Str} {v w : List Str} (hv : ∀ x ∈ v, ',' ∉ x ∧ x ≠ [] ∧ x.getLast? ≠ some ' ') (hw : ∀ x ∈ w, ',' ∉ x ∧ x ≠ [] ∧ x.getLast? ≠ some ' ')
    (hl : v.length ≤ 5) (h : streamVec os v = streamVec os w) : v = w := by
  have hv' : ∀ x ∈ v, ',' ∉ x ∧ x ≠ [] := fun x hx => ⟨(hv x hx).1, (hv x hx).2.1⟩
  rw [(C115_vector os v).1 hl] at h
  by_cases hl' : w.length ≤ 5
  · rw [(C115_vector os w).1 hl'] at h
    simp only [List.append_assoc, List.append_cancel_left_eq] at h
    exact joined_inj hv' (fun x hx => ⟨(hw x hx).1, (hw x hx).2.1⟩) (List.append_cancel_right h)
  · exfalso
    rw [(C115_vector os w).2 (not_le.1 hl')] at h
    simp only [List.append_assoc, List.append_cancel_left_eq] at h
    have := joined_inj hv' (fun x hx => by
      rcases List.mem_append.1 hx with hx | hx
      · exact ⟨(hw x (List.mem_of_mem_take hx)).1, (hw x (List.mem_of_mem_take hx)).2.1⟩
      · obtain rfl : x = "... ".toList := by simpa using hx
        exact ⟨by decide, by decide⟩) (List.append_cancel_right h)
    exact (hv "... ".toList (by rw [this]; simp)).2.2 (by decide)

/-- **C115 (counterexample, long vectors).** The vectors 1, 2, 3, 4, 5, 6 and 1, 2, 3, 4, 5, 7 are written alike. -/
theorem C115_vector_counterexample : ∃ v w : List Str, v ≠ w ∧ v.length = 6 ∧ w.length = 6 ∧ (∀ x ∈ v ++ w, x.length = 1) ∧ ∀ os, streamVec os v = streamVec os w := by
  refine ⟨[['1'], ['2'], ['3'], ['4'], ['5'], ['6']], [['1'], ['2'], ['3'], ['4'], ['5'], ['7']], by decide, rfl, rfl, by decide, fun os => ?_⟩
  rw [(C115_vector os _).2 (by decide), (C115_vector os _).2 (by decide)]
  rfl

/-- **C115 (counterexample, commas).** A vector of the two strings `a` and `b` is written like the vector of the one string `a, b`. -/
theorem C115_comma_counterexample (os : Str) : streamVec os ["a".toList, "b".toList] = streamVec os ["a, b".toList] := by
  rw [(C115_vector os _).1 (by decide), (C115_vector os _).1 (by decide)]
  rfl

theorem mapLoop_eq (m : List (Str × Str)) : ∀ (os : Str) (k : ℕ), k ≤ 5 →
    mapLoop os k m = os ++ joined ",  ".toList ((m.take (5 - k)).map (fun p => p.1 ++ " : ".toList ++ p.2) ++ if 5 - k < m.length then ["...".toList] else []) := by
  induction m with
  | nil => intro os k _; simp [mapLoop, joined]
  | cons p m ih =>
    intro os k hk
    obtain ⟨a, b⟩ := p
    rcases Nat.lt_or_ge k 5 with h | h
    · rw [mapLoop, if_neg (show k ≠ maxOutput from h.ne)]
      obtain ⟨j, hj⟩ : ∃ j, 5 - k = j + 1 := ⟨4 - k, by omega⟩
      have hj' : 5 - (k + 1) = j := by omega
      simp only
      rw [ih _ _ h, hj, hj', List.take_succ_cons]
      cases m with
      | nil => simp [joined]
      | cons q m =>
        rw [if_neg (List.cons_ne_nil _ _)]
        have : (j + 1 < ((a, b) :: q :: m).length) = (j < (q :: m).length) := by simp
        simp only [this]
        cases j with
        | zero => simp [joined]
        | succ j => simp [joined, List.take_succ_cons]
    · obtain rfl : k = 5 := le_antisymm hk h
      rw [mapLoop, if_pos (show 5 = maxOutput from rfl)]
      simp [joined]

/-- **C115 (maps).** A map is written as `{k : a,  l : b}`, with its first five entries and `...` in place of the others. -/
theorem C115_map (os : Str) (m : List (Str × Str)) : streamMap os m =
    os ++ "{".toList ++ joined ",  ".toList ((m.take 5).map (fun p => p.1 ++ " : ".toList ++ p.2) ++ if 5 < m.length then ["...".toList] else []) ++ "}".toList := by
  rw [streamMap, mapLoop_eq m _ 0 (Nat.zero_le _)]
  simp

/-- **C115 (arguments).** Several arguments are written one after the other. -/
theorem C115_arguments (os : Str) (args : List Str) : streamArgs os args = os ++ args.flatten ∧
    (∀ a b, streamPair os a b = streamArgs os ["(".toList, a, ",".toList, b, ")".toList]) ∧ ∀ b, streamBool os b = os ++ (toString b).toList := by
  refine ⟨?_, fun a b => ?_, fun b => by cases b <;> rfl⟩
  · induction args generalizing os with
    | nil => simp [streamArgs]
    | cons x l ih => rw [streamArgs, ih]; simp
  · simp [streamPair, streamArgs]

/-! ## Tables -/

namespace Table

/-- The tables a program can build: by the constructor and by calls of `add_row`, whether they throw or not. -/
inductive Built (headers : List Str) (indent : Str) : Table → List (List Str) → Prop
  | new : Built headers indent (new headers indent) []
  | add (t rows row) : Built headers indent t rows → Built headers indent (t.addRow row).1 (if row.length = headers.length then rows ++ [row] else rows)

/-- The width of column `j`: the length of its longest string. -/
def width (headers : List Str) (rows : List (List Str)) (j : ℕ) : ℕ := (((headers :: rows).map fun r => (r.getD j []).length)).foldr max 0

/-- The row, each string followed by blanks up to two more than the width of its column. -/
def padded (headers : List Str) (rows : List (List Str)) (row : List Str) : Str :=
  ((List.range headers.length).map fun j => (row.getD j []) ++ List.replicate (width headers rows j + 2 - (row.getD j []).length) ' ').flatten

theorem width_append (headers : List Str) (rows : List (List Str)) (row : List Str) (j : ℕ) :
    width headers (rows ++ [row]) j = max (row.getD j []).length (width headers rows j) := by
  have : ∀ (l : List ℕ) (a : ℕ), (l ++ [a]).foldr max 0 = max a (l.foldr max 0) := fun l a => by
    induction l with
    | nil => simp
    | cons b l ih => rw [List.cons_append, List.foldr_cons, ih, List.foldr_cons]; omega
  rw [width, width, ← this]
  simp

theorem grow_eq : ∀ (row : List Str) (sizes : List ℕ), row.length = sizes.length →
    grow row sizes = (List.range sizes.length).map fun j => max (row.getD j []).length (sizes.getD j 0)
  | [], [], _ => rfl
  | s :: row, n :: sizes, h => by
    rw [grow, grow_eq row sizes (by simpa using h), List.length_cons, List.range_succ_eq_map]
    simp [Function.comp_def]

theorem Built.inv {headers : List Str} {indent : Str} {t : Table} {rows : List (List Str)} (h : Built headers indent t rows) :
    t.indent = indent ∧ t.headers = headers ∧ t.rows = rows ∧ (t.sizes = (List.range headers.length).map (width headers rows)) ∧ ∀ r ∈ rows, r.length = headers.length := by
  induction h with
  | new =>
    refine ⟨rfl, rfl, rfl, ?_, by simp⟩
    change headers.map List.length = _
    apply List.ext_getElem
    · simp
    · intro i h1 h2
      have : i < headers.length := by simpa using h1
      simp [width, List.getD_eq_getElem?_getD, this]
  | add t rows row _ ih =>
    obtain ⟨h1, h2, h3, h4, h5⟩ := ih
    by_cases hr : row.length = headers.length
    · rw [addRow, if_neg (by rw [h2, not_not]; exact hr), if_pos hr]
      refine ⟨h1, h2, by rw [h3], ?_, fun r hm => ?_⟩
      · change grow row t.sizes = _
        have hl : t.sizes.length = headers.length := by rw [h4]; simp
        rw [grow_eq row t.sizes (by rw [hl, hr]), hl]
        apply List.map_congr_left
        intro j hj
        have hj' : j < headers.length := by simpa using hj
        rw [width_append, h4]
        simp [List.getD_eq_getElem?_getD, hj']
      · rcases List.mem_append.1 hm with hm | hm
        · exact h5 r hm
        · obtain rfl : r = row := by simpa using hm
          exact hr
    · rw [addRow, if_pos (by rw [h2]; exact hr), if_neg hr]
      exact ⟨h1, h2, h3, h4, h5⟩

theorem printRow_eq : ∀ (row : List Str) (sizes : List ℕ) (os : Str), row.length = sizes.length → (∀ j, (row.getD j []).length ≤ sizes.getD j 0) →
    printRow os row sizes = some (os ++ ((List.range sizes.length).map fun j => (row.getD j []) ++ List.replicate (sizes.getD j 0 + 2 - (row.getD j []).length) ' ').flatten)
  | [], [], os, _, _ => by simp [printRow]
  | s :: row, n :: sizes, os, h, hle => by
    have h0 : s.length ≤ n := by simpa using hle 0
    rw [printRow, if_pos h0, printRow_eq row sizes _ (by simpa using h) (fun j => by simpa using hle (j + 1)), List.length_cons, List.range_succ_eq_map]
    have : n - s.length + 2 = n + 2 - s.length := by omega
    simp [Function.comp_def, this]

/-- Every string fits into its column. -/
theorem le_width {headers : List Str} {rows : List (List Str)} {r : List Str} (hr : r ∈ headers :: rows) (j : ℕ) : (r.getD j []).length ≤ width headers rows j := by
  have : ∀ (l : List ℕ) (a : ℕ), a ∈ l → a ≤ l.foldr max 0 := fun l a ha => by
    induction l with
    | nil => simp at ha
    | cons b l ih =>
      rw [List.foldr_cons]
      rcases List.mem_cons.1 ha with rfl | ha
      · exact le_max_left _ _
      · exact (ih ha).trans (le_max_right _ _)
  exact this _ _ (List.mem_map.2 ⟨r, hr, rfl⟩)

/-- **C115 (tables).** Whatever rows have been added, with or without exceptions: writing the table succeeds (no difference of lengths is negative, no width is missing). It writes the headers, a line, and the rows with the right number of strings
in the order of their addition. -/
theorem C115_table {headers : List Str} {indent : Str} {t : Table} {rows : List (List Str)} (h : Built headers indent t rows) (os : Str) :
    print os t = some (os ++ indent ++ padded headers rows headers ++ "\n".toList ++ indent ++ List.replicate (((List.range headers.length).map fun j => width headers rows j + 2).sum) '-' ++ "\n".toList ++
      (rows.map fun r => indent ++ padded headers rows r ++ "\n".toList).flatten) := by
  obtain ⟨h1, h2, h3, h4, h5⟩ := h.inv
  have hl : t.sizes.length = headers.length := by rw [h4]; simp
  have hg : ∀ j, j < headers.length → t.sizes.getD j 0 = width headers rows j := fun j hj => by rw [h4]; simp [List.getD_eq_getElem?_getD, hj]
  have row : ∀ r ∈ headers :: rows, ∀ os, printRow os r t.sizes = some (os ++ padded headers rows r) := fun r hr os => by
    have hrl : r.length = headers.length := by
      rcases List.mem_cons.1 hr with rfl | hr
      · rfl
      · exact h5 r hr
    rw [printRow_eq r t.sizes os (by rw [hl, hrl]) fun j => ?_, hl]
    · congr 2
      refine congrArg List.flatten (List.map_congr_left fun j hj => ?_)
      rw [hg j (by simpa using hj)]
    · by_cases hj : j < headers.length
      · rw [hg j hj]; exact le_width hr j
      · have : r.getD j [] = [] := by simp [List.getD_eq_getElem?_getD, List.getElem?_eq_none (show r.length ≤ j by omega)]
        rw [this]; exact Nat.zero_le _
  have lines : ∀ (l : List ℕ) (os : Str), l.foldl (fun os n => os ++ List.replicate (n + 2) '-') os = os ++ List.replicate ((l.map (· + 2)).sum) '-' := fun l => by
    induction l with
    | nil => intro os; simp
    | cons n l ih =>
      intro os
      rw [List.foldl_cons, ih, List.map_cons, List.sum_cons, List.append_assoc, List.replicate_append_replicate]
  have rest : ∀ (l : List (List Str)), (∀ r ∈ l, r ∈ rows) → ∀ os, printRows t os l = some (os ++ (l.map fun r => indent ++ padded headers rows r ++ "\n".toList).flatten) := fun l => by
    induction l with
    | nil => intro _ os; simp [printRows]
    | cons r l ih =>
      intro hm os
      rw [printRows, row r (List.mem_cons_of_mem _ (hm r (by simp)))]
      change printRows t _ l = _
      rw [ih (fun r hr => hm r (List.mem_cons_of_mem _ hr)), h1]
      simp
  rw [print, h2, row headers (by simp)]
  change printRows t (t.sizes.foldl _ _ ++ _) t.rows = _
  rw [h3, rest rows (fun _ hr => hr), lines, h1, h4, List.map_map]
  simp [Function.comp_def]

/-- **C115 (columns).** All rows are written with the same length, and string `j` of each of them begins at the same place. A column is no wider than its longest string, and no narrower. -/
theorem C115_columns {headers : List Str} {rows : List (List Str)} {r : List Str} (hr : r ∈ headers :: rows) :
    (padded headers rows r).length = ((List.range headers.length).map fun j => width headers rows j + 2).sum ∧
    (∀ j < headers.length, ∃ a b, padded headers rows r = a ++ r.getD j [] ++ b ∧ a.length = ((List.range j).map fun j => width headers rows j + 2).sum) ∧
    ∀ j, (r.getD j []).length ≤ width headers rows j ∧ ∃ r' ∈ headers :: rows, (r'.getD j []).length = width headers rows j := by
  have len : ∀ l : List ℕ, ((l.map fun j => (r.getD j []) ++ List.replicate (width headers rows j + 2 - (r.getD j []).length) ' ').flatten).length =
      (l.map fun j => width headers rows j + 2).sum := fun l => by
    induction l with
    | nil => rfl
    | cons j l ih =>
      have := le_width hr j
      rw [List.map_cons, List.flatten_cons, List.length_append, ih, List.map_cons, List.sum_cons, List.length_append, List.length_replicate]
      omega
  refine ⟨len _, fun j hj => ?_, fun j => ⟨le_width hr j, ?_⟩⟩
  · obtain ⟨k, hk⟩ : ∃ k, headers.length = j + (k + 1) := ⟨headers.length - j - 1, by omega⟩
    have e : ∃ b, padded headers rows r = ((List.range j).map fun j => (r.getD j []) ++ List.replicate (width headers rows j + 2 - (r.getD j []).length) ' ').flatten ++ (r.getD j [] ++ b) := by
      rw [padded, hk, List.range_add, List.map_append, List.flatten_append, List.range_succ_eq_map, List.map_cons, List.map_cons, List.flatten_cons, Nat.add_zero, List.append_assoc]
      exact ⟨_, rfl⟩
    obtain ⟨b, e⟩ := e
    exact ⟨_, b, by rw [e, List.append_assoc], len _⟩
  · have : ∀ l : List ℕ, l ≠ [] → l.foldr max 0 ∈ l := fun l hl => by
      induction l with
      | nil => exact absurd rfl hl
      | cons a l ih =>
        cases l with
        | nil => simp
        | cons b l =>
          rw [List.foldr_cons]
          rcases max_choice a ((b :: l).foldr max 0) with h | h
          · rw [h]; simp
          · rw [h]; exact List.mem_cons_of_mem _ (ih (by simp))
    obtain ⟨r', hr', he⟩ := List.mem_map.1 (this ((headers :: rows).map fun r => (r.getD j []).length) (by simp))
    exact ⟨r', hr', he⟩

/-- **C115 (rejected rows).** `add_row` throws if and only if the number of strings is not that of the headers; then the table is unchanged. -/
theorem C115_reject (t : Table) (row : List Str) :
    ((t.addRow row).2 = none ↔ row.length = t.headers.length) ∧ (row.length ≠ t.headers.length → t.addRow row = (t, some .invalidArgument)) := by
  rw [addRow]
  by_cases h : row.length = t.headers.length <;> simp [h]

/-- A table with two columns; the second row is rejected. -/
example : ∃ t, Built ["ab".toList, "c".toList] "> ".toList t [["1".toList, "222".toList]] := by
  have h := Built.add _ _ ["1".toList] (Built.add _ _ ["1".toList, "222".toList] (Built.new (headers := ["ab".toList, "c".toList]) (indent := "> ".toList)))
  exact ⟨_, h⟩

/-- Vectors that meet the hypotheses of `C115_vector_unique_partial`. -/
example : ∀ x ∈ ["1".toList, "22".toList], ',' ∉ x ∧ x ≠ [] ∧ x.getLast? ≠ some ' ' := by decide

end Table
end Audi.Io
