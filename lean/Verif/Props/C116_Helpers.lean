import Verif.Model.Helpers
import Mathlib.Data.Nat.Factorial.DoubleFactorial
import Mathlib.Data.List.Rotate
import Mathlib.Tactic.NormNum

/-!
# C116: helper functions of the Taylor models
-/

namespace Audi.TM

open scoped Nat

theorem fact2IntLoop_eq (k : ℕ) : ∀ r : ℤ, 0 < r → fact2IntLoop r k = if r * (k‼ : ℕ) < 2 ^ 63 ∨ k = 0 then .ok (r * (k‼ : ℕ)) else .error .undefinedBehaviour := by
  induction k using Nat.strong_induction_on with
  | _ k ih =>
    intro r hr
    rcases k with _ | _ | k
    · simp [fact2IntLoop]
    · simp only [fact2IntLoop, Nat.doubleFactorial, zero_add, Nat.zero_sub]
      simp
    · have hpos : 0 < r * ((k + 2 : ℕ) : ℤ) := mul_pos hr (by positivity)
      have h1 := ih k (by omega) (r * ((k + 2 : ℕ) : ℤ)) hpos
      have hd : r * (((k + 2)‼ : ℕ) : ℤ) = r * ((k + 2 : ℕ) : ℤ) * ((k‼ : ℕ) : ℤ) := by rw [Nat.doubleFactorial]; push_cast; ring
      have hle : r * ((k + 2 : ℕ) : ℤ) ≤ r * ((k + 2 : ℕ) : ℤ) * ((k‼ : ℕ) : ℤ) := le_mul_of_one_le_right hpos.le (by exact_mod_cast Nat.doubleFactorial_pos k)
      rw [fact2IntLoop, show k + 1 - 1 = k from rfl, show k + 1 + 1 = k + 2 from rfl, hd, h1]
      by_cases hc : r * ((k + 2 : ℕ) : ℤ) * ((k‼ : ℕ) : ℤ) < 2 ^ 63
      · rw [if_pos (hle.trans_lt hc), if_pos (Or.inl hc), if_pos (Or.inl hc)]
      · by_cases hk : k = 0
        · subst hk
          have : ¬ r * ((0 + 2 : ℕ) : ℤ) < 2 ^ 63 := by simpa using hc
          rw [if_neg this, if_neg (by simpa using hc)]
        · have e1 : ¬(r * ((k + 2 : ℕ) : ℤ) * ((k‼ : ℕ) : ℤ) < 2 ^ 63 ∨ k = 0) := not_or.2 ⟨hc, hk⟩
          have e2 : ¬(r * ((k + 2 : ℕ) : ℤ) * ((k‼ : ℕ) : ℤ) < 2 ^ 63 ∨ k + 2 = 0) := not_or.2 ⟨hc, by omega⟩
          rw [if_neg e1, if_neg e2, ite_self]

/-- **C116 (partial, `factorial2(int)`).** An argument below -1 throws `std::invalid_argument`. From -1 to 33 the result is the double factorial, with the value 1 at -1, and the overload for `unsigned` gives the same for the arguments that are not negative. From 34 on
the product overflows, which is undefined behaviour.

Missing: the double factorials from 34 on (`C116_factorial2_counterexample`). -/
theorem C116_factorial2_partial (n : ℤ) :
    (n < -1 → fact2Int n = .error .invalidArgument) ∧ fact2Int (-1) = .ok 1 ∧ (∀ k : ℕ, k ≤ 33 → fact2Int k = .ok (k‼ : ℕ) ∧ fact2 k = .ok k‼) ∧
    ∀ k : ℕ, 34 ≤ k → fact2Int k = .error .undefinedBehaviour := by
  have hmain : ∀ k : ℕ, k ≠ 0 → fact2Int k = fact2IntLoop 1 k := fun k hk => by
    rw [fact2Int, if_neg (by omega), if_neg (by omega)]; simp
  have hmono : ∀ j k : ℕ, j‼ ≤ (j + 2 * k)‼ := fun j k => by
    induction k with
    | zero => exact le_rfl
    | succ k ih =>
      refine ih.trans ?_
      rw [show j + 2 * (k + 1) = j + 2 * k + 2 by ring, Nat.doubleFactorial]
      exact Nat.le_mul_of_pos_left _ (by omega)
  have h33 : (33‼ : ℕ) < 2 ^ 63 := by simp [Nat.doubleFactorial]
  have h32 : (32‼ : ℕ) < 2 ^ 63 := by simp [Nat.doubleFactorial]
  have h34 : 2 ^ 63 ≤ (34‼ : ℕ) := by simp [Nat.doubleFactorial]
  have h35 : 2 ^ 63 ≤ (35‼ : ℕ) := by simp [Nat.doubleFactorial]
  have hloop : ∀ k : ℕ, fact2Loop k = k‼ := fun k => by
    induction k using Nat.strong_induction_on with
    | _ k ih =>
      rcases k with _ | _ | k
      · rfl
      · rfl
      · rw [fact2Loop, ih k (by omega), Nat.doubleFactorial]
  refine ⟨fun h => if_pos h, rfl, fun k hk => ?_, fun k hk => ?_⟩
  · have hlt : k‼ < 2 ^ 63 := by
      rcases Nat.even_or_odd' k with ⟨j, rfl | rfl⟩
      · have := hmono (2 * j) (16 - j)
        rw [show 2 * j + 2 * (16 - j) = 32 by omega] at this
        omega
      · have := hmono (2 * j + 1) (16 - j)
        rw [show 2 * j + 1 + 2 * (16 - j) = 33 by omega] at this
        omega
    refine ⟨?_, ?_⟩
    · by_cases h0 : k = 0
      · subst h0; rfl
      · rw [hmain k h0, fact2IntLoop_eq k 1 one_pos, one_mul, if_pos (Or.inl (by exact_mod_cast hlt))]
    · have : (toInt32 (k : ℤ)).toNat = k := by unfold toInt32; omega
      rw [fact2, this, hloop]
      exact if_pos hlt
  · have hge : 2 ^ 63 ≤ k‼ := by
      rcases Nat.even_or_odd' k with ⟨j, rfl | rfl⟩
      · have := hmono 34 (j - 17)
        rw [show 34 + 2 * (j - 17) = 2 * j by omega] at this
        omega
      · have := hmono 35 (j - 17)
        rw [show 35 + 2 * (j - 17) = 2 * j + 1 by omega] at this
        omega
    rw [hmain k (by omega), fact2IntLoop_eq k 1 one_pos, one_mul, if_neg]
    rintro (h | h)
    · exact absurd (by exact_mod_cast h : k‼ < 2 ^ 63) (by omega)
    · omega

/-- **C116 (counterexample).** `factorial2(34)` has no defined result, although the documentation only excludes arguments below -1. -/
theorem C116_factorial2_counterexample : fact2Int 34 = .error .undefinedBehaviour := (C116_factorial2_partial 0).2.2.2 34 le_rfl

/-- **C116 (`shift_indices`).** Entry `i` of the result is entry `i + 1` of the argument, cyclically. As many shifts as there are entries give the argument again. -/
theorem C116_shift {α : Type} (l : List α) : (shiftIndices l).length = l.length ∧ (∀ i, i < l.length → (shiftIndices l)[i]? = l[(i + 1) % l.length]?) ∧ shiftIndices^[l.length] l = l := by
  have h : ∀ l : List α, shiftIndices l = l.rotate 1 := fun l => by
    cases l with
    | nil => rfl
    | cons a l => simp [shiftIndices, stdRotate]
  have hi : ∀ k, shiftIndices^[k] l = l.rotate k := fun k => by
    induction k with
    | zero => simp
    | succ k ih => rw [Function.iterate_succ_apply', ih, h, List.rotate_rotate]
  refine ⟨by rw [h, List.length_rotate], fun i hl => by rw [h, List.getElem?_rotate hl], by rw [hi, List.rotate_length]⟩

theorem dimLoop_eq {α : Type} : ∀ (dom : List α) (m : List (ℕ × α)) (d : ℕ), dimLoop m d dom = m ++ (dom.zipIdx d).map fun p => (p.2, p.1)
  | [], m, d => by simp [dimLoop]
  | p :: dom, m, d => by rw [dimLoop, dimLoop_eq dom]; simp

/-- **C116 (`build_dim_to_var_map`).** The dimensions from 0 on are the keys, each one once, and dimension `i` has the `i`-th entry of the domain. -/
theorem C116_dimensions {α : Type} (dom : List α) : (buildDimToVarMap dom).map Prod.fst = List.range dom.length ∧ ∀ i, (buildDimToVarMap dom).lookup i = dom[i]? := by
  have h : buildDimToVarMap dom = (dom.zipIdx 0).map fun p => (p.2, p.1) := by rw [buildDimToVarMap, dimLoop_eq, List.nil_append]
  refine ⟨?_, fun i => ?_⟩
  · rw [h, List.map_map]
    exact (List.zipIdx_map_snd 0 dom).trans List.range_eq_range'.symm
  · rw [h]
    have : ∀ (l : List α) (d j : ℕ), ((l.zipIdx d).map fun p => (p.2, p.1)).lookup (d + j) = l[j]? := fun l => by
      induction l with
      | nil => intro d j; simp
      | cons a l ih =>
        intro d j
        cases j with
        | zero => simp
        | succ j =>
          have h1 : (d + (j + 1) == d) = false := by simp
          rw [List.zipIdx_cons, List.map_cons, List.lookup_cons, h1]
          simpa [Nat.add_assoc, Nat.add_comm 1 j] using ih (d + 1) j
    simpa using this dom 0 i

/-- **C116 (`flatten`).** Entry `j` of vector `i` comes after all the entries of the vectors before. Nothing else is there. -/
theorem C116_flatten {α : Type} (a b : List (List α)) (v : List α) :
    (flatten (a ++ v :: b)).length = (flatten a).length + v.length + (flatten b).length ∧ ∀ j, j < v.length → (flatten (a ++ v :: b))[(flatten a).length + j]? = v[j]? := by
  have h : ∀ l : List (List α), flatten l = l.flatten := fun l => by
    have : ∀ (l : List (List α)) (r : List α), l.foldl (fun ret v => ret ++ v) r = r ++ l.flatten := fun l => by
      induction l with
      | nil => intro r; simp
      | cons x l ih => intro r; rw [List.foldl_cons, ih]; simp
    rw [flatten, this, List.nil_append]
  simp only [h, List.flatten_append, List.flatten_cons, List.length_append]
  refine ⟨by omega, fun j hj => ?_⟩
  rw [List.getElem?_append_right (by omega), Nat.add_sub_cancel_left, List.getElem?_append_left hj]

end Audi.TM
