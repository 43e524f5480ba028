import Verif.Model.Bounding
import Mathlib.Data.List.Forall2
import Mathlib.Data.List.Lex
import Mathlib.Data.List.Pairwise
import Mathlib.Tactic.Linarith

/-!
# Proofs: enumeration of exponents
-/

namespace Audi.Bounding

/-- Exponents within the limits. -/
abbrev Within (limits : List ℤ) (e : List ℕ) : Prop := List.Forall₂ (fun (l : ℤ) (k : ℕ) => (k : ℤ) ≤ l) limits e

theorem lt_append_same {a : List ℕ} {i j : ℕ} (h : i < j) : a ++ [i] < a ++ [j] := by
  induction a with
  | nil => exact List.Lex.rel h
  | cons x xs ih => exact List.Lex.cons ih

theorem lt_append_of_lt {a b : List ℕ} (hl : a.length = b.length) (h : a < b) (u v : List ℕ) : a ++ u < b ++ v := by
  induction a generalizing b with
  | nil =>
    cases b with
    | nil => exact absurd h (lt_irrefl _)
    | cons y ys => simp at hl
  | cons x xs ih =>
    cases b with
    | nil => simp at hl
    | cons y ys =>
      rcases (List.cons_lt_cons_iff.1 h) with h1 | ⟨h1, h2⟩
      · exact List.Lex.rel h1
      · subst h1
        exact List.Lex.cons (ih (by simpa using hl) h2)

/-- Invariant of the loop. -/
structure CombInv (capSum : Bool) (cap : ℤ) (pre : List ℤ) (R : List (List ℕ)) : Prop where
  mem : ∀ e, e ∈ R ↔ Within pre e ∧ (capSum = true → (e.sum : ℤ) ≤ cap)
  sorted : R.Pairwise (· < ·)

theorem Within.length {pre : List ℤ} {e : List ℕ} (h : Within pre e) : e.length = pre.length := h.length_eq.symm

theorem mem_genStep {capSum : Bool} {cap : ℤ} {R : List (List ℕ)} {l : ℤ} {e : List ℕ} :
    e ∈ genStep capSum cap R l ↔
      ∃ a ∈ R, ∃ i : ℕ, (i : ℤ) ≤ l ∧ e = a ++ [i] ∧ (capSum = true → (e.sum : ℤ) ≤ cap) := by
  unfold genStep
  simp only [List.mem_flatMap, List.mem_filter, List.mem_map, List.mem_range]
  constructor
  · rintro ⟨a, ha, ⟨i, hi, rfl⟩, hc⟩
    refine ⟨a, ha, i, by omega, rfl, fun h => ?_⟩
    subst h
    simpa using hc
  · rintro ⟨a, ha, i, hi, rfl, hc⟩
    refine ⟨a, ha, ⟨i, by omega, rfl⟩, ?_⟩
    cases capSum with
    | true => simpa using hc rfl
    | false => simp

theorem CombInv.step {capSum : Bool} {cap : ℤ} {pre : List ℤ} {R : List (List ℕ)} (h : CombInv capSum cap pre R) (l : ℤ) :
    CombInv capSum cap (pre ++ [l]) (genStep capSum cap R l) where
  mem e := by
    rw [mem_genStep]
    constructor
    · rintro ⟨a, ha, i, hi, rfl, hc⟩
      exact ⟨List.rel_append ((h.mem a).1 ha).1 (List.Forall₂.cons hi List.Forall₂.nil), hc⟩
    · rintro ⟨hw, hc⟩
      have hlen := hw.length_eq
      have hne : e ≠ [] := by rintro rfl; simp at hlen
      obtain ⟨a, i, rfl⟩ : ∃ a i, e = a ++ [i] := ⟨e.dropLast, e.getLast hne, (List.dropLast_append_getLast hne).symm⟩
      have hl : pre.length = a.length := by simpa using hlen
      have h2 : ∀ {x : ℤ} {y : ℕ}, (x, y) ∈ pre.zip a ++ [l].zip [i] → (y : ℤ) ≤ x := by
        rw [← List.zip_append hl]
        exact (List.forall₂_iff_zip.1 hw).2
      refine ⟨a, (h.mem a).2 ⟨List.forall₂_iff_zip.2 ⟨hl, fun {x y} hxy => h2 (List.mem_append_left _ hxy)⟩, fun hcap => ?_⟩, i,
        h2 (List.mem_append_right _ (by simp)), rfl, hc⟩
      have := hc hcap
      simp only [List.sum_append, List.sum_cons, List.sum_nil, add_zero, Nat.cast_add] at this
      have : (0 : ℤ) ≤ (i : ℤ) := Int.natCast_nonneg i
      linarith
  sorted := by
    unfold genStep
    rw [List.pairwise_flatMap]
    refine ⟨fun a _ => ?_, ?_⟩
    · refine List.Pairwise.filter _ ?_
      rw [List.pairwise_map]
      exact List.pairwise_lt_range.imp fun hij => lt_append_same hij
    · refine List.Pairwise.imp_of_mem ?_ h.sorted
      intro a b ha hb hab x hx y hy
      simp only [List.mem_filter, List.mem_map] at hx hy
      obtain ⟨⟨i, -, rfl⟩, -⟩ := hx
      obtain ⟨⟨j, -, rfl⟩, -⟩ := hy
      exact lt_append_of_lt (((h.mem a).1 ha).1.length.trans ((h.mem b).1 hb).1.length.symm) hab _ _

theorem CombInv.foldl {capSum : Bool} {cap : ℤ} {pre : List ℤ} {R : List (List ℕ)} (h : CombInv capSum cap pre R) (ls : List ℤ) :
    CombInv capSum cap (pre ++ ls) (ls.foldl (genStep capSum cap) R) := by
  induction ls generalizing pre R with
  | nil => simpa using h
  | cons l ls ih =>
    have := ih (h.step l)
    rwa [List.append_assoc, List.singleton_append] at this

theorem foldl_max_mem (l : ℤ) (ls : List ℤ) : ls.foldl max l ∈ l :: ls := by
  induction ls generalizing l with
  | nil => simp
  | cons a as ih =>
    have := ih (max l a)
    simp only [List.foldl_cons, List.mem_cons] at this ⊢
    rcases this with h | h
    · rcases max_choice l a with h' | h' <;> rw [h] <;> simp [h']
    · exact Or.inr (Or.inr h)

theorem le_foldl_max (l : ℤ) (ls : List ℤ) : ∀ x ∈ l :: ls, x ≤ ls.foldl max l := by
  induction ls generalizing l with
  | nil => simp
  | cons a as ih =>
    intro x hx
    have := ih (max l a)
    simp only [List.foldl_cons]
    rcases List.mem_cons.1 hx with rfl | hx
    · exact (le_max_left _ _).trans (this _ List.mem_cons_self)
    · rcases List.mem_cons.1 hx with rfl | hx
      · exact (le_max_right _ _).trans (this _ List.mem_cons_self)
      · exact this x (List.mem_cons_of_mem _ hx)

/-- The cap is the largest limit. -/
theorem combInv_generate {limits : List ℤ} (h : limits ≠ []) (capSum : Bool) :
    ∃ cap ∈ limits, (∀ l ∈ limits, l ≤ cap) ∧ CombInv capSum cap limits (generateCombinations limits capSum) := by
  cases limits with
  | nil => exact absurd rfl h
  | cons l ls =>
    refine ⟨ls.foldl max l, foldl_max_mem l ls, le_foldl_max l ls, ?_⟩
    have h0 : 0 ≤ (ls.foldl max l) ∨ ls.foldl max l < 0 := le_or_gt _ _
    rcases h0 with h0 | h0
    · have base : CombInv capSum (ls.foldl max l) [] [[]] := by
        refine ⟨fun e => ?_, by simp⟩
        constructor
        · intro he
          rw [List.mem_singleton] at he
          subst he
          exact ⟨List.Forall₂.nil, fun _ => by simpa using h0⟩
        · rintro ⟨hw, -⟩
          cases hw
          simp
      simpa [generateCombinations] using base.foldl (l :: ls)
    · -- all limits are negative: nothing is generated
      have hl : l < 0 := lt_of_le_of_lt (le_foldl_max l ls l List.mem_cons_self) h0
      have hz : (l + 1).toNat = 0 := by omega
      have hstep : genStep capSum (ls.foldl max l) [[]] l = [] := by
        simp [genStep, hz]
      have hnil : ∀ (c : ℤ) (xs : List ℤ), xs.foldl (genStep capSum c) [] = [] := by
        intro c xs
        induction xs with
        | nil => rfl
        | cons x xs ih => simpa [genStep] using ih
      refine ⟨fun e => ?_, by simp [generateCombinations, hstep, hnil]⟩
      have : generateCombinations (l :: ls) capSum = [] := by simp [generateCombinations, hstep, hnil]
      rw [this]
      constructor
      · intro h; simp at h
      · rintro ⟨hw, -⟩
        cases hw with
        | cons h1 _ => omega

end Audi.Bounding
