import Verif.Model.Bounding
import Verif.Proofs.Functions
import Mathlib.Algebra.BigOperators.Group.Finset.Basic
import Mathlib.Algebra.BigOperators.Ring.Finset
import Mathlib.Algebra.BigOperators.Intervals
import Mathlib.Data.List.Range

/-!
# Proofs: matrices given by their entries
-/

namespace Audi.Bounding

open Finset

theorem mapM_range {α : Type} (n : ℕ) (f : ℕ → Res α) (g : ℕ → α) (h : ∀ i, i < n → f i = .ok (g i)) :
    (List.range n).mapM f = .ok ((List.range n).map g) := by
  have : ∀ L : List ℕ, (∀ i ∈ L, i < n) → L.mapM f = .ok (L.map g) := by
    intro L
    induction L with
    | nil => intro _; rfl
    | cons a L ih =>
      intro hL
      rw [List.mapM_cons, bind_ok (h a (hL a List.mem_cons_self)), bind_ok (ih fun i hi => hL i (List.mem_cons_of_mem _ hi))]
      rfl
  exact this _ fun i hi => List.mem_range.1 hi

variable {K : Type}

theorem at_ofFn {m n : ℕ} (f : ℕ → ℕ → K) {i j : ℕ} (hi : i < m) (hj : j < n) : (Mat.ofFn m n f).at i j = .ok (f i j) := by
  unfold Mat.at Mat.ofFn
  simp [hi, hj]

theorem ofFn_congr {m n : ℕ} {f g : ℕ → ℕ → K} (h : ∀ i, i < m → ∀ j, j < n → f i j = g i j) : Mat.ofFn m n f = Mat.ofFn m n g := by
  unfold Mat.ofFn
  refine List.map_congr_left fun i hi => List.map_congr_left fun j hj => h i (List.mem_range.1 hi) j (List.mem_range.1 hj)

theorem cols_ofFn {m n : ℕ} (f : ℕ → ℕ → K) (hm : 0 < m) : (Mat.ofFn m n f).cols = .ok n := by
  obtain ⟨m, rfl⟩ := Nat.exists_eq_succ_of_ne_zero hm.ne'
  unfold Mat.ofFn
  rw [List.range_succ_eq_map]
  simp [Mat.cols]

theorem length_ofFn {m n : ℕ} (f : ℕ → ℕ → K) : (Mat.ofFn m n f).length = m := by simp [Mat.ofFn]

theorem replicate_eq_ofFn (m n : ℕ) (z : K) : List.replicate m (List.replicate n z) = Mat.ofFn m n fun _ _ => z := by
  simp [Mat.ofFn]

theorem mem_flatten_ofFn {m n : ℕ} {f : ℕ → ℕ → K} {v : K} :
    v ∈ (Mat.ofFn m n f).flatten ↔ ∃ i, i < m ∧ ∃ j, j < n ∧ f i j = v := by
  unfold Mat.ofFn
  simp only [List.mem_flatten, List.mem_map, List.mem_range]
  constructor
  · rintro ⟨_, ⟨i, hi, rfl⟩, hv⟩
    obtain ⟨j, hj, rfl⟩ := List.mem_map.1 hv
    exact ⟨i, hi, j, List.mem_range.1 hj, rfl⟩
  · rintro ⟨i, hi, j, hj, rfl⟩
    exact ⟨_, ⟨i, hi, rfl⟩, List.mem_map.2 ⟨j, List.mem_range.2 hj, rfl⟩⟩

theorem set_ofFn {m n : ℕ} (f : ℕ → ℕ → K) {i j : ℕ} (hi : i < m) (hj : j < n) (v : K) :
    (Mat.ofFn m n f).set i j v = .ok (Mat.ofFn m n fun a b => if a = i ∧ b = j then v else f a b) := by
  unfold Mat.set Mat.ofFn
  simp only [List.getElem?_map, List.getElem?_range hi, Option.map_some, List.length_map, List.length_range, hj, if_true]
  congr 1
  refine List.ext_getElem (by simp) fun a h1 h2 => ?_
  simp only [List.getElem_set, List.getElem_map, List.getElem_range]
  by_cases ha : i = a
  · subst ha
    simp only [if_true]
    refine List.ext_getElem (by simp) fun b h3 h4 => ?_
    simp only [List.getElem_set, List.getElem_map, List.getElem_range]
    by_cases hb : j = b
    · subst hb; simp
    · rw [if_neg hb, if_neg fun h => hb h.2.symm]
  · rw [if_neg ha]
    refine List.map_congr_left fun b _ => ?_
    rw [if_neg fun h => ha h.1.symm]

/-- A matrix filled by a loop of assignments that covers all the entries. -/
theorem foldlM_set {α : Type} {m n : ℕ} (L : List α) (row col : α → ℕ) (val : α → Res K) (f0 g : ℕ → ℕ → K)
    (hval : ∀ p ∈ L, row p < m ∧ col p < n ∧ val p = .ok (g (row p) (col p)))
    (hcov : ∀ i, i < m → ∀ j, j < n → ∃ p ∈ L, row p = i ∧ col p = j) :
    L.foldlM (fun (A : Mat K) (p : α) => do
      let v ← val p
      A.set (row p) (col p) v) (Mat.ofFn m n f0) = .ok (Mat.ofFn m n g) := by
  have key : ∀ (L : List α) (f0 : ℕ → ℕ → K), (∀ p ∈ L, row p < m ∧ col p < n ∧ val p = .ok (g (row p) (col p))) →
      ∃ f1 : ℕ → ℕ → K, L.foldlM (fun (A : Mat K) (p : α) => do
        let v ← val p
        A.set (row p) (col p) v) (Mat.ofFn m n f0) = .ok (Mat.ofFn m n f1) ∧
        ∀ i j, f1 i j = g i j ∨ (f1 i j = f0 i j ∧ ∀ p ∈ L, ¬(row p = i ∧ col p = j)) := by
    intro L
    induction L with
    | nil => intro f0 _; exact ⟨f0, rfl, fun i j => Or.inr ⟨rfl, by simp⟩⟩
    | cons p L ih =>
      intro f0 h
      obtain ⟨h1, h2, h3⟩ := h p List.mem_cons_self
      obtain ⟨f1, e1, e2⟩ := ih (fun a b => if a = row p ∧ b = col p then g (row p) (col p) else f0 a b)
        fun q hq => h q (List.mem_cons_of_mem _ hq)
      refine ⟨f1, ?_, fun i j => ?_⟩
      · rw [List.foldlM_cons, bind_ok h3, set_ofFn f0 h1 h2]
        exact e1
      · rcases e2 i j with h | ⟨h, h'⟩
        · exact Or.inl h
        · by_cases hij : i = row p ∧ j = col p
          · rw [if_pos hij] at h
            exact Or.inl (by rw [h, hij.1, hij.2])
          · rw [if_neg hij] at h
            refine Or.inr ⟨h, fun q hq => ?_⟩
            rcases List.mem_cons.1 hq with rfl | hq
            · exact fun hh => hij ⟨hh.1.symm, hh.2.symm⟩
            · exact h' q hq
  obtain ⟨f1, e1, e2⟩ := key L f0 hval
  rw [e1]
  refine congrArg Except.ok (ofFn_congr fun i hi j hj => ?_)
  rcases e2 i j with h | ⟨-, h⟩
  · exact h
  · obtain ⟨p, hp, hpp⟩ := hcov i hi j hj
    exact absurd hpp (h p hp)

variable [Field K]

theorem foldlM_sum (p : ℕ) (a b : ℕ → Res K) (f g : ℕ → K) (ha : ∀ k, k < p → a k = .ok (f k)) (hb : ∀ k, k < p → b k = .ok (g k)) :
    (List.range p).foldlM (fun (c : K) (k : ℕ) => do
      let x ← a k
      let y ← b k
      Except.ok (ε := Exn) (c + x * y)) 0 = .ok (∑ k ∈ range p, f k * g k) := by
  have : ∀ q, q ≤ p → (List.range q).foldlM (fun (c : K) (k : ℕ) => do
      let x ← a k
      let y ← b k
      Except.ok (ε := Exn) (c + x * y)) 0 = .ok (∑ k ∈ range q, f k * g k) := by
    intro q
    induction q with
    | zero => intro _; simp [pure, Except.pure]
    | succ q ih =>
      intro hq
      rw [List.range_succ, List.foldlM_append, bind_ok (ih (by omega)), List.foldlM_cons, bind_ok (ha q (by omega)),
        bind_ok (hb q (by omega)), sum_range_succ]
      rfl
  exact this p le_rfl

theorem matmul_ofFn {m p n : ℕ} (hm : 0 < m) (hp : 0 < p) (f g : ℕ → ℕ → K) :
    matmul (Mat.ofFn m p f) (Mat.ofFn p n g) = .ok (Mat.ofFn m n fun i j => ∑ k ∈ range p, f i k * g k j) := by
  unfold matmul
  rw [bind_ok (cols_ofFn g hp), bind_ok (cols_ofFn f hm), length_ofFn]
  refine mapM_range m _ _ fun i hi => mapM_range n _ _ fun j hj => ?_
  exact foldlM_sum p _ _ _ _ (fun k hk => at_ofFn f hi hk) fun k hk => at_ofFn g hk hj

omit [Field K] in
theorem transpose_ofFn {m n : ℕ} (hm : 0 < m) (f : ℕ → ℕ → K) :
    transpose (Mat.ofFn m n f) = .ok (Mat.ofFn n m fun i j => f j i) := by
  unfold transpose
  rw [bind_ok (cols_ofFn f hm), length_ofFn]
  exact mapM_range n _ _ fun j hj => mapM_range m _ _ fun i hi => at_ofFn f hi hj

end Audi.Bounding
