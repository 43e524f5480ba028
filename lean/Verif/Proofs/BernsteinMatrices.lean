import Verif.Proofs.Matrices
import Verif.Proofs.Binomial
import Mathlib.Data.Nat.Choose.Sum
import Mathlib.Algebra.CharP.Defs
import Mathlib.Algebra.CharZero.Defs
import Mathlib.Algebra.Order.Field.Basic
import Mathlib.Tactic.FieldSimp
import Mathlib.Tactic.Ring

/-!
# Proofs: the matrices of one dimension
-/

namespace Audi.Bounding

open Finset

variable {K : Type} [Field K]

theorem degAt_ok {md : List ℕ} {d : ℕ} (hd : d < md.length) : degAt md d = .ok (md.getD d 0) := by
  unfold degAt
  simp [List.getD, hd]

theorem getD_eq {md : List ℕ} {d : ℕ} (hd : d < md.length) (t : K) :
    getD md d t = .ok (Mat.ofFn (md.getD d 0 + 1) (md.getD d 0 + 1) fun i j => if i = j then t ^ i else 0) := by
  unfold getD
  rw [bind_ok (degAt_ok hd)]
  refine congrArg Except.ok (ofFn_congr fun i _ j _ => ?_)
  by_cases h : i = j
  · by_cases h0 : i = 0
    · subst h0; simp
    · rw [if_pos h, if_neg h0, if_pos h]
  · rw [if_neg h, if_neg h]

theorem getPascal_eq {md : List ℕ} {d : ℕ} (hd : d < md.length) (hn : md.getD d 0 ≤ 62) :
    getPascal md d = .ok (Mat.ofFn (md.getD d 0 + 1) (md.getD d 0 + 1) fun i j => (Nat.choose i j : K)) := by
  unfold getPascal
  rw [bind_ok (degAt_ok hd)]
  refine congrArg Except.ok (ofFn_congr fun i hi j _ => ?_)
  split_ifs with h
  · rw [binomial_small h (by omega)]
  · rw [Nat.choose_eq_zero_of_lt (by omega), Nat.cast_zero]

theorem getDAcc_eq [CharZero K] {md : List ℕ} {d : ℕ} (hd : d < md.length) (hn : md.getD d 0 ≤ 62) :
    getDAcc md d = .ok (Mat.ofFn (md.getD d 0 + 1) (md.getD d 0 + 1) fun i j =>
      if i = j then 1 / (Nat.choose (md.getD d 0) i : K) else 0) := by
  unfold getDAcc
  have : md[d]? = some (md.getD d 0) := by simp [List.getD, hd]
  rw [this]
  simp only
  rw [if_neg]
  · refine congrArg Except.ok (ofFn_congr fun i hi j _ => ?_)
    rw [binomial_small (by omega) hn]
  · simp only [List.any_eq_true, List.mem_range, decide_eq_true_eq, not_exists, not_and]
    intro k hk
    rw [binomial_small (by omega) hn]
    exact (Nat.choose_pos (by omega)).ne'

/-- Entries of the matrix of the change of variable. -/
def qEntry (a b : K) (i j : ℕ) : K := (Nat.choose j i : K) * (b - a) ^ i * a ^ (j - i)

theorem getQ_eq [LinearOrder K] {md : List ℕ} {d : ℕ} (hd : d < md.length) (hn : md.getD d 0 ≤ 62) {domain : List (String × Itv K)}
    {s : String} {ab : Itv K} (hdom : domain[d]? = some (s, ab)) :
    getQ md domain d = .ok (Mat.ofFn (md.getD d 0 + 1) (md.getD d 0 + 1) (qEntry ab.lo ab.hi)) := by
  unfold getQ
  rw [if_pos hd, hdom]
  simp only
  split_ifs with h0
  · rw [getD_eq hd]
    refine congrArg Except.ok (ofFn_congr fun i _ j _ => ?_)
    unfold qEntry
    rw [h0, sub_zero]
    rcases lt_trichotomy i j with h | h | h
    · rw [if_neg h.ne, zero_pow (by omega), mul_zero]
    · subst h; simp
    · rw [if_neg h.ne', Nat.choose_eq_zero_of_lt h]; simp
  · rw [bind_ok (getD_eq hd _), bind_ok (getPascal_eq hd hn), bind_ok (getD_eq hd _), bind_ok (transpose_ofFn (by omega) _),
      bind_ok (matmul_ofFn (by omega) (by omega) _ _), matmul_ofFn (by omega) (by omega)]
    refine congrArg Except.ok (ofFn_congr fun i hi j hj => ?_)
    rw [Finset.sum_eq_single j, Finset.sum_eq_single i]
    · simp only [if_true]
      unfold qEntry
      rcases Nat.lt_or_ge j i with h | h
      · rw [Nat.choose_eq_zero_of_lt h]; simp
      · have : ab.lo ^ j = ab.lo ^ i * ab.lo ^ (j - i) := by rw [← pow_add]; congr 1; omega
        rw [this, div_pow]
        field_simp
    · intro l _ hl
      rw [if_neg (Ne.symm hl), zero_mul]
    · intro h
      exact absurd (mem_range.2 hi) h
    · intro l _ hl
      rw [if_neg hl, mul_zero]
    · intro h
      exact absurd (mem_range.2 hj) h

/-- The change of variable: `Q` maps the powers of `a + (b - a) t` to those of `t`. -/
theorem sum_qEntry (a b t : K) {n k : ℕ} (hk : k ≤ n) : ∑ i ∈ range (n + 1), qEntry a b i k * t ^ i = (a + (b - a) * t) ^ k := by
  rw [add_comm a, add_pow]
  have hsub : range (k + 1) ⊆ range (n + 1) := range_subset_range.2 (by omega)
  rw [← sum_subset hsub]
  · refine sum_congr rfl fun i _ => ?_
    unfold qEntry
    rw [mul_pow]
    ring
  · intro i _ hi
    rw [mem_range] at hi
    unfold qEntry
    rw [Nat.choose_eq_zero_of_lt (by omega)]
    simp

/-- Bernstein polynomial. -/
def bern (n i : ℕ) (t : K) : K := (Nat.choose n i : K) * t ^ i * (1 - t) ^ (n - i)

theorem sum_choose_bern (n k : ℕ) (hk : k ≤ n) (t : K) :
    ∑ i ∈ range (n + 1), (Nat.choose i k : K) * bern n i t = (Nat.choose n k : K) * t ^ k := by
  have h1 : ∑ i ∈ range (n + 1), (Nat.choose i k : K) * bern n i t =
      ∑ l ∈ range (n - k + 1), (Nat.choose (k + l) k : K) * bern n (k + l) t := by
    have e : n + 1 = k + (n - k + 1) := by omega
    rw [e, sum_range_add, sum_eq_zero, zero_add]
    intro i hi
    rw [mem_range] at hi
    rw [Nat.choose_eq_zero_of_lt hi]
    simp
  rw [h1]
  have h2 : ∀ l ∈ range (n - k + 1), (Nat.choose (k + l) k : K) * bern n (k + l) t =
      (Nat.choose n k : K) * t ^ k * (t ^ l * (1 - t) ^ (n - k - l) * (Nat.choose (n - k) l : K)) := by
    intro l hl
    rw [mem_range] at hl
    have hc : Nat.choose n (k + l) * Nat.choose (k + l) k = Nat.choose n k * Nat.choose (n - k) l := by
      have := Nat.choose_mul (n := n) (k := k + l) (s := k) (by omega)
      rwa [Nat.add_sub_cancel_left] at this
    have hc' : (Nat.choose n (k + l) : K) * Nat.choose (k + l) k = Nat.choose n k * Nat.choose (n - k) l := by
      rw [← Nat.cast_mul, hc, Nat.cast_mul]
    unfold bern
    rw [pow_add, show n - (k + l) = n - k - l by omega]
    calc _ = ((Nat.choose n (k + l) : K) * Nat.choose (k + l) k) * (t ^ k * t ^ l * (1 - t) ^ (n - k - l)) := by ring
      _ = _ := by rw [hc']; ring
  rw [sum_congr rfl h2, ← mul_sum, ← add_pow]
  simp

theorem sum_bern (n : ℕ) (t : K) : ∑ i ∈ range (n + 1), bern n i t = 1 := by
  have := sum_choose_bern n 0 (Nat.zero_le _) t
  simpa using this

theorem bern_nonneg [LinearOrder K] [IsStrictOrderedRing K] (n i : ℕ) {t : K} (h0 : 0 ≤ t) (h1 : t ≤ 1) : 0 ≤ bern n i t :=
  mul_nonneg (mul_nonneg (Nat.cast_nonneg _) (pow_nonneg h0 _)) (pow_nonneg (sub_nonneg.2 h1) _)

end Audi.Bounding
