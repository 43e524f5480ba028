import Verif.Model.Bounding
import Mathlib.Data.Nat.Choose.Central
import Mathlib.Data.Nat.Choose.Bounds
import Mathlib.Tactic.NormNum
import Mathlib.Tactic.Ring

/-!
# Proofs: the integer binomial coefficient
-/

namespace Audi.Bounding

theorem binomialLoop_aux {n k : ℕ} (hk : k ≤ n) (hov : ∀ i, i ≤ k → i * Nat.choose (n - k + i) i < 2 ^ 64) (m : ℕ) (hm : m ≤ k) :
    (List.range' 1 m).foldl (fun res i => res * (n - (k - i)) % 2 ^ 64 / i) 1 = Nat.choose (n - k + m) m := by
  induction m with
  | zero => simp
  | succ m ih =>
    rw [List.range'_concat, List.foldl_append, ih (by omega)]
    simp only [List.foldl_cons, List.foldl_nil, one_mul]
    have h1 : n - (k - (1 + m)) = n - k + m + 1 := by omega
    have h2 : Nat.choose (n - k + m) m * (n - k + m + 1) = Nat.choose (n - k + (m + 1)) (m + 1) * (m + 1) := by
      have := Nat.add_one_mul_choose_eq (n - k + m) m
      rw [mul_comm, this]
      rfl
    have h3 := hov (m + 1) hm
    rw [h1, h2, Nat.mod_eq_of_lt (by rwa [mul_comm] at h3), add_comm 1 m, Nat.mul_div_cancel _ (by omega)]

theorem binomialLoop_eq {n k : ℕ} (hk : k ≤ n) (hov : k * Nat.choose n k < 2 ^ 64) : binomialLoop n k = Nat.choose n k := by
  have := binomialLoop_aux hk (fun i hi => lt_of_le_of_lt (Nat.mul_le_mul hi ?_) hov) k le_rfl
  · rw [Nat.sub_add_cancel hk] at this
    exact this
  · calc Nat.choose (n - k + i) i = Nat.choose (n - k + i) (n - k) := by
          rw [← Nat.choose_symm_add]
      _ ≤ Nat.choose n (n - k) := Nat.choose_le_choose _ (by omega)
      _ = Nat.choose n k := Nat.choose_symm hk

theorem binomial_eq {n k : ℕ} (hk : k ≤ n) (hov : min k (n - k) * Nat.choose n k < 2 ^ 64) : binomial n k = Nat.choose n k := by
  unfold binomial
  rw [if_neg (by omega)]
  split_ifs with h1 h2
  · rcases h1 with h | h
    · obtain rfl : k = 0 := by omega
      simp
    · obtain rfl : k = n := by omega
      simp
  · have e1 : ((n : ℤ) - k).toNat = n - k := by omega
    rw [Int.toNat_natCast, e1, binomialLoop_eq (by omega), Nat.choose_symm hk]
    rw [Nat.choose_symm hk]
    rwa [min_eq_right (by omega)] at hov
  · rw [Int.toNat_natCast, Int.toNat_natCast]
    refine binomialLoop_eq hk ?_
    rwa [min_eq_left (by omega)] at hov

theorem no_overflow {n k : ℕ} (hk : k ≤ n) (hn : n ≤ 62) : min k (n - k) * Nat.choose n k < 2 ^ 64 := by
  have h1 : Nat.choose n k ≤ Nat.choose 62 31 := (Nat.choose_le_choose k hn).trans (Nat.choose_le_middle k 62)
  have h2 : min k (n - k) ≤ 31 := by omega
  have h3 : Nat.choose 62 31 = 465428353255261088 := by decide +kernel
  rw [h3] at h1
  calc _ ≤ 31 * 465428353255261088 := Nat.mul_le_mul h2 h1
    _ < 2 ^ 64 := by norm_num

theorem binomial_small {n k : ℕ} (hk : k ≤ n) (hn : n ≤ 62) : binomial n k = Nat.choose n k := binomial_eq hk (no_overflow hk hn)

end Audi.Bounding
