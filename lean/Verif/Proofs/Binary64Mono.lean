import Verif.Proofs.Binary64
import Verif.Proofs.NearestMono

/-! The rounding of binary64 is monotone; the numbers near one. -/

namespace Audi

theorem round64_mono : Monotone round64 := by
  have h0 : ∀ x : ℚ, 0 ≤ x → ∀ y, x ≤ y → round64 x ≤ round64 y := by
    intro x hx y hxy
    have hy := hx.trans hxy
    unfold round64
    rw [abs_of_nonneg hx, abs_of_nonneg hy]
    split_ifs with h1 h2 h2
    · refine mul_le_mul_of_nonneg_right ?_ (two_zpow_pos _).le
      exact_mod_cast nearestInt_mono (mul_le_mul_of_nonneg_right hxy (by positivity))
    · have h3 : nearestInt (x * 2 ^ 1074) ≤ 2 ^ 52 := by
        have h4 : x * 2 ^ 1074 ≤ ((2 ^ 52 : ℤ) : ℚ) := by
          have h5 : (2 : ℚ) ^ (52 : ℕ) = 2 ^ (-1022 : ℤ) * 2 ^ 1074 := by
            rw [← zpow_natCast, ← zpow_natCast, ← zpow_add₀ (by norm_num)]
            norm_num
          rw [Int.cast_pow, Int.cast_ofNat, h5]
          exact mul_le_mul_of_nonneg_right h1.le (by positivity)
        have := nearestInt_mono h4
        rwa [nearestInt_int] at this
      have h4 : (nearestInt (x * 2 ^ 1074) : ℚ) * 2 ^ (-1074 : ℤ) ≤ 2 ^ (-1022 : ℤ) := by
        have h5 : (2 : ℚ) ^ (-1022 : ℤ) = ((2 ^ 52 : ℤ) : ℚ) * 2 ^ (-1074 : ℤ) := by
          rw [Int.cast_pow, Int.cast_ofNat, ← zpow_natCast, ← zpow_add₀ (by norm_num)]
          norm_num
        rw [h5]
        exact mul_le_mul_of_nonneg_right (by exact_mod_cast h3) (two_zpow_pos _).le
      refine h4.trans ?_
      have h5 := le_abs_nearest_of_le (x := y) (e := -1022) (by rw [abs_of_nonneg hy]; exact not_lt.mp h2)
      rwa [abs_of_nonneg (nearest_nonneg 53 hy)] at h5
    · exact absurd (hxy.trans_lt h2) h1
    · exact nearest_mono (by norm_num) hxy
  have hnn : ∀ x : ℚ, 0 ≤ x → 0 ≤ round64 x := fun x hx => by have := h0 0 le_rfl x hx; rwa [round64_zero] at this
  intro x y hxy
  by_cases hx : 0 ≤ x
  · exact h0 x hx y hxy
  · have hx' : 0 ≤ -x := by linarith
    by_cases hy : 0 ≤ y
    · have h1 := hnn (-x) hx'
      rw [round64_neg] at h1
      have := hnn y hy
      linarith
    · have := h0 (-y) (by linarith) (-x) (by linarith)
      rw [round64_neg, round64_neg] at this
      linarith

/-- Numbers of at least 1/2 are multiples of 2^-53. -/
theorem round64_grid {m : ℚ} (h : round64 m = m) (hm : 1 / 2 ≤ m) : ∃ n : ℤ, m = n * 2 ^ (-53 : ℤ) := by
  have hm0 : 0 < m := by linarith
  have h1 : ¬ |m| < 2 ^ (-1022 : ℤ) := by
    rw [abs_of_pos hm0, not_lt]
    refine le_trans ?_ hm
    have : (2 : ℚ) ^ (-1022 : ℤ) ≤ 2 ^ (-1 : ℤ) := zpow_le_zpow_right₀ (by norm_num) (by norm_num)
    simpa using this
  rw [round64, if_neg h1] at h
  have hl : -1 ≤ Int.log 2 m := by
    have := Int.lt_zpow_succ_log_self (b := 2) (R := ℚ) (by norm_num) m
    have h3 : (2 : ℚ) ^ (-1 : ℤ) < 2 ^ (Int.log 2 m + 1) := lt_of_le_of_lt (by norm_num at hm ⊢; exact hm) (by simpa using this)
    have := (zpow_lt_zpow_iff_right₀ (by norm_num : (1 : ℚ) < 2)).mp h3
    omega
  have hd : -53 ≤ lastDigit 53 m := by
    unfold lastDigit
    rw [abs_of_pos hm0]
    push_cast
    omega
  obtain ⟨k, hk⟩ := Int.le.dest hd
  refine ⟨nearestInt (m / 2 ^ lastDigit 53 m) * 2 ^ k, ?_⟩
  conv_lhs => rw [← h]
  unfold nearest
  rw [← hk]
  push_cast
  rw [zpow_add₀ (by norm_num), zpow_natCast]
  ring

theorem round64_gt_one {m : ℚ} (h : round64 m = m) (hm : 1 < m) : 1 + 2 ^ (-53 : ℤ) ≤ m := by
  obtain ⟨n, hn⟩ := round64_grid h (by linarith)
  have h1 : (2 ^ 53 : ℤ) < n := by
    by_contra hc
    have : (n : ℚ) ≤ 2 ^ 53 := by exact_mod_cast not_lt.mp hc
    rw [hn] at hm
    norm_num at hm
    linarith
  have h2 : (2 : ℚ) ^ 53 + 1 ≤ n := by exact_mod_cast h1
  rw [hn]
  norm_num
  linarith

theorem round64_lt_one {m : ℚ} (h : round64 m = m) (hm : m < 1) : m ≤ 1 - 2 ^ (-53 : ℤ) := by
  by_cases hh : 1 / 2 ≤ m
  · obtain ⟨n, hn⟩ := round64_grid h hh
    have h1 : n < (2 ^ 53 : ℤ) := by
      by_contra hc
      have : (2 : ℚ) ^ 53 ≤ n := by exact_mod_cast not_lt.mp hc
      rw [hn] at hm
      norm_num at hm
      linarith
    have h2 : (n : ℚ) + 1 ≤ 2 ^ 53 := by exact_mod_cast h1
    rw [hn]
    norm_num
    linarith
  · norm_num
    linarith

/-- Numbers below -2^-53 stay negative. -/
theorem rnd64_neg_of_le {y : ℚ} (hy : y ≤ -2 ^ (-53 : ℤ)) : rnd64 y = .inf true ∨ ∃ r < 0, rnd64 y = .fin r := by
  have hpos := two_zpow_pos (K := ℚ) (-53)
  have h1 : round64 (-2 ^ (-53 : ℤ)) = -2 ^ (-53 : ℤ) := by
    rw [round64_neg]
    have := round64_digits (n := 1) (e := -53) (by norm_num) (by
      rw [Int.cast_one, one_mul, abs_of_pos hpos]
      exact zpow_le_zpow_right₀ (by norm_num) (by norm_num))
    rw [Int.cast_one, one_mul] at this
    rw [this]
  have h2 := round64_mono hy
  rw [h1] at h2
  unfold rnd64
  split_ifs with h3
  · exact Or.inr ⟨_, by linarith, rfl⟩
  · exact Or.inl (by rw [decide_eq_true (by linarith : y < 0)])

end Audi
