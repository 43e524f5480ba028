import Verif.Model.Special
import Verif.Proofs.Nearest

/-!
The format of `double` (IEEE 754 binary64): 53 binary digits, exponents up to 1023, numbers smaller than 2^-1022 are multiples of 2^-1074, to nearest with ties to even, overflow to
infinity.
-/

namespace Audi

/-- The finite part of the rounding: 53 digits, or a multiple of 2^-1074 below 2^-1022. -/
def round64 (q : ℚ) : ℚ := if |q| < 2 ^ (-1022 : ℤ) then nearestInt (q * 2 ^ 1074) * 2 ^ (-1074 : ℤ) else nearest 53 q

/-- The rounding of binary64. -/
def rnd64 (q : ℚ) : Xv := if |round64 q| < 2 ^ 1024 then .fin (round64 q) else .inf (decide (q < 0))

theorem le_abs_nearest {x : ℚ} (hx : x ≠ 0) : (2 : ℚ) ^ Int.log 2 |x| ≤ |nearest 53 x| := by
  have h0 := two_zpow_pos (K := ℚ) (lastDigit 53 x)
  have h2 : (2 : ℚ) ^ Int.log 2 |x| ≤ |x| := by
    have := Int.zpow_log_le_self (b := 2) (by norm_num) (abs_pos.mpr hx)
    simpa using this
  have h3 : (2 : ℚ) ^ Int.log 2 |x| = 2 ^ 52 * 2 ^ lastDigit 53 x := by
    rw [lastDigit, ← zpow_natCast, ← zpow_add₀ (by norm_num)]
    congr 1
    push_cast
    ring
  have h4 : (2 : ℚ) ^ 52 ≤ |x / 2 ^ lastDigit 53 x| := by
    rw [abs_div, abs_of_pos h0, le_div_iff₀ h0, ← h3]
    exact h2
  have h5 := nearestInt_err (x / 2 ^ lastDigit 53 x)
  have h6 : (2 : ℚ) ^ 52 - 1 < |(nearestInt (x / 2 ^ lastDigit 53 x) : ℚ)| := by
    have h7 := abs_sub_abs_le_abs_sub (x / 2 ^ lastDigit 53 x) (nearestInt (x / 2 ^ lastDigit 53 x) : ℚ)
    rw [abs_sub_comm] at h7
    linarith
  have h8 : (2 : ℤ) ^ 52 ≤ |nearestInt (x / 2 ^ lastDigit 53 x)| := by
    have : ((2 ^ 52 - 1 : ℤ) : ℚ) < ((|nearestInt (x / 2 ^ lastDigit 53 x)| : ℤ) : ℚ) := by
      rw [Int.cast_abs]; push_cast; norm_num at h6; exact h6
    have := Int.cast_lt.mp this
    omega
  rw [h3, nearest, abs_mul, abs_of_pos h0]
  refine mul_le_mul_of_nonneg_right ?_ h0.le
  have : ((2 ^ 52 : ℤ) : ℚ) ≤ ((|nearestInt (x / 2 ^ lastDigit 53 x)| : ℤ) : ℚ) := Int.cast_le.mpr h8
  rw [Int.cast_abs] at this
  push_cast at this
  exact this

theorem le_abs_nearest_of_le {x : ℚ} {e : ℤ} (hx : (2 : ℚ) ^ e ≤ |x|) : (2 : ℚ) ^ e ≤ |nearest 53 x| := by
  have h0 : 0 < |x| := (two_zpow_pos e).trans_le hx
  refine le_trans ?_ (le_abs_nearest (abs_pos.mp h0))
  refine zpow_le_zpow_right₀ (by norm_num) ?_
  have h1 := Int.lt_zpow_succ_log_self (b := 2) (R := ℚ) (by norm_num) |x|
  have h2 := (zpow_lt_zpow_iff_right₀ (by norm_num : (1 : ℚ) < 2)).mp (hx.trans_lt (by simpa using h1))
  omega

theorem round64_neg (q : ℚ) : round64 (-q) = -round64 q := by
  unfold round64
  rw [abs_neg]
  split_ifs
  · rw [neg_mul, nearestInt_neg]; push_cast; ring
  · exact nearest_neg 53 q

theorem round64_idem (q : ℚ) : round64 (round64 q) = round64 q := by
  by_cases h : |q| < 2 ^ (-1022 : ℤ)
  · have h1 : round64 q = nearestInt (q * 2 ^ 1074) * 2 ^ (-1074 : ℤ) := by rw [round64, if_pos h]
    rw [h1]
    generalize hn : nearestInt (q * 2 ^ 1074) = n
    have h2 : |n| ≤ 2 ^ 52 := by
      rw [← hn]
      refine abs_nearestInt_le ?_
      rw [abs_mul, abs_of_pos (by positivity : (0 : ℚ) < 2 ^ 1074)]
      rw [Int.cast_pow, Int.cast_ofNat]
      have h3 : (2 : ℚ) ^ (52 : ℕ) = 2 ^ (-1022 : ℤ) * 2 ^ 1074 := by
        rw [← zpow_natCast, ← zpow_natCast, ← zpow_add₀ (by norm_num)]
        norm_num
      rw [h3]
      exact mul_le_mul_of_nonneg_right h.le (by positivity)
    unfold round64
    split_ifs with h4
    · have h5 : (n : ℚ) * 2 ^ (-1074 : ℤ) * 2 ^ 1074 = n := by
        rw [mul_assoc, ← zpow_natCast, ← zpow_add₀ (by norm_num)]
        norm_num
      rw [h5, nearestInt_int]
    · exact nearest_of_digits (by norm_num) (h2.trans (by norm_num)) _
  · have h1 : round64 q = nearest 53 q := by rw [round64, if_neg h]
    have h2 : ¬ |nearest 53 q| < 2 ^ (-1022 : ℤ) := not_lt.mpr (le_abs_nearest_of_le (not_lt.mp h))
    rw [h1, round64, if_neg h2]
    exact nearest_idem (by norm_num) q

theorem round64_zero : round64 0 = 0 := by
  have : nearestInt (0 : ℚ) = 0 := by simpa using nearestInt_int (K := ℚ) 0
  rw [round64, abs_zero, if_pos (two_zpow_pos _), zero_mul, this]
  simp

theorem round64_digits {n : ℤ} (hn : |n| ≤ 2 ^ 53) {e : ℤ} (he : (2 : ℚ) ^ (-1022 : ℤ) ≤ |(n : ℚ) * 2 ^ e|) : round64 (n * 2 ^ e) = n * 2 ^ e := by
  rw [round64, if_neg (not_lt.mpr he)]
  exact nearest_of_digits (by norm_num) hn e

theorem round64_one : round64 1 = 1 := by
  have := round64_digits (n := 1) (e := 0) (by norm_num) (by
    simp only [Int.cast_one, zpow_zero, mul_one, abs_one]
    exact zpow_le_one_of_nonpos₀ (by norm_num) (by norm_num))
  simpa using this

/-- The format of `double`. -/
def XFormat.binary64 : XFormat where
  rnd := rnd64
  rnd_ne_nan q := by unfold rnd64; split_ifs <;> simp
  rnd_zero := by rw [rnd64, round64_zero]; simp
  rnd_one := by rw [rnd64, round64_one, abs_one, if_pos (one_lt_pow₀ (by norm_num) (by norm_num))]
  rnd_idem q r h := by
    unfold rnd64 at h
    split_ifs at h with h1
    simp only [Xv.fin.injEq] at h
    subst h
    rw [rnd64, round64_idem, if_pos h1]
  rnd_neg q := by
    unfold rnd64
    rw [round64_neg, abs_neg]
    split_ifs with h
    · rfl
    · have hq : q ≠ 0 := by
        rintro rfl
        rw [round64_zero] at h
        simp at h
      simp only [Xv.neg, Left.neg_neg_iff, Xv.inf.injEq]
      rcases lt_or_gt_of_ne hq with h1 | h1
      · simp [h1, h1.le]
      · simp [h1, h1.le]

end Audi
