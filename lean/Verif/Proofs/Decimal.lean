import Verif.Model.Archive
import Verif.Proofs.NearestMono

/-! 18 significant decimal digits determine a `double`. -/

namespace Audi
open Archive

theorem nearestInt_eq {y : ℚ} {n : ℤ} (h : |y - n| < 1 / 2) : nearestInt y = n := by
  have h1 := nearestInt_err y
  have h2 : |((nearestInt y - n : ℤ) : ℚ)| < 1 := by
    push_cast
    calc |(nearestInt y : ℚ) - n| = |((nearestInt y : ℚ) - y) + (y - n)| := by congr 1; ring
      _ ≤ |(nearestInt y : ℚ) - y| + |y - n| := abs_add_le _ _
      _ < 1 := by linarith
  rw [← Int.cast_abs] at h2
  have h3 : |nearestInt y - n| < 1 := by exact_mod_cast h2
  have := Int.abs_lt_one_iff.mp h3
  omega

/-- A multiple of the quantum is found again if the distance is less than half of it. -/
theorem nearestInt_mul {d q : ℚ} {g : ℤ} {n : ℤ} (hq : q = n * 2 ^ g) (h : |d - q| < 2 ^ g / 2) : (nearestInt (d / 2 ^ g) : ℚ) * 2 ^ g = q := by
  have h0 := two_zpow_pos (K := ℚ) g
  have h1 : nearestInt (d / 2 ^ g) = n := by
    apply nearestInt_eq
    have h2 : d / 2 ^ g - n = (d - q) / 2 ^ g := by rw [hq]; field_simp
    rw [h2, abs_div, abs_of_pos h0, div_lt_iff₀ h0]
    linarith
  rw [h1, hq]

theorem log_spec {x : ℚ} (hx : 0 < x) : (2 : ℚ) ^ Int.log 2 x ≤ x ∧ x < 2 ^ (Int.log 2 x + 1) := by
  have h1 := Int.zpow_log_le_self (b := 2) (by norm_num) hx
  have h2 := Int.lt_zpow_succ_log_self (b := 2) (R := ℚ) (by norm_num) x
  exact ⟨by simpa using h1, by simpa using h2⟩

/-- Numbers of `double` are multiples of `2 ^ g` for some `g ≥ -1074` with less than 53 digits. -/
theorem round64_form {q : ℚ} (hq : round64 q = q) (h0 : q ≠ 0) :
    ∃ (n g : ℤ), q = n * 2 ^ g ∧ -1074 ≤ g ∧ |q| < 2 ^ (g + 53) ∧ (g = -1074 ∨ (2 : ℚ) ^ (g + 52) ≤ |q|) := by
  have hp : 0 < |q| := abs_pos.mpr h0
  obtain ⟨h1, h2⟩ := log_spec hp
  by_cases h : |q| < 2 ^ (-1022 : ℤ)
  · refine ⟨nearestInt (q * 2 ^ 1074), -1074, ?_, le_rfl, h.trans_le (zpow_le_zpow_right₀ (by norm_num) (by norm_num)), Or.inl rfl⟩
    rw [round64, if_pos h] at hq
    exact hq.symm
  · have h3 : -1022 ≤ Int.log 2 |q| := by
      by_contra hc
      exact h (h2.trans_le (zpow_le_zpow_right₀ (by norm_num) (by omega)))
    rw [round64, if_neg h] at hq
    refine ⟨nearestInt (q / 2 ^ lastDigit 53 q), lastDigit 53 q, hq.symm, ?_, ?_, Or.inr ?_⟩
    · unfold lastDigit; push_cast; omega
    · convert h2 using 2; unfold lastDigit; push_cast; ring
    · convert h1 using 2; unfold lastDigit; push_cast; ring

/-- Rounding finds a `double` again from a number nearby. -/
theorem round64_near {q d : ℚ} (hq : round64 q = q) (h : |d - q| ≤ |q| / 2 ^ 55) : round64 d = q := by
  by_cases h0 : q = 0
  · subst h0
    rw [abs_zero, zero_div, sub_zero] at h
    rw [abs_eq_zero.mp (le_antisymm h (abs_nonneg _))]
    exact hq
  obtain ⟨n, g, hn, hg, hlt, hge⟩ := round64_form hq h0
  have hp : 0 < |q| := abs_pos.mpr h0
  have hgp := two_zpow_pos (K := ℚ) g
  have e53 : (2 : ℚ) ^ (g + 53) = 2 ^ g * 2 ^ 53 := by rw [zpow_add₀ (by norm_num)]; norm_num
  have e52 : (2 : ℚ) ^ (g + 52) = 2 ^ g * 2 ^ 52 := by rw [zpow_add₀ (by norm_num)]; norm_num
  have herr : |d - q| < 2 ^ g / 4 := by
    refine h.trans_lt ?_
    rw [e53] at hlt
    rw [div_lt_iff₀ (by norm_num)]
    calc |q| < 2 ^ g * 2 ^ 53 := hlt
      _ = 2 ^ g / 4 * 2 ^ 55 := by ring
  have hdq : |d| ≤ |q| + |d - q| := by have := abs_add_le (d - q) q; rw [sub_add_cancel] at this; linarith
  have hqd : |q| ≤ |d| + |d - q| := by have := abs_add_le (q - d) d; rw [sub_add_cancel, abs_sub_comm] at this; linarith
  -- the distance from the next power of two
  have hup : |q| ≤ 2 ^ (g + 53) - 2 ^ g := by
    have h1 : |q| = |n| * 2 ^ g := by rw [hn, abs_mul, abs_of_pos hgp]; push_cast; rfl
    have h2 : |n| < 2 ^ 53 := by
      rw [h1, e53] at hlt
      have h3 : ((|n| : ℤ) : ℚ) < 2 ^ 53 := by
        push_cast at hlt ⊢
        nlinarith
      exact_mod_cast h3
    have h3 : ((|n| : ℤ) : ℚ) ≤ 2 ^ 53 - 1 := by
      have h4 : |n| ≤ 2 ^ 53 - 1 := by omega
      exact_mod_cast h4
    rw [h1, e53]
    nlinarith
  have hd53 : |d| < 2 ^ (g + 53) := by linarith
  by_cases hs : |d| < 2 ^ (-1022 : ℤ)
  · rw [round64, if_pos hs]
    have hq' : q = ((n * 2 ^ (g + 1074).toNat : ℤ) : ℚ) * 2 ^ (-1074 : ℤ) := by
      push_cast
      rw [hn, mul_assoc, ← zpow_natCast, ← zpow_add₀ (by norm_num)]
      congr 2
      omega
    have hsm : |d - q| < 2 ^ (-1074 : ℤ) / 2 := by
      rcases hge with hge | hge
      · rw [← hge]; linarith
      · have h1 : |q| < 2 ^ (-1021 : ℤ) := by
          have h2 : |q| * (1 - 1 / 2 ^ 55) ≤ |d| := by linarith
          have h3 : (2 : ℚ) ^ (-1021 : ℤ) = 2 * 2 ^ (-1022 : ℤ) := by
            rw [show (-1021 : ℤ) = 1 + -1022 by norm_num, zpow_add₀ (by norm_num)]; norm_num
          rw [h3]
          norm_num at h2
          linarith [two_zpow_pos (K := ℚ) (-1022)]
        refine h.trans_lt ?_
        rw [div_lt_iff₀ (by norm_num)]
        refine h1.trans_le ?_
        have h3 : (2 : ℚ) ^ (-1021 : ℤ) = 2 ^ (-1074 : ℤ) * 2 ^ 53 := by
          rw [← zpow_natCast, ← zpow_add₀ (by norm_num)]; norm_num
        rw [h3]
        have := two_zpow_pos (K := ℚ) (-1074)
        nlinarith
    have := nearestInt_mul hq' hsm
    have hdiv : d / 2 ^ (-1074 : ℤ) = d * 2 ^ 1074 := by
      rw [div_eq_mul_inv, ← zpow_neg, neg_neg]; norm_cast
    rw [hdiv] at this
    exact this
  · rw [round64, if_neg hs]
    have hdp : 0 < |d| := (two_zpow_pos (K := ℚ) (-1022)).trans_le (not_lt.mp hs)
    obtain ⟨l1, l2⟩ := log_spec hdp
    have hL : Int.log 2 |d| < g + 53 := (zpow_lt_zpow_iff_right₀ (by norm_num : (1 : ℚ) < 2)).mp (l1.trans_lt hd53)
    have hL' : g + 50 ≤ Int.log 2 |d| := by
      rcases hge with hge | hge
      · have h1 : (2 : ℚ) ^ (-1022 : ℤ) < 2 ^ (Int.log 2 |d| + 1) := (not_lt.mp hs).trans_lt l2
        have := (zpow_lt_zpow_iff_right₀ (by norm_num : (1 : ℚ) < 2)).mp h1
        omega
      · have h1 : (2 : ℚ) ^ (g + 51) < 2 ^ (Int.log 2 |d| + 1) := by
          refine lt_of_le_of_lt ?_ l2
          have h3 : (2 : ℚ) ^ (g + 51) = 2 ^ g * 2 ^ 51 := by rw [zpow_add₀ (by norm_num)]; norm_num
          rw [e52] at hge
          rw [h3]
          nlinarith
        have := (zpow_lt_zpow_iff_right₀ (by norm_num : (1 : ℚ) < 2)).mp h1
        omega
    have hld : lastDigit 53 d = Int.log 2 |d| - 52 := by unfold lastDigit; push_cast; ring
    have hgle : lastDigit 53 d ≤ g := by omega
    unfold nearest
    refine nearestInt_mul (n := n * 2 ^ (g - lastDigit 53 d).toNat) ?_ ?_
    · push_cast
      rw [mul_assoc, ← zpow_natCast, ← zpow_add₀ (by norm_num), hn]
      congr 2
      omega
    · -- |q| is less than 2^(L+1) (1 + 2^-54)
      have h1 : |q| < 2 ^ (Int.log 2 |d| + 1) * 2 := by
        have h2 : |q| * (1 - 1 / 2 ^ 55) ≤ |d| := by linarith
        norm_num at h2
        linarith
      refine h.trans_lt ?_
      rw [div_lt_iff₀ (by norm_num)]
      refine h1.trans_le ?_
      have h3 : (2 : ℚ) ^ (Int.log 2 |d| + 1) = 2 ^ lastDigit 53 d * 2 ^ 53 := by
        rw [hld, ← zpow_natCast, ← zpow_add₀ (by norm_num)]; congr 1; push_cast; ring
      rw [h3]
      have := two_zpow_pos (K := ℚ) (lastDigit 53 d)
      nlinarith

/-- The digits: between `10^17` and `10^18 - 1`, and the number they stand for is near. -/
theorem sci_spec {q : ℚ} (h0 : q ≠ 0) : 10 ^ 17 ≤ (sci q).1 ∧ (sci q).1 < 10 ^ 18 ∧ |((sci q).1 : ℚ) * 10 ^ ((sci q).2 - 17) - (|q|)| ≤ |q| / 2 ^ 55 := by
  have hp : 0 < |q| := abs_pos.mpr h0
  have h1 : (10 : ℚ) ^ Int.log 10 |q| ≤ |q| := by simpa using Int.zpow_log_le_self (b := 10) (by norm_num) hp
  have h2 : |q| < (10 : ℚ) ^ (Int.log 10 |q| + 1) := by simpa using Int.lt_zpow_succ_log_self (b := 10) (R := ℚ) (by norm_num) |q|
  unfold sci
  generalize Int.log 10 |q| = e at *
  have hep : (0 : ℚ) < 10 ^ (e - 17) := zpow_pos (by norm_num) _
  have e1 : (10 : ℚ) ^ e = 10 ^ (e - 17) * 10 ^ 17 := by rw [← zpow_natCast, ← zpow_add₀ (by norm_num)]; congr 1; push_cast; ring
  have e2 : (10 : ℚ) ^ (e + 1) = 10 ^ (e - 17) * 10 ^ 18 := by rw [← zpow_natCast, ← zpow_add₀ (by norm_num)]; congr 1; push_cast; ring
  have h3 : ((10 ^ 17 : ℤ) : ℚ) ≤ |q| / 10 ^ (e - 17) := by rw [le_div_iff₀ hep, Int.cast_pow, Int.cast_ofNat, mul_comm, ← e1]; exact h1
  have h4 : |q| / 10 ^ (e - 17) ≤ ((10 ^ 18 : ℤ) : ℚ) := by rw [div_le_iff₀ hep, Int.cast_pow, Int.cast_ofNat, mul_comm, ← e2]; exact h2.le
  have h5 := nearestInt_mono h3
  have h6 := nearestInt_mono h4
  rw [nearestInt_int] at h5 h6
  have h7 := nearestInt_err (|q| / 10 ^ (e - 17))
  generalize hM : nearestInt (|q| / 10 ^ (e - 17)) = M at *
  have hMt : ((M.toNat : ℕ) : ℚ) = M := by
    have : ((M.toNat : ℕ) : ℤ) = M := by omega
    exact_mod_cast this
  have h8 : |(M : ℚ) * 10 ^ (e - 17) - (|q|)| ≤ |q| / 2 ^ 55 := by
    have h9 : (M : ℚ) * 10 ^ (e - 17) - |q| = (M - |q| / 10 ^ (e - 17)) * 10 ^ (e - 17) := by field_simp
    rw [h9, abs_mul, abs_of_pos hep]
    have h10 : 10 ^ (e - 17) * 10 ^ 17 ≤ |q| := by rw [← e1]; exact h1
    have h11 : |(M : ℚ) - |q| / 10 ^ (e - 17)| * 10 ^ (e - 17) ≤ 1 / 2 * 10 ^ (e - 17) := mul_le_mul_of_nonneg_right h7 hep.le
    refine h11.trans ?_
    rw [le_div_iff₀ (by norm_num)]
    norm_num at h10 ⊢
    linarith
  simp only [hM]
  split_ifs with hc
  · refine ⟨le_rfl, by norm_num, ?_⟩
    have h12 : (M : ℚ) = 10 ^ 18 := by rw [← hMt, hc]; norm_num
    rw [h12] at h8
    convert h8 using 3
    rw [show e + 1 - 17 = 1 + (e - 17) by ring, zpow_add₀ (by norm_num), zpow_one, ← mul_assoc]
    norm_num
  · refine ⟨?_, ?_, ?_⟩
    · have : (10 ^ 17 : ℤ) ≤ M := h5
      simp only
      omega
    · have : M ≤ (10 ^ 18 : ℤ) := h6
      simp only
      omega
    · simp only
      rw [hMt]
      exact h8

end Audi
