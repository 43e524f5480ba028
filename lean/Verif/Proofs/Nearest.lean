import Verif.Proofs.Rounding
import Mathlib.Data.Int.Log
import Mathlib.Algebra.Order.Floor.Ring
import Mathlib.Data.Rat.Floor
import Mathlib.Algebra.Order.Archimedean.Basic
import Mathlib.Tactic.FieldSimp
import Mathlib.Tactic.Push

/-!
Rounding to the nearest number with `p` binary digits, ties to even: the arithmetic of IEEE 754 (`p = 53` for `double`) without limits on the exponent is
an instance of `Rounding`.
-/

namespace Audi

section
variable {K : Type} [Field K] [LinearOrder K] [IsStrictOrderedRing K] [FloorRing K]

/-- The nearest integer, ties to even. -/
def nearestInt (y : K) : ℤ :=
  if y - ⌊y⌋ < 1 / 2 then ⌊y⌋ else if 1 / 2 < y - ⌊y⌋ then ⌊y⌋ + 1 else if Even ⌊y⌋ then ⌊y⌋ else ⌊y⌋ + 1

/-- The exponent of the last digit of a number with `p` binary digits. -/
def lastDigit (p : ℕ) (x : K) : ℤ := Int.log 2 |x| - (p - 1)

/-- Rounding to the nearest number with `p` binary digits, ties to even. -/
def nearest (p : ℕ) (x : K) : K := nearestInt (x / 2 ^ lastDigit p x) * 2 ^ lastDigit p x

theorem nearestInt_err (y : K) : |(nearestInt y : K) - y| ≤ 1 / 2 := by
  have h1 := Int.floor_le y
  have h2 := Int.lt_floor_add_one y
  unfold nearestInt
  split_ifs with h h' h''
  · rw [abs_le]; constructor <;> linarith
  · rw [abs_le]; push_cast; constructor <;> linarith
  · rw [abs_le]; constructor <;> linarith
  · rw [abs_le]; push_cast; constructor <;> linarith

theorem nearestInt_int (n : ℤ) : nearestInt (n : K) = n := by
  unfold nearestInt
  rw [Int.floor_intCast, sub_self, if_pos (by norm_num)]

theorem nearestInt_neg (y : K) : nearestInt (-y) = -nearestInt y := by
  by_cases hy : (⌊y⌋ : K) = y
  · rw [← hy, ← Int.cast_neg, nearestInt_int, nearestInt_int]
  · have h1 := lt_of_le_of_ne (Int.floor_le y) hy
    have h2 := Int.lt_floor_add_one y
    have hf : ⌊-y⌋ = -⌊y⌋ - 1 := by
      rw [Int.floor_eq_iff]
      push_cast
      constructor <;> linarith
    unfold nearestInt
    rw [hf]
    push_cast
    have he : Even (-⌊y⌋ - 1) ↔ ¬ Even ⌊y⌋ := by
      rw [Int.even_sub_one, even_neg]
    rcases lt_trichotomy (y - ⌊y⌋) (1 / 2) with h | h | h
    · rw [if_neg (by linarith), if_pos (by linarith), if_pos h]; ring
    · have a1 : ¬ (-y - (-(⌊y⌋ : K) - 1) < 1 / 2) := by linarith
      have a2 : ¬ (1 / 2 < -y - (-(⌊y⌋ : K) - 1)) := by linarith
      have a3 : ¬ (y - ⌊y⌋ < 1 / 2) := by linarith
      have a4 : ¬ (1 / 2 < y - (⌊y⌋ : K)) := by linarith
      rw [if_neg a1, if_neg a2, if_neg a3, if_neg a4]
      by_cases hev : Even ⌊y⌋
      · rw [if_neg (fun hh => he.mp hh hev), if_pos hev]; ring
      · rw [if_pos (he.mpr hev), if_neg hev]; ring
    · rw [if_pos (by linarith), if_neg (by linarith), if_pos h]; ring

theorem two_zpow_pos (e : ℤ) : (0 : K) < 2 ^ e := zpow_pos (by norm_num) e

theorem nearest_neg (p : ℕ) (x : K) : nearest p (-x) = -nearest p x := by
  have h : lastDigit p (-x) = lastDigit p x := by rw [lastDigit, abs_neg, lastDigit]
  rw [nearest, h, neg_div, nearestInt_neg, nearest]
  push_cast
  ring

theorem nearest_err (p : ℕ) (x : K) : |nearest p x - x| ≤ (2 ^ p)⁻¹ * |x| := by
  by_cases hx : x = 0
  · subst hx
    have : nearestInt (0 : K) = 0 := by simpa using nearestInt_int (K := K) 0
    simp [nearest, this]
  · have h0 := two_zpow_pos (K := K) (lastDigit p x)
    have h1 := nearestInt_err (x / 2 ^ lastDigit p x)
    have h2 : (2 : K) ^ Int.log 2 |x| ≤ |x| := by
      have := Int.zpow_log_le_self (b := 2) (by norm_num) (abs_pos.mpr hx)
      simpa using this
    have h3 : nearest p x - x = ((nearestInt (x / 2 ^ lastDigit p x) : K) - x / 2 ^ lastDigit p x) * 2 ^ lastDigit p x := by
      rw [nearest, sub_mul, div_mul_cancel₀ _ h0.ne']
    rw [h3, abs_mul, abs_of_pos h0]
    calc |(nearestInt (x / 2 ^ lastDigit p x) : K) - x / 2 ^ lastDigit p x| * 2 ^ lastDigit p x ≤ 1 / 2 * 2 ^ lastDigit p x :=
          mul_le_mul_of_nonneg_right h1 h0.le
      _ = (2 ^ p)⁻¹ * 2 ^ Int.log 2 |x| := by
          rw [lastDigit, zpow_sub₀ (by norm_num), zpow_sub₀ (by norm_num)]
          simp only [zpow_natCast, zpow_one]
          field_simp
      _ ≤ (2 ^ p)⁻¹ * |x| := mul_le_mul_of_nonneg_left h2 (by positivity)

/-- Numbers with at most `p` binary digits are not changed. -/
theorem nearest_of_digits {p : ℕ} (hp : 1 ≤ p) {n : ℤ} (hn : |n| ≤ 2 ^ p) (e : ℤ) : nearest p ((n : K) * 2 ^ e) = n * 2 ^ e := by
  suffices h : ∃ k : ℤ, (n : K) * 2 ^ e / 2 ^ lastDigit p ((n : K) * 2 ^ e) = k by
    obtain ⟨k, hk⟩ := h
    rw [nearest, hk, nearestInt_int, ← hk, div_mul_cancel₀ _ (two_zpow_pos _).ne']
  by_cases hn0 : n = 0
  · exact ⟨0, by simp [hn0]⟩
  have hz : (0 : K) < |(n : K) * 2 ^ e| := abs_pos.mpr (mul_ne_zero (by exact_mod_cast hn0) (two_zpow_pos e).ne')
  have habs : |(n : K) * 2 ^ e| = (|n| : ℤ) * 2 ^ e := by rw [abs_mul, abs_of_pos (two_zpow_pos (K := K) e), Int.cast_abs]
  rcases lt_or_eq_of_le hn with hlt | heq
  · have h1 : lastDigit p ((n : K) * 2 ^ e) ≤ e := by
      have h2 : (2 : K) ^ Int.log 2 |(n : K) * 2 ^ e| ≤ |(n : K) * 2 ^ e| := by
        simpa using Int.zpow_log_le_self (b := 2) (by norm_num) hz
      have h3 : |(n : K) * 2 ^ e| < 2 ^ ((p : ℤ) + e) := by
        rw [habs, zpow_add₀ (by norm_num), zpow_natCast]
        exact mul_lt_mul_of_pos_right (by exact_mod_cast hlt) (two_zpow_pos e)
      have h4 := (zpow_lt_zpow_iff_right₀ (by norm_num : (1 : K) < 2)).mp (h2.trans_lt h3)
      unfold lastDigit
      omega
    obtain ⟨j, hj⟩ := Int.eq_ofNat_of_zero_le (sub_nonneg.mpr h1)
    refine ⟨n * 2 ^ j, ?_⟩
    rw [mul_div_assoc, ← zpow_sub₀ (by norm_num), hj]
    push_cast
    rw [zpow_natCast]
  · have h1 : |(n : K) * 2 ^ e| = 2 ^ ((p : ℤ) + e) := by
      rw [habs, heq, zpow_add₀ (by norm_num), zpow_natCast]
      push_cast
      rfl
    have h2 : lastDigit p ((n : K) * 2 ^ e) = e + 1 := by
      have h3 : Int.log 2 ((2 : K) ^ ((p : ℤ) + e)) = p + e := by
        simpa using Int.log_zpow (R := K) (b := 2) (by norm_num) ((p : ℤ) + e)
      rw [lastDigit, h1, h3]
      ring
    obtain ⟨q, rfl⟩ : ∃ q, p = q + 1 := ⟨p - 1, by omega⟩
    obtain ⟨k, hk⟩ : (2 : ℤ) ^ (q + 1) ∣ n := by rw [← heq]; exact abs_dvd_self n |>.trans dvd_rfl
    refine ⟨2 ^ q * k, ?_⟩
    rw [h2, hk, zpow_add₀ (by norm_num), zpow_one]
    push_cast
    have := (two_zpow_pos (K := K) e).ne'
    field_simp
    ring

theorem abs_nearestInt_le {y : K} {N : ℤ} (h : |y| ≤ N) : |nearestInt y| ≤ N := by
  have h1 := nearestInt_err y
  have h2 : |(nearestInt y : K)| ≤ |(nearestInt y : K) - y| + |y| := by
    have := abs_add_le ((nearestInt y : K) - y) y
    rwa [sub_add_cancel] at this
  have h3 : ((|nearestInt y| : ℤ) : K) < ((N + 1 : ℤ) : K) := by
    rw [Int.cast_abs]; push_cast; linarith
  have h4 : |nearestInt y| < N + 1 := by exact_mod_cast h3
  omega

theorem nearest_idem {p : ℕ} (hp : 1 ≤ p) (x : K) : nearest p (nearest p x) = nearest p x := by
  refine nearest_of_digits hp (abs_nearestInt_le ?_) _
  have h0 := two_zpow_pos (K := K) (lastDigit p x)
  rw [abs_div, abs_of_pos h0, div_le_iff₀ h0]
  have h1 : |x| < (2 : K) ^ (Int.log 2 |x| + 1) := by
    simpa using Int.lt_zpow_succ_log_self (b := 2) (by norm_num) |x|
  refine h1.le.trans (le_of_eq ?_)
  push_cast
  rw [← zpow_natCast, ← zpow_add₀ (by norm_num)]
  congr 1
  rw [lastDigit]
  ring

/-- Floating point numbers with `p + 1` binary digits. -/
def Rounding.nearest (p : ℕ) : Rounding K where
  rnd := Audi.nearest (p + 1)
  u := (2 ^ (p + 1))⁻¹
  u_lt_one := by
    rw [inv_lt_one₀ (by positivity)]
    exact one_lt_pow₀ (by norm_num) (by omega)
  err := nearest_err _
  idem := nearest_idem (by omega)
  rnd_neg := nearest_neg _
  rnd_one := by
    have h := nearest_of_digits (K := K) (p := p + 1) (by omega) (n := 1) (by simpa using one_le_pow₀ (by norm_num)) 0
    simpa using h

end
end Audi
