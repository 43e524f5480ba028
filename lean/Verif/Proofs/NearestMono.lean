import Verif.Proofs.Nearest
import Verif.Model.RoundedBounds

/-!
# Proofs: rounding to the nearest number keeps the order
-/

namespace Audi

section
variable {K : Type} [Field K] [LinearOrder K] [IsStrictOrderedRing K] [FloorRing K]

theorem nearestInt_mono {y z : K} (h : y ≤ z) : nearestInt y ≤ nearestInt z := by
  rcases (Int.floor_mono h).lt_or_eq with hf | hf
  · have h1 : nearestInt y ≤ ⌊y⌋ + 1 := by
      unfold nearestInt
      split_ifs <;> omega
    have h2 : ⌊z⌋ ≤ nearestInt z := by
      unfold nearestInt
      split_ifs <;> omega
    omega
  · unfold nearestInt
    rw [hf]
    split_ifs <;> first | omega | (exfalso; linarith) | (exfalso; contradiction)

theorem nearest_zero (p : ℕ) : nearest p (0 : K) = 0 := by simpa using nearest_err p (0 : K)

theorem nearest_nonneg (p : ℕ) {x : K} (h : 0 ≤ x) : 0 ≤ nearest p x := by
  have h0 := two_zpow_pos (K := K) (lastDigit p x)
  have h1 : (0 : ℤ) ≤ nearestInt (x / 2 ^ lastDigit p x) := by
    rw [← nearestInt_int (K := K) 0]
    exact nearestInt_mono (by rw [Int.cast_zero]; exact div_nonneg h h0.le)
  exact mul_nonneg (by exact_mod_cast h1) h0.le

/-- The rounded number is at most the next power of two. -/
theorem nearest_le_pow {p : ℕ} {x : K} (h : 0 < x) : nearest p x ≤ 2 ^ (Int.log 2 x + 1) := by
  have h0 := two_zpow_pos (K := K) (lastDigit p x)
  have e : (2 : K) ^ (Int.log 2 x + 1) = ((2 ^ p : ℤ) : K) * 2 ^ lastDigit p x := by
    push_cast
    rw [← zpow_natCast, ← zpow_add₀ (by norm_num), lastDigit, abs_of_pos h]
    congr 1
    ring
  have h1 : x < (2 : K) ^ (Int.log 2 x + 1) := by
    simpa using Int.lt_zpow_succ_log_self (b := 2) (by norm_num) x
  rw [e] at h1 ⊢
  refine mul_le_mul_of_nonneg_right ?_ h0.le
  have h2 := nearestInt_mono ((div_le_iff₀ h0).2 h1.le)
  rw [nearestInt_int] at h2
  exact_mod_cast h2

/-- The rounded number is at least the power of two below. -/
theorem pow_le_nearest {p : ℕ} (hp : 1 ≤ p) {x : K} (h : 0 < x) : 2 ^ Int.log 2 x ≤ nearest p x := by
  have h0 := two_zpow_pos (K := K) (lastDigit p x)
  have e : (2 : K) ^ Int.log 2 x = ((2 ^ (p - 1) : ℤ) : K) * 2 ^ lastDigit p x := by
    push_cast
    rw [← zpow_natCast, ← zpow_add₀ (by norm_num), lastDigit, abs_of_pos h]
    congr 1
    push_cast [hp]
    ring
  have h1 : (2 : K) ^ Int.log 2 x ≤ x := by
    simpa using Int.zpow_log_le_self (b := 2) (by norm_num) h
  rw [e] at h1 ⊢
  refine mul_le_mul_of_nonneg_right ?_ h0.le
  have h2 := nearestInt_mono ((le_div_iff₀ h0).2 h1)
  rw [nearestInt_int] at h2
  exact_mod_cast h2

theorem nearest_mono {p : ℕ} (hp : 1 ≤ p) : Monotone (nearest (K := K) p) := by
  have pos : ∀ {x y : K}, 0 ≤ x → x ≤ y → nearest p x ≤ nearest p y := fun {x y} h0 h => by
    rcases h0.eq_or_lt with rfl | h0
    · rw [nearest_zero]
      exact nearest_nonneg p h
    have hy := h0.trans_le h
    rcases (Int.log_mono_right (b := 2) h0 h).lt_or_eq with hl | hl
    · refine (nearest_le_pow h0).trans (le_trans ?_ (pow_le_nearest hp hy))
      exact zpow_le_zpow_right₀ (by norm_num) (by omega)
    · have e : lastDigit p x = lastDigit p y := by rw [lastDigit, lastDigit, abs_of_pos h0, abs_of_pos hy, hl]
      rw [nearest, nearest, e]
      have h1 := two_zpow_pos (K := K) (lastDigit p y)
      refine mul_le_mul_of_nonneg_right ?_ h1.le
      exact_mod_cast nearestInt_mono (div_le_div_of_nonneg_right h h1.le)
  intro x y h
  rcases le_total 0 x with hx | hx
  · exact pos hx h
  · rcases le_total 0 y with hy | hy
    · refine le_trans ?_ (nearest_nonneg p hy)
      have := nearest_nonneg p (neg_nonneg.2 hx)
      rw [nearest_neg] at this
      linarith
    · have := pos (neg_nonneg.2 hy) (neg_le_neg h)
      rw [nearest_neg, nearest_neg] at this
      linarith

theorem Rounding.nearest_mono (p : ℕ) : Monotone (Rounding.nearest (K := K) p).rnd := Audi.nearest_mono (by omega)

end

/-- `std::pow` with correctly rounded results. -/
@[reducible] def FlPow.correct {K : Type} [Field K] [LinearOrder K] [IsStrictOrderedRing K] (R : Rounding K) : FlPow R where
  acc := 1
  pow x n := Fl.round R (x.val ^ n)
  pow_err x n := by
    rw [pow_one, add_sub_cancel_left]
    exact R.err _

end Audi
