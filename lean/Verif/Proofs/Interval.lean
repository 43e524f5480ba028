import Verif.Spec.Bernstein
import Mathlib.Algebra.Order.Field.Basic
import Mathlib.Algebra.Order.Ring.Abs
import Mathlib.Tactic.Linarith

/-!
# Proofs: interval arithmetic encloses the results
-/

namespace Audi.Itv

open Spec

variable {K : Type} [Field K] [LinearOrder K] [IsStrictOrderedRing K] {a b : Itv K} {x y : K}

omit [IsStrictOrderedRing K] [Field K] in
theorem le_of_mem (h : InItv a x) : a.lo ≤ a.hi := h.1.trans h.2

omit [IsStrictOrderedRing K] [Field K] in
theorem mem_point (x : K) : InItv (point x) x := ⟨le_rfl, le_rfl⟩

theorem mem_add (hx : InItv a x) (hy : InItv b y) : InItv (a.add b) (x + y) := ⟨add_le_add hx.1 hy.1, add_le_add hx.2 hy.2⟩

theorem mem_sub (hx : InItv a x) (hy : InItv b y) : InItv (a.sub b) (x - y) := ⟨sub_le_sub hx.1 hy.2, sub_le_sub hx.2 hy.1⟩

theorem mem_neg (hx : InItv a x) : InItv a.neg (-x) := ⟨neg_le_neg hx.2, neg_le_neg hx.1⟩

theorem lo_le_hi_add (ha : a.lo ≤ a.hi) (hb : b.lo ≤ b.hi) : (a.add b).lo ≤ (a.add b).hi := add_le_add ha hb

theorem lo_le_hi_sub (ha : a.lo ≤ a.hi) (hb : b.lo ≤ b.hi) : (a.sub b).lo ≤ (a.sub b).hi := sub_le_sub ha hb

omit [IsStrictOrderedRing K] in
theorem lo_le_hi_mul (a b : Itv K) : (a.mul b).lo ≤ (a.mul b).hi :=
  ((min_le_left _ _).trans (min_le_left _ _)).trans ((le_max_left _ _).trans (le_max_left _ _))

/-- A linear function on an interval is not larger than at one of the end points. -/
theorem lin_le (c : K) (hx : InItv a x) : c * x ≤ max (c * a.lo) (c * a.hi) := by
  rcases le_total 0 c with h | h
  · exact le_max_of_le_right (mul_le_mul_of_nonneg_left hx.2 h)
  · exact le_max_of_le_left (mul_le_mul_of_nonpos_left hx.1 h)

theorem le_lin (c : K) (hx : InItv a x) : min (c * a.lo) (c * a.hi) ≤ c * x := by
  rcases le_total 0 c with h | h
  · exact min_le_of_left_le (mul_le_mul_of_nonneg_left hx.1 h)
  · exact min_le_of_right_le (mul_le_mul_of_nonpos_left hx.2 h)

theorem mem_mul (hx : InItv a x) (hy : InItv b y) : InItv (a.mul b) (x * y) := by
  constructor
  · have h1 := le_lin y hx
    rw [mul_comm y, mul_comm y, mul_comm y] at h1
    refine le_trans ?_ h1
    exact le_min ((min_le_left _ _).trans (le_lin _ hy)) ((min_le_right _ _).trans (le_lin _ hy))
  · have h1 := lin_le y hx
    rw [mul_comm y, mul_comm y, mul_comm y] at h1
    refine h1.trans ?_
    exact max_le ((lin_le _ hy).trans (le_max_left _ _)) ((lin_le _ hy).trans (le_max_right _ _))

omit [IsStrictOrderedRing K] in
theorem not_zeroIn (h : a.zeroIn = false) (hx : InItv a x) : (0 < a.lo ∧ 0 < x) ∨ (a.hi < 0 ∧ x < 0) := by
  unfold zeroIn at h
  rcases lt_or_ge 0 a.lo with h1 | h1
  · exact .inl ⟨h1, h1.trans_le hx.1⟩
  · have : a.hi < 0 := by
      by_contra hc
      simp [h1, not_lt.1 hc] at h
    exact .inr ⟨this, hx.2.trans_lt this⟩

omit [IsStrictOrderedRing K] in
theorem zeroIn_false_iff : a.zeroIn = false ↔ 0 < a.lo ∨ a.hi < 0 := by
  unfold zeroIn
  rw [Bool.and_eq_false_iff, decide_eq_false_iff_not, decide_eq_false_iff_not, not_le, not_le]

theorem mem_inv (h : a.zeroIn = false) (hx : InItv a x) : InItv ⟨a.hi⁻¹, a.lo⁻¹⟩ x⁻¹ := by
  rcases not_zeroIn h hx with ⟨h1, h2⟩ | ⟨h1, h2⟩
  · exact ⟨inv_anti₀ h2 hx.2, inv_anti₀ h1 hx.1⟩
  · exact ⟨(inv_le_inv_of_neg h1 h2).2 hx.2, (inv_le_inv_of_neg h2 (hx.1.trans_lt h2)).2 hx.1⟩

omit [IsStrictOrderedRing K] in
theorem inv_ok (h : a.zeroIn = false) : a.inv = .ok ⟨a.hi⁻¹, a.lo⁻¹⟩ := by
  unfold inv
  simp [h]

theorem mem_div (h : b.zeroIn = false) (hx : InItv a x) (hy : InItv b y) : ∃ r, a.div b = .ok r ∧ InItv r (x / y) := by
  refine ⟨a.mul ⟨b.hi⁻¹, b.lo⁻¹⟩, ?_, ?_⟩
  · unfold div
    rw [inv_ok h]
    rfl
  · rw [div_eq_mul_inv]
    exact mem_mul hx (mem_inv h hy)

theorem mem_pow (hx : InItv a x) (n : ℕ) : InItv (a.pow n) (x ^ n) := by
  unfold pow
  by_cases h0 : n = 0
  · rw [if_pos h0, h0, pow_zero]
    exact ⟨le_rfl, le_rfl⟩
  rw [if_neg h0]
  by_cases h1 : n % 2 = 1
  · rw [if_pos h1]
    have ho : Odd n := Nat.odd_iff.2 h1
    exact ⟨ho.strictMono_pow.monotone hx.1, ho.strictMono_pow.monotone hx.2⟩
  rw [if_neg h1]
  have he : Even n := Nat.even_iff.2 (by omega)
  by_cases h2 : 0 ≤ a.lo
  · rw [if_pos h2]
    exact ⟨pow_le_pow_left₀ h2 hx.1 n, pow_le_pow_left₀ (h2.trans hx.1) hx.2 n⟩
  rw [if_neg h2]
  have habs : ∀ u v : K, |u| ≤ |v| → u ^ n ≤ v ^ n := by
    intro u v huv
    rw [← he.pow_abs u, ← he.pow_abs v]
    exact pow_le_pow_left₀ (abs_nonneg _) huv n
  by_cases h3 : a.hi ≤ 0
  · rw [if_pos h3]
    have hx0 : x ≤ 0 := hx.2.trans h3
    constructor
    · refine habs _ _ ?_
      rw [abs_of_nonpos h3, abs_of_nonpos hx0]
      exact neg_le_neg hx.2
    · refine habs _ _ ?_
      rw [abs_of_nonpos hx0, abs_of_nonpos (hx.1.trans hx0)]
      exact neg_le_neg hx.1
  · rw [if_neg h3]
    refine ⟨he.pow_nonneg x, ?_⟩
    rcases le_total 0 x with h | h
    · exact le_max_of_le_right (pow_le_pow_left₀ h hx.2 n)
    · refine le_max_of_le_left (habs _ _ ?_)
      rw [abs_of_nonpos h, abs_of_nonpos (hx.1.trans h)]
      exact neg_le_neg hx.1

theorem lo_le_hi_pow (ha : a.lo ≤ a.hi) (n : ℕ) : (a.pow n).lo ≤ (a.pow n).hi := le_of_mem (mem_pow ⟨le_rfl, ha⟩ n)

end Audi.Itv
