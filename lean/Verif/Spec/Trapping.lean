import Verif.Proofs.Binary64
import Verif.Spec.Quiet
import Verif.Spec.Special
import Mathlib.Data.Real.Basic

/-!
# Specification: computations on `double` without overflow and underflow

`XFormat.trapping` is the format of `double` in which every result that overflows, or is not zero and smaller than 2^-1022 (the smallest normal number), is replaced with an infinity: a
result is a number of this format if no such event happened. Infinities cannot be turned back into numbers by sums and products, so that a computation whose
results are numbers of this format is one of `double` without overflow and underflow.
-/

namespace Audi

/-- The rounding of `double`, where overflow and underflow (a result below 2^-1022 before rounding) give an infinity. -/
def rndTrap (q : ℚ) : Xv :=
  if q = 0 then .fin 0 else if 2 ^ (-1022 : ℤ) ≤ |q| ∧ |nearest 53 q| < 2 ^ 1024 then .fin (nearest 53 q) else .inf (decide (q < 0))

/-- The format of `double` with traps for overflow and underflow. -/
def XFormat.trapping : XFormat where
  rnd := rndTrap
  rnd_ne_nan q := by unfold rndTrap; split_ifs <;> simp
  rnd_zero := if_pos rfl
  rnd_one := by
    have h := nearest_of_digits (K := ℚ) (p := 53) (by norm_num) (n := 1) (by norm_num) 0
    rw [zpow_zero, mul_one, Int.cast_one] at h
    rw [rndTrap, if_neg one_ne_zero, h, abs_one, if_pos ⟨zpow_le_one_of_nonpos₀ (by norm_num) (by norm_num), one_lt_pow₀ (by norm_num) (by norm_num)⟩]
  rnd_idem q r h := by
    unfold rndTrap at h
    split_ifs at h with h1 h2
    · cases h; exact if_pos rfl
    · simp only [Xv.fin.injEq] at h
      subst h
      have h3 := le_abs_nearest_of_le h2.1
      have h4 : nearest 53 q ≠ 0 := abs_pos.mp ((two_zpow_pos _).trans_le h3)
      rw [rndTrap, if_neg h4, nearest_idem (by norm_num), if_pos ⟨h3, h2.2⟩]
  rnd_neg q := by
    unfold rndTrap
    rw [nearest_neg, abs_neg, abs_neg]
    by_cases hq : q = 0
    · simp [hq, Xv.neg]
    · rw [if_neg (neg_ne_zero.mpr hq), if_neg hq]
      split_ifs with h
      · rfl
      · simp only [Xv.neg, Left.neg_neg_iff, Xv.inf.injEq]
        rcases lt_or_gt_of_ne hq with h1 | h1
        · simp [h1, h1.le]
        · simp [h1, h1.le]

/-- The `double` as a value of the trapping format: the same number, unless it is subnormal. -/
def XF.trap (x : XF .binary64) : XF .trapping :=
  match x.v with
  | .nan => XF.nan _
  | .inf s => XF.inf _ s
  | .fin q => XF.round _ q

/-- The `double` is zero or a normal number. -/
def XF.Normal (x : XF .binary64) : Prop := ∃ q, x.v = .fin q ∧ (q = 0 ∨ 2 ^ (-1022 : ℤ) ≤ |q|)

/-- The number (zero for NaN and the infinities). -/
noncomputable def XF.real {F : XFormat} (x : XF F) : ℝ :=
  match x.v with
  | .fin q => (q : ℝ)
  | _ => 0

/-- No result of the evaluation of the expression on `double` overflows, underflows or is NaN. -/
def AExpr.NoTrap (v : String → XF .binary64) (m : ℕ) (e : AExpr (XF .binary64)) : Prop := (e.map XF.trap).Quiet NonFinite (fun s => (v s).trap) m

end Audi
