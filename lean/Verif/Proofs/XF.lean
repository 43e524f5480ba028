import Verif.Proofs.SpecialDiv
import Verif.Proofs.Binary64

/-! Lemmas on the values of a floating point format with infinities and NaN. -/

namespace Audi

variable {F : XFormat}

namespace XF

theorem ext {a b : XF F} (h : a.v = b.v) : a = b := by cases a; cases b; cases h; rfl

theorem add_def (a b : XF F) : Cf.add a b = add a b := rfl
theorem mul_def (a b : XF F) : Cf.mul a b = mul a b := rfl
theorem div_def (a b : XF F) : Cf.div a b = div a b := rfl
theorem neg_def (a : XF F) : Cf.neg a = neg a := rfl

theorem isZero_iff (a : XF F) : Cf.isZero a = true ↔ a.v = .fin 0 := by
  change decide (a.v = .fin 0) = true ↔ _
  simp

theorem isZero_false (a : XF F) : Cf.isZero a = false ↔ a.v ≠ .fin 0 := by
  rw [← Bool.not_eq_true, isZero_iff]

theorem isUnit_true (a : XF F) : Cf.isUnit a = true := rfl

theorem zero_v : (Cf.zero : XF F).v = .fin 0 := F.rnd_zero

theorem one_v : (Cf.one : XF F).v = .fin 1 := F.rnd_one

theorem isZero_zero : Cf.isZero (Cf.zero : XF F) = true := (isZero_iff _).mpr zero_v

theorem isZero_one : Cf.isZero (Cf.one : XF F) = false := (isZero_false _).mpr (by rw [one_v]; simp)

theorem add_fin {a b : XF F} {p q : ℚ} (ha : a.v = .fin p) (hb : b.v = .fin q) : (Cf.add a b).v = F.rnd (p + q) := by
  rw [add_def, add, ha, hb]; rfl

theorem mul_fin {a b : XF F} {p q : ℚ} (ha : a.v = .fin p) (hb : b.v = .fin q) : (Cf.mul a b).v = F.rnd (p * q) := by
  rw [mul_def, mul, ha, hb]; rfl

theorem div_fin {a b : XF F} {p q : ℚ} (ha : a.v = .fin p) (hb : b.v = .fin q) (hq : q ≠ 0) : (Cf.div a b).v = F.rnd (p / q) := by
  rw [div_def, div, ha, hb]; simp only [hq, if_false]; rfl

theorem neg_fin {a : XF F} {p : ℚ} (ha : a.v = .fin p) : (Cf.neg a).v = .fin (-p) := by
  rw [neg_def]; change a.v.neg = _; rw [ha]; rfl

/-- The constant coefficient cancels exactly when it is a number. -/
theorem cancel {a : XF F} {p : ℚ} (ha : a.v = .fin p) : Cf.isZero (Cf.add a (Cf.neg a)) = true := by
  rw [isZero_iff, add_fin ha (neg_fin ha), add_neg_cancel, F.rnd_zero]

theorem mul_one (a : XF F) : Cf.mul a Cf.one = a := by
  apply ext
  rw [mul_def, mul, one_v]
  obtain ⟨v, hv⟩ := a
  cases v with
  | nan => rfl
  | inf s => simp [inf, show ¬ ((1 : ℚ) < 0) by norm_num]
  | fin q => change F.rnd (q * 1) = _; rw [_root_.mul_one]; exact hv q rfl

theorem one_mul (a : XF F) : Cf.mul Cf.one a = a := by
  apply ext
  rw [mul_def, mul, one_v]
  obtain ⟨v, hv⟩ := a
  cases v with
  | nan => rfl
  | inf s => simp [inf, show ¬ ((1 : ℚ) < 0) by norm_num]
  | fin q => change F.rnd (1 * q) = _; rw [_root_.one_mul]; exact hv q rfl

theorem inv_zero {a : XF F} (ha : a.v = .fin 0) : (Cf.div Cf.one a).v = .inf false := by
  rw [div_def, div, one_v, ha]; simp [inf]

instance : NegZero (XF F) where
  isZero_neg c := by
    rw [Bool.eq_iff_iff, isZero_iff, isZero_iff, neg_def]
    obtain ⟨v, hv⟩ := c
    cases v <;> simp [neg, Xv.neg]

end XF

theorem nonFinite_iff (x : XF F) : NonFinite x ↔ x.v = .nan ∨ ∃ s, x.v = .inf s := by
  unfold NonFinite
  cases h : x.v <;> simp

theorem IsNaN.nonFinite {x : XF F} (h : IsNaN x) : NonFinite x := (nonFinite_iff x).mpr (Or.inl h)

theorem absorbing_nan : Absorbing (IsNaN (F := F)) where
  add_left a b h := by
    rw [XF.add_def]; unfold IsNaN at *; unfold XF.add; rw [h]; rfl
  add_right a b h := by
    rw [XF.add_def]; unfold IsNaN at *; unfold XF.add; rw [h]; cases a.v <;> rfl
  mul_left a b h := by
    rw [XF.mul_def]; unfold IsNaN at *; unfold XF.mul; rw [h]; rfl
  mul_right a b h := by
    rw [XF.mul_def]; unfold IsNaN at *; unfold XF.mul; rw [h]; cases a.v <;> rfl
  div_left a b h := by
    rw [XF.div_def]; unfold IsNaN at *; unfold XF.div; rw [h]; rfl
  neg a h := by
    rw [XF.neg_def]; unfold IsNaN at *; unfold XF.neg; simp [h, Xv.neg]
  nz a h := by rw [XF.isZero_false, h]; simp

theorem absorbing_nonFinite : Absorbing (NonFinite (F := F)) where
  add_left a b h := by
    rw [nonFinite_iff] at *
    rw [XF.add_def]; unfold XF.add
    rcases h with h | ⟨s, h⟩ <;> rw [h] <;> cases b.v <;> simp [XF.nan, XF.inf]
    split_ifs <;> simp
  add_right a b h := by
    rw [nonFinite_iff] at *
    rw [XF.add_def]; unfold XF.add
    rcases h with h | ⟨s, h⟩ <;> rw [h] <;> cases a.v <;> simp [XF.nan, XF.inf]
    split_ifs <;> simp
  mul_left a b h := by
    rw [nonFinite_iff] at *
    rw [XF.mul_def]; unfold XF.mul
    rcases h with h | ⟨s, h⟩ <;> rw [h] <;> cases b.v <;> simp [XF.nan, XF.inf]
    split_ifs <;> simp [em]
  mul_right a b h := by
    rw [nonFinite_iff] at *
    rw [XF.mul_def]; unfold XF.mul
    rcases h with h | ⟨s, h⟩ <;> rw [h] <;> cases a.v <;> simp [XF.nan, XF.inf]
    split_ifs <;> simp [em]
  div_left a b h := by
    rw [nonFinite_iff] at *
    rw [XF.div_def]; unfold XF.div
    rcases h with h | ⟨s, h⟩ <;> rw [h] <;> cases b.v <;> simp [XF.nan, XF.inf]
  neg a h := by
    rw [nonFinite_iff] at *
    rw [XF.neg_def]; unfold XF.neg
    rcases h with h | ⟨s, h⟩ <;> simp [h, Xv.neg]
  nz a h := by rw [XF.isZero_false]; exact h 0

end Audi
