import Verif.Proofs.XF
import Mathlib.Data.EReal.Inv

/-!
# C97: the arithmetic of values with infinities is that of the extended reals

A check of Model/Special.lean against Mathlib: for the format without rounding, the sum, product and quotient of values other than NaN are those of the extended reals, except
for the indeterminate forms of IEEE 754 (7.2), which give NaN, and division by zero (7.3).
-/

namespace Audi

/-- The extended real number of a value; NaN has none. -/
noncomputable def Xv.toEReal : Xv → Option EReal
  | nan => none
  | inf true => some ⊥
  | inf false => some ⊤
  | fin q => some ((q : ℝ) : EReal)

open Classical in
/-- **C97** The sum: NaN for the sum of opposite infinities or with a NaN, otherwise the sum of the extended reals. -/
theorem C97_arith_add (x y : XF .exact) : (Cf.add x y).v.toEReal =
    match x.v.toEReal, y.v.toEReal with
    | some a, some b => if (a = ⊤ ∧ b = ⊥) ∨ (a = ⊥ ∧ b = ⊤) then none else some (a + b)
    | _, _ => none := by
  rw [XF.add_def]
  unfold XF.add
  rcases hx : x.v with _ | (_ | _) | p <;> rcases hy : y.v with _ | (_ | _) | q <;> simp [Xv.toEReal, XF.nan, XF.inf]
  · change Option.some (((p + q : ℚ) : ℝ) : EReal) = _
    push_cast
    rfl

open Classical in
/-- **C97** The product: NaN for 0 times an infinity or with a NaN, otherwise the product of the extended reals. -/
theorem C97_arith_mul (x y : XF .exact) : (Cf.mul x y).v.toEReal =
    match x.v.toEReal, y.v.toEReal with
    | some a, some b => if (a = 0 ∧ (b = ⊤ ∨ b = ⊥)) ∨ ((a = ⊤ ∨ a = ⊥) ∧ b = 0) then none else some (a * b)
    | _, _ => none := by
  rw [XF.mul_def]
  unfold XF.mul
  rcases hx : x.v with _ | s | p <;> rcases hy : y.v with _ | t | q
  · rfl
  · cases t <;> rfl
  · rfl
  · cases s <;> rfl
  · cases s <;> cases t <;> simp [Xv.toEReal, XF.inf]
  · rcases lt_trichotomy q 0 with h | h | h
    · have h1 : ((q : ℚ) : ℝ) < 0 := by exact_mod_cast h
      cases s <;> simp [Xv.toEReal, XF.inf, h, h.ne, EReal.top_mul_coe_of_neg h1, EReal.bot_mul_coe_of_neg h1]
    · subst h; cases s <;> simp [Xv.toEReal, XF.nan]
    · have h1 : 0 < ((q : ℚ) : ℝ) := by exact_mod_cast h
      cases s <;> simp [Xv.toEReal, XF.inf, h.not_gt, h.ne', EReal.top_mul_coe_of_pos h1, EReal.bot_mul_coe_of_pos h1]
  · rfl
  · rcases lt_trichotomy p 0 with h | h | h
    · have h1 : ((p : ℚ) : ℝ) < 0 := by exact_mod_cast h
      cases t <;> simp [Xv.toEReal, XF.inf, h, h.ne, EReal.coe_mul_top_of_neg h1, EReal.coe_mul_bot_of_neg h1]
    · subst h; cases t <;> simp [Xv.toEReal, XF.nan]
    · have h1 : 0 < ((p : ℚ) : ℝ) := by exact_mod_cast h
      cases t <;> simp [Xv.toEReal, XF.inf, h.not_gt, h.ne', EReal.coe_mul_top_of_pos h1, EReal.coe_mul_bot_of_pos h1]
  · change Option.some (((p * q : ℚ) : ℝ) : EReal) = _
    simp [Xv.toEReal]

open Classical in
/-- **C97** The quotient: NaN for 0/0, for the quotient of infinities or with a NaN; an infinity with the sign of the numerator for a number other than 0 over 0; otherwise the
quotient of the extended reals. (There is one zero only; an infinity over it keeps its sign.) -/
theorem C97_arith_div (x y : XF .exact) : (Cf.div x y).v.toEReal =
    match x.v.toEReal, y.v.toEReal with
    | some a, some b => if (a = 0 ∧ b = 0) ∨ ((a = ⊤ ∨ a = ⊥) ∧ (b = ⊤ ∨ b = ⊥)) then none else if b = 0 then some (if a < 0 then ⊥ else ⊤) else some (a / b)
    | _, _ => none := by
  rw [XF.div_def]
  unfold XF.div
  rcases hx : x.v with _ | s | p <;> rcases hy : y.v with _ | t | q
  · rfl
  · cases t <;> rfl
  · rfl
  · cases s <;> rfl
  · cases s <;> cases t <;> simp [Xv.toEReal, XF.nan]
  · rcases lt_trichotomy q 0 with h | h | h
    · have h1 : ((q : ℚ) : ℝ) < 0 := by exact_mod_cast h
      cases s <;> simp [Xv.toEReal, XF.inf, h, h.ne, EReal.top_div_of_neg_ne_bot (EReal.coe_neg'.mpr h1) (EReal.coe_ne_bot _),
        EReal.bot_div_of_neg_ne_bot (EReal.coe_neg'.mpr h1) (EReal.coe_ne_bot _)]
    · subst h; cases s <;> simp [Xv.toEReal, XF.inf]
    · have h1 : 0 < ((q : ℚ) : ℝ) := by exact_mod_cast h
      cases s <;> simp [Xv.toEReal, XF.inf, h.not_gt, h.ne', EReal.top_div_of_pos_ne_top (EReal.coe_pos.mpr h1) (EReal.coe_ne_top _),
        EReal.bot_div_of_pos_ne_top (EReal.coe_pos.mpr h1) (EReal.coe_ne_top _)]
  · rfl
  · have h0 : (XF.round .exact 0).v = .fin 0 := rfl
    cases t <;> simp [Xv.toEReal, h0]
  · by_cases hq : q = 0
    · subst hq
      by_cases hp : p = 0
      · subst hp; simp [Xv.toEReal, XF.nan]
      · by_cases h : p < 0
        · simp [Xv.toEReal, XF.inf, hp, h]
        · simp [Xv.toEReal, XF.inf, hp, h]
    · have h0 : (XF.round .exact (p / q)).v = .fin (p / q) := rfl
      simp [Xv.toEReal, hq, h0, EReal.coe_div]

/-- **C97** Opposites. -/
theorem C97_arith_neg (x : XF .exact) : (Cf.neg x).v.toEReal = x.v.toEReal.map (- ·) := by
  rw [XF.neg_def]
  change x.v.neg.toEReal = _
  rcases x.v with _ | (_ | _) | p <;> simp [Xv.toEReal, Xv.neg]

open Classical in
/-- **C97** The comparisons are those of the extended reals, and false with a NaN. -/
theorem C97_arith_lt (x y : XF .exact) : (CfOrd.lt x y = true ↔ ∃ a b, x.v.toEReal = some a ∧ y.v.toEReal = some b ∧ a < b) ∧
    (CfOrd.gt x y = true ↔ ∃ a b, x.v.toEReal = some a ∧ y.v.toEReal = some b ∧ a > b) ∧
    (Cf.beq x y = true ↔ ∃ a, x.v.toEReal = some a ∧ y.v.toEReal = some a) := by
  have key : ∀ x y : XF .exact, XF.lt x y = true ↔ ∃ a b, x.v.toEReal = some a ∧ y.v.toEReal = some b ∧ a < b := by
    intro x y
    unfold XF.lt
    rcases x.v with _ | (_ | _) | p <;> rcases y.v with _ | (_ | _) | q <;> simp [Xv.toEReal]
  refine ⟨key x y, ?_, ?_⟩
  · change XF.lt y x = true ↔ _
    rw [key]
    constructor
    · rintro ⟨a, b, h1, h2, h3⟩; exact ⟨b, a, h2, h1, h3⟩
    · rintro ⟨a, b, h1, h2, h3⟩; exact ⟨b, a, h2, h1, h3⟩
  · change decide (x.v ≠ .nan ∧ x.v = y.v) = true ↔ _
    rw [decide_eq_true_eq]
    rcases x.v with _ | (_ | _) | p <;> rcases y.v with _ | (_ | _) | q <;> simp [Xv.toEReal, eq_comm]

/-- **C97** The tests of absolute values and of zero: `abs(c) < eps`, `abs(c) > tol`, `c == 0`; all are false for NaN. -/
theorem C97_arith_abs (x : XF .exact) (e : ℚ) : (CfOrd.absLt x e = true ↔ ∃ a, x.v.toEReal = some a ∧ -((e : ℝ) : EReal) < a ∧ a < ((e : ℝ) : EReal)) ∧
    (CfOrd.absGt x e = true ↔ ∃ a, x.v.toEReal = some a ∧ (a < -((e : ℝ) : EReal) ∨ ((e : ℝ) : EReal) < a)) ∧
    (Cf.isZero x = true ↔ x.v.toEReal = some 0) := by
  have hc : ∀ p q : ℚ, (-((p : ℝ) : EReal) < ((q : ℝ) : EReal) ↔ -p < q) := by
    intro p q
    rw [← EReal.coe_neg, EReal.coe_lt_coe_iff]
    exact_mod_cast Iff.rfl
  have hd : ∀ p q : ℚ, (((p : ℝ) : EReal) < -((q : ℝ) : EReal) ↔ p < -q) := by
    intro p q
    rw [← EReal.coe_neg, EReal.coe_lt_coe_iff]
    exact_mod_cast Iff.rfl
  refine ⟨?_, ?_, ?_⟩
  · change (match XF.abs x with | .nan => false | .inf _ => false | .fin q => decide (q < e)) = true ↔ _
    unfold XF.abs
    rcases x.v with _ | (_ | _) | p <;> simp [Xv.toEReal, hc, abs_lt]
  · change (match XF.abs x with | .nan => false | .inf _ => true | .fin q => decide (e < q)) = true ↔ _
    unfold XF.abs
    rcases x.v with _ | (_ | _) | p <;> simp [Xv.toEReal, hd, lt_abs]
    · rw [← EReal.coe_neg]; exact EReal.bot_lt_coe _
    · rw [or_comm, lt_neg]
  · change decide (x.v = .fin 0) = true ↔ _
    rw [decide_eq_true_eq]
    rcases x.v with _ | (_ | _) | p <;> simp [Xv.toEReal]

example : (Cf.add (XF.inf .exact false) (XF.inf .exact true)).v.toEReal = none := by
  rw [C97_arith_add]; simp [XF.inf, Xv.toEReal]

end Audi
