import Verif.Spec.Trapping
import Verif.Proofs.CfHomOn
import Verif.Proofs.XF
import Verif.Proofs.NearestMono
import Mathlib.Algebra.Order.Archimedean.Real.Basic

/-! Computations of the trapping format are those of `double` and those of the format with 53 binary digits and no limits on the exponent. -/

namespace Audi

/-! ### Rounding rational and real numbers -/

theorem nearestInt_cast (q : ℚ) : nearestInt ((q : ℚ) : ℝ) = nearestInt q := by
  have h1 : (q : ℝ) - ((⌊q⌋ : ℤ) : ℝ) = ((q - ⌊q⌋ : ℚ) : ℝ) := by push_cast; rfl
  have h2 : ∀ x : ℚ, ((x : ℝ) < 1 / 2 ↔ x < 1 / 2) := fun x => by
    rw [← Rat.cast_lt (K := ℝ)]; push_cast; rfl
  have h3 : ∀ x : ℚ, (1 / 2 < (x : ℝ) ↔ 1 / 2 < x) := fun x => by
    rw [← Rat.cast_lt (K := ℝ)]; push_cast; rfl
  unfold nearestInt
  rw [Rat.floor_cast, h1]
  simp only [h2, h3]

theorem log_cast (q : ℚ) : Int.log 2 (q : ℝ) = Int.log 2 q := by
  rcases le_or_gt q 0 with h | h
  · rw [Int.log_of_right_le_zero _ h, Int.log_of_right_le_zero _ (by exact_mod_cast h)]
  · have h' : (0 : ℝ) < q := by exact_mod_cast h
    apply le_antisymm
    · rw [← Int.zpow_le_iff_le_log (by norm_num) h]
      have := (Int.zpow_le_iff_le_log (b := 2) (x := Int.log 2 (q : ℝ)) (by norm_num) h').mpr le_rfl
      rw [← Rat.cast_le (K := ℝ)]
      push_cast at this ⊢
      exact this
    · rw [← Int.zpow_le_iff_le_log (by norm_num) h']
      have := (Int.zpow_le_iff_le_log (b := 2) (x := Int.log 2 q) (by norm_num) h).mpr le_rfl
      rw [← Rat.cast_le (K := ℝ)] at this
      push_cast at this ⊢
      exact this

theorem nearest_cast (p : ℕ) (q : ℚ) : nearest p (q : ℝ) = ((nearest p q : ℚ) : ℝ) := by
  have h1 : lastDigit p (q : ℝ) = lastDigit p q := by
    unfold lastDigit
    rw [← Rat.cast_abs, log_cast]
  have h2 : (q : ℝ) / 2 ^ lastDigit p q = ((q / 2 ^ lastDigit p q : ℚ) : ℝ) := by push_cast; rfl
  unfold nearest
  rw [h1, h2, nearestInt_cast]
  push_cast
  rfl

/-! ### The three formats -/

theorem rndTrap_fin {q r : ℚ} (h : rndTrap q = .fin r) : nearest 53 q = r ∧ rnd64 q = .fin r := by
  unfold rndTrap at h
  split_ifs at h with h1 h2
  · cases h
    subst h1
    exact ⟨nearest_zero 53, XFormat.binary64.rnd_zero⟩
  · simp only [Xv.fin.injEq] at h
    refine ⟨h, ?_⟩
    have h3 : round64 q = nearest 53 q := by rw [round64, if_neg (not_lt.mpr h2.1)]
    rw [rnd64, h3, if_pos h2.2, h]

/-- The value as a `double`. -/
def XF.toDouble (x : XF .trapping) : XF .binary64 := ⟨x.v, fun q h => (rndTrap_fin (x.repr q h)).2⟩

/-- The format with 53 binary digits. -/
noncomputable abbrev R53 : Rounding ℝ := Rounding.nearest 52

theorem R53_cast {q r : ℚ} (h : rndTrap q = .fin r) : R53.rnd (q : ℝ) = r := by
  change nearest 53 (q : ℝ) = _
  rw [nearest_cast, (rndTrap_fin h).1]

/-- The value as a number with 53 binary digits. -/
noncomputable def XF.toFl (x : XF .trapping) : Fl R53 := ⟨x.real, by
  unfold XF.real
  cases h : x.v with
  | nan => exact Rounding.rnd_zero _
  | inf s => exact Rounding.rnd_zero _
  | fin q => exact R53_cast (x.repr q h)⟩

variable {F : XFormat}

theorem not_nonFinite {x : XF F} : ¬ NonFinite x ↔ ∃ q, x.v = .fin q := by unfold NonFinite; push Not; rfl

theorem XF.real_fin {x : XF F} {q : ℚ} (h : x.v = .fin q) : x.real = q := by unfold XF.real; rw [h]

theorem fin_add {a b : XF F} {r : ℚ} (h : (Cf.add a b).v = .fin r) : ∃ p q, a.v = .fin p ∧ b.v = .fin q ∧ F.rnd (p + q) = .fin r := by
  have hn : ¬ NonFinite (Cf.add a b) := not_nonFinite.mpr ⟨r, h⟩
  obtain ⟨p, hp⟩ := not_nonFinite.mp fun ha => hn (absorbing_nonFinite.add_left a b ha)
  obtain ⟨q, hq⟩ := not_nonFinite.mp fun ha => hn (absorbing_nonFinite.add_right a b ha)
  exact ⟨p, q, hp, hq, by rw [← XF.add_fin hp hq, h]⟩

theorem fin_mul {a b : XF F} {r : ℚ} (h : (Cf.mul a b).v = .fin r) : ∃ p q, a.v = .fin p ∧ b.v = .fin q ∧ F.rnd (p * q) = .fin r := by
  have hn : ¬ NonFinite (Cf.mul a b) := not_nonFinite.mpr ⟨r, h⟩
  obtain ⟨p, hp⟩ := not_nonFinite.mp fun ha => hn (absorbing_nonFinite.mul_left a b ha)
  obtain ⟨q, hq⟩ := not_nonFinite.mp fun ha => hn (absorbing_nonFinite.mul_right a b ha)
  exact ⟨p, q, hp, hq, by rw [← XF.mul_fin hp hq, h]⟩

theorem fin_div {a b : XF F} {r : ℚ} (hb : ∃ q, b.v = .fin q) (h : (Cf.div a b).v = .fin r) :
    ∃ p q, a.v = .fin p ∧ b.v = .fin q ∧ q ≠ 0 ∧ F.rnd (p / q) = .fin r := by
  have hn : ¬ NonFinite (Cf.div a b) := not_nonFinite.mpr ⟨r, h⟩
  obtain ⟨p, hp⟩ := not_nonFinite.mp fun ha => hn (absorbing_nonFinite.div_left a b ha)
  obtain ⟨q, hq⟩ := hb
  have h0 : q ≠ 0 := by
    rintro rfl
    rw [XF.div_def, XF.div, hp, hq] at h
    simp only [if_true] at h
    split_ifs at h <;> cases h
  exact ⟨p, q, hp, hq, h0, by rw [← XF.div_fin hp hq h0, h]⟩

/-- From the trapping format to `double`. -/
theorem homOn_toDouble : CfHomOn NonFinite XF.toDouble where
  abs := absorbing_nonFinite
  ofRat q hq := by
    obtain ⟨r, hr⟩ := not_nonFinite.mp hq
    exact XF.ext (hr.trans (rndTrap_fin hr).2.symm)
  zero := not_nonFinite.mpr ⟨0, XF.zero_v⟩
  one := not_nonFinite.mpr ⟨1, XF.one_v⟩
  add a b h := by
    obtain ⟨r, hr⟩ := not_nonFinite.mp h
    obtain ⟨p, q, hp, hq, h1⟩ := fin_add hr
    exact XF.ext (hr.trans ((XF.add_fin (a := a.toDouble) (b := b.toDouble) hp hq).trans (rndTrap_fin h1).2).symm)
  mul a b h := by
    obtain ⟨r, hr⟩ := not_nonFinite.mp h
    obtain ⟨p, q, hp, hq, h1⟩ := fin_mul hr
    exact XF.ext (hr.trans ((XF.mul_fin (a := a.toDouble) (b := b.toDouble) hp hq).trans (rndTrap_fin h1).2).symm)
  neg a h := by
    obtain ⟨r, hr⟩ := not_nonFinite.mp h
    exact ⟨not_nonFinite.mpr ⟨-r, XF.neg_fin hr⟩, XF.ext rfl⟩
  div a b hb h := by
    obtain ⟨r, hr⟩ := not_nonFinite.mp h
    obtain ⟨p, q, hp, hq, h0, h1⟩ := fin_div (not_nonFinite.mp hb) hr
    exact XF.ext (hr.trans ((XF.div_fin (a := a.toDouble) (b := b.toDouble) hp hq h0).trans (rndTrap_fin h1).2).symm)
  isZero a _ := rfl
  unit a _ _ := ⟨rfl, rfl⟩

theorem Fl.ext {K : Type} [Field K] [LinearOrder K] {R : Rounding K} {a b : Fl R} (h : a.val = b.val) : a = b := by cases a; cases b; cases h; rfl

/-- From the trapping format to numbers with 53 binary digits. -/
theorem homOn_toFl : CfHomOn NonFinite XF.toFl where
  abs := absorbing_nonFinite
  ofRat q hq := by
    obtain ⟨r, hr⟩ := not_nonFinite.mp hq
    exact Fl.ext ((XF.real_fin hr).trans (R53_cast hr).symm)
  zero := not_nonFinite.mpr ⟨0, XF.zero_v⟩
  one := not_nonFinite.mpr ⟨1, XF.one_v⟩
  add a b h := by
    obtain ⟨r, hr⟩ := not_nonFinite.mp h
    obtain ⟨p, q, hp, hq, h1⟩ := fin_add hr
    refine Fl.ext ((XF.real_fin hr).trans (Eq.symm ?_))
    change R53.rnd (a.real + b.real) = _
    rw [XF.real_fin hp, XF.real_fin hq, ← Rat.cast_add]
    exact R53_cast h1
  mul a b h := by
    obtain ⟨r, hr⟩ := not_nonFinite.mp h
    obtain ⟨p, q, hp, hq, h1⟩ := fin_mul hr
    refine Fl.ext ((XF.real_fin hr).trans (Eq.symm ?_))
    change R53.rnd (a.real * b.real) = _
    rw [XF.real_fin hp, XF.real_fin hq, ← Rat.cast_mul]
    exact R53_cast h1
  neg a h := by
    obtain ⟨r, hr⟩ := not_nonFinite.mp h
    refine ⟨not_nonFinite.mpr ⟨-r, XF.neg_fin hr⟩, Fl.ext ((XF.real_fin (XF.neg_fin hr)).trans ?_)⟩
    change _ = -a.real
    rw [XF.real_fin hr, Rat.cast_neg]
  div a b hb h := by
    obtain ⟨r, hr⟩ := not_nonFinite.mp h
    obtain ⟨p, q, hp, hq, h0, h1⟩ := fin_div (not_nonFinite.mp hb) hr
    refine Fl.ext ((XF.real_fin hr).trans (Eq.symm ?_))
    change R53.rnd (a.real / b.real) = _
    rw [XF.real_fin hp, XF.real_fin hq, ← Rat.cast_div]
    exact R53_cast h1
  isZero a h := by
    obtain ⟨r, hr⟩ := not_nonFinite.mp h
    change decide (a.real = 0) = decide (a.v = .fin 0)
    rw [XF.real_fin hr, hr]
    simp
  unit a h h' := by
    obtain ⟨s, hs⟩ := not_nonFinite.mp h'
    obtain ⟨p, q, hp, hq, h0, h1⟩ := fin_div (not_nonFinite.mp h) hs
    refine ⟨rfl, ?_⟩
    change (!decide (a.real = 0)) = true
    rw [XF.real_fin hq]
    simpa using h0

/-! ### `double` as values of the trapping format -/

theorem XF.trap_fin {x : XF .binary64} {q : ℚ} (h : x.trap.v = .fin q) : x.v = .fin q := by
  unfold XF.trap at h
  cases hx : x.v with
  | nan => rw [hx] at h; cases h
  | inf s => rw [hx] at h; cases h
  | fin r =>
    rw [hx] at h
    have h1 := (rndTrap_fin h).2
    have h2 := x.repr r hx
    change rnd64 r = _ at h2
    rw [h2] at h1
    exact h1

theorem XF.trap_normal {x : XF .binary64} : (∃ q, x.trap.v = .fin q) ↔ x.Normal := by
  constructor
  · rintro ⟨q, h⟩
    refine ⟨q, trap_fin h, ?_⟩
    have h1 := x.trap.repr q h
    change rndTrap q = _ at h1
    unfold rndTrap at h1
    split_ifs at h1 with h2 h3
    · exact Or.inl h2
    · exact Or.inr h3.1
  · rintro ⟨q, h, hq⟩
    refine ⟨q, ?_⟩
    have h2 := x.repr q h
    change rnd64 q = _ at h2
    unfold XF.trap
    rw [h]
    change rndTrap q = _
    unfold rndTrap
    rcases hq with rfl | hq
    · exact if_pos rfl
    · have h0 : q ≠ 0 := abs_pos.mp ((two_zpow_pos _).trans_le hq)
      have h3 : round64 q = nearest 53 q := by rw [round64, if_neg (not_lt.mpr hq)]
      unfold rnd64 at h2
      split_ifs at h2 with h4
      rw [h3] at h2 h4
      rw [if_neg h0, if_pos ⟨hq, h4⟩, h2]

theorem XF.toDouble_trap {x : XF .binary64} (h : ¬ NonFinite x.trap) : x.trap.toDouble = x := by
  obtain ⟨q, hq⟩ := not_nonFinite.mp h
  exact XF.ext (hq.trans (trap_fin hq).symm)

theorem XF.toFl_trap {x : XF .binary64} (h : ¬ NonFinite x.trap) : x.trap.toFl.val = x.real := by
  obtain ⟨q, hq⟩ := not_nonFinite.mp h
  exact (XF.real_fin hq).trans (XF.real_fin (trap_fin hq)).symm

theorem AExpr.map_quiet {A C D : Type} [Cf C] {N : C → Prop} {t : A → C} {g : C → D} {k : A → D} (hk : ∀ c, ¬ N (t c) → g (t c) = k c) {v : String → C} {m : ℕ} {e : AExpr A}
    (hq : (e.map t).Quiet N v m) : (e.map t).map g = e.map k := by
  induction e with
  | var s => rfl
  | const c => exact congrArg AExpr.const (hk c hq)
  | bin op e1 e2 h1 h2 => simp only [AExpr.map]; rw [h1 hq.1, h2 hq.2.1]
  | left op c e h1 => simp only [AExpr.map]; rw [hk c hq.1, h1 hq.2.1]
  | right op e c h1 => simp only [AExpr.map]; rw [hk c hq.1, h1 hq.2.1]
  | divc e c h1 => simp only [AExpr.map]; rw [hk c hq.1, h1 hq.2.2.1]
  | neg e h1 => simp only [AExpr.map]; rw [h1 hq]

theorem AExpr.rounds_map {C D : Type} (f : C → D) (e : AExpr C) (j : ℕ) : (e.map f).rounds j = e.rounds j := by
  induction e with
  | bin op e1 e2 h1 h2 => cases op <;> simp [AExpr.map, AExpr.rounds, h1, h2]
  | _ => simp_all [AExpr.map, AExpr.rounds]

end Audi
