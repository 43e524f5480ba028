import Verif.Props.LineModels
import Verif.Props.C53_TaylorFunctions
import Verif.Props.C55_Counterexamples
import Mathlib.Analysis.SpecialFunctions.Trigonometric.Bounds
import Mathlib.Analysis.Complex.ExponentialBounds
import Mathlib.Analysis.SpecialFunctions.Trigonometric.Series
import Mathlib.Analysis.SpecialFunctions.Arsinh
import Mathlib.Analysis.SpecialFunctions.Arcosh
import Mathlib.Analysis.SpecialFunctions.Artanh

/-! # C63: functions of Taylor models that are composed of other operations: tan, tanh, asinh, acosh, atanh -/

namespace Audi

open TM MvPolynomial Spec

namespace Ex

/-- The interval lies within [l, u]. -/
def Within (I : Itv ℝ) (l u : ℝ) : Prop := (l ≤ I.lo ∧ I.lo ≤ u) ∧ l ≤ I.hi ∧ I.hi ≤ u

theorem Within.mul_nonneg {I J : Itv ℝ} {u v : ℝ} (hI : Within I 0 u) (hJ : Within J 0 v) : Within (I.mul J) 0 (u * v) := by
  obtain ⟨⟨a1, a2⟩, a3, a4⟩ := hI
  obtain ⟨⟨b1, b2⟩, b3, b4⟩ := hJ
  have hu : 0 ≤ u := a1.trans a2
  have key : ∀ {x y : ℝ}, 0 ≤ x → x ≤ u → 0 ≤ y → y ≤ v → 0 ≤ x * y ∧ x * y ≤ u * v := fun h1 h2 h3 h4 => ⟨_root_.mul_nonneg h1 h3, mul_le_mul h2 h4 h3 hu⟩
  have k1 := key a1 a2 b1 b2
  have k2 := key a1 a2 b3 b4
  have k3 := key a3 a4 b1 b2
  have k4 := key a3 a4 b3 b4
  unfold Within Itv.mul
  simp only [le_min_iff, min_le_iff, le_max_iff, max_le_iff]
  tauto

theorem Within.neg {I : Itv ℝ} {l u : ℝ} (h : Within I l u) : Within I.neg (-u) (-l) := by
  obtain ⟨⟨a1, a2⟩, a3, a4⟩ := h
  exact ⟨⟨neg_le_neg a4, neg_le_neg a3⟩, neg_le_neg a2, neg_le_neg a1⟩

theorem neg_mul (I J : Itv ℝ) : I.neg.mul J = (I.mul J).neg := by
  simp only [Itv.mul, Itv.neg, Itv.mk.injEq, _root_.neg_mul, min_neg_neg, max_neg_neg, neg_inj]
  exact ⟨max_comm _ _, min_comm _ _⟩

theorem mul_neg (I J : Itv ℝ) : J.mul I.neg = (J.mul I).neg := by
  rw [Itv.mul_comm', neg_mul, Itv.mul_comm']

theorem Within.absLE {I : Itv ℝ} {u : ℝ} (h : Within I 0 u) : I.AbsLE u := by
  obtain ⟨⟨a1, a2⟩, a3, a4⟩ := h
  exact ⟨by rwa [abs_of_nonneg a1], by rwa [abs_of_nonneg a3]⟩

theorem Within.pow_two {I : Itv ℝ} {u : ℝ} (h : Within I 0 u) : Within (I.pow 2) 0 (u ^ 2) := by
  obtain ⟨⟨a1, a2⟩, a3, a4⟩ := h
  unfold Itv.pow
  rw [if_neg (by norm_num), if_neg (by norm_num), if_pos a1]
  exact ⟨⟨sq_nonneg _, by dsimp only; gcongr⟩, sq_nonneg _, by dsimp only; gcongr⟩

theorem Within.theta {I : Itv ℝ} {u : ℝ} (h : Within I 0 u) : Within (thetaArg 0 I) 0 u := by
  have := h.mul_nonneg (show Within (⟨0, 1⟩ : Itv ℝ) 0 1 from ⟨⟨le_rfl, zero_le_one⟩, zero_le_one, le_rfl⟩)
  rw [mul_one] at this
  have e : thetaArg 0 I = I.mul ⟨0, 1⟩ := by simp [thetaArg, Itv.add, Itv.point]
  rwa [e]

theorem within_of_values {B I : Itv ℝ} (h : ∀ z, z = B.lo ∨ z = B.hi → ∃ v, InItv I v ∧ z = 1 * v) : Within B I.lo I.hi := by
  obtain ⟨u, u1, u2⟩ := h _ (.inl rfl)
  obtain ⟨w, w1, w2⟩ := h _ (.inr rfl)
  rw [one_mul] at u2 w2
  rw [Within, u2, w2]
  exact ⟨u1, w1⟩

end Ex

/-- `s / c` where `s` has the polynomial `x` over [0, 1/2] and `c` the polynomial 1. -/
theorem Line.quotient {s c : TM ℝ} (hs : Line s 0 1 ⟨0, 1 / 2⟩) (hc : Line c 1 0 ⟨0, 1 / 2⟩) {σ : ℝ} (hσ : c.rem.AbsLE σ) (h1 : σ < 1) :
    ∃ r, TM.div id s c = .ok r ∧ Line r 0 1 ⟨0, 1 / 2⟩ ∧ ∃ V B1 : Itv ℝ, V.AbsLE (σ ^ 2 / (1 - σ) ^ 3) ∧ B1.AbsLE (1 / 2) ∧
      r.rem = ((B1.mul V).add (s.rem.mul ⟨1, 1⟩)).add (s.rem.mul V) := by
  have e1 : |(⟨0, 1 / 2⟩ : Itv ℝ).lo| ≤ 1 / 2 := by norm_num
  have e2 : |(⟨0, 1 / 2⟩ : Itv ℝ).hi| ≤ 1 / 2 := by norm_num
  have h0 : InItv (⟨0, 1 / 2⟩ : Itv ℝ) 0 := by norm_num [InItv]
  obtain ⟨v, v1, v2, v3⟩ := hc.inv one_pos e1 e2 hσ (by simpa using h1)
  rw [abs_zero, zero_mul, zero_add] at v3
  norm_num at v2
  obtain ⟨r, r1, r2, E, B1, B2, r3, r4, -, r6, r7⟩ := hs.mul v2 (.inr one_ne_zero) (.inl one_ne_zero) h0 e1 e2 (.inl (mul_zero _))
  rw [mul_one, zero_mul, mul_one, zero_add] at r2
  refine ⟨r, ?_, r2, v.rem, B1, v3, ⟨?_, ?_⟩, ?_⟩
  · unfold TM.div
    rw [bind_ok v1, r1]
  · obtain ⟨u, u1, u2⟩ := r6 _ (.inl rfl)
    rw [u2, zero_add, one_mul, abs_of_nonneg u1.1]
    exact u1.2
  · obtain ⟨u, u1, u2⟩ := r6 _ (.inr rfl)
    rw [u2, zero_add, one_mul, abs_of_nonneg u1.1]
    exact u1.2
  · have hB2 : B2 = ⟨1, 1⟩ := by
      obtain ⟨u, -, u2⟩ := r7 _ (.inl rfl)
      obtain ⟨w, -, w2⟩ := r7 _ (.inr rfl)
      rw [zero_mul, add_zero] at u2 w2
      cases B2
      simp only at u2 w2
      rw [u2, w2]
    rw [r3, r4 (mul_zero _), hB2]
    simp [Itv.add]

theorem Ex.unsound_of_line {a r : TM ℝ} {o : Res (TM ℝ)} {f : ℝ → ℝ} {α β γ δ : ℝ} {I : Itv ℝ} (ha : Line a α β I) (hra : a.rem = ⟨0, 0⟩) (ho : o = .ok r)
    (hr : Line r γ δ I) {v : ℝ} (hv : InItv I v) (hn : ¬ InItv r.rem (f (α + β * v) - (γ + δ * v))) : Unsound₁ a o f := by
  refine ⟨r, fun _ => v, α + β * v, ha.wf, ho, hr.wf, ha.inDom hv, ?_, ?_⟩
  · unfold Allows
    rw [ha.polyAt, hra, sub_self]
    exact ⟨le_rfl, le_rfl⟩
  · unfold Allows
    rw [hr.polyAt]
    exact hn

/-- **C63.** `x` over [0, 1/2] takes the value 1/2; its tangent, `x` with a remainder below 1/50, does not allow `tan (1/2)`: the remainder of the quotient
does not cover the remainders of sine and cosine. -/
theorem C63_tan_counterexample : Unsound₁ (Ex.slopeR 1 1 ⟨0, 0⟩ ⟨0, 1 / 2⟩) (rtan id (Ex.slopeR 1 1 ⟨0, 0⟩ ⟨0, 1 / 2⟩)) Real.tan := by
  have h0 : InItv (⟨0, 1 / 2⟩ : Itv ℝ) 0 := by norm_num [InItv]
  have ha := Line.slope h0 (rem := ⟨0, 0⟩) le_rfl
  obtain ⟨s, B, s1, s2, s3, -, s4⟩ := ha.trig rfl h0 (cond := sinCond) derivs_sin (fn := GDual.sin) (by simpa using GDual.computes_sin)
    (fun d r hd h => GDual.HasSyms.sin hd (d := d) rfl h)
  obtain ⟨c, B', c1, c2, c3, -, c4⟩ := ha.trig rfl h0 (cond := cosCond) derivs_cos (fn := GDual.cos) (by simpa using GDual.computes_cos)
    (fun d r hd h => GDual.HasSyms.cos hd (d := d) rfl h)
  have hB1 := Ex.within_of_values s4
  have hB2 := Ex.within_of_values c4
  have s2 : Line s 0 1 ⟨0, 1 / 2⟩ := by simpa using s2
  have c2 : Line c 1 0 ⟨0, 1 / 2⟩ := by simpa using c2
  have hc : c.rem.AbsLE (1 / 8) := by
    rw [c3]
    have h3 : ∀ J : Itv ℝ, J.rcos.AbsLE 1 := fun J => Ex.absLE_image Real.abs_cos_le_one _
    have h4 : (cosCond 1 (thetaArg 0 B')).AbsLE 1 := by
      have := h3 (thetaArg 0 B')
      simp only [cosCond]
      norm_num
      exact ⟨by simpa [Itv.neg] using this.2, by simpa [Itv.neg] using this.1⟩
    refine (((Itv.AbsLE.point (1 / 2)).mul h4).mul (hB2.absLE.pow 2)).mono ?_
    norm_num
  have hs : Ex.Within s.rem (-(1 / 16)) 0 := by
    have hθ := hB1.theta
    have hJ : Ex.Within (thetaArg 0 B).rsin 0 (1 / 2) := by
      have hx : ∀ y ∈ Real.sin '' Set.Icc (thetaArg 0 B).lo (thetaArg 0 B).hi, 0 ≤ y ∧ y ≤ 1 / 2 := by
        rintro _ ⟨t, ht, rfl⟩
        have t0 : 0 ≤ t := hθ.1.1.trans ht.1
        have t1 : t ≤ 1 / 2 := ht.2.trans hθ.2.2
        exact ⟨Real.sin_nonneg_of_nonneg_of_le_pi t0 (by linarith [Real.pi_gt_three]), (Real.sin_le t0).trans t1⟩
      have hne : (Real.sin '' Set.Icc (thetaArg 0 B).lo (thetaArg 0 B).hi).Nonempty :=
        (Set.nonempty_Icc.2 (Itv.lo_le_hi_add le_rfl (Itv.lo_le_hi_mul _ _))).image _
      obtain ⟨y, hy⟩ := id hne
      have b1 : BddBelow (Real.sin '' Set.Icc (thetaArg 0 B).lo (thetaArg 0 B).hi) := ⟨0, fun z hz => (hx z hz).1⟩
      have b2 : BddAbove (Real.sin '' Set.Icc (thetaArg 0 B).lo (thetaArg 0 B).hi) := ⟨1 / 2, fun z hz => (hx z hz).2⟩
      exact ⟨⟨le_csInf hne fun z hz => (hx z hz).1, (csInf_le b1 hy).trans (hx y hy).2⟩, (hx y hy).1.trans (le_csSup b2 hy), csSup_le hne fun z hz => (hx z hz).2⟩
    have e : sinCond 1 (thetaArg 0 B) = (thetaArg 0 B).rsin.neg := by
      simp only [sinCond]
      norm_num
    have hp : Ex.Within (Itv.point (1 / 2)) 0 (1 / 2) := by norm_num [Ex.Within, Itv.point]
    have := ((hp.mul_nonneg hJ).mul_nonneg hB1.pow_two).neg
    rw [s3, e]
    unfold trigRem
    rw [Ex.mul_neg, Ex.neg_mul]
    norm_num at this ⊢
    exact this
  obtain ⟨r, r1, r2, V, B1, r3, r4, r5⟩ := Line.quotient s2 c2 hc (by norm_num)
  refine Ex.unsound_of_line ha rfl (o := rtan id (Ex.slopeR 1 1 ⟨0, 0⟩ ⟨0, 1 / 2⟩)) (r := r) ?_ r2 (v := 1 / 2) (by norm_num [InItv]) ?_
  · unfold rtan rsin rcos
    rw [bind_ok s1, bind_ok c1, r1]
  · norm_num at r3
    have hr : r.rem.hi ≤ 1 / 60 := by
      have k1 := (abs_le.1 (r4.mul r3).2).2
      have k2 : (s.rem.mul ⟨1, 1⟩).hi ≤ 0 := by
        simp only [Itv.mul, mul_one, max_self, max_le_iff]
        exact ⟨hs.1.2, hs.2.2⟩
      have hsa : s.rem.AbsLE (1 / 16) := ⟨abs_le.2 ⟨hs.1.1, hs.1.2.trans (by norm_num)⟩, abs_le.2 ⟨hs.2.1, hs.2.2.trans (by norm_num)⟩⟩
      have k3 := (abs_le.1 (hsa.mul r3).2).2
      rw [r5]
      change (B1.mul V).hi + (s.rem.mul ⟨1, 1⟩).hi + (s.rem.mul V).hi ≤ _
      norm_num at k1 k2 k3 ⊢
      linarith
    have ht : 1 / 2 + 1 / 60 < Real.tan (1 / 2) := by
      have t1 := Real.sin_gt_sub_cube (x := 1 / 2) (by norm_num)
      have t2 := (abs_le.1 (Real.cos_bound (x := 1 / 2) (by rw [abs_of_pos] <;> norm_num))).2
      have t3 : 0 < Real.cos (1 / 2) := Real.cos_pos_of_mem_Ioo ⟨by linarith [Real.pi_gt_three], by linarith [Real.pi_gt_three]⟩
      rw [Real.tan_eq_sin_div_cos, lt_div_iff₀ t3]
      rw [abs_of_pos (by norm_num : (0 : ℝ) < 1 / 2)] at t2
      norm_num at t1 t2 ⊢
      linarith
    rintro ⟨-, h⟩
    norm_num at h ht
    linarith

/-- **C63.** `x` over [0, 1/2] takes the value 1/2; its hyperbolic tangent, `x` with a remainder above -1/45, does not allow `tanh (1/2)`. -/
theorem C63_tanh_counterexample : Unsound₁ (Ex.slopeR 1 1 ⟨0, 0⟩ ⟨0, 1 / 2⟩) (rtanh id (Ex.slopeR 1 1 ⟨0, 0⟩ ⟨0, 1 / 2⟩)) Real.tanh := by
  have h0 : InItv (⟨0, 1 / 2⟩ : Itv ℝ) 0 := by norm_num [InItv]
  have ha := Line.slope h0 (rem := ⟨0, 0⟩) le_rfl
  obtain ⟨s, B, s1, s2, s3, -, s4⟩ := ha.trig rfl h0 (cond := sinhCond) derivs_sinh (fn := GDual.sinh) (by simpa using GDual.computes_sinh)
    (fun d r hd h => GDual.HasSyms.sinh hd (d := d) rfl h)
  obtain ⟨c, B', c1, c2, c3, -, c4⟩ := ha.trig rfl h0 (cond := coshCond) derivs_cosh (fn := GDual.cosh) (by simpa using GDual.computes_cosh)
    (fun d r hd h => GDual.HasSyms.cosh hd (d := d) rfl h)
  have hB1 := Ex.within_of_values s4
  have hB2 := Ex.within_of_values c4
  have s2 : Line s 0 1 ⟨0, 1 / 2⟩ := by simpa using s2
  have c2 : Line c 1 0 ⟨0, 1 / 2⟩ := by simpa using c2
  have hcosh : Real.cosh (1 / 2) ≤ 8 / 7 := by
    have h1 := Real.cosh_le_exp_half_sq (1 / 2)
    have h2 := Real.one_sub_le_exp_neg (1 / 8)
    have h3 := Real.exp_pos (1 / 8)
    rw [Real.exp_neg] at h2
    have h4 : (Real.exp (1 / 8))⁻¹ * Real.exp (1 / 8) = 1 := inv_mul_cancel₀ h3.ne'
    have h5 : Real.exp (1 / 8) ≤ 8 / 7 := by nlinarith
    norm_num at h1 h5 ⊢
    linarith
  have hch : ∀ {u : ℝ}, 0 ≤ u → u ≤ 1 / 2 → 0 ≤ Real.cosh u ∧ Real.cosh u ≤ 8 / 7 := fun {u} h1 h2 =>
    ⟨(Real.cosh_pos u).le, le_trans (Real.cosh_le_cosh.2 (by rw [abs_of_nonneg h1, abs_of_pos (by norm_num : (0 : ℝ) < 1 / 2)]; exact h2)) hcosh⟩
  have hsh : ∀ {u : ℝ}, 0 ≤ u → u ≤ 1 / 2 → 0 ≤ Real.sinh u ∧ Real.sinh u ≤ 8 / 7 := fun {u} h1 h2 =>
    ⟨Real.sinh_nonneg_iff.2 h1, (Real.sinh_lt_cosh u).le.trans (hch h1 h2).2⟩
  have hp : Ex.Within (Itv.point (1 / 2)) 0 (1 / 2) := by norm_num [Ex.Within, Itv.point]
  have hc : c.rem.AbsLE (1 / 7) := by
    have hθ := hB2.theta
    have hJ : Ex.Within (coshCond 1 (thetaArg 0 B')) 0 (8 / 7) := by
      simp only [coshCond]
      norm_num
      unfold Itv.rcosh
      rw [if_pos hθ.1.1]
      exact ⟨hch hθ.1.1 hθ.1.2, hch hθ.2.1 hθ.2.2⟩
    rw [c3]
    refine ((hp.mul_nonneg hJ).mul_nonneg hB2.pow_two).absLE.mono ?_
    norm_num
  have hs : Ex.Within s.rem 0 (1 / 7) := by
    have hθ := hB1.theta
    have hJ : Ex.Within (sinhCond 1 (thetaArg 0 B)) 0 (8 / 7) := by
      simp only [sinhCond]
      norm_num
      exact ⟨hsh hθ.1.1 hθ.1.2, hsh hθ.2.1 hθ.2.2⟩
    rw [s3]
    have := (hp.mul_nonneg hJ).mul_nonneg hB1.pow_two
    norm_num at this
    unfold trigRem
    norm_num
    exact this
  obtain ⟨r, r1, r2, V, B1, r3, r4, r5⟩ := Line.quotient s2 c2 hc (by norm_num)
  refine Ex.unsound_of_line ha rfl (o := rtanh id (Ex.slopeR 1 1 ⟨0, 0⟩ ⟨0, 1 / 2⟩)) (r := r) ?_ r2 (v := 1 / 2) (by norm_num [InItv]) ?_
  · unfold rtanh rsinh rcosh
    rw [bind_ok s1, bind_ok c1, r1]
  · norm_num at r3
    have hr : -(1 / 45) ≤ r.rem.lo := by
      have k1 := (abs_le.1 (r4.mul r3).1).1
      have k2 : 0 ≤ (s.rem.mul ⟨1, 1⟩).lo := by
        simp only [Itv.mul, mul_one, min_self, le_min_iff]
        exact ⟨hs.1.1, hs.2.1⟩
      have k3 := (abs_le.1 (hs.absLE.mul r3).1).1
      rw [r5]
      change _ ≤ (B1.mul V).lo + (s.rem.mul ⟨1, 1⟩).lo + (s.rem.mul V).lo
      norm_num at k1 k2 k3 ⊢
      linarith
    have ht : Real.tanh (1 / 2) < 1 / 2 - 1 / 45 := by
      have e1 := Real.exp_one_lt_d9
      have e2 : Real.exp 1 = Real.exp (1 / 2) * Real.exp (1 / 2) := by
        rw [← Real.exp_add]
        norm_num
      have e3 := Real.exp_pos (1 / 2)
      have e4 : Real.exp (1 / 2) * Real.exp (-(1 / 2)) = 1 := by
        rw [← Real.exp_add]
        norm_num
      have e5 := Real.exp_pos (-(1 / 2))
      rw [Real.tanh_eq_sinh_div_cosh, div_lt_iff₀ (Real.cosh_pos _), Real.sinh_eq, Real.cosh_eq]
      rw [e2] at e1
      nlinarith
    rintro ⟨h, -⟩
    norm_num at h ht
    linarith

theorem Ex.div_sqrt_le {x y : ℝ} (hx : 0 ≤ x) (hy : 1 / 4 ≤ y) : x / √y ≤ 2 * x := by
  have h : 1 / 2 ≤ √y := Real.le_sqrt_of_sq_le (by linarith)
  rw [div_le_iff₀ (by linarith)]
  nlinarith

/-- **C63.** `x` over [-1/4, 0] takes the value -1/4; its inverse hyperbolic sine, `x` with a remainder that is nowhere positive, does not allow
`arsinh (-1/4)`: the remainder of the logarithm does not cover the remainder of its argument. -/
theorem C63_asinh_counterexample : Unsound₁ (Ex.slopeR 1 1 ⟨0, 0⟩ ⟨-(1 / 4), 0⟩) (rasinh id (Ex.slopeR 1 1 ⟨0, 0⟩ ⟨-(1 / 4), 0⟩)) Real.arsinh := by
  have h0 : InItv (⟨-(1 / 4), 0⟩ : Itv ℝ) 0 := by norm_num [InItv]
  have e1 : |(⟨-(1 / 4), 0⟩ : Itv ℝ).lo| ≤ 1 / 4 := by norm_num [abs_of_pos]
  have e2 : |(⟨-(1 / 4), 0⟩ : Itv ℝ).hi| ≤ 1 / 4 := by norm_num
  have ha := Line.slope h0 (rem := ⟨0, 0⟩) le_rfl
  obtain ⟨q, q1, q2, q3⟩ := ha.square rfl (.inr one_ne_zero) h0 e1 e2 (by norm_num [tiny])
  have q2 : Line q 0 0 ⟨-(1 / 4), 0⟩ := by simpa using q2
  obtain ⟨p, p1, p2, p3⟩ := q2.addTS 1
  rw [zero_add] at p2
  have p4 : p.rem.AbsLE (1 / 16) := by rw [p3]; exact q3.mono (by norm_num)
  obtain ⟨t, t1, t2, t3⟩ := p2.sqrt one_pos e1 e2 p4 (by norm_num)
  rw [Real.sqrt_one, mul_one, zero_div] at t2
  have t4 : t.rem.AbsLE (1 / 100) := by
    refine t3.mono (le_trans (Ex.div_sqrt_le (by positivity) ?_) ?_)
    · norm_num
    · rw [Real.sqrt_one]; norm_num
  obtain ⟨u, u1, u2, u3⟩ := ha.add t2
  rw [zero_add, add_zero] at u2
  have u4 : u.rem.AbsLE (1 / 100) := by
    rw [u3]
    exact ⟨by simpa [Itv.add, Ex.slopeR] using t4.1, by simpa [Itv.add, Ex.slopeR] using t4.2⟩
  obtain ⟨r, r1, r2, -, r4⟩ := u2.log one_pos e1 e2 u4 (by norm_num)
  rw [Real.log_one, div_one] at r2
  refine Ex.unsound_of_line ha rfl (o := rasinh id (Ex.slopeR 1 1 ⟨0, 0⟩ ⟨-(1 / 4), 0⟩)) (r := r) ?_ r2 (v := -(1 / 4)) (by norm_num [InItv]) ?_
  · unfold rasinh
    rw [bind_ok q1, bind_ok p1, bind_ok t1, bind_ok u1, r1]
  · have h : Real.arsinh (1 / 4) < 1 / 4 := by
      have := Real.arsinh_lt_arsinh.2 (Real.self_lt_sinh_iff.2 (by norm_num : (0 : ℝ) < 1 / 4))
      rwa [Real.arsinh_sinh] at this
    rintro ⟨-, h'⟩
    rw [zero_add, one_mul, Real.arsinh_neg] at h'
    linarith

/-- **C63.** `x` over [0, 1/10] takes the value 1/10; its inverse hyperbolic tangent, `x` with a remainder that is nowhere positive, does not allow
`artanh (1/10)`. -/
theorem C63_atanh_counterexample : Unsound₁ (Ex.slopeR 1 1 ⟨0, 0⟩ ⟨0, 1 / 10⟩) (ratanh id (Ex.slopeR 1 1 ⟨0, 0⟩ ⟨0, 1 / 10⟩)) Real.artanh := by
  have h0 : InItv (⟨0, 1 / 10⟩ : Itv ℝ) 0 := by norm_num [InItv]
  have e1 : |(⟨0, 1 / 10⟩ : Itv ℝ).lo| ≤ 1 / 10 := by norm_num
  have e2 : |(⟨0, 1 / 10⟩ : Itv ℝ).hi| ≤ 1 / 10 := by norm_num [abs_of_pos]
  have ha := Line.slope h0 (rem := ⟨0, 0⟩) le_rfl
  obtain ⟨n, n1, n2, n3⟩ := ha.addST 1
  rw [add_zero] at n2
  obtain ⟨d, d1, d2, d3⟩ := ha.subST 1
  rw [sub_zero] at d2
  obtain ⟨v, v1, v2, v3⟩ := d2.inv (σ := 0) one_pos e1 e2 (by rw [d3]; simp [Ex.slopeR, Itv.AbsLE]) (by norm_num)
  have v2 : Line v 1 1 ⟨0, 1 / 10⟩ := by simpa using v2
  have v4 : v.rem.AbsLE (1 / 72) := v3.mono (by norm_num)
  obtain ⟨q, q1, q2, E, B1, B2, q3, -, q5, q6, -⟩ := n2.mul v2 (.inl one_ne_zero) (.inl one_ne_zero) h0 e1 e2 (.inr (by norm_num [tiny]))
  have q2 : Line q 1 2 ⟨0, 1 / 10⟩ := by norm_num at q2; simpa using q2
  have hB : B1.AbsLE (11 / 10) := by
    have : ∀ z, z = B1.lo ∨ z = B1.hi → |z| ≤ 11 / 10 := fun z hz => by
      obtain ⟨u, u1, rfl⟩ := q6 z hz
      have h1 := u1.1
      have h2 := u1.2
      simp only at h1 h2
      rw [abs_of_nonneg (by linarith)]
      linarith
    exact ⟨this _ (.inl rfl), this _ (.inr rfl)⟩
  have q4 : q.rem.AbsLE (1 / 10) := by
    have hn : n.rem.AbsLE 0 := by rw [n3]; simp [Ex.slopeR, Itv.AbsLE]
    have h2 : B2.AbsLE (|B2.lo| + |B2.hi|) := ⟨by linarith [abs_nonneg B2.hi], by linarith [abs_nonneg B2.lo]⟩
    rw [q3]
    refine (((q5.add (hB.mul v4)).add (hn.mul h2)).add (hn.mul v4)).mono ?_
    norm_num
  obtain ⟨l, l1, l2, -, l4⟩ := q2.log one_pos e1 e2 q4 (by norm_num [abs_of_pos])
  rw [Real.log_one, div_one] at l2
  obtain ⟨r, r1, r2, r3⟩ := l2.mulST (1 / 2)
  have r2 : Line r 0 1 ⟨0, 1 / 10⟩ := by norm_num at r2; simpa using r2
  refine Ex.unsound_of_line ha rfl (o := ratanh id (Ex.slopeR 1 1 ⟨0, 0⟩ ⟨0, 1 / 10⟩)) (r := r) ?_ r2 (v := 1 / 10) (by norm_num [InItv]) ?_
  · unfold ratanh TM.div
    rw [bind_ok n1, bind_ok d1, bind_ok (show (do let v ← divST id 1 d; TM.mul id n v) = _ by rw [bind_ok v1, q1]), bind_ok l1, r1]
  · have h : 1 / 5 < Real.log (11 / 9) := by
      rw [Real.lt_log_iff_exp_lt (by norm_num)]
      have := Real.exp_bound' (x := 1 / 5) (by norm_num) (by norm_num) (n := 3) (by norm_num)
      norm_num [Finset.sum_range_succ, Nat.factorial] at this ⊢
      linarith
    have hr : r.rem.hi ≤ 0 := by
      have : l.rem.lo ≤ l.rem.hi := l2.wf.rem
      rw [r3]
      simp only [Itv.mul, Itv.point, max_self, max_le_iff]
      exact ⟨by linarith, by linarith⟩
    rintro ⟨-, h'⟩
    rw [Real.artanh_eq_half_log (by norm_num)] at h'
    norm_num at h' h
    linarith

/-- **C63.** `5/4 + x` over [0, 4/105] takes the value 541/420; its inverse hyperbolic cosine, `log 2 + 4/3 x` with a remainder above -9/5000, does not allow
`arcosh (541/420) = log (21/10)`. -/
theorem C63_acosh_counterexample :
    Unsound₁ (Ex.lineR (5 / 4) 1 ⟨0, 0⟩ ⟨0, 4 / 105⟩) (racosh id (Ex.lineR (5 / 4) 1 ⟨0, 0⟩ ⟨0, 4 / 105⟩)) Real.arcosh := by
  have h0 : InItv (⟨0, 4 / 105⟩ : Itv ℝ) 0 := by norm_num [InItv]
  have e1 : |(⟨0, 4 / 105⟩ : Itv ℝ).lo| ≤ 4 / 105 := by norm_num
  have e2 : |(⟨0, 4 / 105⟩ : Itv ℝ).hi| ≤ 4 / 105 := by norm_num [abs_of_pos]
  have ha := Line.line (c := 5 / 4) (by norm_num) h0 (rem := ⟨0, 0⟩) le_rfl
  obtain ⟨q, q1, q2, q3⟩ := ha.square rfl (.inr one_ne_zero) h0 e1 e2 (by norm_num [tiny])
  have q2 : Line q (25 / 16) (5 / 2) ⟨0, 4 / 105⟩ := by norm_num at q2; exact q2
  have q3 : q.rem.AbsLE (1 / 600) := q3.mono (by norm_num)
  obtain ⟨b, b1, -⟩ := bounds_encloses (ord := id) q2.wf (by rw [q2.order]; norm_num) rfl
  have hq : requireAbove id q 1 = .ok () := by
    refine requireAbove_ok b1 ?_
    obtain ⟨z, z1, z2⟩ := q2.bounds_of h0 b1 _ (.inl rfl)
    have := (abs_le.1 q3.1).1
    have h1 := z1.1
    change 1 ≤ b.lo + q.rem.lo
    simp only at h1
    linarith
  obtain ⟨p, p1, p2, p3⟩ := q2.subTS 1
  have p2 : Line p (9 / 16) (5 / 2) ⟨0, 4 / 105⟩ := by norm_num at p2; exact p2
  rw [← p3] at q3
  obtain ⟨t, t1, t2, t3⟩ := p2.sqrt (by norm_num) e1 e2 q3 (by norm_num [abs_of_pos])
  have hs : √(9 / 16 : ℝ) = 3 / 4 := by
    rw [show (9 / 16 : ℝ) = (3 / 4) ^ 2 by norm_num, Real.sqrt_sq (by norm_num)]
  rw [hs] at t2 t3
  have t2 : Line t (3 / 4) (5 / 3) ⟨0, 4 / 105⟩ := by norm_num at t2; exact t2
  have t4 : t.rem.AbsLE (1 / 100) := by
    refine t3.mono (le_trans (Ex.div_sqrt_le (by positivity) ?_) ?_)
    · norm_num [abs_of_pos]
    · norm_num [abs_of_pos]
  obtain ⟨u, u1, u2, u3⟩ := ha.add t2
  have u2 : Line u 2 (8 / 3) ⟨0, 4 / 105⟩ := by norm_num at u2; exact u2
  have u4 : u.rem.AbsLE (1 / 100) := by
    rw [u3]
    exact ⟨by simpa [Itv.add, Ex.lineR] using t4.1, by simpa [Itv.add, Ex.lineR] using t4.2⟩
  obtain ⟨r, r1, r2, r3, -⟩ := u2.log two_pos e1 e2 u4 (by norm_num [abs_of_pos])
  have r2 : Line r (Real.log 2) (4 / 3) ⟨0, 4 / 105⟩ := by norm_num at r2; exact r2
  refine Ex.unsound_of_line ha rfl (o := racosh id (Ex.lineR (5 / 4) 1 ⟨0, 0⟩ ⟨0, 4 / 105⟩)) (r := r) ?_ r2 (v := 4 / 105) (by norm_num [InItv]) ?_
  · unfold racosh
    rw [bind_ok q1, bind_ok hq, bind_ok p1, bind_ok t1, bind_ok u1, r1]
  · have h : Real.arcosh (5 / 4 + 1 * (4 / 105)) = Real.log 2 + Real.log (21 / 20) := by
      rw [Real.arcosh, ← Real.log_mul (by norm_num) (by norm_num), show (5 / 4 + 1 * (4 / 105) : ℝ) ^ 2 - 1 = (341 / 420) ^ 2 by norm_num,
        Real.sqrt_sq (by norm_num)]
      norm_num
    have hl : Real.log (21 / 20) ≤ 489 / 10000 := by
      have := Real.abs_log_sub_add_sum_range_le (x := -(1 / 20)) (by norm_num [abs_of_pos]) 2
      rw [abs_neg, abs_of_pos (by norm_num : (0 : ℝ) < 1 / 20)] at this
      have := (abs_le.1 this).2
      norm_num [Finset.sum_range_succ] at this ⊢
      linarith
    have hr : -(9 / 5000) ≤ r.rem.lo := by
      have := (abs_le.1 (r3.mono (N := 9 / 5000) (by norm_num [abs_of_pos])).1).1
      exact this
    rintro ⟨h', -⟩
    rw [h] at h'
    norm_num at h'
    linarith

end Audi
