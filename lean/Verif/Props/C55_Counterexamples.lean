import Verif.Props.C55_TaylorInverse
import Verif.Props.C50_TaylorProducts
import Verif.Proofs.TMAcos
import Verif.Proofs.TMDivisionRem
import Mathlib.Analysis.Real.Pi.Bounds

/-! # C55: inverse cosine, absolute value; where the functions are not sound -/

namespace Audi

open TM MvPolynomial Spec

/-! ### Inverse cosine -/

section
variable {a : TM ℝ} {ord : List String → List String}

/-- **C55, inverse cosine.** `acos(tm)` encloses the inverse cosine of every function that `tm` encloses, under the conditions of `C55_asin_partial`, if the
domain is symmetric around the expansion point. Missing: other domains (`C55_acos_counterexample`), and what is missing for `C55_asin_partial`. -/
theorem C55_acos_partial (ha : a.WF) (h1 : 1 ≤ a.order) (h17 : a.order ≤ 17) (ho : Faithful ord (a.tpol.p.syms.map varName))
    (hlin : DegLE 1 (a.tpol.toMv () : MvPolynomial String ℝ)) (hrem : a.rem = ⟨0, 0⟩) (hc : a.polyAt a.expPoint = 0)
    (ht : Clear a.order (a.tpol.toMv () : MvPolynomial String ℝ) (a.tpol.toMv ())) {R : String → ℝ} (hR0 : ∀ s, 0 ≤ R s)
    (hR : ∀ s, ∀ e ∈ a.dom, e.1 = varName s → ∀ f ∈ a.exp, f.1 = varName s → |e.2.lo - f.2| ≤ R s ∧ |e.2.hi - f.2| ≤ R s)
    (hM : absVal R (a.tpol.toMv () : MvPolynomial String ℝ) < 1) (hsym : ∀ x, a.InDom x → a.InDom fun v => 2 * a.expPoint v - x v) :
    Sound₁ a (racos ord a) fun y z => z = Real.arccos y :=
  racos_sound ha h1 h17 ho hlin hrem (by rw [← polyAt_expPoint]; exact hc) ht.1 ht.2 hR0 hR hM hsym

end

/-- All hypotheses of `C55_acos_partial` hold for `x` over [-1/2, 1/2]. -/
example : Sound₁ (Ex.slopeR 1 1 ⟨0, 0⟩ ⟨-(1 / 2), 1 / 2⟩) (racos id (Ex.slopeR 1 1 ⟨0, 0⟩ ⟨-(1 / 2), 1 / 2⟩)) fun y z => z = Real.arccos y :=
  C55_acos_partial (Ex.slopeR_wf one_ne_zero le_rfl le_rfl (by norm_num [InItv])) le_rfl (show 1 ≤ 17 by norm_num) (fun _ _ _ => rfl)
    (Ex.slopeR_lin one_ne_zero le_rfl _ _) rfl (by rw [polyAt_expPoint]; exact Ex.slopeR_const one_ne_zero le_rfl _ _)
    (Ex.slopeR_clear (by norm_num) _ _) (R := fun _ => 1 / 2) (by norm_num) (Ex.slopeR_radius (by norm_num) (by norm_num) (by norm_num [InItv]))
    (Ex.slopeR_absVal _) fun x hx => by
      rw [Ex.slopeR_inDom] at hx ⊢
      simp only [expPoint, Ex.slopeR, List.lookup, InItv] at hx ⊢
      norm_num at hx ⊢
      exact ⟨by linarith [hx.2], by linarith [hx.1]⟩

namespace Ex

theorem mul_lo_nonneg {I J : Itv ℝ} (hI : 0 ≤ I.lo) (hI' : I.lo ≤ I.hi) (hJ : 0 ≤ J.lo) (hJ' : J.lo ≤ J.hi) : 0 ≤ (I.mul J).lo := by
  have h1 := hI.trans hI'
  have h2 := hJ.trans hJ'
  simp only [Itv.mul, le_min_iff]
  exact ⟨⟨mul_nonneg hI hJ, mul_nonneg hI h2⟩, mul_nonneg h1 hJ, mul_nonneg h1 h2⟩

end Ex

/-- **C55.** `x` over [0, 1/2] takes the value 1/2; its inverse cosine does not allow `arccos (1/2)`: the remainder of the inverse sine is not negated. -/
theorem C55_acos_counterexample : Unsound₁ (Ex.slopeR 1 1 ⟨0, 0⟩ ⟨0, 1 / 2⟩) (racos id (Ex.slopeR 1 1 ⟨0, 0⟩ ⟨0, 1 / 2⟩)) Real.arccos := by
  have h3 : InItv (⟨0, 1 / 2⟩ : Itv ℝ) 0 := by norm_num [InItv]
  have ha := Ex.slopeR_wf one_ne_zero le_rfl (rem := ⟨0, 0⟩) le_rfl h3 (n := 1)
  have hlin := Ex.slopeR_lin one_ne_zero (le_refl 1) ⟨0, 0⟩ ⟨0, 1 / 2⟩
  have hc := Ex.slopeR_const one_ne_zero (le_refl 1) ⟨0, 0⟩ ⟨0, 1 / 2⟩
  have ht := Ex.slopeR_clear (s := 1) (by norm_num) ⟨0, 0⟩ ⟨0, 1 / 2⟩
  obtain ⟨r, B, dv, h, hw, hp, hexp, hdom, hrr, hdv, hB, hin, hatt⟩ := rasin_ok (ord := id) ha le_rfl (show 1 ≤ 17 by norm_num) (fun _ _ _ => rfl) rfl hc
    ht.1 ht.2 (R := fun _ => 1 / 2) (by norm_num) (Ex.slopeR_radius (by norm_num) (by norm_num) h3) (Ex.slopeR_absVal _)
  have hB0 : 0 ≤ B.lo := by
    obtain ⟨x, x1, x2⟩ := hatt hlin _ (.inl rfl)
    rw [Ex.slopeR_polyAt one_ne_zero le_rfl, one_mul] at x2
    rw [← x2]
    exact (Ex.slopeR_inDom.1 x1).1
  have hB1 : B.hi ≤ 1 / 2 := by
    obtain ⟨x, x1, x2⟩ := hatt hlin _ (.inr rfl)
    rw [Ex.slopeR_polyAt one_ne_zero le_rfl, one_mul] at x2
    rw [← x2]
    exact (Ex.slopeR_inDom.1 x1).2
  have hbh : 0 ≤ B.hi := hB0.trans hB
  have hA : (⟨0, 1⟩ : Itv ℝ).mul B = ⟨0, B.hi⟩ := by
    simp [Itv.mul, hB, hB0, hbh]
  rw [hA] at hdv
  have hO : oneMinusSq (⟨0, B.hi⟩ : Itv ℝ) = ⟨1 - B.hi * B.hi, 1⟩ := by
    have : 0 ≤ B.hi * B.hi := mul_nonneg hbh hbh
    simp [oneMinusSq, Itv.mul, Itv.sub, Itv.point, this]
  have hOlo : 0 < 1 - B.hi * B.hi := by nlinarith
  have hOle : 1 - B.hi * B.hi ≤ 1 := by nlinarith
  have hdv0 : 0 ≤ dv.lo := by
    obtain ⟨d, e, e'⟩ := bind_ok_iff.1 hdv
    injection e' with e'
    obtain ⟨d1, -, e⟩ := bind_ok_iff.1 e
    obtain ⟨d2, e2, e⟩ := bind_ok_iff.1 e
    injection e with e
    subst e
    rw [← e']
    simp only
    unfold asinD2 at e2
    rw [hO] at e2
    obtain ⟨q, q1, q2⟩ := bind_ok_iff.1 e2
    injection q2 with q2
    subst q2
    have hz := pow_zeroIn (I := (⟨1 - B.hi * B.hi, 1⟩ : Itv ℝ)) hOlo 3
    rw [Itv.inv_ok hz] at q1
    injection q1 with q1
    subst q1
    have h5 : (⟨1 - B.hi * B.hi, 1⟩ : Itv ℝ).pow 3 = ⟨(1 - B.hi * B.hi) ^ 3, 1 ^ 3⟩ := by
      unfold Itv.pow
      rw [if_neg (by norm_num), if_pos (by norm_num)]
    have h6 := pow_lo_pos (I := (⟨1 - B.hi * B.hi, 1⟩ : Itv ℝ)) hOlo 2
    have h7 := Itv.lo_le_hi_pow (a := (⟨1 - B.hi * B.hi, 1⟩ : Itv ℝ)) hOle 2
    refine Ex.mul_lo_nonneg (Ex.mul_lo_nonneg le_rfl hbh h6.le h7) (Itv.lo_le_hi_mul _ _) ?_ ?_
    · rw [h5]
      norm_num
    · rw [h5]
      have h8 : 0 < (1 - B.hi * B.hi) ^ 3 := pow_pos hOlo 3
      have h9 : (1 - B.hi * B.hi) ^ 3 ≤ 1 ^ 3 := pow_le_pow_left₀ hOlo.le hOle 3
      exact inv_anti₀ h8 h9
  have hdvle : dv.lo ≤ dv.hi := by
    have h0 : InItv (⟨0, B.hi⟩ : Itv ℝ) 0 := ⟨le_rfl, hbh⟩
    have := (asinDerivative_sound h0 hdv h0).2
    exact this.1.trans this.2
  have hr0 : 0 ≤ r.rem.lo := by
    rw [hrr]
    have h2 : B.pow 2 = ⟨B.lo ^ 2, B.hi ^ 2⟩ := by
      unfold Itv.pow
      rw [if_neg (by norm_num), if_neg (by norm_num), if_pos hB0]
    refine Ex.mul_lo_nonneg (Ex.mul_lo_nonneg (by simp [Itv.point]) le_rfl ?_ ?_) (Itv.lo_le_hi_mul _ _) hdv0 hdvle
    · change 0 ≤ (B.pow 2).lo
      rw [h2]
      positivity
    · exact Itv.lo_le_hi_pow hB _
  obtain ⟨q, q1, q2, q3, q4, q5, q6, q7⟩ := remake hw (GDual.Valid.subSG (ι := Unit) (K := ℝ) (Real.pi / 2) hw.valid)
    (GDual.HasSyms.subSG hw.valid.wf.sorted (a := r.tpol) rfl (Real.pi / 2)) hw.rem
  obtain ⟨p, p1, p2⟩ := GDual.asinWith_lift (ι := Unit) (C := ℝ) (bin := GDual.binomialU32) ha.valid
    (fun k _ hk => GDual.binomialU32_eq (hk.trans (by simp [Ex.slopeR]))) fun _ => by rw [hc]; norm_num
  have hpr : r.tpol = p := Except.ok.inj (hp.symm.trans p1)
  have hpoly : (r.tpol.toMv () : MvPolynomial String ℝ) = monomial (Finsupp.single "dx" 1) 1 := by
    rw [hpr, GDual.lift_linear p2 (by rw [hc]; exact derivs_arcsin.isTaylor₁ isOpen_Ioo (by norm_num) _) hlin, hc]
    rw [show (Ex.slopeR 1 1 ⟨0, 0⟩ ⟨0, 1 / 2⟩).tpol.order = 1 from rfl, Ex.slopeR_toMv one_ne_zero le_rfl]
    simp [Finset.sum_range_succ, asinDv]
  refine ⟨q, fun _ => 1 / 2, 1 / 2, ha, ?_, q2, by rw [Ex.slopeR_inDom]; norm_num [InItv], ?_, ?_⟩
  · unfold racos
    rw [bind_ok h]
    exact q1
  · unfold Allows
    rw [Ex.slopeR_polyAt one_ne_zero le_rfl]
    norm_num [InItv, Ex.slopeR]
  · unfold Allows polyAt
    rw [q4, q5, q6, GDual.toMv_subSG _ hw.valid, hpoly, hexp, map_sub, eval_monomial]
    change ¬ InItv r.rem (Real.arccos (1 / 2) - (eval _ (C (Real.pi / 2)) - _))
    rw [eval_C, Real.arccos_eq_pi_div_two_sub_arcsin]
    have e1 : Real.arcsin (1 / 2) = Real.pi / 6 := by
      rw [← Real.sin_pi_div_six]
      exact Real.arcsin_sin (by linarith [Real.pi_pos]) (by linarith [Real.pi_pos])
    rw [e1]
    simp [displacement, Ex.slopeR, Ex.varName_dx]
    rintro ⟨h, -⟩
    have := Real.pi_gt_three
    linarith

/-! ### Derivatives of the inverse sine -/

/-- **C55.** `asin_derivative({3/5}, 2)` is 15/16; the second derivative of the inverse sine at 3/5 is 75/64. -/
theorem C55_asin_derivative_counterexample : asinDerivative (⟨3 / 5, 3 / 5⟩ : Itv ℝ) 2 = .ok ⟨15 / 16, 15 / 16⟩ ∧
    iteratedDeriv 2 Real.arcsin (3 / 5) = 75 / 64 ∧ ¬ InItv (⟨15 / 16, 15 / 16⟩ : Itv ℝ) (75 / 64) := by
  refine ⟨?_, ?_, by norm_num [InItv]⟩
  · have hO : oneMinusSq (⟨3 / 5, 3 / 5⟩ : Itv ℝ) = ⟨16 / 25, 16 / 25⟩ := by norm_num [oneMinusSq, Itv.mul, Itv.sub, Itv.point]
    obtain ⟨d, hd⟩ := asinDPair_ok (A := (⟨3 / 5, 3 / 5⟩ : Itv ℝ)) (by rw [hO]; norm_num) 0
    have h2 : asinD2 (⟨3 / 5, 3 / 5⟩ : Itv ℝ) = .ok ⟨15 / 16, 15 / 16⟩ := by
      unfold asinD2
      rw [hO]
      have e1 : (⟨16 / 25, 16 / 25⟩ : Itv ℝ).pow 2 = ⟨256 / 625, 256 / 625⟩ := by
        unfold Itv.pow
        norm_num
      have e2 : (⟨16 / 25, 16 / 25⟩ : Itv ℝ).pow 3 = ⟨4096 / 15625, 4096 / 15625⟩ := by
        unfold Itv.pow
        norm_num
      rw [e1, e2]
      unfold Itv.div
      rw [Itv.inv_ok (Itv.zeroIn_false_iff.2 (.inl (by norm_num)))]
      change Except.ok _ = Except.ok _
      norm_num [Itv.mul]
    obtain ⟨d1, h1, -⟩ := bind_ok_iff.1 hd
    change (do
      let d ← asinDPair _ 0
      Except.ok d.2) = _
    unfold asinDPair
    rw [bind_ok h1, bind_ok h2]
    rfl
  · rw [show Real.arcsin = asinDv 0 from rfl, Derivs.iteratedDeriv derivs_arcsin isOpen_Ioo 2 _ (by norm_num)]
    have : √(1 - (3 / 5 : ℝ) ^ 2) = 4 / 5 := by
      rw [show 1 - (3 / 5 : ℝ) ^ 2 = (4 / 5) ^ 2 by norm_num, Real.sqrt_sq (by norm_num)]
    simp only [asinDv]
    rw [this]
    norm_num

/-! ### Order 0 -/

/-- **C55.** For a Taylor model of order 0 with at least one variable `atan`, `asin` and `acos` never return: the functions of the polynomial lose the
variables, and the constructor rejects the result. -/
theorem C55_order_zero {a : TM ℝ} (ha : a.WF) (h0 : a.order = 0) (hs : a.tpol.p.syms ≠ []) (ord : List String → List String) :
    (∀ r, ratan ord a ≠ .ok r) ∧ (∀ r, rasin ord a ≠ .ok r) ∧ ∀ r, racos ord a ≠ .ok r := by
  have hmk : ∀ {p : GDual ℝ} {rem : Itv ℝ} {r : TM ℝ}, p.p.syms = [] → make p rem a.exp a.dom ≠ .ok r := by
    intro p rem r hp h
    obtain ⟨_, h1, -⟩ := bind_ok_iff.1 h
    unfold checkInput at h1
    split_ifs at h1 with h2 h3 h4
    have h5 : a.dom.length = a.tpol.p.syms.length := by
      have := ha.domKeys.length_eq
      simpa [VMap.keys] using this
    have h6 : p.symbolSetSize = 0 := by
      unfold GDual.symbolSetSize
      simp [hp]
    rw [not_ne_iff, h5, h6] at h4
    exact hs (List.length_eq_zero_iff.1 h4)
  have hasin : ∀ r, rasin ord a ≠ .ok r := by
    intro r h
    unfold rasin at h
    obtain ⟨b, -, h⟩ := bind_ok_iff.1 h
    split_ifs at h
    obtain ⟨c, -, h⟩ := bind_ok_iff.1 h
    obtain ⟨l, -, h⟩ := bind_ok_iff.1 h
    obtain ⟨sq, -, h⟩ := bind_ok_iff.1 h
    obtain ⟨om, -, h⟩ := bind_ok_iff.1 h
    obtain ⟨rt, -, h⟩ := bind_ok_iff.1 h
    obtain ⟨z, -, h⟩ := bind_ok_iff.1 h
    obtain ⟨ad, -, h⟩ := bind_ok_iff.1 h
    obtain ⟨ab, -, h⟩ := bind_ok_iff.1 h
    obtain ⟨dv, -, h⟩ := bind_ok_iff.1 h
    obtain ⟨f1, -, h⟩ := bind_ok_iff.1 h
    obtain ⟨p, hp, h⟩ := bind_ok_iff.1 h
    refine hmk ?_ h
    exact GDual.syms_asinWith_zero ha.valid (ha.order ▸ h0) hp
  refine ⟨fun r h => ?_, hasin, fun r h => ?_⟩
  · unfold ratan at h
    obtain ⟨c, -, h⟩ := bind_ok_iff.1 h
    obtain ⟨bar, -, h⟩ := bind_ok_iff.1 h
    obtain ⟨m, -, h⟩ := bind_ok_iff.1 h
    obtain ⟨d, -, h⟩ := bind_ok_iff.1 h
    obtain ⟨ad, -, h⟩ := bind_ok_iff.1 h
    obtain ⟨ab, -, h⟩ := bind_ok_iff.1 h
    obtain ⟨p, hp, h⟩ := bind_ok_iff.1 h
    exact hmk (GDual.syms_atanWith_zero (ha.order ▸ h0) hp) h
  · unfold racos at h
    obtain ⟨s, h1, -⟩ := bind_ok_iff.1 h
    exact hasin s h1

example : ∀ r, ratan id (Ex.constR 1 0 ⟨0, 0⟩) ≠ .ok r := (C55_order_zero (Ex.constR_wf one_ne_zero 0 le_rfl) rfl (by simp [Ex.constR]) id).1

/-! ### Absolute value -/

/-- **C55, absolute value.** `abs(tm)` encloses the absolute value of every function that `tm` encloses, for every order and degree, when the polynomial
does not change sign on the domain and the remainder points away from 0: values of the polynomial and remainder are all at least 0, or all at most 0.
Missing: `C55_abs_sign_counterexample`, `C55_abs_remainder_counterexample`. -/
theorem C55_abs_partial {a : TM ℝ} (ha : a.WF) (h : (∀ x, a.InDom x → 0 ≤ a.polyAt x) ∧ 0 ≤ a.rem.lo ∨
    (∀ x, a.InDom x → a.polyAt x ≤ 0) ∧ a.rem.hi ≤ 0 ∧ a.polyAt a.expPoint < 0) : Sound₁ a (rabs a) fun y z => z = |y| := by
  obtain ⟨c, c1⟩ := GDual.constantCf_isOk a.tpol
  have c2 : c = a.polyAt a.expPoint := by
    rw [polyAt_expPoint]
    exact GDual.lane_constantCf (ι := Unit) (K := ℝ) ha.valid c1 ()
  have key : ∀ {p : GDual ℝ} {J : Itv ℝ}, a.tpol.absScalar = .ok p → p.Valid → p.p.syms = a.tpol.p.syms → p.order = a.order → a.rem.abs = J → J.lo ≤ J.hi →
      (∀ x y, a.InDom x → InItv a.rem (y - a.polyAt x) → InItv J (|y| - eval (displacement a.exp x) (p.toMv ()))) → Sound₁ a (rabs a) fun y z => z = |y| := by
    intro p J e1 e2 e3 e4 e5 e6 e7
    obtain ⟨r, r1, r2, r3, r4, r5, r6, r7⟩ := remake ha e2 e3 e6
    refine ⟨r, ?_, r2, by rw [r3, e4], inDom_congr r7, ?_⟩
    · unfold rabs
      rw [bind_ok e1, e5, r1]
    · rintro x hx y z hy rfl
      unfold Allows polyAt
      rw [r4, r5, r6]
      exact e7 x y hx hy
  rcases h with ⟨h1, h2⟩ | ⟨h1, h2, h3⟩
  · refine key (p := a.tpol) (J := a.rem) ?_ ha.valid rfl ha.order.symm ?_ ha.rem ?_
    · unfold GDual.absScalar
      rw [bind_ok c1, if_pos (by rw [c2]; exact h1 _ (expPoint_inDom ha))]
    · unfold Itv.abs
      rw [if_pos h2]
    · intro x y hx hy
      have h3 := h1 x hx
      have h4 := hy.1
      rw [abs_of_nonneg (by linarith)]
      exact hy
  · have hJ : a.rem.abs = ⟨-a.rem.hi, -a.rem.lo⟩ := by
      have hr := ha.rem
      unfold Itv.abs
      split_ifs with h4
      · have e1 : a.rem.lo = 0 := le_antisymm (hr.trans h2) h4
        have e2 : a.rem.hi = 0 := le_antisymm h2 (h4.trans hr)
        have hx : ∀ J : Itv ℝ, J.lo = 0 → J.hi = 0 → J = ⟨-J.hi, -J.lo⟩ := by
          rintro ⟨l, u⟩ e3 e4
          simp only at e3 e4
          rw [e3, e4, neg_zero]
        exact hx _ e1 e2
      · rfl
    refine key (p := a.tpol.neg) ?_ (GDual.Valid.neg (ι := Unit) (K := ℝ) ha.valid) rfl ha.order.symm hJ (neg_le_neg ha.rem) ?_
    · unfold GDual.absScalar
      rw [bind_ok c1, if_neg (by rw [c2]; exact not_le.2 h3)]
    · intro x y hx hy
      have h4 := h1 x hx
      have h5 := hy.2
      rw [GDual.toMv_neg, map_neg, abs_of_nonpos (by linarith)]
      change InItv _ (-y - -a.polyAt x)
      exact ⟨by have := hy.2; simp only; linarith, by have := hy.1; simp only; linarith⟩

/-- Both cases of `C55_abs_partial` occur: the constants 2 and -2 with remainders that point away from 0. -/
example : Sound₁ (Ex.constR 2 1 ⟨0, 1⟩) (rabs (Ex.constR 2 1 ⟨0, 1⟩)) fun y z => z = |y| :=
  C55_abs_partial (Ex.constR_wf two_ne_zero 1 zero_le_one) (.inl ⟨fun x _ => by rw [Ex.constR_polyAt two_ne_zero]; norm_num, le_rfl⟩)

example : Sound₁ (Ex.constR (-2) 1 ⟨-1, 0⟩) (rabs (Ex.constR (-2) 1 ⟨-1, 0⟩)) fun y z => z = |y| := by
  have h2 : (-2 : ℝ) ≠ 0 := by norm_num
  refine C55_abs_partial (Ex.constR_wf h2 1 (by norm_num)) (.inr ⟨fun x _ => ?_, le_rfl, ?_⟩) <;> rw [Ex.constR_polyAt h2] <;> norm_num

/-- **C55.** `x` over [-1, 1] takes the value -1; its absolute value is `x` with remainder {0}, which does not allow 1 there. -/
theorem C55_abs_sign_counterexample : Unsound₁ (Ex.slopeR 1 1 ⟨0, 0⟩ ⟨-1, 1⟩) (rabs (Ex.slopeR 1 1 ⟨0, 0⟩ ⟨-1, 1⟩)) fun y => |y| := by
  have ha := Ex.slopeR_wf one_ne_zero le_rfl (rem := ⟨0, 0⟩) (I := ⟨-1, 1⟩) le_rfl (by norm_num [InItv]) (n := 1)
  have hc := Ex.slopeR_const one_ne_zero (le_refl 1) ⟨0, 0⟩ ⟨-1, 1⟩
  obtain ⟨c, c1⟩ := GDual.constantCf_isOk (Ex.slopeR 1 1 ⟨0, 0⟩ ⟨-1, 1⟩).tpol
  have c2 : c = 0 := by
    have := GDual.lane_constantCf (ι := Unit) (K := ℝ) ha.valid c1 ()
    rw [hc] at this
    exact this
  have h1 : (Ex.slopeR 1 1 ⟨0, 0⟩ ⟨-1, 1⟩).tpol.absScalar = .ok (Ex.slopeR 1 1 ⟨0, 0⟩ ⟨-1, 1⟩).tpol := by
    unfold GDual.absScalar
    rw [bind_ok c1, if_pos c2.ge]
  obtain ⟨r, r1, r2, r3, r4, r5, r6, r7⟩ := remake ha ha.valid rfl ha.rem
  refine ⟨r, fun _ => -1, -1, ha, ?_, r2, by rw [Ex.slopeR_inDom]; norm_num [InItv], ?_, ?_⟩
  · unfold rabs
    rw [bind_ok h1, ← r1]
    simp [Ex.slopeR, Itv.abs]
  · unfold Allows
    rw [Ex.slopeR_polyAt one_ne_zero le_rfl]
    norm_num [InItv, Ex.slopeR]
  · unfold Allows
    have : r.polyAt (fun _ => -1) = -1 := by
      have := Ex.slopeR_polyAt one_ne_zero (le_refl 1) ⟨0, 0⟩ ⟨-1, 1⟩ fun _ => -1
      unfold polyAt at this ⊢
      rw [r4, r6, this]
      norm_num
    rw [this, r5]
    norm_num [InItv, Ex.slopeR]

/-- **C55.** The constant 2 with remainder [-1, -1/2] allows the value 1; its absolute value, 2 with remainder [1/2, 1], does not. -/
theorem C55_abs_remainder_counterexample : Unsound₁ (Ex.constR 2 1 ⟨-1, -(1 / 2)⟩) (rabs (Ex.constR 2 1 ⟨-1, -(1 / 2)⟩)) fun y => |y| := by
  have ha := Ex.constR_wf two_ne_zero 1 (rem := ⟨-1, -(1 / 2)⟩) (by norm_num)
  obtain ⟨c, c1⟩ := GDual.constantCf_isOk (Ex.constR 2 1 ⟨-1, -(1 / 2)⟩).tpol
  have c2 : c = 2 := by
    have := GDual.lane_constantCf (ι := Unit) (K := ℝ) ha.valid c1 ()
    rw [Ex.constR_toMv two_ne_zero, coeff_zero_C] at this
    exact this
  have hJ : (⟨-1, -(1 / 2)⟩ : Itv ℝ).abs = ⟨1 / 2, 1⟩ := by norm_num [Itv.abs, Itv.neg]
  obtain ⟨r, r1, r2, r3, r4, r5, r6, r7⟩ := remake ha ha.valid rfl (rem := ⟨1 / 2, 1⟩) (by norm_num)
  refine ⟨r, fun _ => 0, 1, ha, ?_, r2, Ex.constR_inDom _ _ _, ?_, ?_⟩
  · unfold rabs GDual.absScalar
    rw [show (Ex.constR 2 1 ⟨-1, -(1 / 2)⟩).rem.abs = ⟨1 / 2, 1⟩ from hJ, ← r1, bind_ok c1, if_pos (by rw [c2]; norm_num)]
    rfl
  · unfold Allows
    rw [Ex.constR_polyAt two_ne_zero]
    norm_num [InItv, Ex.constR]
  · unfold Allows
    have : r.polyAt (fun _ => 0) = 2 := by
      have := Ex.constR_polyAt two_ne_zero 1 ⟨-1, -(1 / 2)⟩ fun _ => (0 : ℝ)
      unfold polyAt at this ⊢
      rw [r4, r6, this]
    rw [this, r5]
    norm_num [InItv]


namespace Ex

theorem ofConst_zero_wf : (ofConst (0 : ℝ)).WF :=
  ⟨GDual.valid_ofCf (0 : ℝ), fun _ hs => absurd hs List.not_mem_nil, rfl, rfl, .refl _, .refl _, fun _ he => absurd he List.not_mem_nil, le_refl _⟩

theorem bounds_zero : getBounds id (ofConst (0 : ℝ)).tpol (ofConst (0 : ℝ)).exp (ofConst (0 : ℝ)).dom = .ok ⟨0, 0⟩ := by
  have hp : ((ofConst (0 : ℝ)).tpol.toMv () : MvPolynomial String ℝ) = 0 := by
    unfold ofConst
    rw [GDual.toMv_ofCf]
    exact C_0
  obtain ⟨b, h1, -, -⟩ := bounds_encloses (ord := id) ofConst_zero_wf (by simp [ofConst]) rfl
  have h2 := (bounds_centre (ord := id) ofConst_zero_wf (by simp [ofConst]) rfl (R := fun _ => 0) (by simp [Radius, ofConst]) (c := 0) (by rw [hp, coeff_zero])).1 b h1
  rw [hp, C_0, sub_zero, sub_zero, sub_zero, show absVal (fun _ => (0 : ℝ)) (0 : MvPolynomial String ℝ) = 0 by simp [absVal], abs_nonpos_iff, abs_nonpos_iff] at h2
  obtain ⟨l, u⟩ := b
  simp only at h2
  rw [h2.1, h2.2] at h1
  exact h1

theorem atanRem_zero (k : ℕ) : atanRem ⟨0, 0⟩ k = ⟨0, 0⟩ := by
  simp [atanRem, Itv.mul, Itv.pow, Itv.point]

end Ex

/-- **C55.** The constant 1 with remainder [-1/2, 1/2] allows the value 3/2; its inverse tangent, `arctan 1` with remainder {0}, does not allow
`arctan (3/2)`. -/
theorem C55_atan_remainder_counterexample : Unsound₁ (Ex.constR 1 1 ⟨-(1 / 2), 1 / 2⟩) (ratan id (Ex.constR 1 1 ⟨-(1 / 2), 1 / 2⟩)) Real.arctan := by
  set a := Ex.constR 1 1 ⟨-(1 / 2), 1 / 2⟩ with hadef
  have ha : a.WF := Ex.constR_wf one_ne_zero 1 (by norm_num)
  have hP : (a.tpol.toMv () : MvPolynomial String ℝ) = C 1 := Ex.constR_toMv one_ne_zero 1 _
  obtain ⟨c, c1⟩ := GDual.constantCf_isOk a.tpol
  have c2 : c = 1 := by
    have := GDual.lane_constantCf (ι := Unit) (K := ℝ) ha.valid c1 ()
    rw [hP, coeff_zero_C] at this
    exact this
  subst c2
  have hS := ha.valid.wf.sorted
  obtain ⟨bar, b1, b2, b3, b4, b5, b6, b7⟩ := remake ha (GDual.Valid.subGS (ι := Unit) (K := ℝ) (1 : ℝ) ha.valid) rfl (rem := a.rem) ha.rem
  have s2 : (GDual.mulSG (1 : ℝ) a.tpol).p.syms = a.tpol.p.syms := GDual.HasSyms.mulSG hS (a := a.tpol) rfl 1
  obtain ⟨m, m1, m2, m3, m4, m5, m6, m7⟩ := remake ha (GDual.Valid.mulSG (1 : ℝ) ha.valid) s2 (rem := (Itv.point 1).mul a.rem) (Itv.lo_le_hi_mul _ _)
  obtain ⟨d, d1, d2, d3, d4, d5, d6, d7⟩ := remake m2 (GDual.Valid.addSG (1 : ℝ) m2.valid) (GDual.HasSyms.addSG m2.valid.wf.sorted (a := m.tpol) rfl 1)
    (rem := m.rem) m2.rem
  have hbar : (bar.tpol.toMv () : MvPolynomial String ℝ) = 0 := by
    rw [b4, GDual.toMv_subGS (1 : ℝ) ha.valid, hP]
    exact sub_self _
  have hd : (d.tpol.toMv () : MvPolynomial String ℝ) = C 2 := by
    rw [d4, GDual.toMv_addSG (1 : ℝ) m2.valid, m4, GDual.toMv_mulSG (1 : ℝ) ha.valid, hP]
    change C (1 : ℝ) + C 1 * C 1 = C 2
    rw [← C_mul, ← C_add]
    norm_num
  have hdo : d.order = 1 := by
    rw [d3]
    change max 0 m.tpol.order = _
    rw [m4, GDual.order_mulSG]
    rfl
  have hds : d.tpol.p.syms = ["dx"] := by
    rw [d4, GDual.HasSyms.addSG m2.valid.wf.sorted (a := m.tpol) rfl 1, m4, s2]
    rfl
  have hdr : d.rem = ⟨-(1 / 2), 1 / 2⟩ := by
    rw [d5, m5]
    norm_num [Itv.mul, Itv.point, hadef, Ex.constR]
  obtain ⟨inv, i1, i2, -⟩ := divST_abs (ord := id) d2 (by rw [hdo]; norm_num) rfl (R := fun _ => 1) (by
      intro s e he _ f hf _
      rw [d7, m7] at he
      rw [d6, m6] at hf
      simp only [hadef, Ex.constR, List.mem_singleton] at he hf
      subst he hf
      norm_num) (c := 2) (N := 1 / 2) (ρ := 1 / 2) (by rw [hd, coeff_zero_C]) (by rw [hdr]; norm_num [Itv.AbsLE])
    (by rw [hd, sub_self]; simp [absVal]) (by norm_num) 1
  have hdiv : div id bar d = .ok (ofConst 0) := by
    unfold div
    rw [bind_ok i1, mul_zero_poly b2.valid i2.valid id (.inl hbar)]
  obtain ⟨p, p1, p2⟩ := GDual.atanWith_lift (ι := Unit) (C := ℝ) (bin := GDual.binomialU32) ha.valid fun k _ hk => GDual.binomialU32_eq (hk.trans (show 1 ≤ 30 by norm_num))
  have hs : p.p.syms = a.tpol.p.syms := GDual.HasSyms.atanWith ha.valid.wf.sorted (d := a.tpol) rfl (le_refl 1) p1
  have hp : a.tpol.atan = .ok p := p1
  unfold ratan
  rw [bind_ok c1, bind_ok (show subTS a 1 = .ok bar from b1), bind_ok (show mulST 1 a = .ok m from m1), bind_ok (show addST 1 m = .ok d from d1), bind_ok hdiv, bind_ok Ex.bounds_zero, bind_ok hp,
    show (⟨0, 0⟩ : Itv ℝ).add (ofConst (0 : ℝ)).rem = ⟨0, 0⟩ by simp [Itv.add, ofConst], Ex.atanRem_zero]
  refine Ex.constR_unsound one_ne_zero (by norm_num) p2 hs (derivs_arctan.isTaylor₁ isOpen_univ trivial 1) le_rfl (y := 3 / 2) (by norm_num [InItv]) ?_
  rintro ⟨-, h⟩
  have h2 : Real.arctan 1 < Real.arctan (3 / 2) := Real.arctan_strictMono (by norm_num)
  simp only [atanD, Nat.factorial_zero, Nat.cast_one, div_one] at h
  linarith


namespace Ex

theorem absLE_image {f : ℝ → ℝ} (hf : ∀ t, |f t| ≤ 1) (S : Set ℝ) : |sInf (f '' S)| ≤ 1 ∧ |sSup (f '' S)| ≤ 1 := by
  rcases S.eq_empty_or_nonempty with rfl | hS
  · simp
  · have h1 : ∀ y ∈ f '' S, -1 ≤ y := by
      rintro _ ⟨t, -, rfl⟩
      exact (abs_le.1 (hf t)).1
    have h2 : ∀ y ∈ f '' S, y ≤ 1 := by
      rintro _ ⟨t, -, rfl⟩
      exact (abs_le.1 (hf t)).2
    have hN := hS.image f
    obtain ⟨y, hy⟩ := id hN
    exact ⟨abs_le.2 ⟨le_csInf hN h1, (csInf_le ⟨-1, h1⟩ hy).trans (h2 y hy)⟩, abs_le.2 ⟨(h1 y hy).trans (le_csSup ⟨1, h2⟩ hy), csSup_le hN h2⟩⟩

theorem atanRem_absLE {G : Itv ℝ} {M : ℝ} (h : G.AbsLE M) : (atanRem G 1).AbsLE (1 / 2 * M ^ 2) := by
  unfold atanRem
  have h1 : (Itv.point (1 / ((1 : ℕ) + 1 : ℝ))).AbsLE (1 / 2) := by norm_num [Itv.AbsLE, Itv.point]
  have h3 : ∀ J : Itv ℝ, J.rcos.AbsLE 1 := fun J => absLE_image Real.abs_cos_le_one _
  have h4 : ∀ J : Itv ℝ, J.rsin.AbsLE 1 := fun J => absLE_image Real.abs_sin_le_one _
  have := ((h1.mul (h.pow 2)).mul ((h3 ((⟨0, 1⟩ : Itv ℝ).mul G).ratan).pow 2)).mul (h4 ((Itv.point (((1 : ℕ) : ℝ) + 1)).mul (((⟨0, 1⟩ : Itv ℝ).mul G).ratan.add (Itv.point (Real.pi / 2)))))
  rw [one_pow, mul_one, mul_one] at this
  exact this

end Ex

/-- **C55.** `10 + x` over [-1, 1] takes the value 11; its inverse tangent does not allow `arctan 11` there. The remainder bounds the difference between
`arctan` and its polynomial around 0 instead of the constant coefficient. -/
theorem C55_atan_centre_counterexample : Unsound₁ (Ex.lineR 10 1 ⟨0, 0⟩ ⟨-1, 1⟩) (ratan id (Ex.lineR 10 1 ⟨0, 0⟩ ⟨-1, 1⟩)) Real.arctan := by
  have h10 : (10 : ℝ) ≠ 0 := by norm_num
  have hne : Finsupp.single "dx" 1 ≠ Finsupp.single "dx" 2 := (Finsupp.single_injective "dx").ne (by norm_num)
  set a := Ex.lineR 10 1 ⟨0, 0⟩ ⟨-1, 1⟩ with hadef
  have ha : a.WF := Ex.lineR_wf h10 le_rfl le_rfl (by norm_num [InItv])
  have hP : (a.tpol.toMv () : MvPolynomial String ℝ) = C 10 + X "dx" := Ex.lineR_toMv h10 le_rfl _ _
  have hP0 : coeff 0 (a.tpol.toMv () : MvPolynomial String ℝ) = 10 := by
    rw [hP, coeff_add, coeff_zero_C, coeff_zero_X, add_zero]
  obtain ⟨c, c1⟩ := GDual.constantCf_isOk a.tpol
  have c2 : c = 10 := by
    have := GDual.lane_constantCf (ι := Unit) (K := ℝ) ha.valid c1 ()
    rw [hP0] at this
    exact this
  subst c2
  obtain ⟨bar, m, d, b1, b2, b3, lb, ld, pb, pd⟩ := atan_start ha rfl (10 : ℝ)
  have hRad : ∀ {t : TM ℝ}, (∀ e ∈ t.exp, e ∈ a.exp) → (∀ e ∈ t.dom, e ∈ a.dom) → Radius t fun _ => 1 := by
    intro t h1 h2 s e he _ f hf _
    have he := h2 e he
    have hf := h1 f hf
    simp only [hadef, Ex.lineR, List.mem_singleton] at he hf
    subst he hf
    norm_num
  have hbarP : (bar.tpol.toMv () : MvPolynomial String ℝ) = X "dx" := by rw [pb, hP, add_sub_cancel_left]
  have hdP : (d.tpol.toMv () : MvPolynomial String ℝ) - C 101 = monomial (Finsupp.single "dx" 1) 10 := by
    rw [pd, hP, mul_add, ← C_mul, C_mul_X_eq_monomial, ← C_1, ← add_assoc, ← C_add]
    norm_num
  have hd0 : coeff 0 (d.tpol.toMv () : MvPolynomial String ℝ) = 101 := by
    rw [← sub_add_cancel (d.tpol.toMv () : MvPolynomial String ℝ) (C 101), hdP, coeff_add, coeff_zero_C, coeff_monomial, if_neg (by simp), zero_add]
  have hdo : d.order = 1 := ld.order
  have hbo : bar.order = 1 := lb.order
  obtain ⟨inv, i1, i2, i3, i4, i5, i6, i7, i8⟩ := divST_abs (ord := id) ld.wf (by rw [hdo]; norm_num) rfl (R := fun _ => 1)
    (hRad (by rw [ld.exp]; exact fun _ h => h) (by rw [ld.dom]; exact fun _ h => h)) (c := 101) (N := 10) (ρ := 0) hd0
    (by rw [ld.rem]; norm_num [Itv.AbsLE]) (by rw [hdP, absVal_monomial]; norm_num) (by norm_num) 1
  have hdlin : DegLE 1 (d.tpol.toMv () : MvPolynomial String ℝ) := by
    have := ld.wf.valid.degLE (ι := Unit) (K := ℝ) ()
    rwa [← ld.wf.order, hdo] at this
  obtain ⟨iv, j1, -, -, -, j5, -⟩ := divSG_linear ld.wf.valid hdlin hd0 (by norm_num) 1
  have hiv : iv = inv.tpol := Except.ok.inj (j1.symm.trans i7)
  rw [hiv, ← ld.wf.order, hdo, hdP] at j5
  have hprod : (bar.tpol.toMv () * inv.tpol.toMv () : MvPolynomial String ℝ) = monomial (Finsupp.single "dx" 1) (1 / 101) + monomial (Finsupp.single "dx" 2) (-10 / 10201) := by
    rw [hbarP, j5]
    have e1 : (monomial (Finsupp.single "dx" 1) (1 / 101) : MvPolynomial String ℝ) = X "dx" * C (1 / 101) := by
      rw [mul_comm, C_mul_X_eq_monomial]
    have e2 : (monomial (Finsupp.single "dx" 2) (-10 / 10201) : MvPolynomial String ℝ) = X "dx" * (C (-1 / 10201) * (C 10 * X "dx")) := by
      rw [C_mul_X_eq_monomial, C_mul_monomial, X, monomial_mul, ← Finsupp.single_add]
      norm_num
    have e3 : (monomial (Finsupp.single "dx" 1) 10 : MvPolynomial String ℝ) = C 10 * X "dx" := C_mul_X_eq_monomial.symm
    rw [e1, e2, e3, Finset.sum_range_succ, Finset.sum_range_one, mul_add]
    norm_num
  have hnz : (inv.tpol.toMv () : MvPolynomial String ℝ) ≠ 0 := by
    intro h
    have := congrArg (coeff (Finsupp.single "dx" 1)) hprod
    rw [h, mul_zero, coeff_add, coeff_monomial, coeff_monomial, if_pos rfl, if_neg hne.symm] at this
    norm_num at this
  have hcomp : Compatible bar inv := compatible_of_sub i2 (by rw [lb.exp, i4, ld.exp]; exact fun _ h => h) (by rw [lb.dom, i5, ld.dom]; exact fun _ h => h)
  have hbnz : (bar.tpol.toMv () : MvPolynomial String ℝ) ≠ 0 := by
    rw [hbarP]
    exact X_ne_zero _
  have hord : ∀ l : List String, id l = l := fun _ => rfl
  have hmax : max bar.order inv.order = 1 := by rw [hbo, i3, hdo, max_self]
  obtain ⟨ad, q1, q2, q3, -, -, q6, q7, q8, q9⟩ := mul_parts (ord := id) lb.wf i2 hcomp hbnz hnz (by rw [hbo]; omega) (by rw [hbo, i3, hdo]; norm_num) (fun l _ _ => hord l)
    (.inl ⟨Finsupp.single "dx" 2, by rw [hmax, Finsupp.degree_single]; exact one_lt_two, by
      rw [hprod, coeff_add, coeff_monomial, coeff_monomial, if_pos rfl, if_neg hne]
      norm_num [tiny]⟩)
  obtain ⟨E, B1, B2, H, r1, r2, r3, r4, -, r6⟩ := mul_rem (ord := id) lb.wf i2 hcomp hbnz hnz (by rw [hbo]; omega) (by rw [hbo, i3, hdo]; norm_num) (fun l _ _ => hord l) q1
  have hH : H = monomial (Finsupp.single "dx" 2) (-10 / 10201) := by
    ext n
    rw [r4, hmax, hprod, coeff_add, coeff_monomial, coeff_monomial]
    by_cases e1 : Finsupp.single "dx" 1 = n
    · subst e1
      rw [Finsupp.degree_single, if_pos le_rfl, if_neg hne.symm]
    · by_cases e2 : Finsupp.single "dx" 2 = n
      · subst e2
        rw [Finsupp.degree_single, if_neg (by norm_num), if_neg e1, if_pos rfl, zero_add]
      · rw [if_neg e1, if_neg e2, add_zero, ite_self]
  have hadP : (ad.tpol.toMv () : MvPolynomial String ℝ) = monomial (Finsupp.single "dx" 1) (1 / 101) := by
    ext n
    rw [q6, hmax, hprod, coeff_add, coeff_monomial, coeff_monomial]
    by_cases e1 : Finsupp.single "dx" 1 = n
    · subst e1
      rw [Finsupp.degree_single, if_pos le_rfl, if_pos rfl, if_neg hne.symm, add_zero]
    · by_cases e2 : Finsupp.single "dx" 2 = n
      · subst e2
        rw [Finsupp.degree_single, if_neg (by norm_num), if_neg e1]
      · rw [if_neg e1, if_neg e2, add_zero, ite_self]
  have hbRad : Radius bar fun _ => 1 := hRad (by rw [lb.exp]; exact fun _ h => h) (by rw [lb.dom]; exact fun _ h => h)
  have hiRad : Radius inv fun _ => 1 := hRad (by rw [i4, ld.exp]; exact fun _ h => h) (by rw [i5, ld.dom]; exact fun _ h => h)
  have hE : E.AbsLE (10 / 10201) := by
    have := r6 (fun _ => 1) hbRad hiRad
    rw [hH, absVal_monomial] at this
    norm_num at this
    exact this
  have hB1 : B1.AbsLE 1 := by
    have := (bounds_centre (ord := id) lb.wf (by rw [hbo]; norm_num) rfl hbRad (c := 0) (by rw [hbarP, coeff_zero_X])).1 B1 r1
    rw [hbarP, C_0, sub_zero, sub_zero, sub_zero, X, absVal_monomial] at this
    norm_num at this
    exact this
  have hadr : ad.rem.AbsLE (10 / 10201 + 100 / 91 ^ 3) := by
    rw [r3, lb.rem, itv_mul_zero, itv_mul_zero]
    have h0 : (⟨0, 0⟩ : Itv ℝ).AbsLE 0 := by norm_num [Itv.AbsLE]
    refine (((hE.add (hB1.mul i8)).add h0).add h0).mono ?_
    rw [hdo]
    norm_num
  obtain ⟨B, e1, e2, e3⟩ := bounds_encloses (ord := id) q2 (by rw [q3, hmax]; norm_num) rfl
  have hB : B.AbsLE (1 / 101) := by
    have := (bounds_centre (ord := id) q2 (by rw [q3, hmax]; norm_num) rfl (R := fun _ => 1)
      (hRad (fun e he => (q8 e he).elim (by rw [lb.exp]; exact id) (by rw [i4, ld.exp]; exact id))
        (fun e he => (q9 e he).elim (by rw [lb.dom]; exact id) (by rw [i5, ld.dom]; exact id))) (c := 0) (by rw [hadP, coeff_monomial, if_neg (by simp)])).1 B e1
    rw [hadP, C_0, sub_zero, sub_zero, sub_zero, absVal_monomial] at this
    norm_num at this
    exact ⟨by simpa using this.1, by simpa using this.2⟩
  have hR := Ex.atanRem_absLE ((hB.add hadr).mono (show _ ≤ 1 / 50 by norm_num))
  obtain ⟨p, p1, p2⟩ := GDual.atanWith_lift (ι := Unit) (C := ℝ) (bin := GDual.binomialU32) ha.valid fun k _ hk => GDual.binomialU32_eq (hk.trans (show 1 ≤ 30 by norm_num))
  have hs : p.p.syms = a.tpol.p.syms := GDual.HasSyms.atanWith ha.valid.wf.sorted (d := a.tpol) rfl (le_refl 1) p1
  have hdiv : div id bar d = .ok ad := by
    unfold div
    rw [bind_ok i1, q1]
  have hp : a.tpol.atan = .ok p := p1
  obtain ⟨r, f1, f2, f3, f4, f5, f6, f7⟩ := remake ha p2.valid hs (rem := atanRem (B.add ad.rem) 1) (Itv.lo_le_hi_mul _ _)
  refine ⟨r, fun _ => 1, 11, ha, ?_, f2, by rw [hadef, Ex.lineR_inDom]; norm_num [InItv], ?_, ?_⟩
  · unfold ratan
    rw [bind_ok c1, bind_ok b1, bind_ok b2, bind_ok b3, bind_ok hdiv, bind_ok (show getBounds id ad.tpol ad.exp ad.dom = .ok B from e1), bind_ok hp]
    exact f1
  · unfold Allows
    rw [hadef, Ex.lineR_polyAt h10 le_rfl]
    norm_num [InItv, Ex.lineR]
  · unfold Allows polyAt
    rw [f4, f5, f6, GDual.lift_linear p2 (by rw [hP0]; exact derivs_arctan.isTaylor₁ isOpen_univ trivial 1) (Ex.lineR_lin h10 le_rfl _ _), hP0,
      show a.tpol.order = 1 from rfl, hP, add_sub_cancel_left]
    have hm : Real.arctan 11 = Real.arctan 10 + Real.arctan (1 / 111) := by
      rw [Real.arctan_add (by norm_num)]
      norm_num
    have hl : Real.arctan (1 / 111) ≤ 1 / 111 := by
      have := Real.le_tan (Real.arctan_nonneg.2 (by norm_num : (0 : ℝ) ≤ 1 / 111)) (Real.arctan_lt_pi_div_two _)
      rwa [Real.tan_arctan] at this
    have hcs : atanD 1 10 = 1 / 101 := by
      simp only [atanD, Nat.factorial_zero, Nat.cast_one, Nat.cast_zero, zero_add, one_mul, pow_one]
      rw [Real.sin_add_pi_div_two, ← sq, Real.cos_sq_arctan]
      norm_num
    simp [Finset.sum_range_succ, displacement, hadef, Ex.lineR, Ex.varName_dx, hcs]
    rw [hm]
    rintro ⟨h, -⟩
    have := (abs_le.1 hR.1).1
    norm_num [atanD] at h this hl
    linarith


/-- **C55.** `x` over {0} with remainder [-1/2, 1/2] allows the value 1/2; its inverse sine, `x` with a remainder within [-1/4, 1/4], does not allow
`arcsin (1/2)`. -/
theorem C55_asin_remainder_counterexample :
    Unsound₁ (Ex.slopeR 1 1 ⟨-(1 / 2), 1 / 2⟩ ⟨0, 0⟩) (rasin id (Ex.slopeR 1 1 ⟨-(1 / 2), 1 / 2⟩ ⟨0, 0⟩)) Real.arcsin := by
  set a := Ex.slopeR 1 1 ⟨-(1 / 2), 1 / 2⟩ ⟨0, 0⟩ with hadef
  have ha : a.WF := Ex.slopeR_wf one_ne_zero le_rfl (by norm_num) (by norm_num [InItv])
  have hlin := Ex.slopeR_lin one_ne_zero (le_refl 1) ⟨-(1 / 2), 1 / 2⟩ ⟨0, 0⟩
  have hc : coeff 0 (a.tpol.toMv () : MvPolynomial String ℝ) = 0 := Ex.slopeR_const one_ne_zero (le_refl 1) _ _
  have ht := Ex.slopeR_clear (s := 1) (by norm_num) ⟨-(1 / 2), 1 / 2⟩ ⟨0, 0⟩
  have hA : absVal (fun _ => 0) (a.tpol.toMv () : MvPolynomial String ℝ) = 0 := by
    rw [hadef, Ex.slopeR_toMv one_ne_zero le_rfl, absVal_monomial]
    simp
  have hρ : a.rem.AbsLE (1 / 2) := by norm_num [hadef, Ex.slopeR, Itv.AbsLE]
  obtain ⟨r, B, dv, h, hw, hp, hexp, -, hrr, hdv, hB, -⟩ := rasin_ok_rem (ord := id) ha le_rfl (show 1 ≤ 17 by norm_num) (fun _ _ _ => rfl) hρ hc
    ht.1 ht.2 (R := fun _ => 0) (fun _ => le_rfl) (by
      intro s e he _ f hf _
      simp only [hadef, Ex.slopeR, List.mem_singleton] at he hf
      subst he hf
      norm_num) (by rw [hA]; norm_num)
  have hG := hB.add hρ
  rw [hA, zero_add] at hG
  have h01 : (⟨0, 1⟩ : Itv ℝ).AbsLE 1 := by norm_num [Itv.AbsLE]
  have hAG := h01.mul hG
  rw [one_mul] at hAG
  set A := (⟨0, 1⟩ : Itv ℝ).mul (B.add a.rem)
  have hA2 := hAG.mul hAG
  have hO1 : 3 / 4 ≤ (oneMinusSq A).lo := by
    have := (abs_le.1 hA2.2).2
    change 3 / 4 ≤ 1 - (A.mul A).hi
    linarith
  have hO2 : (oneMinusSq A).hi ≤ 5 / 4 := by
    have := (abs_le.1 hA2.1).1
    change 1 - (A.mul A).lo ≤ 5 / 4
    linarith
  have hO3 : (oneMinusSq A).lo ≤ (oneMinusSq A).hi := Itv.lo_le_hi_sub le_rfl (Itv.lo_le_hi_mul _ _)
  generalize hO : oneMinusSq A = O at hO1 hO2 hO3
  have hOabs : O.AbsLE (5 / 4) := ⟨abs_le.2 ⟨by linarith, by linarith⟩, abs_le.2 ⟨by linarith, by linarith⟩⟩
  have hdvabs : dv.AbsLE (1 / 2 * (5 / 4) ^ 2 * (64 / 27)) := by
    obtain ⟨d, e, e'⟩ := bind_ok_iff.1 hdv
    injection e' with e'
    obtain ⟨d1, -, e⟩ := bind_ok_iff.1 e
    obtain ⟨d2, e2, e⟩ := bind_ok_iff.1 e
    injection e with e
    subst e
    rw [← e']
    simp only
    unfold asinD2 at e2
    rw [hO] at e2
    obtain ⟨q, q1, q2⟩ := bind_ok_iff.1 e2
    injection q2 with q2
    subst q2
    rw [Itv.inv_ok (pow_zeroIn (by linarith) 3)] at q1
    injection q1 with q1
    subst q1
    have h5 : O.pow 3 = ⟨O.lo ^ 3, O.hi ^ 3⟩ := by
      unfold Itv.pow
      rw [if_neg (by norm_num), if_pos (by norm_num)]
    refine (hAG.mul (hOabs.pow 2)).mul ?_
    rw [h5]
    have key : ∀ {t : ℝ}, 3 / 4 ≤ t → |(t ^ 3)⁻¹| ≤ 64 / 27 := fun {t} h => by
      have h6 : (3 / 4 : ℝ) ^ 3 ≤ t ^ 3 := pow_le_pow_left₀ (by norm_num) h 3
      have h7 : 0 < t ^ 3 := by positivity
      rw [abs_of_pos (inv_pos.2 h7)]
      have := inv_anti₀ (by norm_num) h6
      norm_num at this ⊢
      linarith
    exact ⟨key (hO1.trans hO3), key hO1⟩
  have hr : r.rem.AbsLE (1 / 4) := by
    rw [hrr]
    refine Itv.AbsLE.mono (((Itv.AbsLE.point _).mul (hG.pow _)).mul hdvabs) ?_
    rw [show a.order = 1 from rfl]
    norm_num [Nat.factorial]
  obtain ⟨p, p1, p2⟩ := GDual.asinWith_lift (ι := Unit) (C := ℝ) (bin := GDual.binomialU32) ha.valid
    (fun k _ hk => GDual.binomialU32_eq (hk.trans (by simp [hadef, Ex.slopeR]))) fun _ => by rw [hc]; norm_num
  have hpr : r.tpol = p := Except.ok.inj (hp.symm.trans p1)
  refine ⟨r, fun _ => 0, 1 / 2, ha, h, hw, by rw [hadef, Ex.slopeR_inDom]; norm_num [InItv], ?_, fun hal => ?_⟩
  · unfold Allows
    rw [hadef, Ex.slopeR_polyAt one_ne_zero le_rfl]
    norm_num [InItv, Ex.slopeR]
  · unfold Allows polyAt at hal
    rw [hpr, GDual.lift_linear p2 (by rw [hc]; exact derivs_arcsin.isTaylor₁ isOpen_Ioo (by norm_num) _) hlin, hc, hexp,
      show a.tpol.order = 1 from rfl, hadef, Ex.slopeR_toMv one_ne_zero le_rfl] at hal
    simp [Finset.sum_range_succ, asinDv, Ex.slopeR] at hal
    rw [eval_monomial] at hal
    simp [displacement, Ex.varName_dx] at hal
    have e1 : Real.arcsin (1 / 2) = Real.pi / 6 := by
      rw [← Real.sin_pi_div_six]
      exact Real.arcsin_sin (by linarith [Real.pi_pos]) (by linarith [Real.pi_pos])
    rw [← one_div, e1] at hal
    have h8 := hal.2
    have h9 := (abs_le.1 hr.2).2
    have := Real.pi_gt_three
    linarith

end Audi
