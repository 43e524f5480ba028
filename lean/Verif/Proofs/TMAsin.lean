import Mathlib.Analysis.Calculus.IteratedDeriv.Defs
import Verif.Proofs.TMAtan

/-!
# Proofs: inverse sine of Taylor models
-/

namespace Audi
namespace TM
open MvPolynomial Spec

/-- Sequences of derivatives are the iterated derivatives. -/
theorem Derivs.iteratedDeriv {S : Set ℝ} {G : ℕ → ℝ → ℝ} (hG : Derivs S G) (hS : IsOpen S) (n : ℕ) : ∀ t ∈ S, iteratedDeriv n (G 0) t = G n t := by
  induction n with
  | zero => intro t _; rw [iteratedDeriv_zero]
  | succ n ih =>
    intro t ht
    rw [iteratedDeriv_succ]
    have : _root_.iteratedDeriv n (G 0) =ᶠ[nhds t] G n := by
      filter_upwards [hS.mem_nhds ht] with u hu using ih u hu
    rw [this.deriv_eq]
    exact (hG n t ht).deriv

theorem div_ok_iff {a b J : Itv ℝ} (h : a.div b = .ok J) : b.zeroIn = false := by
  obtain ⟨c, h1, -⟩ := bind_ok_iff.1 h
  unfold Itv.inv at h1
  split_ifs at h1 with h2
  simpa using h2

theorem mem_oneMinusSq {A : Itv ℝ} {t u : ℝ} (ht : InItv A t) (hu : InItv A u) : InItv (oneMinusSq A) (1 - t * u) :=
  Itv.mem_sub (Itv.mem_point 1) (Itv.mem_mul ht hu)

/-- When the first derivative is computed, the interval lies in (-1, 1). -/
theorem asinD1_sound {A J : Itv ℝ} (h : asinD1 A = .ok J) {t : ℝ} (ht : InItv A t) : t ∈ Set.Ioo (-1 : ℝ) 1 ∧ InItv J (asinDv 1 t) := by
  unfold asinD1 at h
  obtain ⟨s, h1, h2⟩ := bind_ok_iff.1 h
  have hz := div_ok_iff h2
  have hw := mem_oneMinusSq ht ht
  have hpos : 0 < 1 - t * t := by
    unfold Itv.rsqrt at h1
    split_ifs at h1
    injection h1 with h1
    subst h1
    rw [Itv.zeroIn_false_iff] at hz
    rcases hz with hz | hz
    · exact (Real.sqrt_pos.1 hz).trans_le hw.1
    · exact absurd (Real.sqrt_nonneg _) (not_le.2 hz)
  have h3 : t ∈ Set.Ioo (-1 : ℝ) 1 := ⟨by nlinarith, by nlinarith⟩
  obtain ⟨r, r1, r2⟩ := Itv.mem_rsqrt hw hpos.le
  rw [h1] at r1
  injection r1 with r1
  subst r1
  obtain ⟨q, q1, q2⟩ := Itv.mem_div hz (Itv.mem_point (1 : ℝ)) r2
  rw [h2] at q1
  injection q1 with q1
  subst q1
  refine ⟨h3, ?_⟩
  simp only [asinDv]
  rw [sq]
  exact q2

/-- The expression for the second derivative has the wrong exponent, but contains the second derivative if the interval contains 0. -/
theorem asinD2_sound {A J : Itv ℝ} (h : asinD2 A = .ok J) (h0 : InItv A 0) {t : ℝ} (ht : InItv A t) (h1 : t ∈ Set.Ioo (-1 : ℝ) 1) :
    InItv J (asinDv 2 t) := by
  have hs : 0 < 1 - t ^ 2 := one_sub_sq_pos h1
  have hs1 : 1 - t ^ 2 ≤ 1 := by nlinarith [sq_nonneg t]
  have w0 : InItv (oneMinusSq A) 1 := by have := mem_oneMinusSq h0 h0; rwa [mul_zero, sub_zero] at this
  have ws : InItv (oneMinusSq A) (1 - t ^ 2) := by rw [sq]; exact mem_oneMinusSq ht ht
  set s := 1 - t ^ 2
  have hw : InItv (oneMinusSq A) (√s * √√s) := by
    have h2 : √s ≤ 1 := Real.sqrt_le_one.2 hs1
    have h3 : √√s ≤ 1 := Real.sqrt_le_one.2 h2
    have h4 : √s * √s = s := Real.mul_self_sqrt hs.le
    have h5 : √√s * √√s = √s := Real.mul_self_sqrt (Real.sqrt_nonneg s)
    have h6 := Real.sqrt_nonneg s
    have h7 := Real.sqrt_nonneg √s
    have h8 : √s ≤ √√s := by nlinarith
    constructor
    · refine ws.1.trans ?_
      nlinarith
    · refine le_trans ?_ w0.2
      nlinarith
  unfold asinD2 at h
  obtain ⟨q, q1, q2⟩ := Itv.mem_div (div_ok_iff h) (Itv.mem_mul ht (Itv.mem_pow hw 2)) (Itv.mem_pow ws 3)
  rw [h] at q1
  injection q1 with q1
  subst q1
  have e : asinDv 2 t = t * (√s * √√s) ^ 2 / s ^ 3 := by
    simp only [asinDv]
    change t / s * (1 / √s) = _
    have h4 : √s ^ 2 = s := Real.sq_sqrt hs.le
    have h5 : √√s ^ 2 = √s := Real.sq_sqrt (Real.sqrt_nonneg s)
    have h6 : √s ≠ 0 := (Real.sqrt_pos.2 hs).ne'
    rw [mul_pow, h4, h5]
    field_simp
    rw [h4]
  rw [e]
  exact q2

theorem asinDPair_sound {A : Itv ℝ} (h0 : InItv A 0) {n : ℕ} : ∀ {J J' : Itv ℝ}, asinDPair A n = .ok (J, J') → ∀ {t : ℝ}, InItv A t →
    t ∈ Set.Ioo (-1 : ℝ) 1 ∧ InItv J (asinDv (n + 1) t) ∧ InItv J' (asinDv (n + 2) t) := by
  induction n with
  | zero =>
    intro J J' h t ht
    obtain ⟨d1, e1, h⟩ := bind_ok_iff.1 h
    obtain ⟨d2, e2, h⟩ := bind_ok_iff.1 h
    injection h with h
    injection h with h h'
    subst h h'
    have := asinD1_sound e1 ht
    exact ⟨this.1, this.2, asinD2_sound e2 h0 ht this.1⟩
  | succ n ih =>
    intro J J' h t ht
    obtain ⟨⟨K, K'⟩, e1, h⟩ := bind_ok_iff.1 h
    obtain ⟨q, e2, h⟩ := bind_ok_iff.1 h
    injection h with h
    injection h with h h'
    subst h
    obtain ⟨i1, i2, i3⟩ := ih e1 ht
    refine ⟨i1, i3, ?_⟩
    obtain ⟨r, r1, r2⟩ := Itv.mem_div (div_ok_iff e2) (Itv.mem_point (1 : ℝ)) (mem_oneMinusSq ht ht)
    rw [e2] at r1
    injection r1 with r1
    subst r1
    have := Itv.mem_mul r2 (Itv.mem_add (Itv.mem_mul (Itv.mem_mul (Itv.mem_point (2 * (n + 1 : ℝ) + 1)) ht) i3)
      (Itv.mem_mul (Itv.mem_point ((n + 1 : ℝ) * (n + 1 : ℝ))) i2))
    subst h'
    have e : asinDv (n + 3) t = 1 / (1 - t * t) * ((2 * (n + 1 : ℝ) + 1) * t * asinDv (n + 2) t + (n + 1 : ℝ) * (n + 1 : ℝ) * asinDv (n + 1) t) := by
      simp only [asinDv]
      ring_nf
    rw [e]
    exact this

/-- `asin_derivative`. -/
theorem asinDerivative_sound {A J : Itv ℝ} (h0 : InItv A 0) {n : ℕ} (h : asinDerivative A (n + 1) = .ok J) {t : ℝ} (ht : InItv A t) :
    t ∈ Set.Ioo (-1 : ℝ) 1 ∧ InItv J (asinDv (n + 1) t) := by
  cases n with
  | zero => exact asinD1_sound h ht
  | succ n =>
    obtain ⟨⟨K, K'⟩, e1, h⟩ := bind_ok_iff.1 h
    injection h with h
    subst h
    have := asinDPair_sound h0 e1 ht
    exact ⟨this.1, this.2.2⟩

/-- What `pow(tm, 1/2)` returns, whatever the remainder, when it succeeds. -/
theorem powHalf_wf {a r : TM ℝ} {ord : List String → List String} (ha : a.WF) (hc : 0 < coeff 0 (a.tpol.toMv () : MvPolynomial String ℝ))
    (h : powHalf ord a = .ok r) : r.WF ∧ r.order = a.order ∧ r.tpol.p.syms = a.tpol.p.syms ∧ (∀ e ∈ r.exp, e ∈ a.exp) ∧ ∀ e ∈ r.dom, e ∈ a.dom := by
  unfold powHalf at h
  obtain ⟨⟨c, B, k⟩, -, h⟩ := bind_ok_iff.1 h
  simp only at h
  obtain ⟨_, -, h⟩ := bind_ok_iff.1 h
  obtain ⟨q, -, h⟩ := bind_ok_iff.1 h
  obtain ⟨den, -, h⟩ := bind_ok_iff.1 h
  obtain ⟨f2, -, h⟩ := bind_ok_iff.1 h
  obtain ⟨f1, -, h⟩ := bind_ok_iff.1 h
  obtain ⟨num, -, h⟩ := bind_ok_iff.1 h
  obtain ⟨rem, hrem, h⟩ := bind_ok_iff.1 h
  obtain ⟨p, p1, h⟩ := bind_ok_iff.1 h
  obtain ⟨ne, e1, h⟩ := bind_ok_iff.1 h
  obtain ⟨nd, e2, h⟩ := bind_ok_iff.1 h
  have hr : rem.lo ≤ rem.hi := by
    obtain ⟨i, -, h2⟩ := bind_ok_iff.1 hrem
    injection h2 with h2
    subst h2
    exact Itv.lo_le_hi_mul _ _
  obtain ⟨p', p1', p2⟩ := GDual.powQ_series_lift (C := ℝ) (ι := Unit) (α := 1 / 2) ha.valid (by norm_num) (fun h => absurd h.1 (by decide +kernel))
    fun _ => Or.inl hc
  rw [p1] at p1'
  injection p1' with p1'
  subst p1'
  have hs : p.p.syms = a.tpol.p.syms := GDual.HasSyms.powQ ha.valid.wf.sorted (d := a.tpol) rfl p1
  obtain ⟨ne', nd', t1, t2, -, t4⟩ := retrim ha p2.valid hs
  rw [e1] at t1
  rw [e2] at t2
  injection t1 with t1
  injection t2 with t2
  subst t1 t2
  obtain ⟨r', r1, r2, r3, r4, r5, r6, r7⟩ := t4 rem hr
  rw [h] at r1
  injection r1 with r1
  subst r1
  have hn : ∀ s ∈ p.p.syms, ∃ v, s = "d" ++ v := by rw [hs]; exact ha.names
  have hnd := nodup_varNames p2.valid.wf.ndsyms hn
  have he : ∀ v ∈ p.p.syms.map varName, v ∈ a.exp.keys := fun v h => ha.expKeys.mem_iff.2 (by rwa [hs] at h)
  have hd : ∀ v ∈ p.p.syms.map varName, v ∈ a.dom.keys := fun v h => ha.domKeys.mem_iff.2 (by rwa [hs] at h)
  have t1 := (trimMap_ok hnd he : trimMap p.symbolSet a.exp = _)
  have t2 := (trimMap_ok hnd hd : trimMap p.symbolSet a.dom = _)
  rw [e1] at t1
  rw [e2] at t2
  injection t1 with t1
  injection t2 with t2
  refine ⟨r2, by rw [r3, p2.order, ha.order], by rw [r4, hs], ?_, ?_⟩
  · rw [r6, t1]
    exact fun e he => VMap.mem_of_lookup (VMap.mem_pick.1 he).2
  · unfold make at h
    obtain ⟨_, -, h⟩ := bind_ok_iff.1 h
    injection h with h
    rw [← h, t2]
    exact fun e he => VMap.mem_of_lookup (VMap.mem_pick.1 he).2

end TM

namespace TM
open MvPolynomial Spec

theorem zero_mul_itv (J : Itv ℝ) : (Itv.point 0).mul J = ⟨0, 0⟩ := by
  simp [Itv.mul, Itv.point]

theorem itv_mul_zero (J : Itv ℝ) : (⟨0, 0⟩ : Itv ℝ).mul J = ⟨0, 0⟩ := by
  simp [Itv.mul]

variable {a : TM ℝ} {ord : List String → List String}

/-- `asin` of a Taylor model whose polynomial has degree 1 and no constant term: where it returns, the result is sound. -/
theorem rasin_sound_of_ok (ha : a.WF) (h1 : 1 ≤ a.order) (h30 : a.order ≤ 30) (ho : Faithful ord (a.tpol.p.syms.map varName))
    (hlin : DegLE 1 (a.tpol.toMv () : MvPolynomial String ℝ)) (hrem : a.rem = ⟨0, 0⟩) (hc : coeff 0 (a.tpol.toMv () : MvPolynomial String ℝ) = 0)
    (hnz : (a.tpol.toMv () : MvPolynomial String ℝ) ≠ 0)
    (ht : (∃ m : String →₀ ℕ, a.order < m.degree ∧ ((tiny : ℚ) : ℝ) < |coeff m (a.tpol.toMv () * a.tpol.toMv () : MvPolynomial String ℝ)|) ∨
        ∀ m : String →₀ ℕ, a.order < m.degree → coeff m (a.tpol.toMv () * a.tpol.toMv () : MvPolynomial String ℝ) = 0)
    {r : TM ℝ} (h : rasin ord a = .ok r) : Sound₁ a (rasin ord a) fun y z => z = Real.arcsin y := by
  have hdegP : DegLE a.order (a.tpol.toMv () : MvPolynomial String ℝ) := fun e he => hlin e (by omega)
  obtain ⟨sq, s1, s2⟩ := powInt_isPower (ord := ord) ha h1 (by omega) ho hnz (le_refl 2) fun i i1 i2 Q hQ hE => by
    obtain rfl : i = 1 := by omega
    rw [pow_one] at hE
    obtain rfl := EqUpTo.eq_of_degLE hE hQ hdegP
    exact ⟨hnz, ht⟩
  have hs2c : coeff 0 (sq.tpol.toMv () : MvPolynomial String ℝ) = 0 := by
    rw [s2.poly 0 (by simp), pow_two, ← constantCoeff_eq, map_mul, constantCoeff_eq, hc, zero_mul]
  obtain ⟨om, o1, o2, o3, o4, o5, o6, o7⟩ := remake s2.wf (GDual.Valid.subSG (ι := Unit) (K := ℝ) (1 : ℝ) s2.wf.valid)
    (GDual.HasSyms.subSG s2.wf.valid.wf.sorted (a := sq.tpol) rfl 1) s2.wf.rem
  have hom : 0 < coeff 0 (om.tpol.toMv () : MvPolynomial String ℝ) := by
    rw [o4, GDual.toMv_subSG 1 s2.wf.valid, coeff_sub, hs2c, sub_zero]
    change 0 < coeff 0 (C (1 : ℝ))
    rw [coeff_C, if_pos rfl]
    exact one_pos
  have hrun := h
  unfold rasin at hrun ⊢
  obtain ⟨b, hb, hrun⟩ := bind_ok_iff.1 hrun
  rw [bind_ok hb]
  split_ifs at hrun ⊢ with hrange
  obtain ⟨c, c1, hrun⟩ := bind_ok_iff.1 hrun
  have c2 : c = 0 := by
    have := GDual.lane_constantCf (ι := Unit) (K := ℝ) ha.valid c1 ()
    rw [hc] at this
    exact this
  subst c2
  rw [bind_ok c1]
  obtain ⟨l, l1, hrun⟩ := bind_ok_iff.1 hrun
  rw [bind_ok l1]
  rw [show √(1 - (0 : ℝ) ^ 2) = 1 by norm_num] at l1
  obtain ⟨l', m1, m2, m3, m4, m5, m6, m7⟩ := remake ha (GDual.Valid.mulGS (1 : ℝ) ha.valid) (GDual.HasSyms.mulGS ha.valid.wf.sorted (a := a.tpol) rfl (1 : ℝ))
    (Itv.lo_le_hi_mul a.rem (Itv.point 1))
  have : l' = l := Except.ok.inj (m1.symm.trans l1)
  subst this
  obtain ⟨sq', s1', hrun⟩ := bind_ok_iff.1 hrun
  rw [bind_ok s1']
  have : sq = sq' := Except.ok.inj (s1.symm.trans s1')
  subst this
  obtain ⟨om', o1', hrun⟩ := bind_ok_iff.1 hrun
  rw [bind_ok o1']
  have : om = om' := Except.ok.inj (o1.symm.trans o1')
  subst this
  obtain ⟨rt, rt1, hrun⟩ := bind_ok_iff.1 hrun
  rw [bind_ok rt1]
  obtain ⟨w1, w2, w3, w4, w5⟩ := powHalf_wf o2 hom rt1
  obtain ⟨z, z1, hrun⟩ := bind_ok_iff.1 hrun
  rw [bind_ok z1]
  obtain ⟨z', n1, n2, n3, n4, n5, n6, n7⟩ := remake w1 (GDual.Valid.mulSG (0 : ℝ) w1.valid) (GDual.HasSyms.mulSG w1.valid.wf.sorted (a := rt.tpol) rfl (0 : ℝ))
    (Itv.lo_le_hi_mul (Itv.point 0) rt.rem)
  have : z' = z := Except.ok.inj (n1.symm.trans z1)
  subst this
  have hze : ∀ e ∈ z'.exp, e ∈ a.exp := by
    rw [n6]
    exact fun e he => s2.exp e (by have := w4 e he; rwa [o6] at this)
  have hzd : ∀ e ∈ z'.dom, e ∈ a.dom := by
    rw [n7]
    exact fun e he => s2.dom e (by have := w5 e he; rwa [o7] at this)
  obtain ⟨ad, a1, hrun⟩ := bind_ok_iff.1 hrun
  rw [bind_ok a1]
  have hcomp : Compatible l' z' := by
    have := compatible_of_sub (p := z') m2 (by rw [m6]; exact hze) (by rw [m7]; exact hzd)
    exact ⟨fun e he f hf h => (this.1 f hf e he h.symm).symm, fun e he f hf h => (this.2 f hf e he h.symm).symm⟩
  obtain ⟨ad', b1, b2, b3, b4, b5, b6⟩ := sub_sound m2 n2 hcomp
  have : ad' = ad := Except.ok.inj (b1.symm.trans a1)
  subst this
  have hadp : ad'.tpol = l'.tpol.sub z'.tpol := by
    unfold TM.sub at a1
    obtain ⟨_, -, a1⟩ := bind_ok_iff.1 a1
    obtain ⟨_, -, a1⟩ := bind_ok_iff.1 a1
    obtain ⟨_, -, a1⟩ := bind_ok_iff.1 a1
    obtain ⟨_, -, a1⟩ := bind_ok_iff.1 a1
    unfold make at a1
    obtain ⟨_, -, a1⟩ := bind_ok_iff.1 a1
    injection a1 with a1
    rw [← a1]
  have hadsyms : ∀ s ∈ ad'.tpol.p.syms, s ∈ a.tpol.p.syms := by
    intro s hs
    rw [hadp] at hs
    rcases mem_mergeSyms.1 hs with h | h
    · rw [m4] at h
      rwa [show (a.tpol.mulGS 1).p.syms = a.tpol.p.syms from GDual.HasSyms.mulGS ha.valid.wf.sorted (a := a.tpol) rfl (1 : ℝ)] at h
    · change s ∈ z'.tpol.p.syms at h
      rw [n4, show (GDual.mulSG 0 rt.tpol).p.syms = rt.tpol.p.syms from GDual.HasSyms.mulSG w1.valid.wf.sorted (a := rt.tpol) rfl (0 : ℝ), w3, o4,
        show (GDual.subSG 1 sq.tpol).p.syms = sq.tpol.p.syms from GDual.HasSyms.subSG s2.wf.valid.wf.sorted (a := sq.tpol) rfl 1] at h
      exact s2.syms s h
  have hz0 : ∀ x, z'.polyAt x = 0 := fun x => by
    unfold TM.polyAt
    rw [n4, GDual.toMv_mulSG (0 : ℝ) w1.valid]
    change eval _ (C (0 : ℝ) * _) = 0
    rw [C_0, zero_mul, map_zero]
  have hl0 : ∀ x, l'.polyAt x = a.polyAt x := fun x => by
    unfold TM.polyAt
    rw [m4, GDual.toMv_mulGS (1 : ℝ) ha.valid, m6]
    change eval _ (_ * C (1 : ℝ)) = _
    rw [C_1, mul_one]
  have hado : ad'.order = a.order := by
    have e1 : (a.tpol.mulGS 1).order = max a.tpol.order a.tpol.order := rfl
    have e2 : (GDual.subSG 1 sq.tpol).order = max 0 sq.tpol.order := rfl
    rw [b3, m3, n3, GDual.order_mulSG, ← w1.order, w2, o3, e1, e2]
    rw [← s2.wf.order, s2.order, ← ha.order]
    simp
  obtain ⟨B, e1, e2, e3⟩ := bounds_encloses (ord := ord) b2 (by omega) (ho _ b2.nodup fun v hv => by
    obtain ⟨s, hs, rfl⟩ := List.mem_map.1 hv
    exact List.mem_map_of_mem (hadsyms s hs))
  have e1' : getBounds ord ad'.tpol ad'.exp ad'.dom = .ok B := e1
  rw [bind_ok e1'] at hrun ⊢
  simp only at hrun ⊢
  obtain ⟨dv, d1, hrun⟩ := bind_ok_iff.1 hrun
  rw [bind_ok d1]
  obtain ⟨f1, ff, hrun⟩ := bind_ok_iff.1 hrun
  rw [bind_ok ff]
  rw [show a.tpol.getOrder = a.order from ha.order.symm] at d1 ff ⊢
  obtain ⟨p, p1, p2⟩ := GDual.asinWith_lift (ι := Unit) (C := ℝ) (bin := GDual.binomialU32) ha.valid
    (fun k _ hk => GDual.binomialU32_eq (hk.trans (ha.order ▸ h30))) fun _ => by rw [hc]; norm_num
  have hs : p.p.syms = a.tpol.p.syms := GDual.HasSyms.asinWith ha.valid.wf.sorted (d := a.tpol) rfl (ha.order ▸ h1) p1
  have hp : a.tpol.asin = .ok p := p1
  rw [bind_ok hp]
  have hval : ∀ x, ∀ y, a.Allows x y → y = a.polyAt x := fun x y hy => by
    unfold Allows at hy
    rw [hrem] at hy
    exact sub_eq_zero.1 (le_antisymm hy.2 hy.1)
  have hG : ∀ x, a.InDom x → InItv (B.add ad'.rem) (a.polyAt x) := fun x hx => by
    have hl : l'.Allows x (a.polyAt x) := by
      unfold Allows
      rw [hl0, sub_self, m5, hrem, itv_mul_zero]
      exact ⟨le_rfl, le_rfl⟩
    have hz : z'.Allows x 0 := by
      unfold Allows
      rw [hz0, sub_self, n5, zero_mul_itv]
      exact ⟨le_rfl, le_rfl⟩
    have hd : ad'.InDom x := (b4 x).2 ⟨(inDom_congr m7 x).2 hx, fun e he => hx e (hzd e he)⟩
    have := Itv.mem_add (e3 x hd) (b6 x _ _ hl hz)
    rwa [add_sub_cancel, sub_zero] at this
  have hA : ∀ x, a.InDom x → ∀ θ : ℝ, 0 ≤ θ → θ ≤ 1 → InItv ((⟨0, 1⟩ : Itv ℝ).mul (B.add ad'.rem)) (θ * a.polyAt x) := fun x hx θ h0 h1 =>
    Itv.mem_mul (show InItv (⟨0, 1⟩ : Itv ℝ) θ from ⟨h0, h1⟩) (hG x hx)
  have hA0 : InItv ((⟨0, 1⟩ : Itv ℝ).mul (B.add ad'.rem)) 0 := by
    have := hA _ (expPoint_inDom ha) 0 le_rfl zero_le_one
    rwa [zero_mul] at this
  refine func_sound derivs_arcsin isOpen_Ioo Set.ordConnected_Ioo ha hlin (.inl hrem) hc (by norm_num) (fun x hx y hy => ?_) p2 hs ?_
  · have := (asinDerivative_sound hA0 d1 (hA x hx 1 zero_le_one le_rfl)).1
    rwa [one_mul, ← hval x y hy] at this
  · intro x hx y hy θ h0 h1'
    rw [zero_add, sub_zero, hval x y hy]
    have hd := (asinDerivative_sound hA0 d1 (hA x hx θ h0 h1')).2
    have hf : f1 = ((a.order + 1).factorial : ℝ) := by
      rw [factorial_ok (by omega)] at ff
      exact (Except.ok.inj ff).symm
    have := Itv.mem_mul (Itv.mem_mul (Itv.mem_point (1 / f1)) (Itv.mem_pow (hG x hx) (a.order + 1))) hd
    rw [hf] at this ⊢
    rw [show asinDv (a.order + 1) (θ * a.polyAt x) / ((a.order + 1).factorial : ℝ) * a.polyAt x ^ (a.order + 1) =
      1 / ((a.order + 1).factorial : ℝ) * a.polyAt x ^ (a.order + 1) * asinDv (a.order + 1) (θ * a.polyAt x) by ring]
    exact this

end TM
end Audi
