import Verif.Proofs.TMAsin
import Verif.Proofs.AbsVal
import Verif.Proofs.TMDivisionRem

/-!
# Proofs: when the inverse sine of a Taylor model succeeds
-/

namespace Audi
namespace TM
open MvPolynomial Spec

variable {a : TM ℝ} {ord : List String → List String}

/-- `pow(tm, 1/2)` succeeds when the bounds that it computes are positive. -/
theorem powHalf_ok (ha : a.WF) (h17 : a.order ≤ 17) {c : ℝ} {B : Itv ℝ} (hp : prologue ord a = .ok (c, B, a.order))
    (hc : coeff 0 (a.tpol.toMv () : MvPolynomial String ℝ) = c) (hc0 : 0 < c) (hreq : requireAbove ord a 0 = .ok ())
    (hB : ∀ t, t = B.lo ∨ t = B.hi → 0 < c + t) : ∃ r, powHalf ord a = .ok r := by
  obtain ⟨q, q1, q2, -⟩ := ratio_ok hc0 hB
  set k := a.order with hk
  set V := (Itv.point 1).add (q.mul ⟨0, 1⟩) with hV
  have hVp := pow_lo_pos q2 (2 * k + 1)
  have hVle : V.lo ≤ V.hi := Itv.lo_le_hi_add le_rfl (Itv.lo_le_hi_mul _ _)
  have hhi : ¬ (V.pow (2 * k + 1)).hi < 0 := not_lt.2 (hVp.le.trans (Itv.lo_le_hi_pow hVle _))
  have e1 : (V.pow (2 * k + 1)).rsqrt = .ok ⟨√(V.pow (2 * k + 1)).lo, √(V.pow (2 * k + 1)).hi⟩ := if_neg hhi
  have hz : (⟨√(V.pow (2 * k + 1)).lo, √(V.pow (2 * k + 1)).hi⟩ : Itv ℝ).zeroIn = false :=
    Itv.zeroIn_false_iff.2 (.inl (Real.sqrt_pos.2 hVp))
  obtain ⟨num, n1, -, -⟩ := sdiv_ok (smul ((-1) ^ k * √c * (fact2Loop (2 * k - 1) : ℕ) / ((k + 1).factorial * 2 ^ (k + 1))) (B.pow (k + 1)))
    (pow_ne_zero (k + 1) hc0.ne')
  have hrem : ∃ R : Itv ℝ, (num.mul (Itv.point 1)).div ⟨√(V.pow (2 * k + 1)).lo, √(V.pow (2 * k + 1)).hi⟩ = .ok R ∧ R.lo ≤ R.hi := by
    unfold Itv.div
    rw [Itv.inv_ok hz]
    exact ⟨_, rfl, Itv.lo_le_hi_mul _ _⟩
  obtain ⟨R, R1, R2⟩ := hrem
  obtain ⟨p, p1, p2⟩ := GDual.powQ_series_lift (C := ℝ) (ι := Unit) (α := 1 / 2) ha.valid (by norm_num) (fun h => absurd h.1 (by decide +kernel))
    fun _ => Or.inl (by rw [hc]; exact hc0)
  have hs : p.p.syms = a.tpol.p.syms := GDual.HasSyms.powQ ha.valid.wf.sorted (d := a.tpol) rfl p1
  obtain ⟨ne, nd, t1, t2, -, t4⟩ := retrim ha p2.valid hs
  obtain ⟨r, r1, -⟩ := t4 R R2
  refine ⟨r, ?_⟩
  unfold powHalf
  rw [bind_ok hp]
  simp only
  rw [bind_ok hreq, bind_ok q1, bind_ok e1, bind_ok (fact2_sqrt h17), bind_ok (factorial_ok (by omega : k + 1 ≤ 170)), bind_ok n1, bind_ok R1,
    bind_ok p1, bind_ok t1, bind_ok t2, r1]

/-! ### The derivatives -/

theorem abs_mul_itv {A B : Itv ℝ} {M N : ℝ} (hA : |A.lo| ≤ M ∧ |A.hi| ≤ M) (hB : |B.lo| ≤ N ∧ |B.hi| ≤ N) :
    |(A.mul B).lo| ≤ M * N ∧ |(A.mul B).hi| ≤ M * N := by
  have hM : 0 ≤ M := (abs_nonneg _).trans hA.1
  have key : ∀ {x y : ℝ}, |x| ≤ M → |y| ≤ N → |x * y| ≤ M * N := fun hx hy => by
    rw [abs_mul]
    exact mul_le_mul hx hy (abs_nonneg _) hM
  have h1 := abs_le.1 (key hA.1 hB.1)
  have h2 := abs_le.1 (key hA.1 hB.2)
  have h3 := abs_le.1 (key hA.2 hB.1)
  have h4 := abs_le.1 (key hA.2 hB.2)
  unfold Itv.mul
  simp only [abs_le, le_min_iff, max_le_iff, min_le_iff, le_max_iff]
  tauto

theorem asinDPair_ok {A : Itv ℝ} (h : 0 < (oneMinusSq A).lo) (n : ℕ) : ∃ d, asinDPair A n = .ok d := by
  have hle : (oneMinusSq A).lo ≤ (oneMinusSq A).hi := Itv.lo_le_hi_sub le_rfl (Itv.lo_le_hi_mul _ _)
  have hdiv : ∀ {I J : Itv ℝ}, 0 < J.lo → ∃ r, I.div J = .ok r := fun hJ => by
    unfold Itv.div
    rw [Itv.inv_ok (Itv.zeroIn_false_iff.2 (.inl hJ))]
    exact ⟨_, rfl⟩
  induction n with
  | zero =>
    have hs : (oneMinusSq A).rsqrt = .ok ⟨√(oneMinusSq A).lo, √(oneMinusSq A).hi⟩ := if_neg (not_lt.2 (h.le.trans hle))
    obtain ⟨d1, e1⟩ := hdiv (I := Itv.point 1) (J := ⟨√(oneMinusSq A).lo, √(oneMinusSq A).hi⟩) (Real.sqrt_pos.2 h)
    obtain ⟨d2, e2⟩ := hdiv (I := A.mul ((oneMinusSq A).pow 2)) (pow_lo_pos h 3)
    refine ⟨(d1, d2), ?_⟩
    unfold asinDPair asinD1 asinD2
    rw [bind_ok hs, bind_ok e1, bind_ok e2]
  | succ n ih =>
    obtain ⟨d, hd⟩ := ih
    obtain ⟨q, hq⟩ := hdiv (I := Itv.point 1) h
    unfold asinDPair
    rw [bind_ok hd]
    simp only
    rw [bind_ok hq]
    exact ⟨_, rfl⟩

theorem asinDerivative_ok {A : Itv ℝ} {M : ℝ} (hA : |A.lo| ≤ M ∧ |A.hi| ≤ M) (hM : M < 1) (n : ℕ) : ∃ d, asinDerivative A (n + 1) = .ok d := by
  have h0 : 0 ≤ M := (abs_nonneg _).trans hA.1
  have h : 0 < (oneMinusSq A).lo := by
    have := (abs_le.1 (abs_mul_itv hA hA).2).2
    change 0 < 1 - (A.mul A).hi
    nlinarith
  cases n with
  | zero =>
    obtain ⟨d, hd⟩ := asinDPair_ok h 0
    unfold asinDPair at hd
    obtain ⟨d1, h1, -⟩ := bind_ok_iff.1 hd
    exact ⟨d1, h1⟩
  | succ n =>
    obtain ⟨d, hd⟩ := asinDPair_ok h n
    refine ⟨d.2, ?_⟩
    change (do
      let d ← asinDPair A n
      Except.ok d.2) = _
    rw [bind_ok hd]

/-- The bounds of a Taylor model are at most the sum of the absolute values of its terms. -/
theorem bounds_absLE (ha : a.WF) (h62 : a.order ≤ 62) (ho : ord (a.tpol.p.syms.map varName) = a.tpol.p.syms.map varName) {R : String → ℝ}
    (hR : Radius a R) {b : Itv ℝ} (hb : a.bounds ord = .ok b) : b.AbsLE (absVal R (a.tpol.toMv () : MvPolynomial String ℝ)) := by
  set P : MvPolynomial String ℝ := a.tpol.toMv () with hP
  obtain ⟨k1, k2⟩ := (bounds_centre (ord := ord) ha h62 ho hR rfl).1 b hb
  rw [← hP] at k1 k2
  have e : |coeff 0 P| + absVal R (P - C (coeff 0 P)) = absVal R P := by
    have h1 := absVal_split (R := R) (f := P) (g := C (coeff 0 P)) (h := P - C (coeff 0 P)) (n := 0) (fun m => ?_) (fun m => ?_)
    · rw [← h1, ← monomial_zero', absVal_monomial]
      simp
    · rw [coeff_C]
      simp only [Nat.le_zero, Finsupp.degree_eq_zero_iff]
      split_ifs with h2 h3 h3
      · rw [h3]
      · exact absurd h2.symm h3
      · exact absurd h3.symm h2
      · rfl
    · rw [coeff_sub, coeff_C]
      simp only [Nat.le_zero, Finsupp.degree_eq_zero_iff]
      split_ifs with h2 h3 h3
      · rw [h3, sub_self]
      · exact absurd h2.symm h3
      · exact absurd h3.symm h2
      · rw [sub_zero]
  constructor
  · have := abs_add_le (b.lo - coeff 0 P) (coeff 0 P)
    rw [sub_add_cancel] at this
    linarith
  · have := abs_add_le (b.hi - coeff 0 P) (coeff 0 P)
    rw [sub_add_cancel] at this
    linarith

/-- The square of a Taylor model: the sum of the absolute values of the terms, and the remainder. -/
theorem square_rem (ha : a.WF) (h1 : 1 ≤ a.order) (h30 : a.order ≤ 30) (ho : Faithful ord (a.tpol.p.syms.map varName)) {ρ : ℝ} (hρ : a.rem.AbsLE ρ)
    (hnz : (a.tpol.toMv () : MvPolynomial String ℝ) ≠ 0)
    (ht : (∃ m : String →₀ ℕ, a.order < m.degree ∧ ((tiny : ℚ) : ℝ) < |coeff m (a.tpol.toMv () * a.tpol.toMv () : MvPolynomial String ℝ)|) ∨
        ∀ m : String →₀ ℕ, a.order < m.degree → coeff m (a.tpol.toMv () * a.tpol.toMv () : MvPolynomial String ℝ) = 0)
    {R : String → ℝ} (hR0 : ∀ s, 0 ≤ R s) (hR : Radius a R) :
    ∃ sq, powInt ord a 2 = .ok sq ∧ IsPower a sq 2 ∧ ∃ N : ℝ, absVal R (sq.tpol.toMv () : MvPolynomial String ℝ) + N ≤ (absVal R (a.tpol.toMv () : MvPolynomial String ℝ) + ρ) ^ 2 ∧
      |sq.rem.lo| ≤ N ∧ |sq.rem.hi| ≤ N := by
  have hdegP : DegLE a.order (a.tpol.toMv () : MvPolynomial String ℝ) := by
    rw [ha.order]
    exact ha.valid.degLE (ι := Unit) (K := ℝ) ()
  have hvP : (GDual.mulSG 1 a.tpol).Valid := GDual.Valid.mulSG (1 : ℝ) ha.valid
  obtain ⟨p, p1, p2, p3, p4, p5, p6, p7⟩ := remake ha hvP (GDual.HasSyms.mulSG ha.valid.wf.sorted (a := a.tpol) rfl (1 : ℝ))
    (Itv.lo_le_hi_mul (Itv.point 1) a.rem)
  have hpP : (p.tpol.toMv () : MvPolynomial String ℝ) = a.tpol.toMv () := by
    rw [p4, GDual.toMv_mulSG (1 : ℝ) ha.valid]
    change C (1 : ℝ) * _ = _
    rw [C_1, one_mul]
  have hprem : p.rem.AbsLE (1 * ρ) := by
    rw [p5]
    exact Itv.AbsLE.mul (by norm_num [Itv.AbsLE, Itv.point]) hρ
  rw [one_mul] at hprem
  have hpo : p.order = a.order := by rw [p3, GDual.order_mulSG, ha.order]
  have hps : p.tpol.p.syms = a.tpol.p.syms := by
    rw [p4]
    exact GDual.HasSyms.mulSG ha.valid.wf.sorted (a := a.tpol) rfl (1 : ℝ)
  obtain ⟨sq, s1, s2⟩ := powInt_isPower (ord := ord) ha h1 (by omega) ho hnz (le_refl 2) fun i i1 i2 Q hQ hE => by
    obtain rfl : i = 1 := by omega
    rw [pow_one] at hE
    obtain rfl := EqUpTo.eq_of_degLE hE hQ hdegP
    exact ⟨hnz, ht⟩
  have hm : mul ord p a = .ok sq := by
    have h := s1
    unfold powInt at h
    rw [if_neg (by norm_num), if_neg (by norm_num), if_pos (by norm_num), bind_ok (show mulST 1 a = .ok p from p1)] at h
    rw [show ((2 : ℕ) : ℤ) - 1 = 1 from rfl, show (1 : ℤ).toNat = 1 from rfl, List.range_one, List.foldlM_cons] at h
    obtain ⟨t, t1, t2⟩ := bind_ok_iff.1 h
    have : t = sq := Except.ok.inj t2
    rw [← this]
    exact t1
  obtain ⟨E, B1, B2, H, g1, g2, e3, e4, -, e6⟩ := mul_rem (ord := ord) p2 ha
    (compatible_of_sub ha (by rw [p6]; exact fun _ h => h) (by rw [p7]; exact fun _ h => h)) (by rw [hpP]; exact hnz) hnz (by omega) (by omega)
    (fun l h2 h3 => ho l h2 fun v hv => by
      rcases List.mem_append.1 (h3 hv) with h | h
      · rwa [hps] at h
      · exact h) hm
  have hRp : Radius p R := by
    intro s
    rw [p6, p7]
    exact hR s
  have hcsq : ∀ m, coeff m (sq.tpol.toMv () : MvPolynomial String ℝ) = if m.degree ≤ a.order then coeff m (a.tpol.toMv () * a.tpol.toMv () : MvPolynomial String ℝ) else 0 := by
    intro m
    split_ifs with hm
    · rw [s2.poly m hm, pow_two]
    · have := s2.wf.valid.degLE (ι := Unit) (K := ℝ) ()
      exact this m (by rw [← s2.wf.order, s2.order]; omega)
  rw [hpP, hpo, max_self] at e4
  have hE : E.AbsLE (absVal R H) := e6 R hRp hR
  have hB1 := bounds_absLE (ord := ord) p2 (by omega) (ho _ p2.nodup (by rw [hps]; exact fun _ h => h)) hRp g1
  rw [hpP] at hB1
  have hB2 := bounds_absLE (ord := ord) ha (by omega) (ho _ ha.nodup fun _ h => h) hR g2
  have hN := ((hE.add (hB1.mul hρ)).add (hprem.mul hB2)).add (hprem.mul hρ)
  rw [← e3] at hN
  refine ⟨sq, s1, s2, _, ?_, hN.1, hN.2⟩
  have h5 := absVal_split (R := R) hcsq e4
  have h6 := absVal_mul_le hR0 (a.tpol.toMv () : MvPolynomial String ℝ) (a.tpol.toMv ())
  nlinarith

/-- `sqrt(1 - sq)` for the square `sq`. -/
theorem oneMinus_sqrt_ok {sq om : TM ℝ} (hw : sq.WF) (h17 : sq.order ≤ 17) (ho : Faithful ord (sq.tpol.p.syms.map varName))
    (hc : coeff 0 (sq.tpol.toMv () : MvPolynomial String ℝ) = 0) {R : String → ℝ} (hR : Radius sq R) {N : ℝ}
    (hN : absVal R (sq.tpol.toMv () : MvPolynomial String ℝ) + N < 1) (hlo : |sq.rem.lo| ≤ N) (hhi : |sq.rem.hi| ≤ N) (hom : subST 1 sq = .ok om) :
    ∃ rt, sqrt ord om = .ok rt := by
  have hsy := GDual.HasSyms.subSG hw.valid.wf.sorted (a := sq.tpol) rfl (1 : ℝ)
  obtain ⟨om', o1, o2, o3, o4, o5, o6, o7⟩ := remake hw (GDual.Valid.subSG (ι := Unit) (K := ℝ) (1 : ℝ) hw.valid) hsy hw.rem
  have : om' = om := Except.ok.inj (o1.symm.trans hom)
  subst this
  have hpoly : (om'.tpol.toMv () : MvPolynomial String ℝ) = C 1 - sq.tpol.toMv () := by
    rw [o4, GDual.toMv_subSG 1 hw.valid]
    rfl
  have hc1 : coeff 0 (om'.tpol.toMv () : MvPolynomial String ℝ) = 1 := by
    rw [hpoly, coeff_sub, hc, sub_zero, coeff_C, if_pos rfl]
  have hoo : om'.order = sq.order := by
    rw [o3, hw.order]
    rfl
  have hos : om'.tpol.p.syms = sq.tpol.p.syms := by
    rw [o4]
    exact hsy
  have hoo' : ord (om'.tpol.p.syms.map varName) = om'.tpol.p.syms.map varName :=
    ho _ o2.nodup (by rw [hos]; exact fun _ h => h)
  have hR' : Radius om' R := by
    intro s
    rw [o6, o7]
    exact hR s
  obtain ⟨b1, b2⟩ := bounds_centre (ord := ord) o2 (by omega) hoo' hR' hc1
  rw [hpoly, sub_sub_cancel_left, absVal_neg] at b1 b2
  obtain ⟨c, B, b, h1, h2, h3, h4, -⟩ := prologue_ok (ord := ord) o2 (by omega) hoo'
  have hcc : c = 1 := by rw [← h3, hc1]
  subst hcc
  have hb := b1 b h4
  refine powHalf_ok o2 (by omega) h1 hc1 one_pos (requireAbove_ok h4 ?_) fun t ht => ?_
  · have h5 := (abs_le.1 hb.1).1
    have h6 := (abs_le.1 hlo).1
    change 0 ≤ b.lo + om'.rem.lo
    rw [o5]
    linarith
  · unfold prologue at h1
    rw [bind_ok h2] at h1
    obtain ⟨fb, f1, f2⟩ := bind_ok_iff.1 h1
    have f3 : fb.add om'.rem = B := by
      have := Except.ok.inj f2
      exact congrArg (fun t : ℝ × Itv ℝ × ℕ => t.2.1) this
    have h5 := b2 fb f1
    have h6 := (abs_le.1 h5.1).1
    have h7 := (abs_le.1 h5.2).1
    have h8 := (abs_le.1 hlo).1
    have h9 := (abs_le.1 hhi).1
    rw [← f3] at ht
    rcases ht with rfl | rfl
    · change 0 < 1 + (fb.lo + om'.rem.lo)
      rw [o5]
      linarith
    · change 0 < 1 + (fb.hi + om'.rem.hi)
      rw [o5]
      linarith

/-- `asin` of a Taylor model without constant term succeeds when the sum of the absolute values of the terms and the remainder is less than 1. -/
theorem rasin_ok_rem (ha : a.WF) (h1 : 1 ≤ a.order) (h17 : a.order ≤ 17) (ho : Faithful ord (a.tpol.p.syms.map varName))
    {ρ : ℝ} (hρ : a.rem.AbsLE ρ) (hc : coeff 0 (a.tpol.toMv () : MvPolynomial String ℝ) = 0)
    (hnz : (a.tpol.toMv () : MvPolynomial String ℝ) ≠ 0)
    (ht : (∃ m : String →₀ ℕ, a.order < m.degree ∧ ((tiny : ℚ) : ℝ) < |coeff m (a.tpol.toMv () * a.tpol.toMv () : MvPolynomial String ℝ)|) ∨
        ∀ m : String →₀ ℕ, a.order < m.degree → coeff m (a.tpol.toMv () * a.tpol.toMv () : MvPolynomial String ℝ) = 0)
    {R : String → ℝ} (hR0 : ∀ s, 0 ≤ R s) (hR : Radius a R) (hM : absVal R (a.tpol.toMv () : MvPolynomial String ℝ) + ρ < 1) :
    ∃ r B dv, rasin ord a = .ok r ∧ r.WF ∧ a.tpol.asin = .ok r.tpol ∧ r.exp = a.exp ∧ r.dom = a.dom ∧
      r.rem = ((Itv.point (1 / ((a.order + 1).factorial : ℝ))).mul ((B.add a.rem).pow (a.order + 1))).mul dv ∧
      asinDerivative ((⟨0, 1⟩ : Itv ℝ).mul (B.add a.rem)) (a.order + 1) = .ok dv ∧ B.AbsLE (absVal R (a.tpol.toMv () : MvPolynomial String ℝ)) ∧ B.lo ≤ B.hi ∧ (∀ x, a.InDom x → InItv B (a.polyAt x)) ∧
      (DegLE 1 (a.tpol.toMv () : MvPolynomial String ℝ) → ∀ t, t = B.lo ∨ t = B.hi → ∃ x, a.InDom x ∧ a.polyAt x = t) := by
  have hM0 : 0 ≤ absVal R (a.tpol.toMv () : MvPolynomial String ℝ) := absVal_nonneg fun s _ => hR0 s
  have hρ0 := hρ.nonneg
  have hM2 : (absVal R (a.tpol.toMv () : MvPolynomial String ℝ) + ρ) ^ 2 < 1 := by nlinarith
  have hoa := ho _ ha.nodup fun _ h => h
  obtain ⟨c, c1⟩ := GDual.constantCf_isOk a.tpol
  have c2 : c = 0 := by
    have := GDual.lane_constantCf (ι := Unit) (K := ℝ) ha.valid c1 ()
    rw [hc] at this
    exact this
  subst c2
  obtain ⟨b, hb, -, -⟩ := bounds_encloses (ord := ord) ha (by omega) hoa
  have hbc := (bounds_centre (ord := ord) ha (by omega) hoa hR hc).1 b hb
  rw [C_0, sub_zero, sub_zero, sub_zero] at hbc
  obtain ⟨sq, s1, s2, N, n1, n2, n3⟩ := square_rem (ord := ord) ha h1 (by omega) ho hρ hnz ht hR0 hR
  have hs2c : coeff 0 (sq.tpol.toMv () : MvPolynomial String ℝ) = 0 := by
    rw [s2.poly 0 (by simp), pow_two, ← constantCoeff_eq, map_mul, constantCoeff_eq, hc, zero_mul]
  obtain ⟨om, o1, o2, o3, o4, o5, o6, o7⟩ := remake s2.wf (GDual.Valid.subSG (ι := Unit) (K := ℝ) (1 : ℝ) s2.wf.valid)
    (GDual.HasSyms.subSG s2.wf.valid.wf.sorted (a := sq.tpol) rfl 1) s2.wf.rem
  have hom : 0 < coeff 0 (om.tpol.toMv () : MvPolynomial String ℝ) := by
    rw [o4, GDual.toMv_subSG 1 s2.wf.valid, coeff_sub, hs2c, sub_zero]
    change 0 < coeff 0 (C (1 : ℝ))
    rw [coeff_C, if_pos rfl]
    exact one_pos
  have hosub : Faithful ord (sq.tpol.p.syms.map varName) := fun l h2 h3 => ho l h2 fun v hv => by
    obtain ⟨s, hs, rfl⟩ := List.mem_map.1 (h3 hv)
    exact List.mem_map_of_mem (s2.syms s hs)
  obtain ⟨rt, rt1⟩ := oneMinus_sqrt_ok (ord := ord) s2.wf (by rw [s2.order]; exact h17) hosub hs2c
    (R := R) (fun s e he h f hf h' => hR s e (s2.dom e he) h f (s2.exp f hf) h') (n1.trans_lt hM2) n2 n3 o1
  obtain ⟨w1, w2, w3, w4, w5⟩ := powHalf_wf o2 hom rt1
  obtain ⟨l, m1, m2, m3, m4, m5, m6, m7⟩ := remake ha (GDual.Valid.mulGS (1 : ℝ) ha.valid) (GDual.HasSyms.mulGS ha.valid.wf.sorted (a := a.tpol) rfl (1 : ℝ))
    (Itv.lo_le_hi_mul a.rem (Itv.point 1))
  obtain ⟨z, z1, z2, z3, z4, z5, z6, z7⟩ := remake w1 (GDual.Valid.mulSG (0 : ℝ) w1.valid) (GDual.HasSyms.mulSG w1.valid.wf.sorted (a := rt.tpol) rfl (0 : ℝ))
    (Itv.lo_le_hi_mul (Itv.point 0) rt.rem)
  have hze : ∀ e ∈ z.exp, e ∈ a.exp := by
    rw [z6]
    exact fun e he => s2.exp e (by have := w4 e he; rwa [o6] at this)
  have hzd : ∀ e ∈ z.dom, e ∈ a.dom := by
    rw [z7]
    exact fun e he => s2.dom e (by have := w5 e he; rwa [o7] at this)
  have hcomp : Compatible l z := by
    have := compatible_of_sub (p := z) m2 (by rw [m6]; exact hze) (by rw [m7]; exact hzd)
    exact ⟨fun e he f hf h => (this.1 f hf e he h.symm).symm, fun e he f hf h => (this.2 f hf e he h.symm).symm⟩
  obtain ⟨ad, a1, a2, a3, a4, a5, -⟩ := sub_sound m2 z2 hcomp
  obtain ⟨hadp, hadr, hade, hadd⟩ : ad.tpol = l.tpol.sub z.tpol ∧ ad.rem = l.rem.sub z.rem ∧ (∀ e ∈ ad.exp, e ∈ a.exp) ∧ ∀ e ∈ ad.dom, e ∈ a.dom := by
    have a1' := a1
    unfold TM.sub at a1'
    rw [bind_ok hcomp.commonExp, bind_ok hcomp.commonDom] at a1'
    obtain ⟨ne, t1, a1'⟩ := bind_ok_iff.1 a1'
    obtain ⟨nd, t2, a1'⟩ := bind_ok_iff.1 a1'
    unfold make at a1'
    obtain ⟨_, -, a1'⟩ := bind_ok_iff.1 a1'
    injection a1' with a1'
    rw [← a1']
    exact ⟨rfl, rfl, fun e he => (mem_trimmed t1 e he).elim (fun h => m6 ▸ h) (hze e), fun e he => (mem_trimmed t2 e he).elim (fun h => m7 ▸ h) (hzd e)⟩
  have hadP : (ad.tpol.toMv () : MvPolynomial String ℝ) = a.tpol.toMv () := by
    rw [hadp, GDual.toMv_sub m2.valid z2.valid, m4, z4, GDual.toMv_mulGS (1 : ℝ) ha.valid, GDual.toMv_mulSG (0 : ℝ) w1.valid]
    change _ * C (1 : ℝ) - C (0 : ℝ) * _ = _
    rw [C_1, C_0, mul_one, zero_mul, sub_zero]
  have hadrem : ad.rem = a.rem := by
    rw [hadr, m5, z5, zero_mul_itv]
    have hr := ha.rem
    generalize a.rem = J at hr
    obtain ⟨l, u⟩ := J
    simp only at hr
    simp [Itv.sub, Itv.mul, Itv.point, hr]
  have hado : ad.order = a.order := by
    have e1 : (a.tpol.mulGS 1).order = max a.tpol.order a.tpol.order := rfl
    have e2 : (GDual.subSG 1 sq.tpol).order = max 0 sq.tpol.order := rfl
    rw [a3, m3, z3, GDual.order_mulSG, ← w1.order, w2, o3, e1, e2]
    rw [← s2.wf.order, s2.order, ← ha.order]
    simp
  have hadsyms : ∀ s ∈ ad.tpol.p.syms, s ∈ a.tpol.p.syms := by
    intro s hs
    rw [hadp] at hs
    rcases mem_mergeSyms.1 hs with h | h
    · rw [m4] at h
      rwa [show (a.tpol.mulGS 1).p.syms = a.tpol.p.syms from GDual.HasSyms.mulGS ha.valid.wf.sorted (a := a.tpol) rfl (1 : ℝ)] at h
    · change s ∈ z.tpol.p.syms at h
      rw [z4, show (GDual.mulSG 0 rt.tpol).p.syms = rt.tpol.p.syms from GDual.HasSyms.mulSG w1.valid.wf.sorted (a := rt.tpol) rfl (0 : ℝ), w3, o4,
        show (GDual.subSG 1 sq.tpol).p.syms = sq.tpol.p.syms from GDual.HasSyms.subSG s2.wf.valid.wf.sorted (a := sq.tpol) rfl 1] at h
      exact s2.syms s h
  have hoad : ord (ad.tpol.p.syms.map varName) = ad.tpol.p.syms.map varName := ho _ a2.nodup fun v hv => by
    obtain ⟨s, hs, rfl⟩ := List.mem_map.1 hv
    exact List.mem_map_of_mem (hadsyms s hs)
  obtain ⟨B, e1, hBle, hBenc⟩ := bounds_encloses (ord := ord) a2 (by omega) hoad
  have hBc := (bounds_centre (ord := ord) a2 (by omega) hoad (R := R) (fun s e he h f hf h' => hR s e (hadd e he) h f (hade f hf) h')
    (c := 0) (by rw [hadP, hc])).1 B e1
  rw [hadP, C_0, sub_zero, sub_zero, sub_zero] at hBc
  have hBG : (B.add a.rem).AbsLE (absVal R (a.tpol.toMv () : MvPolynomial String ℝ) + ρ) := Itv.AbsLE.add hBc hρ
  obtain ⟨dv, d1⟩ := asinDerivative_ok (A := (⟨0, 1⟩ : Itv ℝ).mul (B.add a.rem)) (M := 1 * (absVal R (a.tpol.toMv () : MvPolynomial String ℝ) + ρ))
    (abs_mul_itv (by simp) hBG) (by rw [one_mul]; exact hM) a.order
  obtain ⟨p, p1, p2⟩ := GDual.asinWith_lift (ι := Unit) (C := ℝ) (bin := GDual.binomialU32) ha.valid
    (fun k _ hk => GDual.binomialU32_eq (hk.trans (by have := ha.order; omega))) fun _ => by rw [hc]; norm_num
  have hs : p.p.syms = a.tpol.p.syms := GDual.HasSyms.asinWith ha.valid.wf.sorted (d := a.tpol) rfl (ha.order ▸ h1) p1
  have hp : a.tpol.asin = .ok p := p1
  obtain ⟨r, r1, r2, r3, r4, r5, r6, r7⟩ := remake ha p2.valid hs (rem := ((Itv.point (1 / ((a.order + 1).factorial : ℝ))).mul ((B.add a.rem).pow (a.order + 1))).mul dv) (Itv.lo_le_hi_mul _ _)
  have hadin : ∀ x, a.InDom x → ad.InDom x := fun x hx e he => hx e (hadd e he)
  have hadpoly : ∀ x, ad.polyAt x = a.polyAt x := fun x => by
    rw [a5 x]
    unfold TM.polyAt
    rw [m4, z4, GDual.toMv_mulGS (1 : ℝ) ha.valid, GDual.toMv_mulSG (0 : ℝ) w1.valid, m6]
    change eval _ (_ * C (1 : ℝ)) - eval _ (C (0 : ℝ) * _) = _
    rw [C_1, C_0, mul_one, zero_mul, map_zero, sub_zero]
  refine ⟨r, B, dv, ?_, r2, by rw [r4]; exact hp, r6, r7, r5, d1, hBc, hBle, fun x hx => ?_, fun hlin t ht => ?_⟩
  rotate_left
  · rw [← hadpoly x]
    exact hBenc x (hadin x hx)
  · obtain ⟨x, x1, x2⟩ := bounds_attained (ord := ord) a2 (by rw [hadP]; exact hlin) hoad e1 t ht
    obtain ⟨x', x3, x4⟩ : ∃ x', a.InDom x' ∧ a.polyAt x' = ad.polyAt x := by
      refine ⟨x, fun e he => ?_, (hadpoly x).symm⟩
      exact (a4 x).1 x1 |>.1 e (by rw [m7]; exact he)
    exact ⟨x', x3, x4.trans x2⟩
  unfold rasin
  have hsqr : √(1 - (0 : ℝ) ^ 2) = 1 := by norm_num
  have hl : mulTS a (√(1 - (0 : ℝ) ^ 2)) = .ok l := by rw [hsqr]; exact m1
  rw [bind_ok hb, if_neg, bind_ok c1, bind_ok hl, bind_ok s1, bind_ok (show subST 1 sq = .ok om from o1), bind_ok rt1,
    bind_ok (show mulST 0 rt = .ok z from z1), bind_ok a1, bind_ok (show getBounds ord ad.tpol ad.exp ad.dom = .ok B from e1)]
  · simp only
    rw [hadrem, show a.tpol.getOrder = a.order from ha.order.symm, bind_ok d1, bind_ok (factorial_ok (by omega)), bind_ok hp, r1]
  · rw [not_not]
    have h5 := abs_le.1 hbc.1
    have h6 := abs_le.1 hbc.2
    have h7 := abs_le.1 hρ.1
    have h8 := abs_le.1 hρ.2
    exact ⟨by change -1 ≤ b.lo + a.rem.lo; linarith, by change b.hi + a.rem.hi ≤ 1; linarith⟩

/-- `asin` of a Taylor model with remainder {0} and without constant term succeeds when the sum of the absolute values of the terms is less than 1. -/
theorem rasin_ok (ha : a.WF) (h1 : 1 ≤ a.order) (h17 : a.order ≤ 17) (ho : Faithful ord (a.tpol.p.syms.map varName))
    (hrem : a.rem = ⟨0, 0⟩) (hc : coeff 0 (a.tpol.toMv () : MvPolynomial String ℝ) = 0)
    (hnz : (a.tpol.toMv () : MvPolynomial String ℝ) ≠ 0)
    (ht : (∃ m : String →₀ ℕ, a.order < m.degree ∧ ((tiny : ℚ) : ℝ) < |coeff m (a.tpol.toMv () * a.tpol.toMv () : MvPolynomial String ℝ)|) ∨
        ∀ m : String →₀ ℕ, a.order < m.degree → coeff m (a.tpol.toMv () * a.tpol.toMv () : MvPolynomial String ℝ) = 0)
    {R : String → ℝ} (hR0 : ∀ s, 0 ≤ R s) (hR : Radius a R) (hM : absVal R (a.tpol.toMv () : MvPolynomial String ℝ) < 1) :
    ∃ r B dv, rasin ord a = .ok r ∧ r.WF ∧ a.tpol.asin = .ok r.tpol ∧ r.exp = a.exp ∧ r.dom = a.dom ∧
      r.rem = ((Itv.point (1 / ((a.order + 1).factorial : ℝ))).mul (B.pow (a.order + 1))).mul dv ∧
      asinDerivative ((⟨0, 1⟩ : Itv ℝ).mul B) (a.order + 1) = .ok dv ∧ B.lo ≤ B.hi ∧ (∀ x, a.InDom x → InItv B (a.polyAt x)) ∧
      (DegLE 1 (a.tpol.toMv () : MvPolynomial String ℝ) → ∀ t, t = B.lo ∨ t = B.hi → ∃ x, a.InDom x ∧ a.polyAt x = t) := by
  obtain ⟨r, B, dv, e1, e2, e3, e4, e5, e6, e7, -, e8⟩ := rasin_ok_rem (ord := ord) (ρ := 0) ha h1 h17 ho (by rw [hrem]; simp [Itv.AbsLE]) hc hnz ht hR0 hR (by rwa [add_zero])
  rw [hrem, add_rem_zero] at e6 e7
  exact ⟨r, B, dv, e1, e2, e3, e4, e5, e6, e7, e8⟩

end TM
end Audi
