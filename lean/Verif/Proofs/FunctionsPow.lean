import Verif.Proofs.FunctionsInv

/-! The four `pow` overloads. -/

set_option linter.unusedSectionVars false

namespace Audi

open MvPolynomial Spec Topology Filter

namespace GDual

section generic
variable {C : Type} [CfFun C] {ι : Type} {𝕜 : Type} [NontriviallyNormedField 𝕜] [CharZero 𝕜] [Lanes C ι 𝕜] {d r : GDual C} {n : ℕ}

theorem isLift_mulLoop (hd : d.Valid) {k : ℕ} (hk : 0 < k) : IsLift (fun (_ : ι) (x : 𝕜) => x ^ k) d (mulLoop d k) := by
  obtain ⟨h1, h2⟩ := mulLoop_rep (ι := ι) (K := 𝕜) hd hk
  exact ⟨h1.valid, h2, fun i F a hF => (hF.pow k).congr_poly (h1.eq i).symm⟩

theorem binomialQ_eq (x : ℚ) (k : ℕ) (hk : 0 < k) : ((binomialQ x k : ℚ) : 𝕜) = binR (x : 𝕜) k := by
  have := foldl_range' (step := fun (retval : ℚ) (i : ℕ) => retval * (x - i) / (i + 1))
    (Inv := fun j c => ((c : ℚ) : 𝕜) = binR (x : 𝕜) j) (stp := 1) one_pos (k - 1) 1 x
    (by rw [binR_succ, binR_zero]; simp)
    (fun j c _ _ hc => by
      push_cast; rw [hc, binR_succ])
  rw [one_mul, show 1 + (k - 1) = k by omega] at this
  exact this

/-- The series of `pow(d, alpha)` for a power function with the values `W q x` of the powers `x ^ q`. -/
theorem powQ_series_liftK {α : ℚ} {P : 𝕜 → 𝕜} {W : ℚ → 𝕜 → 𝕜} (hd : d.Valid) (hr : -2147483649 < α ∧ α < 2147483648)
    (hα : ¬ (α.den = 1 ∧ α > 0))
    (hpow : ∀ p0, d.constantCf = .ok p0 → ∀ j : ℕ, CfFun.powOk p0 (α - j) = true ∧
      ∀ i : ι, (Lanes.lane i (CfFun.pow p0 (α - j)) : 𝕜) = W (α - j) (coeff 0 (d.toMv i)))
    (hT : ∀ i : ι, IsTaylor₁ (coeff 0 (d.toMv i)) d.order P
      (fun k => binR (α : 𝕜) k * W (α - k) (coeff 0 (d.toMv i)))) :
    ∃ r, powQ d α = .ok r ∧ IsLift (fun (_ : ι) x => P x) d r := by
  obtain ⟨p0, hp0⟩ := constantCf_isOk d
  have hok : ∀ j : ℕ, cfPow p0 (α - j) = .ok (CfFun.pow p0 (α - j)) := fun j => by
    unfold cfPow
    rw [bind_ok (guardFinite_true (hpow p0 hp0 j).1)]
  have hlp : ∀ (j : ℕ) (i : ι), (Lanes.lane i (CfFun.pow p0 (α - j)) : 𝕜) = W (α - j) (coeff 0 (d.toMv i)) :=
    fun j i => (hpow p0 hp0 j).2 i
  have hok0 : cfPow p0 α = .ok (CfFun.pow p0 (α - (0 : ℕ))) := by have := hok 0; simpa using this
  have hokm : ∀ (j : ℕ) (t : GDual C), mulCfPow t p0 (α - j) = .ok (t.mulGS (CfFun.pow p0 (α - j))) := fun j t => by
    unfold mulCfPow
    rw [if_pos (hpow p0 hp0 j).1]
  have hok1 : ∀ t : GDual C, mulCfPow t p0 (α - 1) = .ok (t.mulGS (CfFun.pow p0 (α - (1 : ℕ)))) := fun t => by
    have := hokm 1 t; simpa using this
  have hph := rep_hat (ι := ι) (K := 𝕜) hd hp0
  have hpo : (d.subGS p0).order = d.order := rfl
  set n := d.order with hn
  set ph := d.subGS p0 with hphd
  set H : ι → MvPolynomial String 𝕜 := fun i => hat (d.toMv i) with hH
  set b : ι → ℕ → 𝕜 := fun i k => binR (α : 𝕜) k * W (α - k) (coeff 0 (d.toMv i)) with hb
  have hinit := (Rep.ofCf (n := n) (ι := ι) (K := 𝕜) (CfFun.pow p0 (α - (0 : ℕ)))).add
    ((hph.mulSG (Cf.ofRat α)).mulGS (CfFun.pow p0 (α - (1 : ℕ))))
  obtain ⟨st, h1, h2, h3, -⟩ := foldlM_range' (step := powStep α p0 ph)
    (Inv := fun k s => Rep n s.retval (fun i => psum (b i) (H i) k) ∧ s.retval.order = n ∧
      Rep n s.phat (fun i => H i ^ (k - 1)) ∧ s.phat.order = n)
    (stp := 1) one_pos (n - 1) 2
    ⟨(ofCf (CfFun.pow p0 (α - (0 : ℕ)))).add ((ph.mulSG (Cf.ofRat α)).mulGS (CfFun.pow p0 (α - (1 : ℕ)))), ph⟩
    ⟨hinit.congr fun i => EqUpTo.of_eq (by
        rw [psum_two, hlp, hlp, Lanes.lane_ofRat]
        simp only [hb, hH]
        rw [binR_succ, binR_zero, map_mul]
        simp [mul_assoc, mul_comm, mul_left_comm]),
      Rep.order_add (Rep.ofCf (ι := ι) (K := 𝕜) (CfFun.pow p0 (α - (0 : ℕ)))) ((hph.mulSG (Cf.ofRat α)).mulGS (CfFun.pow p0 (α - (1 : ℕ))))
        (Or.inr (by rw [order_mulGS, order_mulSG, hpo])),
      hph.congr fun i => EqUpTo.of_eq (by simp [hH]), hpo⟩
    (by
      rintro k s hk - ⟨i1, i2, i3, i4⟩
      have e1 : Rep n (s.phat.mul ph) (fun i => H i ^ k) := (i3.mul hph (Or.inl i4)).congr fun i =>
        EqUpTo.of_eq (by rw [← pow_succ, Nat.sub_add_cancel (by omega)])
      have e2 : (s.phat.mul ph).order = n := i3.order_mul hph (Or.inl i4)
      have e3 := (e1.mulSG (Cf.ofRat (binomialQ α k))).mulGS (CfFun.pow p0 (α - k))
      refine ⟨⟨s.retval.add (((s.phat.mul ph).mulSG (Cf.ofRat (binomialQ α k))).mulGS (CfFun.pow p0 (α - k))), s.phat.mul ph⟩,
        ?_, (i1.add e3).congr fun i => EqUpTo.of_eq ?_, Rep.order_add i1 e3 (Or.inl i2), e1, e2⟩
      · unfold powStep
        rw [bind_ok (hokm k _)]
      · rw [psum_succ, hlp, Lanes.lane_ofRat, binomialQ_eq _ _ (by omega)]
        simp only [hb]
        rw [map_mul]; ring)
  refine ⟨st.retval, ?_, isLift_of_rep (d := d) (b := b) h3 (h2.congr fun i => psum_compPoly _ _ (by omega))
    hT⟩
  unfold powQ
  rw [if_neg (by push Not; exact ⟨hr.2, hr.1⟩), if_neg hα, bind_ok hp0, bind_ok hok0, bind_ok (hok1 _)]
  change ((List.range' 2 (n - 1)).foldlM (powStep α p0 ph) _ >>= _) = _
  rw [bind_ok h1]

theorem powQ_pos_liftK {α : ℚ} (hd : d.Valid) (hr : α < 2147483648) (hα : α.den = 1) (hα' : α > 0) :
    ∃ r, powQ d α = .ok r ∧ IsLift (fun (_ : ι) (x : 𝕜) => x ^ α.num.toNat) d r := by
  have hnum : 0 < α.num := Rat.num_pos.mpr hα'
  refine ⟨_, ?_, isLift_mulLoop (ι := ι) hd (k := α.num.toNat) (by omega)⟩
  unfold powQ
  rw [if_neg (by push Not; exact ⟨hr, by linarith⟩), if_pos ⟨hα, hα'⟩]

/-! pow(d, int) -/

theorem powInt_lift {z : ℤ} (hd : d.Valid) (hr : -2147483648 < z)
    (hdom : 0 ≤ z ∨ ∀ i : ι, coeff 0 (d.toMv i : MvPolynomial String 𝕜) ≠ 0) :
    ∃ r, powInt d z = .ok r ∧ IsLift (fun (_ : ι) (x : 𝕜) => x ^ z) d r := by
  unfold powInt
  rcases lt_trichotomy z 0 with hz | rfl | hz
  · have hdom' := hdom.resolve_left (by omega)
    rw [if_pos hz, if_neg (by omega)]
    obtain ⟨q, hq, hql⟩ := (IsLift.id (ι := ι) hd).divSG Cf.one hdom'
    obtain ⟨k, rfl⟩ : ∃ k : ℕ, z = -((k : ℤ) + 1) := ⟨(-z - 1).toNat, by omega⟩
    obtain ⟨r, h1, h2⟩ := foldlM_range' (step := fun (r : GDual C) (_ : ℕ) => r.div d)
      (Inv := fun j r => IsLift (fun (_ : ι) x => (x⁻¹) ^ j) d r) (stp := 1) one_pos k 1 q
      (hql.congr' fun i x => by
        rw [show (Lanes.lane i (Cf.one : C) : 𝕜) = 1 from lane_one i]; simp)
      (by
        intro j s hj _ hs
        obtain ⟨t, ht, htl⟩ := hs.div (IsLift.id hd) hdom'
        exact ⟨t, ht, htl.congr' fun i x => by rw [pow_succ, div_eq_mul_inv]⟩)
    refine ⟨r, ?_, h2.congr' fun i x => ?_⟩
    · rw [bind_ok hq, show (- -((k : ℤ) + 1)).toNat - 1 = k by omega]
      exact h1
    · rw [zpow_neg, show 1 + 1 * k = k + 1 by ring, inv_pow, show ((k : ℤ) + 1) = ((k + 1 : ℕ) : ℤ) by push_cast; rfl, zpow_natCast]
  · rw [if_neg (by omega), if_neg (by omega)]
    refine ⟨_, rfl, (((IsLift.id (ι := ι) hd).sub (IsLift.id hd)).addGS (Cf.ofRat 1)).congr' fun i x => ?_⟩
    rw [lane_one]; simp
  · rw [if_neg (by omega), if_pos hz]
    refine ⟨_, rfl, (isLift_mulLoop (ι := ι) hd (k := z.toNat) (by omega)).congr' fun i x => ?_⟩
    rw [← zpow_natCast, Int.toNat_of_nonneg hz.le]

theorem powInt_undef {z : ℤ} (hd : d.Valid) (hr : -2147483648 < z) (hz : z < 0)
    (h : ¬ ∀ i : ι, coeff 0 (d.toMv i : MvPolynomial String 𝕜) ≠ 0) : powInt d z = .error .nonFinite := by
  unfold powInt
  rw [if_pos hz, if_neg (by omega), bind_error (divSG_error (ι := ι) (K := 𝕜) hd h (Poly.isZero_one (ι := ι) (K := 𝕜)))]

end generic

/-! Real coefficients -/

variable {C : Type} [CfFun C] {ι : Type} [Lanes C ι ℝ] {d r : GDual C} {n : ℕ}

/-- Where `powQ` with a non positive or non integer exponent is defined: the constant part is positive, or it is negative and the
exponent is an integer. -/
def PowIn (α : ℚ) (x : ℝ) : Prop := 0 < x ∨ (x ≠ 0 ∧ α.den = 1)

theorem powDom_of_powIn {α : ℚ} {x : ℝ} (h : PowIn α x) (j : ℕ) : PowDom x ((α - j : ℚ) : ℝ) := by
  rcases h with h | ⟨h1, h2⟩
  · exact Or.inl h
  · refine Or.inr (Or.inl ⟨h1, α.num - j, ?_⟩)
    have : α = α.num := (Rat.coe_int_num_of_den_eq_one h2).symm
    rw [this]; push_cast; rfl

theorem taylor_powIn {α : ℚ} {x : ℝ} (h : PowIn α x) (m : ℕ) :
    IsTaylor₁ x m (fun t => t ^ (α : ℝ)) (fun i => binR (α : ℝ) i * x ^ ((α - i : ℚ) : ℝ)) := by
  rcases h with h | ⟨h1, h2⟩
  · exact (isTaylor₁_rpow h (α : ℝ)).congr fun i _ => by push_cast; rfl
  · have e : α = α.num := (Rat.coe_int_num_of_den_eq_one h2).symm
    have e' : (α : ℝ) = (α.num : ℝ) := by rw [e]; simp
    have h3 := isTaylor₁_zpow h1 (m := m) α.num
    have hf : (fun t : ℝ => t ^ (α : ℝ)) = fun t => t ^ α.num := by
      funext t; rw [e', Real.rpow_intCast]
    rw [hf]
    refine h3.congr fun i _ => ?_
    have e2 : ((α - i : ℚ) : ℝ) = ((α.num - i : ℤ) : ℝ) := by push_cast; rw [e']
    rw [e2, Real.rpow_intCast, e']

theorem cfPow_ok [LanesFun C ι] {p0 : C} {q : ℚ} (h : ∀ i : ι, PowDom (Lanes.lane i p0) q) :
    cfPow p0 q = .ok (CfFun.pow p0 q) := by
  unfold cfPow
  rw [bind_ok (guardFinite_true ((LanesFun.powOk_iff p0 q).mpr h))]

theorem cfPow_error [LanesFun C ι] {p0 : C} {q : ℚ} (h : ¬ ∀ i : ι, PowDom (Lanes.lane i p0) q) :
    cfPow p0 q = .error .nonFinite := by
  unfold cfPow
  rw [bind_error (guardFinite_false fun hc => h ((LanesFun.powOk_iff p0 q).mp hc))]

theorem mulCfPow_ok [LanesFun C ι] {t : GDual C} {p0 : C} {q : ℚ} (h : ∀ i : ι, PowDom (Lanes.lane i p0) q) :
    mulCfPow t p0 q = .ok (t.mulGS (CfFun.pow p0 q)) := by
  unfold mulCfPow
  rw [if_pos ((LanesFun.powOk_iff p0 q).mpr h)]

theorem mulCfPow_error [LanesFun C ι] {t : GDual C} {p0 : C} {q : ℚ} (h : ¬ ∀ i : ι, PowDom (Lanes.lane i p0) q)
    (ht : t.p.terms ≠ []) : mulCfPow t p0 q = .error .nonFinite := by
  unfold mulCfPow
  rw [if_neg fun hc => h ((LanesFun.powOk_iff p0 q).mp hc), if_neg (by simpa using ht)]

theorem mulCfPow_zero {t : GDual C} {p0 : C} {q : ℚ} {n : ℕ} (ht : Rep n t (fun _ : ι => (0 : MvPolynomial String ℝ)))
    (ho : t.order = n) : ∃ r, mulCfPow t p0 q = .ok r ∧ r.order = n ∧ Rep n r (fun _ : ι => (0 : MvPolynomial String ℝ)) := by
  unfold mulCfPow
  split_ifs with h1 h2
  · exact ⟨_, rfl, by rw [order_mulGS, ho], (ht.mulGS _).congr fun i => EqUpTo.of_eq (zero_mul _)⟩
  · exact ⟨_, rfl, ho, ht⟩
  · refine absurd ?_ h2
    rw [List.isEmpty_iff, terms_nil_iff (ι := ι) (K := ℝ) ht.valid]
    exact fun i => ht.toMv_eq (fun _ e _ => coeff_zero e) i

theorem binomialQ_zero (k : ℕ) : binomialQ 0 k = 0 := by
  have := foldl_range' (step := fun (retval : ℚ) (i : ℕ) => retval * (0 - i) / (i + 1))
    (Inv := fun _ c => c = 0) (stp := 1) one_pos (k - 1) 1 0 rfl (fun j c _ _ hc => by rw [hc]; simp)
  exact this

/-- `pow(d, 0.)` is 1, whatever the constant part. -/
theorem powQ_zero_lift [LanesFun C ι] (hd : d.Valid) :
    ∃ r, powQ d 0 = .ok r ∧ IsLift (fun (_ : ι) (_ : ℝ) => 1) d r := by
  obtain ⟨p0, hp0⟩ := constantCf_isOk d
  have hpd : ∀ i : ι, PowDom (Lanes.lane i p0) ((0 : ℚ) : ℝ) := fun i => by
    by_cases h : (Lanes.lane i p0 : ℝ) = 0
    · exact Or.inr (Or.inr ⟨h, by simp⟩)
    · exact Or.inr (Or.inl ⟨h, 0, by simp⟩)
  have hph := rep_hat (ι := ι) (K := ℝ) hd hp0
  have hpo : (d.subGS p0).order = d.order := rfl
  set n := d.order with hn
  set ph := d.subGS p0 with hphd
  have hz : ∀ {t : GDual C} {T : ι → MvPolynomial String ℝ}, Rep n t T → Rep n (t.mulSG (Cf.ofRat 0)) (fun _ : ι => (0 : MvPolynomial String ℝ)) :=
    fun h => (h.mulSG _).congr fun i => EqUpTo.of_eq (by rw [Lanes.lane_ofRat]; simp)
  obtain ⟨t, ht, hto, htr⟩ := mulCfPow_zero (ι := ι) (p0 := p0) (q := 0 - 1) (hz hph) (by rw [order_mulSG, hpo])
  have h1r := Rep.ofCf (n := n) (ι := ι) (K := ℝ) (CfFun.pow p0 0)
  obtain ⟨st, h1, h2, h3, -⟩ := foldlM_range' (step := powStep 0 p0 ph)
    (Inv := fun k s => Rep n s.retval (fun _ : ι => (1 : MvPolynomial String ℝ)) ∧ s.retval.order = n ∧
      Rep n s.phat (fun i : ι => hat (d.toMv i) ^ (k - 1)) ∧ s.phat.order = n)
    (stp := 1) one_pos (n - 1) 2 ⟨(ofCf (CfFun.pow p0 0)).add t, ph⟩
    ⟨(h1r.add htr).congr fun i => EqUpTo.of_eq (by rw [LanesFun.lane_pow _ _ _ (hpd i)]; simp),
      Rep.order_add h1r htr (Or.inr hto), hph.congr fun i => EqUpTo.of_eq (by simp), hpo⟩
    (by
      rintro k s hk - ⟨i1, i2, i3, i4⟩
      have e1 : Rep n (s.phat.mul ph) (fun i : ι => hat (d.toMv i) ^ k) := (i3.mul hph (Or.inl i4)).congr fun i =>
        EqUpTo.of_eq (by rw [← pow_succ, Nat.sub_add_cancel (by omega)])
      have e2 : (s.phat.mul ph).order = n := i3.order_mul hph (Or.inl i4)
      obtain ⟨t, ht, hto, htr⟩ := mulCfPow_zero (ι := ι) (p0 := p0) (q := 0 - k) (hz e1) (by rw [order_mulSG, e2])
      refine ⟨⟨s.retval.add t, s.phat.mul ph⟩, ?_, (i1.add htr).congr fun i => EqUpTo.of_eq (add_zero _),
        Rep.order_add i1 htr (Or.inl i2), e1, e2⟩
      unfold powStep
      rw [binomialQ_zero, bind_ok ht])
  refine ⟨st.retval, ?_, h2.valid, h3, fun i F a hF => ?_⟩
  · unfold powQ
    rw [if_neg (by norm_num), if_neg (by norm_num), bind_ok hp0, bind_ok (cfPow_ok hpd), bind_ok ht]
    change ((List.range' 2 (n - 1)).foldlM (powStep 0 p0 ph) _ >>= _) = _
    rw [bind_ok h1]
  · refine (IsTaylor.const (1 : ℝ)).congr_poly ?_
    rw [map_one]; exact (h2.eq i).symm

theorem powQ_series_lift [LanesFun C ι] {α : ℚ} (hd : d.Valid) (hr : -2147483649 < α ∧ α < 2147483648)
    (hα : ¬ (α.den = 1 ∧ α > 0)) (hdom : ∀ i : ι, PowIn α (coeff 0 (d.toMv i))) :
    ∃ r, powQ d α = .ok r ∧ IsLift (fun (_ : ι) x => x ^ (α : ℝ)) d r := by
  refine powQ_series_liftK (W := fun q x => x ^ (q : ℝ)) hd hr hα (fun p0 hp0 j => ?_) fun i => taylor_powIn (hdom i) _
  have hl : ∀ i : ι, (Lanes.lane i p0 : ℝ) = coeff 0 (d.toMv i) := lane_constantCf hd hp0
  have hpd : ∀ i : ι, PowDom (Lanes.lane i p0) ((α - j : ℚ) : ℝ) := fun i => by rw [hl]; exact powDom_of_powIn (hdom i) j
  exact ⟨(LanesFun.powOk_iff p0 _).mpr hpd, fun i => by rw [LanesFun.lane_pow _ _ _ (hpd i), hl]⟩

theorem powQ_pos_lift {α : ℚ} (hd : d.Valid) (hr : α < 2147483648) (hα : α.den = 1) (hα' : α > 0) :
    ∃ r, powQ d α = .ok r ∧ IsLift (fun (_ : ι) x => x ^ (α : ℝ)) d r := by
  have hnum : 0 < α.num := Rat.num_pos.mpr hα'
  obtain ⟨r, h1, h2⟩ := powQ_pos_liftK (ι := ι) (𝕜 := ℝ) hd hr hα hα'
  refine ⟨r, h1, h2.congr' fun i x => ?_⟩
  have e : α = α.num := (Rat.coe_int_num_of_den_eq_one hα).symm
  have e' : (α : ℝ) = ((α.num.toNat : ℕ) : ℝ) := by
    conv_lhs => rw [e]
    have h2 : ((α.num.toNat : ℤ)) = α.num := Int.toNat_of_nonneg hnum.le
    push_cast
    rw [← Int.cast_natCast, h2]
  rw [e', Real.rpow_natCast]

/-- Failure of `powQ` at the first exponent. -/
theorem powQ_undef [LanesFun C ι] {α : ℚ} (hd : d.Valid) (hr : -2147483649 < α ∧ α < 2147483648)
    (hα : ¬ (α.den = 1 ∧ α > 0))
    (h : ∃ i : ι, (coeff 0 (d.toMv i : MvPolynomial String ℝ) < 0 ∧ α.den ≠ 1) ∨
      (coeff 0 (d.toMv i : MvPolynomial String ℝ) = 0 ∧ α < 0)) : powQ d α = .error .nonFinite := by
  obtain ⟨p0, hp0⟩ := constantCf_isOk d
  have hl : ∀ i : ι, (Lanes.lane i p0 : ℝ) = coeff 0 (d.toMv i) := lane_constantCf hd hp0
  obtain ⟨i, hi⟩ := h
  unfold powQ
  rw [if_neg (by push Not; exact ⟨hr.2, hr.1⟩), if_neg hα, bind_ok hp0, bind_error (cfPow_error (ι := ι) fun h0 => ?_)]
  have := h0 i
  rw [hl] at this
  rcases hi with ⟨h2, h3⟩ | ⟨h2, h3⟩
  · rcases this with h4 | ⟨-, z, hz⟩ | ⟨h4, -⟩
    · linarith
    · apply h3
      have : α = z := by exact_mod_cast hz
      rw [this]; rfl
    · linarith
  · rw [h2] at this
    rcases this with h4 | ⟨h4, -⟩ | ⟨-, h4⟩
    · exact lt_irrefl _ h4
    · exact h4 rfl
    · have h5 : (0 : ℚ) ≤ α := by exact_mod_cast h4
      linarith

/-- Failure of `powQ` at the second exponent. -/
theorem powQ_edge [LanesFun C ι] {α : ℚ} (hd : d.Valid) (h0 : 0 < α) (h1 : α < 1)
    (h : ∃ i : ι, coeff 0 (d.toMv i : MvPolynomial String ℝ) ≤ 0) (hdeg : d.degree ≠ 0) : powQ d α = .error .nonFinite := by
  obtain ⟨p0, hp0⟩ := constantCf_isOk d
  have hl : ∀ i : ι, (Lanes.lane i p0 : ℝ) = coeff 0 (d.toMv i) := lane_constantCf hd hp0
  have hden : α.den ≠ 1 := fun hden => by
    have e : α = α.num := (Rat.coe_int_num_of_den_eq_one hden).symm
    rw [e] at h0 h1
    have h2 : (0 : ℤ) < α.num := by exact_mod_cast h0
    have h3 : α.num < (1 : ℤ) := by exact_mod_cast h1
    omega
  obtain ⟨i, hi⟩ := h
  rcases lt_or_eq_of_le hi with hi | hi
  · exact powQ_undef (ι := ι) hd ⟨by linarith, by linarith⟩ (fun h => hden h.1) ⟨i, Or.inl ⟨hi, hden⟩⟩
  unfold powQ
  rw [if_neg (by push Not; exact ⟨by linarith, by linarith⟩), if_neg fun h => hden h.1, bind_ok hp0]
  by_cases hp : ∀ i : ι, PowDom (Lanes.lane i p0) α
  · rw [bind_ok (cfPow_ok hp)]
    refine bind_error (mulCfPow_error (ι := ι) (fun h2 => ?_) ?_) _
    · have := h2 i
      rw [hl, hi] at this
      rcases this with h4 | ⟨h4, -⟩ | ⟨-, h4⟩
      · exact lt_irrefl _ h4
      · exact h4 rfl
      · have h5 : (0 : ℚ) ≤ α - 1 := by exact_mod_cast h4
        linarith
    · rw [Ne, terms_nil_iff (ι := ι) (K := ℝ) (Valid.mulSG _ (hd.subGS p0))]
      intro hz
      refine hdeg ((subGS_constant_nil_iff (ι := ι) (𝕜 := ℝ) hd hp0).mp ?_)
      rw [terms_nil_iff (ι := ι) (K := ℝ) (hd.subGS p0)]
      intro i
      have := hz i
      rw [toMv_mulSG _ (hd.subGS p0), Lanes.lane_ofRat] at this
      refine (mul_eq_zero.mp this).resolve_left ?_
      rw [MvPolynomial.C_eq_zero]
      exact_mod_cast h0.ne'
  · rw [bind_error (cfPow_error hp)]

/-! pow(gdual, gdual) -/

theorem powG_lift [LanesFun C ι] {d1 d2 : GDual C} (h1 : d1.Valid) (h2 : d2.Valid) (ho : d2.order ≤ d1.order)
    (hdom : ∀ i : ι, 0 < coeff 0 (d1.toMv i : MvPolynomial String ℝ)) :
    ∃ r, powG d1 d2 = .ok r ∧ r.Valid ∧ r.order = d1.order ∧ ∀ (i : ι) (F G : (String → ℝ) → ℝ) (a : String → ℝ),
      IsTaylor a d1.order F (d1.toMv i) → IsTaylor a d1.order G (d2.toMv i) →
      IsTaylor a d1.order (fun x => F x ^ G x) (r.toMv i) := by
  obtain ⟨l, hl, hll⟩ := computes_log.lift d1 h1 (ι := ι) hdom
  have e1 : Rep d1.order l (fun i : ι => (l.toMv i : MvPolynomial String ℝ)) := ⟨hll.valid, hll.order.le, fun _ => EqUpTo.refl _⟩
  have e2 : Rep d1.order d2 (fun i : ι => (d2.toMv i : MvPolynomial String ℝ)) := ⟨h2, ho, fun _ => EqUpTo.refl _⟩
  have e3 := e2.mul e1 (Or.inr hll.order)
  have e4 := e2.order_mul e1 (Or.inr hll.order)
  obtain ⟨r, hr, hrl⟩ := computes_exp.lift _ e3.valid (ι := ι) fun _ => trivial
  refine ⟨r, ?_, hrl.valid, hrl.order.trans e4, fun i F G a hF hG => ?_⟩
  · unfold powG
    rw [bind_ok hl, hr]
  · have h5 := (hG.mul (hll.taylor i F a hF)).congr_poly (e3.eq i).symm
    have h6 := hrl.taylor i _ a (by rw [e4]; exact h5)
    rw [e4] at h6
    refine h6.congr_fun ?_
    have h7 : 0 < F a := by rw [hF.val]; exact hdom i
    filter_upwards [hF.cont.eventually (lt_mem_nhds h7)] with x hx
    rw [Real.rpow_def_of_pos hx, mul_comm]

theorem powG_undef [LanesFun C ι] {d1 d2 : GDual C} (h1 : d1.Valid)
    (h : ¬ ∀ i : ι, 0 < coeff 0 (d1.toMv i : MvPolynomial String ℝ)) : powG d1 d2 = .error .nonFinite := by
  unfold powG
  rw [bind_error (computes_log.undef d1 h1 (ι := ι) h)]

/-! pow(base, gdual) -/

theorem toMv_of_degree_zero (hd : d.Valid) (h : d.degree = 0) (i : ι) :
    (d.toMv i : MvPolynomial String ℝ) = MvPolynomial.C (coeff 0 (d.toMv i)) := (degree_eq_zero_iff hd).mp h i

theorem isTaylor₁_powBase {b : ℝ} (hb : 0 < b) (c : ℝ) (m : ℕ) :
    IsTaylor₁ c m (fun t => b ^ t) (fun i => Real.log b ^ i * (Real.exp (c * Real.log b) / i.factorial)) := by
  have h := IsTaylor₁.affine (c := c) (m := m) (Real.log b) 0 (g := Real.exp)
    (b := fun i => Real.exp (Real.log b * c + 0) / i.factorial) isTaylor₁_exp
  refine (h.congr_fun (Eventually.of_forall fun t => ?_)).congr fun i _ => ?_
  · change Real.exp (Real.log b * t + 0) = b ^ t
    rw [Real.rpow_def_of_pos hb]; simp
  · rw [add_zero, mul_comm c, mul_comm]

theorem powBase_lift [LanesFun C ι] {q : ℚ} (hd : d.Valid) (hq : 0 < q) :
    ∃ r, powBase q d = .ok r ∧ r.Valid ∧ (d.degree ≠ 0 → r.order = d.order) ∧ (d.degree = 0 → r.order = 0 ∧ r.p.syms = []) ∧
      ∀ (i : ι) (F : (String → ℝ) → ℝ) (a : String → ℝ), IsTaylor a d.order F (d.toMv i) →
        IsTaylor a d.order (fun x => (q : ℝ) ^ F x) (r.toMv i) := by
  have hq' : (0 : ℝ) < q := by exact_mod_cast hq
  unfold powBase
  by_cases h0 : d.degree = 0
  · rw [if_pos h0]
    obtain ⟨p0, hp0⟩ := constantCf_isOk d
    have hl : ∀ i : ι, (Lanes.lane i p0 : ℝ) = coeff 0 (d.toMv i) := lane_constantCf hd hp0
    refine ⟨ofCf (CfFun.powBase q p0), ?_, valid_ofCf _, fun h => absurd h0 h, fun _ => ⟨rfl, rfl⟩, fun i F a hF => ?_⟩
    · rw [bind_ok hp0, bind_ok (guardFinite_true ((LanesFun.powBaseOk_iff (ι := ι) q p0).mpr fun i => Or.inl hq'))]
    · have h1 := hF.comp (isTaylor₁_powBase hq' (F a) d.order)
      refine h1.congr_poly (EqUpTo.of_eq ?_)
      rw [toMv_ofCf, LanesFun.lane_powBase _ _ _ (Or.inl hq'), hl]
      have hz : hat (d.toMv i : MvPolynomial String ℝ) = 0 := by
        rw [hat]; conv_lhs => rw [toMv_of_degree_zero hd h0 i]
        simp
      unfold compPoly
      rw [Finset.sum_range_succ', Finset.sum_eq_zero]
      · rw [hF.val, Real.rpow_def_of_pos hq']; simp [mul_comm]
      · intro k _
        rw [show (d.toMv i : MvPolynomial String ℝ) - MvPolynomial.C (coeff 0 (d.toMv i)) = 0 from hz]; simp
  · rw [if_neg h0]
    have hlog : CfFun.logOk (Cf.ofRat q : C) = true := (LanesFun.logOk_iff (ι := ι) _).mpr fun i => by
      rw [Lanes.lane_ofRat]; exact hq'
    have h1 := (IsLift.id (ι := ι) hd).mulSG (CfFun.log (Cf.ofRat q : C))
    obtain ⟨r, hr, hrl⟩ := computes_exp.lift _ h1.valid (ι := ι) fun _ => trivial
    have h2 := (h1.comp hrl).congr' (h := fun _ x => (q : ℝ) ^ x) fun i x => by
      rw [LanesFun.lane_log _ _ (by rw [Lanes.lane_ofRat]; exact hq'), Lanes.lane_ofRat, Real.rpow_def_of_pos hq']
    refine ⟨r, ?_, h2.valid, fun _ => h2.order, fun h => absurd h h0, h2.taylor⟩
    rw [bind_ok (guardFinite_true hlog), hr]

theorem powBase_undef [LanesFun C ι] {q : ℚ} (hq : q ≤ 0) (h0 : d.degree ≠ 0) : powBase q d = .error .nonFinite := by
  unfold powBase
  rw [if_neg h0]
  refine bind_error (guardFinite_false fun hc => ?_) _
  obtain ⟨i⟩ := Lanes.nonempty C (ι := ι) (K := ℝ)
  have := (LanesFun.logOk_iff (ι := ι) _).mp hc i
  rw [Lanes.lane_ofRat] at this
  have : (0 : ℚ) < q := by exact_mod_cast this
  linarith

end GDual
end Audi
