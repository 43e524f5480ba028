import Verif.Proofs.Lift

/-! Inverse functions: atanh, atan and the compositions asinh, acosh, asin, acos. -/

set_option linter.unusedSectionVars false

namespace Audi

open MvPolynomial Spec Topology Filter

namespace GDual

section generic
variable {C : Type} [CfFun C] {ι : Type} {𝕜 : Type} [NontriviallyNormedField 𝕜] [CharZero 𝕜] [Lanes C ι 𝕜] {d r : GDual C}

/-- `atanh` from the values of the functions at the constant part. -/
theorem atanh_liftK {A : 𝕜 → 𝕜} (hd : d.Valid) (hok0 : ∀ p0, d.constantCf = .ok p0 → CfFun.atanhOk p0 = true)
    (hval : ∀ p0, d.constantCf = .ok p0 → ∀ i : ι, (Lanes.lane i (CfFun.atanh p0) : 𝕜) = A (coeff 0 (d.toMv i)))
    (hpow : ∀ p0, d.constantCf = .ok p0 → ∀ (k : ℕ) (i : ι),
      (Lanes.lane i (CfFun.pow (Cf.sub (Cf.ofRat 1) p0) k) : 𝕜) = (1 - coeff 0 (d.toMv i)) ^ k ∧
      (Lanes.lane i (CfFun.pow (Cf.add (Cf.ofRat 1) p0) k) : 𝕜) = (1 + coeff 0 (d.toMv i)) ^ k)
    (hT : ∀ i : ι, IsTaylor₁ (coeff 0 (d.toMv i)) d.order A
      (atanhCoeffK (A (coeff 0 (d.toMv i))) (coeff 0 (d.toMv i)))) :
    ∃ r, atanh d = .ok r ∧ IsLift (fun _ : ι => A) d r := by
  obtain ⟨p0, hp0⟩ := constantCf_isOk d
  have hok := hok0 p0 hp0
  have hph := rep_hat (ι := ι) (K := 𝕜) hd hp0
  have hpo : (d.subGS p0).order = d.order := rfl
  set n := d.order with hn
  set ph := d.subGS p0 with hphd
  set H : ι → MvPolynomial String 𝕜 := fun i => hat (d.toMv i) with hH
  set b : ι → ℕ → 𝕜 := fun i k => if k = 0 then 0 else 2 * atanhCoeffK (A (coeff 0 (d.toMv i))) (coeff 0 (d.toMv i)) k with hb
  obtain ⟨h1, h2, -⟩ := foldl_range' (step := atanhStep p0 ph)
    (Inv := fun k s => Rep n s.retval (fun i => psum (b i) (H i) k) ∧ (1 < k → s.retval.order = n) ∧
      Rep n s.powphat (fun i => H i ^ k) ∧ s.powphat.order = n ∧ s.coeff = (-1) ^ (k - 1))
    (stp := 1) one_pos n 1 ⟨ofRat 0, ph, 1⟩
    ⟨(Rep.ofRat 0).congr fun i => EqUpTo.of_eq (by rw [psum_one]; simp [hb]), fun h => absurd h (by omega),
      hph.congr fun i => EqUpTo.of_eq (by simp [hH]), hpo, by simp⟩
    (by
      rintro k s hk - ⟨i1, i2, i3, i4, i5⟩
      refine ⟨?_, fun _ => Rep.order_add i1 (i3.mulSG _) (Or.inr (by rw [order_mulSG, i4])), ?_,
        i3.order_mul hph (Or.inl i4), ?_⟩
      · refine (i1.add (i3.mulSG _)).congr fun i => EqUpTo.of_eq ?_
        rw [psum_succ]
        congr 3
        rw [Lanes.lane_div, Lanes.lane_add, Lanes.lane_div, Lanes.lane_div, (hpow p0 hp0 k i).1,
          (hpow p0 hp0 k i).2, Lanes.lane_ofRat, Lanes.lane_ofRat, Lanes.lane_ofRat, i5]
        simp only [hb, atanhCoeffK]
        rw [if_neg (by omega), if_neg (by omega)]
        push_cast; ring
      · exact (i3.mul hph (Or.inl i4)).congr fun i => EqUpTo.of_eq (pow_succ _ _).symm
      · change s.coeff * -1 = _
        obtain ⟨j, rfl⟩ : ∃ j, k = j + 1 := ⟨k - 1, by omega⟩
        rw [i5]; simp only [Nat.add_sub_cancel, pow_succ])
  set st := (List.range' 1 n).foldl (atanhStep p0 ph) ⟨ofRat 0, ph, 1⟩ with hst
  have hso : st.retval.order = n := by
    rcases Nat.eq_zero_or_pos n with hz | hz
    · have := h1.order; omega
    · exact h2 (by omega)
  refine ⟨(st.retval.mulSG (Cf.ofRat (1 / 2))).addSG (CfFun.atanh p0), ?_,
    isLift_of_rep (d := d) (b := fun i => atanhCoeffK (A (coeff 0 (d.toMv i))) (coeff 0 (d.toMv i))) ?_ (((h1.mulSG _).addSG _).congr fun i => ?_)
      hT⟩
  · unfold atanh
    rw [bind_ok hp0, bind_ok (guardFinite_true hok)]
  · change (mulSG _ st.retval).order = _
    rw [order_mulSG, hso]
  · rw [hval p0 hp0 i, Lanes.lane_ofRat, mul_comm (MvPolynomial.C _), psum_mul_C]
    refine EqUpTo.trans (EqUpTo.of_eq ?_) (psum_compPoly (atanhCoeffK (A (coeff 0 (d.toMv i))) (coeff 0 (d.toMv i))) _ (N := 1 + 1 * n) (by omega))
    unfold psum
    rw [show 1 + 1 * n = n + 1 by ring, Finset.sum_range_succ', Finset.sum_range_succ', add_comm, add_assoc]
    congr 1
    · refine Finset.sum_congr rfl fun j _ => ?_
      simp only [hb, Nat.succ_ne_zero, if_false]
      congr 2; push_cast; ring
    · simp [hb, atanhCoeffK]

end generic

variable {C : Type} [CfFun C] {ι : Type} [Lanes C ι ℝ] {d r : GDual C} {n : ℕ}

theorem lane_pow_nat [LanesFun C ι] (i : ι) (c : C) (k : ℕ) (h : 0 < (Lanes.lane i c : ℝ)) :
    (Lanes.lane i (CfFun.pow c (k : ℚ)) : ℝ) = (Lanes.lane i c : ℝ) ^ k := by
  rw [LanesFun.lane_pow _ _ _ (Or.inl h)]
  rw [Rat.cast_natCast, Real.rpow_natCast]

theorem computes_atanh [LanesFun C ι] : Computes (C := C) (ι := ι) atanh Real.artanh (fun x => |x| < 1) where
  lift d hd h := by
    have hl : ∀ p0, d.constantCf = .ok p0 → ∀ i : ι, (Lanes.lane i p0 : ℝ) = coeff 0 (d.toMv i) :=
      fun p0 hp0 => lane_constantCf hd hp0
    refine atanh_liftK hd (fun p0 hp0 => (LanesFun.atanhOk_iff p0).mpr fun i => by rw [hl p0 hp0]; exact h i)
      (fun p0 hp0 i => by rw [LanesFun.lane_atanh _ _ (by rw [hl p0 hp0]; exact h i), hl p0 hp0])
      (fun p0 hp0 k i => ?_) (fun i => isTaylor₁_artanh (h i))
    have hi := abs_lt.mp (h i)
    have l1 : (Lanes.lane i (Cf.sub (Cf.ofRat 1) p0) : ℝ) = 1 - coeff 0 (d.toMv i) := by
      rw [Lanes.lane_sub, Lanes.lane_ofRat, hl p0 hp0]; norm_num
    have l2 : (Lanes.lane i (Cf.add (Cf.ofRat 1) p0) : ℝ) = 1 + coeff 0 (d.toMv i) := by
      rw [Lanes.lane_add, Lanes.lane_ofRat, hl p0 hp0]; norm_num
    rw [lane_pow_nat _ _ _ (by rw [l1]; linarith), lane_pow_nat _ _ _ (by rw [l2]; linarith), l1, l2]
    exact ⟨rfl, rfl⟩
  undef d hd h := by
    obtain ⟨p0, hp0⟩ := constantCf_isOk d
    have hok : ¬ CfFun.atanhOk p0 = true := fun hc => h fun i => by
      rw [← lane_constantCf hd hp0]; exact (LanesFun.atanhOk_iff p0).mp hc i
    unfold atanh
    rw [bind_ok hp0, bind_error (guardFinite_false hok)]

/-! atan -/

/-- Partial sums of the binomial expansion of `(1 + i c)^k`. -/
noncomputable def cSum (c : ℝ) (k N : ℕ) : ℂ := ∑ m ∈ Finset.range N, (k.choose m : ℂ) * (Complex.I * c) ^ m

theorem cSum_succ (c : ℝ) (k N : ℕ) : cSum c k (N + 1) = cSum c k N + (k.choose N : ℂ) * (Complex.I * c) ^ N :=
  Finset.sum_range_succ _ _

theorem cSum_all (c : ℝ) (k : ℕ) : cSum c k (k + 1) = (1 + Complex.I * c) ^ k := by
  rw [add_comm (1 : ℂ), add_pow]
  refine Finset.sum_congr rfl fun m _ => ?_
  rw [one_pow]; ring

theorem ic_even (c : ℝ) (j : ℕ) : (Complex.I * c) ^ (2 * j) = (((-1) ^ j * c ^ (2 * j) : ℝ) : ℂ) := by
  rw [pow_mul, mul_pow, Complex.I_sq, mul_pow, pow_mul]; push_cast; ring

theorem ic_odd (c : ℝ) (j : ℕ) : (Complex.I * c) ^ (2 * j + 1) = (((-1) ^ j * c ^ (2 * j + 1) : ℝ) : ℂ) * Complex.I := by
  rw [pow_succ, ic_even]; push_cast; ring

theorem re_even (c : ℝ) (k j : ℕ) : ((k.choose (2 * j) : ℂ) * (Complex.I * c) ^ (2 * j)).re =
    k.choose (2 * j) * ((-1) ^ j * c ^ (2 * j)) := by
  rw [ic_even, ← Complex.ofReal_natCast, ← Complex.ofReal_mul, Complex.ofReal_re]

theorem im_even (c : ℝ) (k j : ℕ) : ((k.choose (2 * j) : ℂ) * (Complex.I * c) ^ (2 * j)).im = 0 := by
  rw [ic_even, ← Complex.ofReal_natCast, ← Complex.ofReal_mul, Complex.ofReal_im]

theorem re_odd (c : ℝ) (k j : ℕ) : ((k.choose (2 * j + 1) : ℂ) * (Complex.I * c) ^ (2 * j + 1)).re = 0 := by
  rw [ic_odd, ← Complex.ofReal_natCast, ← mul_assoc, ← Complex.ofReal_mul]
  simp only [Complex.mul_re, Complex.I_re, Complex.I_im, Complex.ofReal_im]
  ring

theorem im_odd (c : ℝ) (k j : ℕ) : ((k.choose (2 * j + 1) : ℂ) * (Complex.I * c) ^ (2 * j + 1)).im =
    k.choose (2 * j + 1) * ((-1) ^ j * c ^ (2 * j + 1)) := by
  rw [ic_odd, ← Complex.ofReal_natCast, ← mul_assoc, ← Complex.ofReal_mul]
  simp only [Complex.mul_im, Complex.I_re, Complex.I_im, Complex.ofReal_im, Complex.ofReal_re]
  ring

theorem lane_atanOdd {bin : ℕ → ℕ → ℕ} {k : ℕ} (hk : k % 2 = 1) (hbin : ∀ j, 1 ≤ j → j ≤ k → bin k j = k.choose j)
    (p0 : C) (i : ι) : (Lanes.lane i (atanOdd bin p0 k) : ℝ) = reK (Lanes.lane i p0) k := by
  set c : ℝ := Lanes.lane i p0 with hc
  obtain ⟨h1, -⟩ := foldl_range' (step := fun (s : AtanIn C) j =>
    (⟨Cf.add s.binom (Cf.mul (Cf.mul (Cf.ofRat (bin k (2 * j))) s.cfi) s.f0), Cf.mul s.f0 (Cf.mul p0 p0), Cf.neg s.cfi⟩ : AtanIn C))
    (Inv := fun j s => (Lanes.lane i s.binom : ℝ) = (cSum c k (2 * j)).re ∧ (Lanes.lane i s.f0 : ℝ) = c ^ (2 * j) ∧
      (Lanes.lane i s.cfi : ℝ) = (-1) ^ j)
    (stp := 1) one_pos (k / 2) 1 ⟨Cf.ofRat 1, Cf.mul p0 p0, Cf.ofRat (-1)⟩
    ⟨by
      rw [Lanes.lane_ofRat]
      simp [cSum, Finset.sum_range_succ], by rw [Lanes.lane_mul, ← hc]; ring, by rw [Lanes.lane_ofRat]; norm_num⟩
    (by
      rintro j s hj hj' ⟨i1, i2, i3⟩
      refine ⟨?_, ?_, ?_⟩
      · change (Lanes.lane i (Cf.add _ _) : ℝ) = _
        rw [show 2 * (j + 1) = 2 * j + 1 + 1 by ring, cSum_succ, cSum_succ, Complex.add_re, Complex.add_re, re_odd, re_even,
          Lanes.lane_add, Lanes.lane_mul, Lanes.lane_mul, Lanes.lane_ofRat, i1, i2, i3, hbin _ (by omega) (by omega)]
        push_cast; ring
      · change (Lanes.lane i (Cf.mul _ _) : ℝ) = _
        rw [Lanes.lane_mul, Lanes.lane_mul, i2, ← hc]; ring
      · change (Lanes.lane i (Cf.neg _) : ℝ) = _
        rw [Lanes.lane_neg, i3, pow_succ]; ring)
  change (Lanes.lane i (atanOdd bin p0 k) : ℝ) = _ at h1
  rw [h1, show 2 * (1 + 1 * (k / 2)) = k + 1 by omega, cSum_all]
  rfl

theorem lane_atanEven {bin : ℕ → ℕ → ℕ} {k : ℕ} (hk : k % 2 = 0) (hbin : ∀ j, 1 ≤ j → j ≤ k → bin k j = k.choose j)
    (p0 : C) (i : ι) : (Lanes.lane i (atanEven bin p0 k) : ℝ) = imK (Lanes.lane i p0) k := by
  set c : ℝ := Lanes.lane i p0 with hc
  obtain ⟨h1, -⟩ := foldl_range' (step := fun (s : AtanIn C) j =>
    (⟨Cf.add s.binom (Cf.mul (Cf.mul (Cf.ofRat (bin k (2 * j - 1))) s.cfi) s.f0), Cf.mul s.f0 (Cf.mul p0 p0),
      Cf.neg s.cfi⟩ : AtanIn C))
    (Inv := fun j s => (Lanes.lane i s.binom : ℝ) = (cSum c k (2 * j - 1)).im ∧ (Lanes.lane i s.f0 : ℝ) = c ^ (2 * j - 1) ∧
      (Lanes.lane i s.cfi : ℝ) = (-1) ^ (j - 1))
    (stp := 1) one_pos ((k + 1) / 2) 1 ⟨Cf.ofRat 0, p0, Cf.ofRat 1⟩
    ⟨by
      rw [Lanes.lane_ofRat]
      simp [cSum], by simp [hc], by rw [Lanes.lane_ofRat]; norm_num⟩
    (by
      rintro j s hj hj' ⟨i1, i2, i3⟩
      obtain ⟨j, rfl⟩ : ∃ l, j = l + 1 := ⟨j - 1, by omega⟩
      have e1 : 2 * (j + 1) - 1 = 2 * j + 1 := by omega
      rw [e1] at i1 i2
      refine ⟨?_, ?_, ?_⟩
      · change (Lanes.lane i (Cf.add _ _) : ℝ) = _
        rw [show 2 * (j + 1 + 1) - 1 = 2 * j + 1 + 1 + 1 by omega, cSum_succ, cSum_succ, Complex.add_im, Complex.add_im,
          show 2 * j + 1 + 1 = 2 * (j + 1) by ring, im_odd, im_even,
          Lanes.lane_add, Lanes.lane_mul, Lanes.lane_mul, Lanes.lane_ofRat, i1, i2, i3, hbin _ (by omega) (by omega), e1,
          Nat.add_sub_cancel]
        push_cast; ring
      · change (Lanes.lane i (Cf.mul _ _) : ℝ) = _
        rw [Lanes.lane_mul, Lanes.lane_mul, i2, ← hc, show 2 * (j + 1 + 1) - 1 = 2 * j + 1 + 2 by omega]; ring
      · change (Lanes.lane i (Cf.neg _) : ℝ) = _
        rw [Lanes.lane_neg, i3, Nat.add_sub_cancel, Nat.add_sub_cancel, pow_succ]; ring)
  change (Lanes.lane i (atanEven bin p0 k) : ℝ) = _ at h1
  rw [h1, show 2 * (1 + 1 * ((k + 1) / 2)) - 1 = k + 1 by omega, cSum_all]
  rfl

/-- The coefficient number `k` (times `(1+c²)^k`) computed by `atan`, for any computation of the binomial coefficients. -/
noncomputable def atanB (bin : ℕ → ℕ → ℕ) (p0 : C) (i : ι) (k : ℕ) : ℝ :=
  if k = 0 then Real.arctan (Lanes.lane i p0)
  else if k % 2 = 1 then Lanes.lane i (atanOdd bin p0 k) * (-1) ^ (k / 2) / k
  else Lanes.lane i (atanEven bin p0 k) * (-1) ^ (k / 2) / k

/-- What `atan` computes, for any computation of the binomial coefficients. -/
theorem atanWith_rep [LanesFun C ι] (bin : ℕ → ℕ → ℕ) (hd : d.Valid) :
    ∃ r p0, d.constantCf = .ok p0 ∧ atanWith bin d = .ok r ∧ r.order = d.order ∧ Rep d.order r (fun i : ι =>
      psum (fun k => atanB bin p0 i k * (1 + coeff 0 (d.toMv i) ^ 2)⁻¹ ^ k) (hat (d.toMv i)) (d.order + 1)) := by
  obtain ⟨p0, hp0⟩ := constantCf_isOk d
  have hl : ∀ i : ι, (Lanes.lane i p0 : ℝ) = coeff 0 (d.toMv i) := lane_constantCf hd hp0
  set c : ι → ℝ := fun i => coeff 0 (d.toMv i) with hc
  have hpos : ∀ i, 0 < 1 + c i ^ 2 := fun i => by positivity
  have hlane : ∀ i : ι, (Lanes.lane i (Cf.add (Cf.ofRat 1) (Cf.mul p0 p0)) : ℝ) = 1 + c i ^ 2 := fun i => by
    rw [Lanes.lane_add, Lanes.lane_ofRat, Lanes.lane_mul, hl]; push_cast; ring
  have hu : Cf.isUnit (Cf.add (Cf.ofRat 1) (Cf.mul p0 p0)) = true :=
    (Lanes.isUnit_iff (ι := ι) (K := ℝ) _).mpr fun i => by rw [hlane]; exact (hpos i).ne'
  obtain ⟨ph, hphe, hpo, hph'⟩ := Rep.divGS hu (rep_hat (ι := ι) (K := ℝ) hd hp0)
  set n := d.order with hn
  set G : ι → MvPolynomial String ℝ := fun i => hat (d.toMv i) * MvPolynomial.C (1 + c i ^ 2)⁻¹ with hG
  have hph : Rep n ph G := hph'.congr fun i => EqUpTo.of_eq (by rw [hlane])
  set b : ι → ℕ → ℝ := fun i k => atanB bin p0 i k with hb
  obtain ⟨st, h1, h2, h3, -⟩ := foldlM_range' (step := atanStep bin p0 ph)
    (Inv := fun k s => Rep n s.retval (fun i => psum (b i) (G i) k) ∧ (1 < k → s.retval.order = n) ∧
      Rep n s.powphat (fun i => G i ^ k) ∧ s.powphat.order = n ∧
      (∀ i : ι, (Lanes.lane i s.coeff1 : ℝ) = (-1) ^ (k / 2)) ∧
      (∀ i : ι, (Lanes.lane i s.coeff2 : ℝ) = (-1) ^ ((k + 1) / 2)))
    (stp := 1) one_pos n 1 ⟨ofCf (CfFun.atan p0), ph, Cf.ofRat 1, Cf.ofRat (-1)⟩
    ⟨(Rep.ofCf _).congr fun i => EqUpTo.of_eq (by rw [psum_one, LanesFun.lane_atan]; simp [hb, atanB]),
      fun h => absurd h (by omega), hph.congr fun i => EqUpTo.of_eq (by simp), hpo,
      fun i => by rw [Lanes.lane_ofRat]; norm_num, fun i => by rw [Lanes.lane_ofRat]; norm_num⟩
    (by
      rintro k s hk hk' ⟨i1, i2, i3, i4, i5, i6⟩
      have hk0 : ((k : ℚ) : ℝ) ≠ 0 := by
        have : (k : ℝ) ≠ 0 := by exact_mod_cast (by omega : k ≠ 0)
        simpa using this
      have e1 : Rep n (s.powphat.mul ph) (fun i => G i ^ (k + 1)) := (i3.mul hph (Or.inl i4)).congr fun i =>
        EqUpTo.of_eq (pow_succ _ _).symm
      have e2 : (s.powphat.mul ph).order = n := i3.order_mul hph (Or.inl i4)
      rcases Nat.mod_two_eq_zero_or_one k with hpar | hpar
      · obtain ⟨q, hq, hqo, hqr⟩ := Rep.divGS (isUnit_ofRat (C := C) (ι := ι) hk0)
          ((i3.mulSG (atanEven bin p0 k)).mulGS s.coeff2)
        rw [order_mulGS, order_mulSG, i4] at hqo
        refine ⟨⟨s.retval.add q, s.powphat.mul ph, s.coeff1, Cf.neg s.coeff2⟩, ?_, ?_,
          fun _ => Rep.order_add i1 hqr (Or.inr hqo), e1, e2, fun i => ?_, fun i => ?_⟩
        · unfold atanStep
          rw [if_neg (by omega), bind_ok hq]
        · refine (i1.add hqr).congr fun i => EqUpTo.of_eq ?_
          rw [psum_succ, i6, Lanes.lane_ofRat]
          have : b i k = Lanes.lane i (atanEven bin p0 k) * (-1) ^ ((k + 1) / 2) * ((k : ℚ) : ℝ)⁻¹ := by
            simp only [hb, atanB]
            rw [if_neg (by omega), if_neg (by omega), show (k + 1) / 2 = k / 2 by omega, Rat.cast_natCast]; ring
          rw [this, map_mul, map_mul]; ring
        · rw [show (k + 1) / 2 = k / 2 by omega]; exact i5 i
        · change (Lanes.lane i (Cf.neg _) : ℝ) = _
          rw [Lanes.lane_neg, i6, show (k + 1 + 1) / 2 = (k + 1) / 2 + 1 by omega, pow_succ]; ring
      · obtain ⟨q, hq, hqo, hqr⟩ := Rep.divGS (isUnit_ofRat (C := C) (ι := ι) hk0)
          ((i3.mulSG (atanOdd bin p0 k)).mulGS s.coeff1)
        rw [order_mulGS, order_mulSG, i4] at hqo
        refine ⟨⟨s.retval.add q, s.powphat.mul ph, Cf.neg s.coeff1, s.coeff2⟩, ?_, ?_,
          fun _ => Rep.order_add i1 hqr (Or.inr hqo), e1, e2, fun i => ?_, fun i => ?_⟩
        · unfold atanStep
          rw [if_pos hpar, bind_ok hq]
        · refine (i1.add hqr).congr fun i => EqUpTo.of_eq ?_
          rw [psum_succ, i5, Lanes.lane_ofRat]
          have : b i k = Lanes.lane i (atanOdd bin p0 k) * (-1) ^ (k / 2) * ((k : ℚ) : ℝ)⁻¹ := by
            simp only [hb, atanB]
            rw [if_neg (by omega), if_pos hpar, Rat.cast_natCast]; ring
          rw [this, map_mul, map_mul]; ring
        · change (Lanes.lane i (Cf.neg _) : ℝ) = _
          rw [Lanes.lane_neg, i5, show (k + 1) / 2 = k / 2 + 1 by omega, pow_succ]; ring
        · rw [i6, show (k + 1 + 1) / 2 = (k + 1) / 2 by omega])
  have hso : st.retval.order = n := by
    rcases Nat.eq_zero_or_pos n with hz | hz
    · have := h2.order; omega
    · exact h3 (by omega)
  refine ⟨st.retval, p0, hp0, ?_, hso, h2.congr fun i => ?_⟩
  · unfold atanWith
    rw [bind_ok hp0, bind_ok hphe]
    change ((List.range' 1 n).foldlM (atanStep bin p0 ph) _ >>= _) = _
    rw [bind_ok h1]
  · rw [hG]
    simp only
    rw [psum_scale, show 1 + 1 * n = n + 1 by ring]
    exact EqUpTo.refl _

/-- `atan` with a correct computation of the binomial coefficients. -/
theorem atanWith_lift [LanesFun C ι] {bin : ℕ → ℕ → ℕ} (hd : d.Valid)
    (hbin : ∀ k, 1 ≤ k → k ≤ d.order → ∀ j, 1 ≤ j → j ≤ k → bin k j = k.choose j) :
    ∃ r, atanWith bin d = .ok r ∧ IsLift (fun _ : ι => Real.arctan) d r := by
  obtain ⟨r, p0, hp0, hr, hro, hrr⟩ := atanWith_rep (ι := ι) bin hd
  have hl : ∀ i : ι, (Lanes.lane i p0 : ℝ) = coeff 0 (d.toMv i) := lane_constantCf hd hp0
  refine ⟨r, hr, isLift_of_rep (b := fun i => atanCoeff (coeff 0 (d.toMv i))) hro (hrr.congr fun i => ?_)
    (fun i => isTaylor₁_arctan)⟩
  refine EqUpTo.trans (EqUpTo.of_eq (psum_congr (fun j hj' => ?_) _)) (psum_compPoly _ _ (by omega))
  unfold atanCoeff atanB
  rw [hl]
  split_ifs with hj hpar
  · simp [hj]
  · rw [lane_atanOdd hpar (hbin j (by omega) (by omega)), hl, atN, if_pos hpar, inv_pow, div_mul_eq_div_div]; ring
  · rw [lane_atanEven (by omega) (hbin j (by omega) (by omega)), hl, atN, if_neg hpar, inv_pow, div_mul_eq_div_div]; ring

/-! compositions -/

theorem computes_asinh [LanesFun C ι] : Computes (C := C) (ι := ι) asinh Real.arsinh (fun _ => True) where
  lift d hd _ := by
    have h1 := ((IsLift.id (ι := ι) hd).mul (IsLift.id hd)).addSG (Cf.ofRat 1)
    have h1c : ∀ i : ι, coeff 0 (((d.mul d).addSG (Cf.ofRat 1)).toMv i : MvPolynomial String ℝ) =
        1 + coeff 0 (d.toMv i) * coeff 0 (d.toMv i) := fun i => by
      rw [h1.coeff_zero, Lanes.lane_ofRat]; norm_num
    obtain ⟨s, hs, hsl⟩ := computes_sqrt.lift _ h1.valid (ι := ι) fun i => by rw [h1c, ← sq]; positivity
    have h2 := (IsLift.id (ι := ι) hd).add (h1.comp hsl)
    have key : ∀ x : ℝ, 0 < x + √(1 + x * x) := fun x => by
      rw [← sq, ← Real.exp_arsinh]; exact Real.exp_pos _
    obtain ⟨r, hr, hrl⟩ := computes_log.lift _ h2.valid (ι := ι) fun i => by
      rw [h2.coeff_zero, Lanes.lane_ofRat]
      simpa using key (coeff 0 (d.toMv i))
    refine ⟨r, ?_, (h2.comp hrl).congr' fun i x => ?_⟩
    · unfold asinh
      rw [bind_ok hs, hr]
    · rw [Lanes.lane_ofRat, Real.arsinh, sq]; norm_num
  undef d _ h := absurd (fun _ => trivial) h

/-- If the square has degree 0 and the constant part is positive then the degree is 0. -/
theorem degree_zero_of_sq [LanesFun C ι] (hd : d.Valid) (hc : ∀ i : ι, 0 < coeff 0 (d.toMv i : MvPolynomial String ℝ))
    (h0 : (d.mul d).degree = 0) : d.degree = 0 := by
  have h1 := (IsLift.id (ι := ι) hd).mul (IsLift.id hd)
  have hpos : ∀ i : ι, 0 < coeff 0 ((d.mul d).toMv i : MvPolynomial String ℝ) := fun i => by
    rw [h1.coeff_zero]; have := hc i; positivity
  obtain ⟨r, hr, hrl⟩ := computes_sqrt.lift _ h1.valid (ι := ι) hpos
  obtain ⟨r', hr', -, -, hrc⟩ := sqrt_const h1.valid (fun i => (hpos i).le) h0
  rw [hr] at hr'
  injection hr' with hr'
  subst hr'
  rw [degree_eq_zero_iff (ι := ι) (K := ℝ) hd]
  intro i
  have := (IsLift.id (ι := ι) hd).toMv_eq (h1.comp hrl) (fun i => by
    filter_upwards [Ioi_mem_nhds (hc i)] with x hx
    rw [Real.sqrt_mul_self (le_of_lt hx)]) i
  rw [this, hrc, coeff_C, if_pos rfl]

theorem acosh_bad [LanesFun C ι] (hd : d.Valid) (h : ∃ i : ι, coeff 0 (d.toMv i : MvPolynomial String ℝ) < 1) :
    acosh d = .error .nonFinite := by
  obtain ⟨i, hi⟩ := h
  have h1 := ((IsLift.id (ι := ι) hd).mul (IsLift.id hd)).subGS (Cf.ofRat 1)
  have h1c : ∀ i : ι, coeff 0 (((d.mul d).subGS (Cf.ofRat 1)).toMv i : MvPolynomial String ℝ) =
      coeff 0 (d.toMv i) * coeff 0 (d.toMv i) - 1 := fun i => by rw [h1.coeff_zero, lane_one]
  unfold acosh
  -- `log` of a number which is not positive
  have key : ∀ s : GDual C, s.Valid → coeff 0 (s.toMv i : MvPolynomial String ℝ) = √(coeff 0 (d.toMv i) * coeff 0 (d.toMv i) - 1) →
      0 ≤ coeff 0 (d.toMv i) * coeff 0 (d.toMv i) - (1 : ℝ) → log (d.add s) = .error .nonFinite := by
    intro s hs hsc hnn
    refine computes_log.undef _ (hd.add hs) (ι := ι) fun hl => ?_
    have e1 := hl i
    rw [toMv_add hd hs, coeff_add, hsc] at e1
    set c := coeff 0 (d.toMv i : MvPolynomial String ℝ)
    have hc1 : c ≤ -1 := by nlinarith
    have : √(c * c - 1) ≤ -c := by
      rw [Real.sqrt_le_left (by linarith)]; nlinarith
    linarith
  by_cases hs : ∀ i : ι, 0 < coeff 0 (((d.mul d).subGS (Cf.ofRat 1)).toMv i : MvPolynomial String ℝ)
  · obtain ⟨s, hs', hsl⟩ := computes_sqrt.lift _ h1.valid (ι := ι) hs
    rw [bind_ok hs']
    refine key s hsl.valid ?_ ?_
    · rw [hsl.coeff_zero, h1c]
    · have := hs i; rw [h1c] at this; exact this.le
  · rcases sqrt_not_pos h1.valid hs with he | ⟨s, he, hsv, -, -, hsc, -⟩
    · rw [bind_error he]
    · rw [bind_ok he]
      by_cases hnn : 0 ≤ coeff 0 (d.toMv i) * coeff 0 (d.toMv i) - (1 : ℝ)
      · exact key s hsv (by rw [hsc, coeff_C, if_pos rfl, h1c]) hnn
      · have := computes_sqrt.bad _ h1.valid (ι := ι) ⟨i, by rw [h1c]; linarith⟩
        rw [this] at he
        cases he

theorem computes_acosh [LanesFun C ι] :
    ComputesE (C := C) (ι := ι) acosh Real.arcosh (fun x => 1 < x) (fun x => x < 1) where
  lift d hd h := by
    have h1 := ((IsLift.id (ι := ι) hd).mul (IsLift.id hd)).subGS (Cf.ofRat 1)
    have h1c : ∀ i : ι, coeff 0 (((d.mul d).subGS (Cf.ofRat 1)).toMv i : MvPolynomial String ℝ) =
        coeff 0 (d.toMv i) * coeff 0 (d.toMv i) - 1 := fun i => by rw [h1.coeff_zero, lane_one]
    obtain ⟨s, hs, hsl⟩ := computes_sqrt.lift _ h1.valid (ι := ι) fun i => by
      rw [h1c]; have := h i; nlinarith
    have h2 := (IsLift.id (ι := ι) hd).add (h1.comp hsl)
    obtain ⟨r, hr, hrl⟩ := computes_log.lift _ h2.valid (ι := ι) fun i => by
      rw [h2.coeff_zero]
      have := h i
      have := Real.sqrt_nonneg (coeff 0 (d.toMv i) * coeff 0 (d.toMv i) - (Lanes.lane i (Cf.ofRat 1 : C) : ℝ))
      linarith
    refine ⟨r, ?_, (h2.comp hrl).congr' fun i x => ?_⟩
    · unfold acosh
      rw [bind_ok hs, hr]
    · rw [lane_one, Real.arcosh, sq]
  bad d hd h := acosh_bad hd h
  edge d hd h h0 := by
    by_cases hb : ∃ i : ι, coeff 0 (d.toMv i : MvPolynomial String ℝ) < 1
    · exact acosh_bad hd hb
    push Not at hb
    have h1 := ((IsLift.id (ι := ι) hd).mul (IsLift.id hd)).subGS (Cf.ofRat 1)
    have h1c : ∀ i : ι, coeff 0 (((d.mul d).subGS (Cf.ofRat 1)).toMv i : MvPolynomial String ℝ) =
        coeff 0 (d.toMv i) * coeff 0 (d.toMv i) - 1 := fun i => by rw [h1.coeff_zero, lane_one]
    unfold acosh
    rcases sqrt_not_pos h1.valid (fun hs => h fun i => by
      have := hs i; rw [h1c] at this; have := hb i; nlinarith) with he | ⟨s, -, -, -, hdeg, -⟩
    · rw [bind_error he]
    · refine absurd (degree_zero_of_sq hd (fun i => by have := hb i; linarith) ?_) h0
      rw [degree_eq_zero_iff (ι := ι) (K := ℝ) (hd.mul hd)]
      intro i
      have := (degree_eq_zero_iff (ι := ι) (K := ℝ) h1.valid).mp hdeg i
      rw [toMv_subGS _ (hd.mul hd), coeff_sub, map_sub, coeff_C, if_pos rfl] at this
      exact sub_left_injective this

theorem asinWith_lift [LanesFun C ι] {bin : ℕ → ℕ → ℕ} (hd : d.Valid)
    (hbin : ∀ k, 1 ≤ k → k ≤ d.order → ∀ j, 1 ≤ j → j ≤ k → bin k j = k.choose j)
    (h : ∀ i : ι, |coeff 0 (d.toMv i : MvPolynomial String ℝ)| < 1) :
    ∃ r, asinWith bin d = .ok r ∧ IsLift (fun _ : ι => Real.arcsin) d r := by
  have h1 := ((IsLift.id (ι := ι) hd).mul (IsLift.id hd)).subSG (Cf.ofRat 1)
  have h1c : ∀ i : ι, 0 < coeff 0 (((d.mul d).subSG (Cf.ofRat 1)).toMv i : MvPolynomial String ℝ) := fun i => by
    rw [h1.coeff_zero, lane_one]
    have := abs_lt.mp (h i)
    nlinarith
  obtain ⟨s, hs, hsl⟩ := computes_sqrt.lift _ h1.valid (ι := ι) h1c
  obtain ⟨q, hq, hql⟩ := (IsLift.id (ι := ι) hd).div (h1.comp hsl) (fun i => by
    have := h1c i
    rw [h1.coeff_zero] at this
    exact (Real.sqrt_pos.mpr this).ne')
  obtain ⟨r, hr, hrl⟩ := atanWith_lift (ι := ι) (bin := bin) hql.valid (by rw [hql.order]; exact hbin)
  refine ⟨r, ?_, (hql.comp hrl).congr fun i => ?_⟩
  · unfold asinWith
    rw [bind_ok hs, bind_ok hq, hr]
  · have := abs_lt.mp (h i)
    filter_upwards [Ioo_mem_nhds this.1 this.2] with x hx
    rw [Real.arcsin_eq_arctan hx, lane_one, sq]

theorem asinWith_undef [LanesFun C ι] {bin : ℕ → ℕ → ℕ} (hd : d.Valid)
    (h : ¬ ∀ i : ι, |coeff 0 (d.toMv i : MvPolynomial String ℝ)| < 1) : asinWith bin d = .error .nonFinite := by
  have h1 := ((IsLift.id (ι := ι) hd).mul (IsLift.id hd)).subSG (Cf.ofRat 1)
  have hn : ¬ ∀ i : ι, 0 < coeff 0 (((d.mul d).subSG (Cf.ofRat 1)).toMv i : MvPolynomial String ℝ) := fun hs => h fun i => by
    have e1 := hs i
    rw [h1.coeff_zero, lane_one] at e1
    rw [abs_lt]; constructor <;> nlinarith
  unfold asinWith
  rcases sqrt_not_pos h1.valid hn with he | ⟨s, he, hsv, -, -, hsc, hz⟩
  · rw [bind_error he]
  · rw [bind_ok he, bind_error (div_error hsv hz fun hnil => h fun i => ?_)]
    rw [(terms_nil_iff (ι := ι) (K := ℝ) hd).mp hnil i]
    simp

theorem acosWith_lift [LanesFun C ι] {bin : ℕ → ℕ → ℕ} (hd : d.Valid)
    (hbin : ∀ k, 1 ≤ k → k ≤ d.order → ∀ j, 1 ≤ j → j ≤ k → bin k j = k.choose j)
    (h : ∀ i : ι, |coeff 0 (d.toMv i : MvPolynomial String ℝ)| < 1) :
    ∃ r, acosWith bin d = .ok r ∧ IsLift (fun _ : ι => Real.arccos) d r := by
  obtain ⟨s, hs, hsl⟩ := asinWith_lift (ι := ι) hd hbin h
  refine ⟨_, ?_, (hsl.subSG (Cf.mul (Cf.ofRat (1 / 2)) CfFun.pi)).congr' fun i x => ?_⟩
  · unfold acosWith
    rw [bind_ok hs]
  · rw [Lanes.lane_mul, Lanes.lane_ofRat, LanesFun.lane_pi, Real.arccos]; push_cast; ring

theorem acosWith_undef [LanesFun C ι] {bin : ℕ → ℕ → ℕ} (hd : d.Valid)
    (h : ¬ ∀ i : ι, |coeff 0 (d.toMv i : MvPolynomial String ℝ)| < 1) : acosWith bin d = .error .nonFinite := by
  unfold acosWith
  rw [bind_error (asinWith_undef hd h)]

/-- The 32 bit computation of the binomial coefficients is exact below 31. -/
theorem binomialU32_eq {k : ℕ} (hk : k ≤ 30) : ∀ j, 1 ≤ j → j ≤ k → binomialU32 k j = k.choose j := by
  have : ∀ k, k < 31 → ∀ j, j < 31 → 1 ≤ j → j ≤ k → binomialU32 k j = k.choose j := by decide +kernel
  exact fun j h1 h2 => this k (by omega) j (by omega) h1 h2

end GDual
end Audi
