import Verif.Proofs.RoundedFn

/-! Rounding errors of division, the logarithm, the roots, and the trigonometric and hyperbolic functions. -/

set_option linter.unusedSectionVars false

namespace Audi

open MvPolynomial Spec Rounding

variable {R : Rounding ℝ}

namespace GDual
variable {d : GDual (Fl R)}

theorem rrep_one (j : ℕ) : RRep j 0 (ofRat 1 : GDual (Fl R)) (C 1) (C 1) := by
  have h1 := Near.refl R 0 (1 : ℝ)
  rw [abs_one] at h1
  exact RRep.const (c := Cf.ofRat 1) (by rw [R.val_ofRat_one]; exact h1) 0

theorem isUnit_iff_ne {c : Fl R} : Cf.isUnit c = true ↔ c.val ≠ 0 := by simp [Cf.isUnit]

/-- `phat = (d - p0) / p0`. -/
theorem rrep_hat_div {p0 : Fl R} (hd : d.Valid) (h : d.constantCf = .ok p0) (h0 : d.coeffOf 0 ≠ 0) {j : ℕ} (hj : j ≤ d.order) :
    ∃ ph, (d.subGS p0).divGS p0 = .ok ph ∧ ph.order = d.order ∧
      RRep j 2 ph (d.varPart * C (d.coeffOf 0)⁻¹) (absPoly d.varPart * C |(d.coeffOf 0)⁻¹|) := by
  have hv0 := val_constantCf hd h
  rw [← hv0] at h0 ⊢
  obtain ⟨q, h1, h2, h3⟩ := (rrep_hat hd h j).divGS h0 (Near.refl R 0 _) hj
  exact ⟨q, h1, h2, h3⟩

/-! Division -/

theorem divSeries_rrep {p0 : Fl R} (hd : d.Valid) (h : d.constantCf = .ok p0) (h0 : d.coeffOf 0 ≠ 0) {j : ℕ} (hj : j ≤ d.order) :
    ∃ r, divSeries d p0 = .ok r ∧ r.order = d.order ∧ ∃ M, j < M ∧
      RRep j ((d.order + 2) * (2 ^ j + 4)) r (psum (fun i => (-1) ^ i * (d.coeffOf 0)⁻¹ ^ i) d.varPart M)
        (psum (fun i => |(d.coeffOf 0)⁻¹| ^ i) (absPoly d.varPart) M) := by
  obtain ⟨ph, hphe, hpo, hph⟩ := rrep_hat_div hd h h0 hj
  set n := d.order with hn
  set G := d.varPart * C (d.coeffOf 0)⁻¹ with hG
  set A := absPoly d.varPart * C |(d.coeffOf 0)⁻¹| with hA
  set B := 2 ^ j with hB
  set T := n * (B + 2) + 3 with hT
  have := foldl_range' (step := fun (s : DivSt (Fl R)) _ => divStep ph s)
    (Inv := fun k s => RRep j (T + k) s.retval (psum (fun i => (-1) ^ i) G k) (psum (fun _ => 1) A k) ∧ s.retval.order = n ∧
      RRep j ((k - 1) * (B + 2)) s.phat (G ^ (k - 1)) (A ^ (k - 1)) ∧ s.phat.order = n ∧ s.fatt.val = (-1) ^ (k - 1))
    (stp := 1) one_pos (n - 1) 2 ⟨(ofRat 1).sub ph, Cf.ofRat (-1), ph⟩
    ⟨((((rrep_one j).mono (Nat.zero_le 2)).sub hph).congr (by rw [psum_two]; simp [sub_eq_add_neg]) (by rw [psum_two]; simp)).mono (by omega),
      by change max 0 ph.order = n; rw [hpo]; simp,
      (hph.congr (by simp) (by simp)).mono (by simp), hpo, by rw [R.val_ofRat_neg_one]; simp⟩
    (by
      rintro k s hk hk' ⟨i1, i2, i3, i4, i5⟩
      obtain ⟨k, rfl⟩ : ∃ l, k = l + 1 := ⟨k - 1, by omega⟩
      rw [Nat.add_sub_cancel] at i3 i5
      have e1 : RRep j ((k + 1) * (B + 2)) (s.phat.mul ph) (G ^ (k + 1)) (A ^ (k + 1)) :=
        ((i3.mul hph (by rw [i4, hpo]; simpa using hj)).congr (pow_succ _ _).symm (pow_succ _ _).symm).mono (by rw [add_mul]; omega)
      have e2 : (s.phat.mul ph).order = n := by change max s.phat.order ph.order = n; rw [i4, hpo, max_self]
      have e3 : (Cf.mul (Cf.ofRat (-1)) s.fatt : Fl R).val = (-1) ^ (k + 1) := by
        change R.rnd ((Cf.ofRat (-1) : Fl R).val * s.fatt.val) = _
        rw [R.val_ofRat_neg_one, neg_one_mul, R.rnd_neg, s.fatt.repr, i5, pow_succ]; ring
      have e4 : R.Near 0 (Cf.mul (Cf.ofRat (-1)) s.fatt : Fl R).val ((-1) ^ (k + 1)) 1 := by
        rw [e3]
        have := Near.refl R 0 ((-1 : ℝ) ^ (k + 1))
        rwa [abs_pow, abs_neg, abs_one, one_pow] at this
      have e5 := e1.mulSG e4 (hj.trans e2.ge)
      refine ⟨?_, ?_, ?_, ?_, ?_⟩
      · refine ((i1.add (e5.mono ?_)).congr ?_ ?_).mono (by omega)
        · have : (k + 1) * (B + 2) ≤ n * (B + 2) := Nat.mul_le_mul_right _ (by omega)
          omega
        · rw [psum_succ _ _ (k + 1)]
        · rw [psum_succ _ _ (k + 1)]
      · change max s.retval.order ((s.phat.mul ph).mulSG _).order = n
        rw [order_mulSG, e2, i2, max_self]
      · rw [show k + 1 + 1 - 1 = k + 1 by omega]; exact e1
      · exact e2
      · rw [show k + 1 + 1 - 1 = k + 1 by omega]; exact e3)
  obtain ⟨h2, h3, -⟩ := this
  refine ⟨_, ?_, h3, 2 + 1 * (n - 1), by omega, (h2.congr ?_ ?_).mono ?_⟩
  · unfold divSeries
    rw [bind_ok hphe]
  · rw [hG, psum_scale]
  · rw [hA, psum_scale]
    exact psum_congr (fun i _ => one_mul _) _
  · have : 1 ≤ B := Nat.one_le_two_pow
    rw [hT]
    nlinarith [Nat.sub_le n 1]

/-- The polynomial of a gdual. -/
theorem rrep_self {a : GDual (Fl R)} (ha : a.Valid) (j : ℕ) : RRep j 0 a (a.exact.toMv ()) (absPoly (a.exact.toMv ())) where
  vr := ha
  near := fun E _ => by
    rw [coeff_absPoly]
    exact Near.refl R 0 _

theorem div_rrep {a : GDual (Fl R)} (ha : a.Valid) (hd : d.Valid) (h0 : d.coeffOf 0 ≠ 0) {j : ℕ} (hj : j ≤ d.order) :
    ∃ r, a.div d = .ok r ∧ r.order = max a.order d.order ∧ ∃ M, j < M ∧
      RRep j ((d.order + 3) * (2 ^ j + 4)) r (a.exact.toMv () * psum (fun i => (-1) ^ i * (d.coeffOf 0)⁻¹ ^ (i + 1)) d.varPart M)
        (absPoly (a.exact.toMv ()) * psum (fun i => |(d.coeffOf 0)⁻¹| ^ (i + 1)) (absPoly d.varPart) M) := by
  obtain ⟨p0, hp0⟩ := constantCf_isOk d
  have hv0 := val_constantCf hd hp0
  obtain ⟨s, h1, h2, M, hM, h3⟩ := divSeries_rrep hd hp0 h0 hj
  have h4 := (rrep_self ha j).mul h3 (by rw [h2]; exact hj.trans (le_max_right _ _))
  have h5 : (a.mul s).order = max a.order d.order := by change max a.order s.order = _; rw [h2]
  obtain ⟨r, g1, g2, g3⟩ := h4.divGS (c := p0) (by rw [hv0]; exact h0) (Near.refl R 0 _) (by rw [h5]; exact hj.trans (le_max_right _ _))
  refine ⟨r, ?_, g2.trans h5, M, hM, (g3.congr ?_ ?_).mono ?_⟩
  · unfold div
    rw [bind_ok hp0, if_pos (isUnit_iff_ne.2 (by rw [hv0]; exact h0)), bind_ok h1]
    exact g1
  · rw [hv0, mul_assoc, psum_mul_C]
    congr 1
    exact psum_congr (fun i _ => by ring) _
  · rw [hv0, mul_assoc, psum_mul_C]
    congr 1
    exact psum_congr (fun i _ => by ring) _
  · nlinarith [Nat.one_le_two_pow (n := j)]

theorem divSG_rrep (c : Fl R) (hd : d.Valid) (h0 : d.coeffOf 0 ≠ 0) {j : ℕ} (hj : j ≤ d.order) :
    ∃ r, divSG c d = .ok r ∧ r.order = d.order ∧ ∃ M, j < M ∧
      RRep j ((d.order + 3) * (2 ^ j + 4)) r (psum (fun i => c.val * ((-1) ^ i * (d.coeffOf 0)⁻¹ ^ (i + 1))) d.varPart M)
        (psum (fun i => |c.val| * |(d.coeffOf 0)⁻¹| ^ (i + 1)) (absPoly d.varPart) M) := by
  obtain ⟨p0, hp0⟩ := constantCf_isOk d
  have hv0 := val_constantCf hd hp0
  obtain ⟨s, h1, h2, M, hM, h3⟩ := divSeries_rrep hd hp0 h0 hj
  have h4 := h3.mulSG (Near.refl R 0 c.val) (hj.trans h2.ge)
  have h5 : (s.mulSG c).order = d.order := by rw [order_mulSG, h2]
  obtain ⟨r, g1, g2, g3⟩ := h4.divGS (c := p0) (by rw [hv0]; exact h0) (Near.refl R 0 _) (hj.trans h5.ge)
  refine ⟨r, ?_, g2.trans h5, M, hM, (g3.congr ?_ ?_).mono ?_⟩
  · unfold divSG
    rw [bind_ok hp0, if_pos (isUnit_iff_ne.2 (by rw [hv0]; exact h0)), bind_ok h1]
    exact g1
  · rw [hv0, mul_comm (C c.val), psum_mul_C, psum_mul_C]
    exact psum_congr (fun i _ => by ring) _
  · rw [hv0, mul_comm (C |c.val|), psum_mul_C, psum_mul_C]
    exact psum_congr (fun i _ => by ring) _
  · nlinarith [Nat.one_le_two_pow (n := j)]

/-! log -/

theorem log_rrep [Libm R] (hu : R.u ≤ 1 / 2) (hd : d.Valid) (h0 : 0 < d.coeffOf 0) {j : ℕ} (hj : j ≤ d.order) :
    ∃ r, log d = .ok r ∧ r.order = d.order ∧ ∃ M, j < M ∧
    RRep j ((d.order + 2) * (2 ^ j + 20) + Libm.acc R) r
      (psum (fun i => if i = 0 then Real.log (d.coeffOf 0) else (-1) ^ (i - 1) / i * (d.coeffOf 0)⁻¹ ^ i) d.varPart M)
      (psum (fun i => if i = 0 then |Real.log (d.coeffOf 0)| else 1 / i * |(d.coeffOf 0)⁻¹| ^ i) (absPoly d.varPart) M) := by
  obtain ⟨p0, hp0⟩ := constantCf_isOk d
  have hv0 := val_constantCf hd hp0
  obtain ⟨ph, hphe, hpo, hph⟩ := rrep_hat_div hd hp0 h0.ne' hj
  have hok : CfFun.logOk p0 = true := by
    change decide (0 < p0.val) = true
    rw [hv0]; exact decide_eq_true h0
  have hlog : R.Near (Libm.acc R) (CfFun.log p0 : Fl R).val (Real.log (d.coeffOf 0)) |Real.log (d.coeffOf 0)| :=
    ⟨by rw [← hv0]; exact Libm.log_err p0 (by rw [hv0]; exact h0), le_rfl⟩
  set n := d.order with hn
  set G := d.varPart * C (d.coeffOf 0)⁻¹ with hG
  set A := absPoly d.varPart * C |(d.coeffOf 0)⁻¹| with hA
  set B := 2 ^ j with hB
  set T := n * (B + 2) + Libm.acc R + 10 with hT
  set b : ℕ → ℝ := fun i => if i = 0 then Real.log (d.coeffOf 0) else (-1) ^ (i - 1) / i with hb
  set b' : ℕ → ℝ := fun i => if i = 0 then |Real.log (d.coeffOf 0)| else 1 / i with hb'
  obtain ⟨st, h1, h2, h3, -⟩ := foldlM_range' (step := logStep ph)
    (Inv := fun k s => RRep j (T + k) s.retval (psum b G k) (psum b' A k) ∧ s.retval.order = n ∧
      RRep j ((k - 1) * (B + 2)) s.phat (G ^ (k - 1)) (A ^ (k - 1)) ∧ s.phat.order = n ∧
      ∃ c : Fl R, s.fatt = ofCfOrder c 0 ∧ c.val = (-1) ^ k)
    (stp := 1) one_pos (n - 1) 2 ⟨ph.addSG (CfFun.log p0), ofRat 1, ph⟩
    ⟨((RRep.addSG (k := Libm.acc R + 2) (hlog.mono (by omega)) (hph.mono (by omega))).congr (by rw [psum_two]; simp [hb])
        (by rw [psum_two]; simp [hb'])).mono (by omega),
      hpo, (hph.congr (by simp) (by simp)).mono (by simp), hpo, Cf.ofRat 1, rfl, by rw [R.val_ofRat_one]; norm_num⟩
    (by
      rintro k s hk hk' ⟨i1, i2, i3, i4, c, i5, i6⟩
      obtain ⟨k, rfl⟩ : ∃ l, k = l + 1 := ⟨k - 1, by omega⟩
      rw [Nat.add_sub_cancel] at i3
      have e1 : RRep j ((k + 1) * (B + 2)) (s.phat.mul ph) (G ^ (k + 1)) (A ^ (k + 1)) :=
        ((i3.mul hph (by rw [i4, hpo]; simpa using hj)).congr (pow_succ _ _).symm (pow_succ _ _).symm).mono (by rw [add_mul]; omega)
      have e2 : (s.phat.mul ph).order = n := by change max s.phat.order ph.order = n; rw [i4, hpo, max_self]
      have c0 : c.val ≠ 0 := by rw [i6]; exact pow_ne_zero _ (by norm_num)
      have m1 : (Cf.ofRat (-1) : Fl R).val ≠ 0 := by rw [R.val_ofRat_neg_one]; norm_num
      have e3 : (Cf.mul c (Cf.ofRat (-1)) : Fl R).val = (-1) ^ (k + 1 + 1) := by
        change R.rnd (c.val * (Cf.ofRat (-1) : Fl R).val) = _
        rw [R.val_ofRat_neg_one, mul_neg_one, R.rnd_neg, c.repr, i6, pow_succ _ (k + 1)]; ring
      have e4 : R.Near 0 (Cf.mul c (Cf.ofRat (-1)) : Fl R).val ((-1) ^ (k + 1 + 1)) 1 := by
        rw [e3]
        have := Near.refl R 0 ((-1 : ℝ) ^ (k + 1 + 1))
        rwa [abs_pow, abs_neg, abs_one, one_pow] at this
      have e5 := (RRep.const (j := j) e4 0).mul_of e1 (by rw [e2]; exact hj.trans (le_max_right _ _)) le_rfl (Or.inr (Or.inl (Poly.length_const _)))
      have e6 : ((ofCfOrder (Cf.mul c (Cf.ofRat (-1))) 0).mul (s.phat.mul ph)).order = n := by
        change max 0 (s.phat.mul ph).order = n
        rw [e2]; simp
      have hk1 : (0 : ℝ) < (((k + 1 : ℕ) : ℚ) : ℝ) := by push_cast; positivity
      obtain ⟨q, hq, hqo, hqr⟩ := e5.divGS_rat hu hk1 (hj.trans e6.ge)
      refine ⟨⟨s.retval.add q, s.fatt.mulGS (Cf.ofRat (-1)), s.phat.mul ph⟩, ?_, ?_, ?_, ?_, e2, _, ?_, e3⟩
      · unfold logStep
        simp only
        rw [i5, const_mulGS c0 m1, bind_ok hq]
      · refine ((i1.add (hqr.mono ?_)).congr ?_ ?_).mono (by omega)
        · have : (k + 1) * (B + 2) ≤ n * (B + 2) := Nat.mul_le_mul_right _ (by omega)
          omega
        · rw [psum_succ _ _ (k + 1)]
          have : b (k + 1) = (-1) ^ (k + 1 + 1) * (((k + 1 : ℕ) : ℚ) : ℝ)⁻¹ := by
            simp only [hb, Nat.succ_ne_zero, if_false, Nat.add_sub_cancel]
            rw [pow_succ, pow_succ]; push_cast; ring
          rw [this, map_mul]; ring
        · rw [psum_succ _ _ (k + 1)]
          have : b' (k + 1) = (((k + 1 : ℕ) : ℚ) : ℝ)⁻¹ := by simp [hb']
          rw [this, map_one]; ring
      · change max s.retval.order q.order = n
        rw [i2, hqo, e6, max_self]
      · rw [show k + 1 + 1 - 1 = k + 1 by omega]; exact e1
      · rw [i5, const_mulGS c0 m1])
  refine ⟨st.retval, ?_, h3, 2 + 1 * (n - 1), by omega, (h2.congr ?_ ?_).mono ?_⟩
  · unfold log
    rw [bind_ok hp0, bind_ok (guardFinite_true hok), bind_ok hphe]
    change ((List.range' 2 (n - 1)).foldlM (logStep ph) _ >>= _) = _
    rw [bind_ok h1]
  · rw [hG, psum_scale]
    refine psum_congr (fun i _ => ?_) _
    simp only [hb]
    split_ifs with h
    · rw [h, pow_zero, mul_one]
    · rfl
  · rw [hA, psum_scale]
    refine psum_congr (fun i _ => ?_) _
    simp only [hb']
    split_ifs with h
    · rw [h, pow_zero, mul_one]
    · rfl
  · have : 1 ≤ B := Nat.one_le_two_pow
    rw [hT]
    nlinarith [Nat.sub_le n 1]

/-! Roots -/

theorem near_binomialC [Libm R] (hu : R.u ≤ 1 / 2) {alpha : Fl R} {α : ℝ} (hα : R.Near 4 alpha.val α α) (h0 : 0 < α) (h1 : α ≤ 1 / 2) {k : ℕ} (hk : 1 ≤ k) :
    R.Near (17 * k) (binomialC alpha k).val (binR α k) |binR α k| := by
  have := foldl_range' (step := fun (retval : Fl R) (i : ℕ) =>
      Cf.div (Cf.mul retval (Cf.sub alpha (Cf.ofRat i))) (Cf.ofRat ((i : ℚ) + 1)))
    (Inv := fun j c => R.Near (17 * j) c.val (binR α j) |binR α j|) (stp := 1) one_pos (k - 1) 1 alpha
    (by
      rw [binR_succ, binR_zero]
      have := hα.mono (show 4 ≤ 17 * 1 by norm_num)
      simpa [abs_of_pos h0] using this)
    (fun j c hj _ hc => by
      have hj1 : (1 : ℝ) ≤ j := by exact_mod_cast hj
      have e1 : R.Near 4 (Cf.ofRat (j : ℚ) : Fl R).val (j : ℝ) (j : ℝ) := by
        have := (R.near_ofRat (j : ℚ)).mono (show 1 ≤ 4 by norm_num)
        rw [Rat.cast_natCast, abs_of_nonneg (by linarith)] at this
        exact this
      have e2 := hα.add e1.neg
      have e3 : R.Near 12 (alpha.val + -(Cf.ofRat (j : ℚ) : Fl R).val) (α + -(j : ℝ)) |α - j| := by
        refine ⟨e2.1.trans ?_, by rw [sub_eq_add_neg]⟩
        have h2 : α + j ≤ 3 * |α - j| := by
          rw [abs_of_nonpos (by linarith)]; linarith
        have h3 := R.one_le_pow 4
        have h4 : ((1 + R.u) ^ 4 - 1) * 3 ≤ (1 + R.u) ^ 12 - 1 := by
          set t := (1 + R.u) ^ 4
          have : (1 + R.u) ^ 12 = t ^ 3 := by rw [← pow_mul]
          rw [this]
          nlinarith [mul_nonneg (sub_nonneg.mpr h3) (sub_nonneg.mpr h3)]
        calc ((1 + R.u) ^ 4 - 1) * (α + j) ≤ ((1 + R.u) ^ 4 - 1) * (3 * |α - j|) := mul_le_mul_of_nonneg_left h2 (by linarith)
          _ = (((1 + R.u) ^ 4 - 1) * 3) * |α - j| := by ring
          _ ≤ _ := mul_le_mul_of_nonneg_right h4 (abs_nonneg _)
      have e4 := (hc.mul e3.rnd).rnd
      have hp : (0 : ℝ) < (((j : ℚ) + 1 : ℚ) : ℝ) := by push_cast; linarith
      have e5 := (R.rel_ofRat ((j : ℚ) + 1)).inv.near hu
      have e6 := ((e4.mul e5).rnd).mono (show 17 * j + (12 + 1) + 1 + 2 * 1 + 1 ≤ 17 * (j + 1) by omega)
      have e7 : (Cf.div (Cf.mul c (Cf.sub alpha (Cf.ofRat j))) (Cf.ofRat ((j : ℚ) + 1)) : Fl R).val =
          R.rnd (R.rnd (c.val * R.rnd (alpha.val + -(Cf.ofRat (j : ℚ) : Fl R).val)) * (Cf.ofRat ((j : ℚ) + 1) : Fl R).val⁻¹) := by
        rw [← div_eq_mul_inv, ← sub_eq_add_neg]; rfl
      rw [e7]
      have e8 : binR α (j + 1) = binR α j * (α + -(j : ℝ)) * (((j : ℚ) + 1 : ℚ) : ℝ)⁻¹ := by
        rw [binR_succ, div_eq_mul_inv, sub_eq_add_neg]; push_cast; rfl
      rw [e8, abs_mul, abs_mul, ← sub_eq_add_neg]
      rw [← sub_eq_add_neg] at e6
      exact e6)
  rw [one_mul, show 1 + (k - 1) = k by omega] at this
  exact this

theorem rootSeries_rrep [Libm R] (hu : R.u ≤ 1 / 2) {alpha p0 rt : Fl R} {α ρ : ℝ} {acc : ℕ} (hα : R.Near 4 alpha.val α α) (hα0 : 0 < α) (hα1 : α ≤ 1 / 2)
    (hrt : R.Near acc rt.val ρ |ρ|) (hd : d.Valid) (hp0 : d.constantCf = .ok p0) (h0 : d.coeffOf 0 ≠ 0) {j : ℕ} (hj : j ≤ d.order) :
    ∃ r, rootSeries d alpha p0 rt = .ok r ∧ r.order = d.order ∧ ∃ M, j < M ∧
    RRep j ((d.order + 2) * (2 ^ j + 20) + acc) r (psum (fun i => ρ * binR α i * (d.coeffOf 0)⁻¹ ^ i) d.varPart M)
      (psum (fun i => |ρ| * |binR α i| * |(d.coeffOf 0)⁻¹| ^ i) (absPoly d.varPart) M) := by
  obtain ⟨ph, hphe, hpo, hph⟩ := rrep_hat_div hd hp0 h0 hj
  set n := d.order with hn
  set G := d.varPart * C (d.coeffOf 0)⁻¹ with hG
  set A := absPoly d.varPart * C |(d.coeffOf 0)⁻¹| with hA
  set B := 2 ^ j with hB
  set T := n * (B + 19) + 10 with hT
  obtain ⟨h2, h3, -⟩ := foldl_range' (step := rootStep alpha ph)
    (Inv := fun k s => RRep j (T + k) s.retval (psum (binR α) G k) (psum (fun i => |binR α i|) A k) ∧ s.retval.order = n ∧
      RRep j ((k - 1) * (B + 2)) s.phat (G ^ (k - 1)) (A ^ (k - 1)) ∧ s.phat.order = n)
    (stp := 1) one_pos (n - 1) 2 ⟨(ofRat 1).add (ph.mulSG alpha), ph⟩
    ⟨((((rrep_one j).mono (Nat.zero_le (4 + 2 + 1))).add (hph.mulSG hα (hj.trans hpo.ge))).congr (by
        rw [psum_two, binR_succ, binR_zero]; simp) (by rw [psum_two, binR_succ, binR_zero]; simp [abs_of_pos hα0])).mono (by omega),
      by change max 0 (ph.mulSG alpha).order = n; rw [order_mulSG, hpo]; simp,
      (hph.congr (by simp) (by simp)).mono (by simp), hpo⟩
    (by
      rintro k s hk hk' ⟨i1, i2, i3, i4⟩
      obtain ⟨k, rfl⟩ : ∃ l, k = l + 1 := ⟨k - 1, by omega⟩
      rw [Nat.add_sub_cancel] at i3
      have e1 : RRep j ((k + 1) * (B + 2)) (s.phat.mul ph) (G ^ (k + 1)) (A ^ (k + 1)) :=
        ((i3.mul hph (by rw [i4, hpo]; simpa using hj)).congr (pow_succ _ _).symm (pow_succ _ _).symm).mono (by rw [add_mul]; omega)
      have e2 : (s.phat.mul ph).order = n := by change max s.phat.order ph.order = n; rw [i4, hpo, max_self]
      have e3 := e1.mulSG (near_binomialC hu hα hα0 hα1 (k := k + 1) (by omega)) (hj.trans e2.ge)
      refine ⟨((i1.add (e3.mono ?_)).congr ?_ ?_).mono (by omega), ?_, ?_, e2⟩
      · have : (k + 1) * (B + 19) ≤ n * (B + 19) := Nat.mul_le_mul_right _ (by omega)
        have h5 : (k + 1) * (B + 19) = (k + 1) * (B + 2) + 17 * (k + 1) := by ring
        omega
      · rw [psum_succ _ _ (k + 1)]
      · rw [psum_succ _ _ (k + 1)]
      · change max s.retval.order ((s.phat.mul ph).mulSG _).order = n
        rw [order_mulSG, e2, i2, max_self]
      · rw [show k + 1 + 1 - 1 = k + 1 by omega]; exact e1)
  refine ⟨_, ?_, ?_, 2 + 1 * (n - 1), by omega, ((h2.mulGS hrt (hj.trans h3.ge)).congr ?_ ?_).mono ?_⟩
  · unfold rootSeries
    rw [bind_ok hphe]
  · rw [order_mulGS]; exact h3
  · rw [hG, psum_scale, psum_mul_C]
    exact psum_congr (fun i _ => by ring) _
  · rw [hA, psum_scale, psum_mul_C]
    exact psum_congr (fun i _ => by ring) _
  · have : 1 ≤ B := Nat.one_le_two_pow
    rw [hT]
    nlinarith [Nat.sub_le n 1]

/-! Trigonometric and hyperbolic functions -/

theorem _root_.Audi.RRep.eqUpTo {r : GDual (Fl R)} {P Q P' Q' : MvPolynomial String ℝ} {j k : ℕ} (h : RRep j k r P Q) (h1 : EqUpTo j P P')
    (h2 : EqUpTo j Q Q') : RRep j k r P' Q' := ⟨h.vr, fun E hE => by rw [← h1 E hE, ← h2 E hE]; exact h.near E hE⟩

/-- Series of gduals without constant term have the coefficients of their first terms. -/
theorem _root_.Audi.RRep.psum_cut {r : GDual (Fl R)} {j k M : ℕ} {b b' : ℕ → ℝ} (hM : j < M)
    (h : RRep j k r (psum b d.varPart M) (psum b' (absPoly d.varPart) M)) :
    RRep j k r (psum b d.varPart (j + 1)) (psum b' (absPoly d.varPart) (j + 1)) :=
  h.eqUpTo (psum_eqUpTo _ (coeff_zero_varPart d) hM) (psum_eqUpTo _ (coeff_zero_absPoly d) hM)

theorem cof_eq_zero_of_order {r : GDual (Fl R)} (hr : r.Valid) {E : String →₀ ℕ} (hE : r.order < E.degree) : r.p.cof E = 0 := by
  by_contra h
  obtain ⟨t, ht, rfl⟩ := Poly.cof_ne_zero h
  have h1 := hr.deg t ht
  rw [degree_toExp (hr.wf.len t ht)] at hE
  omega

/-- The number times the gdual `1`. -/
theorem rrep_mulSG_one {c : Fl R} {x X : ℝ} {i : ℕ} (hc : R.Near i c.val x X) (j : ℕ) : RRep j (i + 1) ((ofRat 1).mulSG c) (C x) (C X) where
  vr := ((rrep_one 0).mulSG hc le_rfl).vr
  near := fun E hE => by
    have h := (rrep_one 0).mulSG hc (le_refl 0)
    rcases Nat.eq_zero_or_pos E.degree with h0 | h0
    · have := h.near E h0.le
      rwa [map_one, mul_one, mul_one] at this
    · rw [cof_eq_zero_of_order h.vr (by rw [order_mulSG]; exact h0), coeff_C, coeff_C, if_neg, if_neg]
      · exact Near.zero R _
      · rintro rfl; simp at h0
      · rintro rfl; simp at h0

/-- The loops of sine and cosine. -/
theorem trigLoop_rrep [Libm R] (hu : R.u ≤ 1 / 2) {phat2 : GDual (Fl R)} {H A : MvPolynomial String ℝ} {j n B : ℕ} (hB : B = 2 ^ j) (hj : j ≤ n)
    (h2 : RRep j B phat2 (H ^ 2) (A ^ 2)) (h2o : phat2.order = n) {b : ℕ → ℝ} (start len : ℕ) (hs : 2 ≤ start)
    (hb : ∀ k, k % 2 = start % 2 → b k = eps k / k.factorial) (hb' : ∀ k, k % 2 ≠ start % 2 → b k = 0) (hs3 : start ≤ 3) (hlen : len = 0 ∨ start + 2 * len ≤ n + 2)
    (s0 : TrigSt (Fl R)) (i1 : RRep j 0 s0.taylor (psum b H start) (psum (fun i => |b i|) A start)) (o1 : s0.taylor.order ≤ n)
    (i2 : RRep j 0 s0.tmp (H ^ (start - 2)) (A ^ (start - 2))) (o2 : s0.tmp.order ≤ n)
    (i3 : R.Rel (start - 2) s0.factorial.val (start - 2).factorial) (i4 : s0.coeff = (-1) ^ ((start - 2) / 2)) :
    ∃ st, (List.range' start len 2).foldlM (trigStep phat2) s0 = .ok st ∧
      RRep j (n * B + 2 * n + 6 + n + 3) st.taylor (psum b H (start + 2 * len)) (psum (fun i => |b i|) A (start + 2 * len)) ∧
      (st.taylor.order = n ∨ len = 0 ∧ st = s0) := by
  obtain ⟨st, h1, h3, h5, -⟩ := foldlM_range' (step := trigStep phat2)
    (Inv := fun k s => RRep j (n * B + 2 * n + 6 + k) s.taylor (psum b H k) (psum (fun i => |b i|) A k) ∧ (s.taylor.order = n ∨ k = start ∧ s = s0) ∧
      RRep j ((k - 2) * B) s.tmp (H ^ (k - 2)) (A ^ (k - 2)) ∧ s.tmp.order ≤ n ∧ s.taylor.order ≤ n ∧
      R.Rel (k - 2) s.factorial.val (k - 2).factorial ∧ s.coeff = (-1) ^ ((k - 2) / 2) ∧ k % 2 = start % 2)
    (stp := 2) two_pos len start s0 ⟨i1.mono (Nat.zero_le _), Or.inr ⟨rfl, rfl⟩, i2.mono (Nat.zero_le _), o2, o1, i3, i4, rfl⟩
    (by
      rintro k s hk hk' ⟨j1, jo, j2, jt, jt', j3, j4, j5⟩
      obtain ⟨k, rfl⟩ : ∃ l, k = l + 2 := ⟨k - 2, by omega⟩
      rw [Nat.add_sub_cancel] at j2
      have e1 : RRep j ((k + 2) * B) (s.tmp.mul phat2) (H ^ (k + 2)) (A ^ (k + 2)) :=
        ((j2.mul h2 (by rw [h2o]; exact hj.trans (le_max_right _ _))).congr (pow_add _ _ _).symm (pow_add _ _ _).symm).mono
          (by rw [← hB]; exact le_of_eq (by ring))
      have e1o : (s.tmp.mul phat2).order = n := by change max s.tmp.order phat2.order = n; rw [h2o]; exact max_eq_right jt
      have e2 : R.Rel (k + 2) (Cf.mul s.factorial (Cf.ofRat (((k + 2 : ℕ) : ℚ) * (((k + 2 : ℕ) : ℚ) - 1)))).val ((k + 2).factorial : ℝ) := by
        rw [Nat.add_sub_cancel] at j3
        have h := (j3.mul (R.rel_ofRat (((k + 2 : ℕ) : ℚ) * (((k + 2 : ℕ) : ℚ) - 1)))).rnd
        have h' : ((k.factorial : ℝ)) * ((((k + 2 : ℕ) : ℚ) * (((k + 2 : ℕ) : ℚ) - 1) : ℚ) : ℝ) = ((k + 2).factorial : ℝ) := by
          rw [← Rat.cast_natCast (α := ℝ) k.factorial, ← Rat.cast_mul, ← Rat.cast_natCast (α := ℝ) (k + 2).factorial]
          have := fact_step (k := k + 2) (by omega)
          rw [Nat.add_sub_cancel] at this
          rw [this]
        rw [h'] at h
        exact h
      have e3 : -s.coeff = (-1) ^ ((k + 2) / 2) := by rw [j4]; exact eps_step (by omega)
      have hk0 : (0 : ℝ) < ((k + 2).factorial : ℝ) := by exact_mod_cast Nat.factorial_pos _
      have hc : R.Near 1 (Cf.ofRat ((-1) ^ ((k + 2) / 2)) : Fl R).val (eps (k + 2)) 1 := by
        have := R.near_ofRat ((-1) ^ ((k + 2) / 2))
        push_cast at this
        rwa [abs_pow, abs_neg, abs_one, one_pow] at this
      obtain ⟨q, hq, hqo, hqr⟩ := (e1.mulSG hc (hj.trans e1o.ge)).divGS_rel hu hk0 e2 (by rw [order_mulSG]; exact hj.trans e1o.ge)
      have hqo' : q.order = n := by rw [hqo, order_mulSG, e1o]
      refine ⟨⟨s.taylor.add q, s.tmp.mul phat2, Cf.mul s.factorial (Cf.ofRat (((k + 2 : ℕ) : ℚ) * (((k + 2 : ℕ) : ℚ) - 1))), (-1) ^ ((k + 2) / 2)⟩, ?_, ?_,
        Or.inl (by change max s.taylor.order q.order = n; rw [hqo']; exact max_eq_right jt'), ?_, e1o.le,
        by change max s.taylor.order q.order ≤ n; rw [hqo']; exact max_le jt' le_rfl, by rw [Nat.add_sub_cancel]; exact e2,
        by rw [Nat.add_sub_cancel], by omega⟩
      · unfold trigStep
        simp only [e3]
        rw [bind_ok hq]
      · refine ((j1.add (hqr.mono ?_)).congr ?_ ?_).mono (by omega)
        · have : (k + 2) * B ≤ n * B := Nat.mul_le_mul_right _ (by omega)
          omega
        · rw [psum_succ _ _ (k + 2 + 1), psum_succ _ _ (k + 2), hb (k + 2) j5, hb' (k + 2 + 1) (by omega), div_eq_mul_inv, map_mul, map_zero]
          ring
        · rw [psum_succ _ _ (k + 2 + 1), psum_succ _ _ (k + 2), hb (k + 2) j5, hb' (k + 2 + 1) (by omega), div_eq_mul_inv, abs_mul, abs_zero, map_zero, eps,
            abs_pow, abs_neg, abs_one, one_pow, abs_of_pos (by positivity), map_one, one_mul]
          ring_nf
      · rw [show k + 2 + 2 - 2 = k + 2 by omega]; exact e1)
  refine ⟨st, h1, h3.mono (by omega), ?_⟩
  rcases h5 with h5 | ⟨h5, h6⟩
  · exact Or.inl h5
  · exact Or.inr ⟨by omega, h6⟩

/-- The loops of the hyperbolic functions. -/
theorem hypLoop_rrep [Libm R] (hu : R.u ≤ 1 / 2) {phat2 : GDual (Fl R)} {H A : MvPolynomial String ℝ} {j n B : ℕ} (hB : B = 2 ^ j) (hj : j ≤ n)
    (h2 : RRep j B phat2 (H ^ 2) (A ^ 2)) (h2o : phat2.order = n) {b : ℕ → ℝ} (start len : ℕ) (hs : 2 ≤ start)
    (hb : ∀ k, k % 2 = start % 2 → b k = 1 / k.factorial) (hb' : ∀ k, k % 2 ≠ start % 2 → b k = 0) (hs3 : start ≤ 3) (hlen : len = 0 ∨ start + 2 * len ≤ n + 2)
    (s0 : TrigSt (Fl R)) (i1 : RRep j 0 s0.taylor (psum b H start) (psum (fun i => |b i|) A start)) (o1 : s0.taylor.order ≤ n)
    (i2 : RRep j 0 s0.tmp (H ^ (start - 2)) (A ^ (start - 2))) (o2 : s0.tmp.order ≤ n)
    (i3 : R.Rel (start - 2) s0.factorial.val (start - 2).factorial) :
    ∃ st, (List.range' start len 2).foldlM (hypStep phat2) s0 = .ok st ∧
      RRep j (n * B + 2 * n + 6 + n + 3) st.taylor (psum b H (start + 2 * len)) (psum (fun i => |b i|) A (start + 2 * len)) ∧
      (st.taylor.order = n ∨ len = 0 ∧ st = s0) := by
  obtain ⟨st, h1, h3, h5, -⟩ := foldlM_range' (step := hypStep phat2)
    (Inv := fun k s => RRep j (n * B + 2 * n + 6 + k) s.taylor (psum b H k) (psum (fun i => |b i|) A k) ∧ (s.taylor.order = n ∨ k = start ∧ s = s0) ∧
      RRep j ((k - 2) * B) s.tmp (H ^ (k - 2)) (A ^ (k - 2)) ∧ s.tmp.order ≤ n ∧ s.taylor.order ≤ n ∧
      R.Rel (k - 2) s.factorial.val (k - 2).factorial ∧ k % 2 = start % 2)
    (stp := 2) two_pos len start s0 ⟨i1.mono (Nat.zero_le _), Or.inr ⟨rfl, rfl⟩, i2.mono (Nat.zero_le _), o2, o1, i3, rfl⟩
    (by
      rintro k s hk hk' ⟨j1, jo, j2, jt, jt', j3, j5⟩
      obtain ⟨k, rfl⟩ : ∃ l, k = l + 2 := ⟨k - 2, by omega⟩
      rw [Nat.add_sub_cancel] at j2
      have e1 : RRep j ((k + 2) * B) (s.tmp.mul phat2) (H ^ (k + 2)) (A ^ (k + 2)) :=
        ((j2.mul h2 (by rw [h2o]; exact hj.trans (le_max_right _ _))).congr (pow_add _ _ _).symm (pow_add _ _ _).symm).mono
          (by rw [← hB]; exact le_of_eq (by ring))
      have e1o : (s.tmp.mul phat2).order = n := by change max s.tmp.order phat2.order = n; rw [h2o]; exact max_eq_right jt
      have e2 : R.Rel (k + 2) (Cf.mul s.factorial (Cf.ofRat (((k + 2 : ℕ) : ℚ) * (((k + 2 : ℕ) : ℚ) - 1)))).val ((k + 2).factorial : ℝ) := by
        rw [Nat.add_sub_cancel] at j3
        have h := (j3.mul (R.rel_ofRat (((k + 2 : ℕ) : ℚ) * (((k + 2 : ℕ) : ℚ) - 1)))).rnd
        have h' : ((k.factorial : ℝ)) * ((((k + 2 : ℕ) : ℚ) * (((k + 2 : ℕ) : ℚ) - 1) : ℚ) : ℝ) = ((k + 2).factorial : ℝ) := by
          rw [← Rat.cast_natCast (α := ℝ) k.factorial, ← Rat.cast_mul, ← Rat.cast_natCast (α := ℝ) (k + 2).factorial]
          have := fact_step (k := k + 2) (by omega)
          rw [Nat.add_sub_cancel] at this
          rw [this]
        rw [h'] at h
        exact h
      have hk0 : (0 : ℝ) < ((k + 2).factorial : ℝ) := by exact_mod_cast Nat.factorial_pos _
      obtain ⟨q, hq, hqo, hqr⟩ := e1.divGS_rel hu hk0 e2 (hj.trans e1o.ge)
      have hqo' : q.order = n := by rw [hqo, e1o]
      refine ⟨⟨s.taylor.add q, s.tmp.mul phat2, Cf.mul s.factorial (Cf.ofRat (((k + 2 : ℕ) : ℚ) * (((k + 2 : ℕ) : ℚ) - 1))), s.coeff⟩, ?_, ?_,
        Or.inl (by change max s.taylor.order q.order = n; rw [hqo']; exact max_eq_right jt'), ?_, e1o.le,
        by change max s.taylor.order q.order ≤ n; rw [hqo']; exact max_le jt' le_rfl, by rw [Nat.add_sub_cancel]; exact e2, by omega⟩
      · unfold hypStep
        simp only
        rw [bind_ok hq]
      · refine ((j1.add (hqr.mono ?_)).congr ?_ ?_).mono (by omega)
        · have : (k + 2) * B ≤ n * B := Nat.mul_le_mul_right _ (by omega)
          omega
        · rw [psum_succ _ _ (k + 2 + 1), psum_succ _ _ (k + 2), hb (k + 2) j5, hb' (k + 2 + 1) (by omega), one_div, map_zero]
          ring
        · rw [psum_succ _ _ (k + 2 + 1), psum_succ _ _ (k + 2), hb (k + 2) j5, hb' (k + 2 + 1) (by omega), one_div, abs_zero, map_zero,
            abs_of_pos (by positivity)]
          ring
      · rw [show k + 2 + 2 - 2 = k + 2 by omega]; exact e1)
  refine ⟨st, h1, h3.mono (by omega), ?_⟩
  rcases h5 with h5 | ⟨h5, h6⟩
  · exact Or.inl h5
  · exact Or.inr ⟨by omega, h6⟩

/-- Both parts of sine and cosine. -/
theorem trigParts_rrep [Libm R] (hu : R.u ≤ 1 / 2) (hd : d.Valid) {j : ℕ} (hj : j ≤ d.order) : ∃ (p0 : Fl R) (c s : GDual (Fl R)), d.constantCf = .ok p0 ∧
    p0.val = d.coeffOf 0 ∧
    cosTaylor d.order ((d.subGS p0).mul (d.subGS p0)) = .ok c ∧
    sinTaylor d.order (d.subGS p0) ((d.subGS p0).mul (d.subGS p0)) = .ok s ∧ c.order ≤ d.order ∧ s.order = d.order ∧
    (∀ (f : Fl R) (x X : ℝ) (i : ℕ), R.Near i f.val x X →
      RRep j (i + (d.order * 2 ^ j + 2 * d.order + 6 + d.order + 3) + 1) (c.mulSG f) (C x * psum csC d.varPart (j + 1)) (C X * psum (fun i => |csC i|) (absPoly d.varPart) (j + 1))) ∧
    RRep j (d.order * 2 ^ j + 2 * d.order + 6 + d.order + 3) s (psum snC d.varPart (j + 1)) (psum (fun i => |snC i|) (absPoly d.varPart) (j + 1)) := by
  obtain ⟨p0, hp0⟩ := constantCf_isOk d
  have hph := rrep_hat hd hp0 j
  have one1 : R.Rel 1 (1 : ℝ) 1 := by have := R.rel_ofRat 1; rwa [R.val_ofRat_one, Rat.cast_one] at this
  have hpo : (d.subGS p0).order = d.order := rfl
  have h2 : RRep j (2 ^ j) ((d.subGS p0).mul (d.subGS p0)) (d.varPart ^ 2) (absPoly d.varPart ^ 2) :=
    ((hph.mul hph (by simpa [hpo] using hj)).congr (sq _).symm (sq _).symm).mono (by omega)
  have h2o : ((d.subGS p0).mul (d.subGS p0)).order = d.order := by
    change max (d.subGS p0).order (d.subGS p0).order = _; rw [hpo, max_self]
  obtain ⟨st, c1, c2, c3⟩ := trigLoop_rrep hu rfl hj h2 h2o (b := csC) 2 (d.order / 2) le_rfl
    (fun k hk => by unfold csC chC; rw [if_pos hk]; ring) (fun k hk => by unfold csC chC; rw [if_neg hk]; ring) (by omega) (by omega)
    ⟨ofRat 1, ofRat 1, Cf.ofRat 1, 1⟩
    ((rrep_one j).congr (by rw [psum_two]; simp [csC, chC, eps]) (by rw [psum_two]; simp [csC, chC, eps])) (Nat.zero_le _)
    ((rrep_one j).congr (by simp) (by simp)) (Nat.zero_le _) (by rw [R.val_ofRat_one]; simpa using Rel.refl R 1) (by simp)
  obtain ⟨st', s1, s2, s3⟩ := trigLoop_rrep hu rfl hj h2 h2o (b := snC) 3 ((d.order - 1) / 2) (by omega)
    (fun k hk => by unfold snC shC; rw [if_pos hk]; ring) (fun k hk => by unfold snC shC; rw [if_neg hk]; ring) (by omega) (by omega)
    ⟨d.subGS p0, d.subGS p0, Cf.ofRat 1, 1⟩
    (hph.congr (by rw [psum_succ, psum_two]; simp [snC, shC, eps]) (by rw [psum_succ, psum_two]; simp [snC, shC, eps])) hpo.le
    (hph.congr (by simp) (by simp)) hpo.le (by rw [R.val_ofRat_one]; simpa using one1) (by simp)
  refine ⟨p0, st.taylor, st'.taylor, hp0, val_constantCf hd hp0, ?_, ?_, ?_, ?_, ?_, s2.psum_cut (by omega)⟩
  · unfold cosTaylor; rw [bind_ok c1]
  · unfold sinTaylor; rw [bind_ok s1]
  · rcases c3 with h | ⟨-, rfl⟩
    · exact h.le
    · exact Nat.zero_le _
  · rcases s3 with h | ⟨-, rfl⟩
    · exact h
    · exact hpo
  · intro f x X i hf
    rcases c3 with h | ⟨h, rfl⟩
    · exact (c2.psum_cut (by omega)).mulSG hf (hj.trans h.ge)
    · refine ((rrep_mulSG_one hf j).mono (by omega)).eqUpTo ?_ ?_
      · refine EqUpTo.trans (EqUpTo.of_eq ?_) (EqUpTo.mul (EqUpTo.refl _) (psum_eqUpTo csC (coeff_zero_varPart d) (show j + 1 ≤ 2 by omega)))
        rw [psum_two]; simp [csC, chC, eps]
      · refine EqUpTo.trans (EqUpTo.of_eq ?_) (EqUpTo.mul (EqUpTo.refl _) (psum_eqUpTo (fun i => |csC i|) (coeff_zero_absPoly d) (show j + 1 ≤ 2 by omega)))
        rw [psum_two]; simp [csC, chC, eps]

/-- Both parts of the hyperbolic functions. -/
theorem hypParts_rrep [Libm R] (hu : R.u ≤ 1 / 2) (hd : d.Valid) {j : ℕ} (hj : j ≤ d.order) : ∃ (p0 : Fl R) (c s : GDual (Fl R)), d.constantCf = .ok p0 ∧
    p0.val = d.coeffOf 0 ∧
    coshTaylor d.order ((d.subGS p0).mul (d.subGS p0)) = .ok c ∧
    sinhTaylor d.order (d.subGS p0) ((d.subGS p0).mul (d.subGS p0)) = .ok s ∧ c.order ≤ d.order ∧ s.order = d.order ∧
    (∀ (f : Fl R) (x X : ℝ) (i : ℕ), R.Near i f.val x X →
      RRep j (i + (d.order * 2 ^ j + 2 * d.order + 6 + d.order + 3) + 1) (c.mulSG f) (C x * psum chC d.varPart (j + 1)) (C X * psum (fun i => |chC i|) (absPoly d.varPart) (j + 1))) ∧
    RRep j (d.order * 2 ^ j + 2 * d.order + 6 + d.order + 3) s (psum shC d.varPart (j + 1)) (psum (fun i => |shC i|) (absPoly d.varPart) (j + 1)) := by
  obtain ⟨p0, hp0⟩ := constantCf_isOk d
  have hph := rrep_hat hd hp0 j
  have one1 : R.Rel 1 (1 : ℝ) 1 := by have := R.rel_ofRat 1; rwa [R.val_ofRat_one, Rat.cast_one] at this
  have hpo : (d.subGS p0).order = d.order := rfl
  have h2 : RRep j (2 ^ j) ((d.subGS p0).mul (d.subGS p0)) (d.varPart ^ 2) (absPoly d.varPart ^ 2) :=
    ((hph.mul hph (by simpa [hpo] using hj)).congr (sq _).symm (sq _).symm).mono (by omega)
  have h2o : ((d.subGS p0).mul (d.subGS p0)).order = d.order := by
    change max (d.subGS p0).order (d.subGS p0).order = _; rw [hpo, max_self]
  obtain ⟨st, c1, c2, c3⟩ := hypLoop_rrep hu rfl hj h2 h2o (b := chC) 2 (d.order / 2) le_rfl
    (fun k hk => by unfold chC; rw [if_pos hk]) (fun k hk => by unfold chC; rw [if_neg hk]) (by omega) (by omega)
    ⟨ofRat 1, ofRat 1, Cf.ofRat 1, 1⟩
    ((rrep_one j).congr (by rw [psum_two]; simp [chC]) (by rw [psum_two]; simp [chC])) (Nat.zero_le _)
    ((rrep_one j).congr (by simp) (by simp)) (Nat.zero_le _) (by rw [R.val_ofRat_one]; simpa using Rel.refl R 1)
  obtain ⟨st', s1, s2, s3⟩ := hypLoop_rrep hu rfl hj h2 h2o (b := shC) 3 ((d.order - 1) / 2) (by omega)
    (fun k hk => by unfold shC; rw [if_pos hk]) (fun k hk => by unfold shC; rw [if_neg hk]) (by omega) (by omega)
    ⟨d.subGS p0, d.subGS p0, Cf.ofRat 1, 1⟩
    (hph.congr (by rw [psum_succ, psum_two]; simp [shC]) (by rw [psum_succ, psum_two]; simp [shC])) hpo.le
    (hph.congr (by simp) (by simp)) hpo.le (by rw [R.val_ofRat_one]; simpa using one1)
  refine ⟨p0, st.taylor, st'.taylor, hp0, val_constantCf hd hp0, ?_, ?_, ?_, ?_, ?_, s2.psum_cut (by omega)⟩
  · unfold coshTaylor; rw [bind_ok c1]
  · unfold sinhTaylor; rw [bind_ok s1]
  · rcases c3 with h | ⟨-, rfl⟩
    · exact h.le
    · exact Nat.zero_le _
  · rcases s3 with h | ⟨-, rfl⟩
    · exact h
    · exact hpo
  · intro f x X i hf
    rcases c3 with h | ⟨h, rfl⟩
    · exact (c2.psum_cut (by omega)).mulSG hf (hj.trans h.ge)
    · refine ((rrep_mulSG_one hf j).mono (by omega)).eqUpTo ?_ ?_
      · refine EqUpTo.trans (EqUpTo.of_eq ?_) (EqUpTo.mul (EqUpTo.refl _) (psum_eqUpTo chC (coeff_zero_varPart d) (show j + 1 ≤ 2 by omega)))
        rw [psum_two]; simp [chC]
      · refine EqUpTo.trans (EqUpTo.of_eq ?_) (EqUpTo.mul (EqUpTo.refl _) (psum_eqUpTo (fun i => |chC i|) (coeff_zero_absPoly d) (show j + 1 ≤ 2 by omega)))
        rw [psum_two]; simp [chC]

theorem psum_lin (α β : ℝ) (b b' : ℕ → ℝ) (P : MvPolynomial String ℝ) (n : ℕ) : C α * psum b P n + C β * psum b' P n = psum (fun j => α * b j + β * b' j) P n := by
  unfold psum
  rw [Finset.mul_sum, Finset.mul_sum, ← Finset.sum_add_distrib]
  refine Finset.sum_congr rfl fun j _ => ?_
  rw [map_add, map_mul, map_mul]; ring

/-- The two parts together. -/
theorem comb_rrep {c s : GDual (Fl R)} {f g : Fl R} {F G : ℝ} {n j a N : ℕ} {b b' : ℕ → ℝ} (hj : j ≤ n) (hco : c.order ≤ n) (hso : s.order = n)
    (hf : R.Near a f.val F |F|) (hg : R.Near a g.val G |G|)
    (hc : ∀ (f : Fl R) (x X : ℝ) (i : ℕ), R.Near i f.val x X →
      RRep j (i + N + 1) (c.mulSG f) (C x * psum b d.varPart (j + 1)) (C X * psum (fun i => |b i|) (absPoly d.varPart) (j + 1)))
    (hs : RRep j N s (psum b' d.varPart (j + 1)) (psum (fun i => |b' i|) (absPoly d.varPart) (j + 1)))
    (hbb : ∀ i, b i = 0 ∨ b' i = 0) :
    (RRep j (a + N + 2) ((c.mulSG f).add (s.mulSG g)) (psum (fun i => F * b i + G * b' i) d.varPart (j + 1))
      (psum (fun i => |F * b i + G * b' i|) (absPoly d.varPart) (j + 1)) ∧ ((c.mulSG f).add (s.mulSG g)).order = n) ∧
    (RRep j (a + N + 2) ((c.mulSG f).sub (s.mulSG g)) (psum (fun i => F * b i - G * b' i) d.varPart (j + 1))
      (psum (fun i => |F * b i - G * b' i|) (absPoly d.varPart) (j + 1)) ∧ ((c.mulSG f).sub (s.mulSG g)).order = n) := by
  have h1 := hc f F |F| a hf
  have h2 := hs.mulSG hg (hj.trans hso.ge)
  have ho : ∀ i, |F * b i + G * b' i| = |F| * |b i| + |G| * |b' i| := fun i => by
    rcases hbb i with h | h <;> simp [h, abs_mul]
  have ho' : ∀ i, |F * b i - G * b' i| = |F| * |b i| + |G| * |b' i| := fun i => by
    rcases hbb i with h | h <;> simp [h, abs_mul]
  refine ⟨⟨(h1.add h2).congr (psum_lin _ _ _ _ _ _) ?_, ?_⟩, ⟨(h1.sub h2).congr ?_ ?_, ?_⟩⟩
  · rw [psum_lin]; exact psum_congr (fun i _ => (ho i).symm) _
  · change max (c.mulSG f).order (s.mulSG g).order = n
    rw [order_mulSG, order_mulSG, hso]; exact max_eq_right hco
  · rw [sub_eq_add_neg, ← neg_mul, ← map_neg, psum_lin]; exact psum_congr (fun i _ => by ring) _
  · rw [psum_lin]; exact psum_congr (fun i _ => (ho' i).symm) _
  · change max (c.mulSG f).order (s.mulSG g).order = n
    rw [order_mulSG, order_mulSG, hso]; exact max_eq_right hco

end GDual
end Audi
