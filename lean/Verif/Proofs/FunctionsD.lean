import Verif.Proofs.Compose
import Verif.Proofs.FunctionsInv
import Mathlib.Analysis.SpecialFunctions.Trigonometric.InverseDeriv
import Mathlib.Analysis.SpecialFunctions.Trigonometric.ArctanDeriv
import Mathlib.Analysis.SpecialFunctions.Sqrt
import Mathlib.MeasureTheory.Integral.IntervalIntegral.FundThmCalculus

/-! The functions computed from their derivative (functions_from_d.hpp) and the error function. -/

set_option linter.unusedSectionVars false

namespace Audi

open MvPolynomial Spec Topology Filter

theorem Spec.hasDerivAt_erf (x : ℝ) : HasDerivAt Spec.erf (2 / √Real.pi * Real.exp (-x ^ 2)) x := by
  have hc : Continuous fun t : ℝ => Real.exp (-t ^ 2) := by fun_prop
  have := intervalIntegral.integral_hasDerivAt_right (hc.intervalIntegrable 0 x)
    (hc.stronglyMeasurableAtFilter _ _) hc.continuousAt
  exact this.const_mul _

namespace Spec

theorem hasDerivAt_artanh {x : ℝ} (hx : |x| < 1) : HasDerivAt Real.artanh (1 / (1 - x * x)) x := by
  obtain ⟨h1, h2⟩ := abs_lt.mp hx
  have e : Real.artanh =ᶠ[𝓝 x] fun t => 1 / 2 * (Real.log (1 + t) - Real.log (1 - t)) := by
    filter_upwards [Ioo_mem_nhds h1 h2] with t ht
    rw [Real.artanh_eq_half_log ⟨ht.1.le, ht.2.le⟩, Real.log_div (by linarith [ht.1]) (by linarith [ht.2])]
  have d1 : HasDerivAt (fun t : ℝ => Real.log (1 + t)) (1 / (1 + x)) x :=
    ((hasDerivAt_id x).const_add 1).log (by simp only [id]; linarith)
  have d2 : HasDerivAt (fun t : ℝ => Real.log (1 - t)) (-1 / (1 - x)) x :=
    ((hasDerivAt_id x).const_sub 1).log (by simp only [id]; linarith)
  refine (((d1.sub d2).const_mul (1 / 2)).congr_deriv ?_).congr_of_eventuallyEq e
  have : (1 : ℝ) + x ≠ 0 := by linarith
  have h3 : (1 : ℝ) - x ≠ 0 := by linarith
  rw [show (1 : ℝ) - x * x = (1 + x) * (1 - x) by ring]
  field_simp
  ring

end Spec

namespace GDual

variable {C : Type} [CfFun C] {ι : Type} [Lanes C ι ℝ] {d : GDual C}

theorem isLift_of_isLiftD {g : ι → ℝ → ℝ} {r : GDual C} (h : IsLiftD g d r) (hs : d.p.syms ≠ []) : IsLift g d r :=
  ⟨h.valid, by rw [h.order, if_neg hs], h.taylor⟩

theorem compose_liftD {f dg : GDual C} {g0 : C} {g g' : ι → ℝ → ℝ} (hf : f.Valid) (hnames : GoodNames f)
    (hdg : IsLift g' f dg) (hg0 : ∀ i : ι, (Lanes.lane i g0 : ℝ) = g i (coeff 0 (f.toMv i)))
    (hsm : ∀ i : ι, ContDiffAt ℝ f.order (g' i) (coeff 0 (f.toMv i)))
    (hder : ∀ i : ι, ∀ᶠ t in 𝓝 (coeff 0 (f.toMv i) : ℝ), HasDerivAt (g i) (g' i t) t) :
    ∃ r, composeFromDerivative f dg g0 = .ok r ∧ IsLiftD g f r := by
  obtain ⟨r, h1, h2, h3, h4⟩ := compose_lift hf hnames hdg hg0 hsm hder
  exact ⟨r, h1, h2, h3, h4⟩

variable [LanesFun C ι]

theorem computesD_erf : ComputesD (C := C) (ι := ι) erf Spec.erf (fun _ => True) (fun _ => False) where
  lift d hd hn _ := by
    obtain ⟨p0, hp0⟩ := constantCf_isOk d
    have hl : ∀ i : ι, (Lanes.lane i p0 : ℝ) = coeff 0 (d.toMv i) := lane_constantCf hd hp0
    have h1 := ((IsLift.id (ι := ι) hd).neg).mul (IsLift.id hd)
    obtain ⟨e, he, hel⟩ := computes_exp.lift _ h1.valid (ι := ι) fun _ => trivial
    have h2 := ((h1.comp hel).mulSG CfFun.twoOverSqrtPi).congr' (h := fun _ x => 2 / √Real.pi * Real.exp (-x ^ 2))
      fun i x => by rw [LanesFun.lane_twoOverSqrtPi]; congr 2; ring
    obtain ⟨r, hr, hrl⟩ := compose_liftD (g0 := CfFun.erf p0) (g := fun _ => Spec.erf) hd hn h2
      (fun i => by rw [LanesFun.lane_erf, hl]) (fun i => by fun_prop) (fun i => Eventually.of_forall Spec.hasDerivAt_erf)
    refine ⟨r, ?_, hrl⟩
    unfold erf
    rw [bind_ok hp0, he]
    exact hr
  bad d hd h := h.elim fun _ => False.elim
  edge d hd h := absurd (fun _ => trivial) h

theorem computesD_atan : ComputesD (C := C) (ι := ι) atanD Real.arctan (fun _ => True) (fun _ => False) where
  lift d hd hn _ := by
    obtain ⟨p0, hp0⟩ := constantCf_isOk d
    have hl : ∀ i : ι, (Lanes.lane i p0 : ℝ) = coeff 0 (d.toMv i) := lane_constantCf hd hp0
    have h1 := ((IsLift.id (ι := ι) hd).mul (IsLift.id hd)).addSG (Cf.ofRat 1)
    have hpos : ∀ x : ℝ, 1 + x ^ 2 ≠ 0 := fun x => by positivity
    obtain ⟨q, hq, hql⟩ := h1.divSG (Cf.ofRat 1) (fun i => by rw [lane_one, ← sq]; exact hpos _)
    have h2 := hql.congr' (h := fun _ x => 1 / (1 + x ^ 2)) fun i x => by rw [lane_one, sq]
    obtain ⟨r, hr, hrl⟩ := compose_liftD (g0 := CfFun.atan p0) (g := fun _ => Real.arctan) hd hn h2
      (fun i => by rw [LanesFun.lane_atan, hl])
      (fun i => ContDiffAt.div contDiffAt_const (by fun_prop) (hpos _))
      (fun i => Eventually.of_forall Real.hasDerivAt_arctan)
    refine ⟨r, ?_, hrl⟩
    unfold atanD
    rw [bind_ok hp0, hq]
    exact hr
  bad d hd h := h.elim fun _ => False.elim
  edge d hd h := absurd (fun _ => trivial) h

theorem atanhD_undef (hd : d.Valid) (h : ¬ ∀ i : ι, |coeff 0 (d.toMv i : MvPolynomial String ℝ)| < 1) :
    atanhD d = .error .nonFinite := by
  obtain ⟨p0, hp0⟩ := constantCf_isOk d
  have hl : ∀ i : ι, (Lanes.lane i p0 : ℝ) = coeff 0 (d.toMv i) := lane_constantCf hd hp0
  unfold atanhD
  rw [bind_ok hp0, bind_error (guardFinite_false fun hok => h fun i => ?_)]
  rw [← hl]; exact (LanesFun.atanhOk_iff p0).mp hok i

theorem computesD_atanh : ComputesD (C := C) (ι := ι) atanhD Real.artanh (fun x => |x| < 1) (fun x => 1 ≤ |x|) where
  lift d hd hn h := by
    obtain ⟨p0, hp0⟩ := constantCf_isOk d
    have hl : ∀ i : ι, (Lanes.lane i p0 : ℝ) = coeff 0 (d.toMv i) := lane_constantCf hd hp0
    have hok : CfFun.atanhOk p0 = true := (LanesFun.atanhOk_iff p0).mpr fun i => by rw [hl]; exact h i
    have h1 := ((IsLift.id (ι := ι) hd).mul (IsLift.id hd)).subSG (Cf.ofRat 1)
    have hpos : ∀ x : ℝ, |x| < 1 → 1 - x * x ≠ 0 := fun x hx => by
      have := abs_lt.mp hx; nlinarith
    obtain ⟨q, hq, hql⟩ := h1.divSG (Cf.ofRat 1) (fun i => by rw [lane_one]; exact hpos _ (h i))
    have h2 := hql.congr' (h := fun _ x => 1 / (1 - x * x)) fun i x => by rw [lane_one]
    obtain ⟨r, hr, hrl⟩ := compose_liftD (g0 := CfFun.atanh p0) (g := fun _ => Real.artanh) hd hn h2
      (fun i => by rw [LanesFun.lane_atanh _ _ (by rw [hl]; exact h i), hl])
      (fun i => ContDiffAt.div contDiffAt_const (by fun_prop) (hpos _ (h i)))
      (fun i => by
        have := abs_lt.mp (h i)
        filter_upwards [Ioo_mem_nhds this.1 this.2] with t ht using Spec.hasDerivAt_artanh (abs_lt.mpr ht))
    refine ⟨r, ?_, hrl⟩
    unfold atanhD
    rw [bind_ok hp0, bind_ok (guardFinite_true hok), hq]
    exact hr
  bad d hd h := by
    obtain ⟨i, hi⟩ := h
    exact atanhD_undef (ι := ι) hd fun hc => absurd (hc i) (not_lt.mpr hi)
  edge d hd h _ := atanhD_undef hd h

theorem computesD_asinh : ComputesD (C := C) (ι := ι) asinhD Real.arsinh (fun _ => True) (fun _ => False) where
  lift d hd hn _ := by
    obtain ⟨p0, hp0⟩ := constantCf_isOk d
    have hl : ∀ i : ι, (Lanes.lane i p0 : ℝ) = coeff 0 (d.toMv i) := lane_constantCf hd hp0
    have h1 := ((IsLift.id (ι := ι) hd).mul (IsLift.id hd)).addSG (Cf.ofRat 1)
    have hpos : ∀ x : ℝ, 0 < 1 + x ^ 2 := fun x => by positivity
    obtain ⟨s, hs, hsl⟩ := computes_sqrt.lift _ h1.valid (ι := ι) fun i => by
      rw [h1.coeff_zero, lane_one, ← sq]; exact hpos _
    obtain ⟨q, hq, hql⟩ := (h1.comp hsl).divSG (Cf.ofRat 1) (fun i => by
      rw [lane_one, ← sq]; exact (Real.sqrt_pos.mpr (hpos _)).ne')
    have h2 := hql.congr' (h := fun _ x => (√(1 + x ^ 2))⁻¹) fun i x => by rw [lane_one, sq, one_div]
    obtain ⟨r, hr, hrl⟩ := compose_liftD (g0 := CfFun.asinh p0) (g := fun _ => Real.arsinh) hd hn h2
      (fun i => by rw [LanesFun.lane_asinh, hl])
      (fun i => ContDiffAt.inv (ContDiffAt.sqrt (by fun_prop) (hpos _).ne') (Real.sqrt_pos.mpr (hpos _)).ne')
      (fun i => Eventually.of_forall Real.hasDerivAt_arsinh)
    refine ⟨r, ?_, hrl⟩
    unfold asinhD
    rw [bind_ok hp0, bind_ok hs, hq]
    exact hr
  bad d hd h := h.elim fun _ => False.elim
  edge d hd h := absurd (fun _ => trivial) h

/-- The common part of `asin_d` and `acos_d`. -/
theorem recip_sqrt_lift (hd : d.Valid) (h : ∀ i : ι, |coeff 0 (d.toMv i : MvPolynomial String ℝ)| < 1) (k : ℚ) :
    ∃ s q, sqrt ((d.mul d).subSG (Cf.ofRat 1)) = .ok s ∧ divSG (Cf.ofRat k) s = .ok q ∧
      IsLift (fun (_ : ι) x => k / √(1 - x ^ 2)) d q := by
  have h1 := ((IsLift.id (ι := ι) hd).mul (IsLift.id hd)).subSG (Cf.ofRat 1)
  have hpos : ∀ x : ℝ, |x| < 1 → 0 < 1 - x * x := fun x hx => by have := abs_lt.mp hx; nlinarith
  obtain ⟨s, hs, hsl⟩ := computes_sqrt.lift _ h1.valid (ι := ι) fun i => by
    rw [h1.coeff_zero, lane_one]; exact hpos _ (h i)
  obtain ⟨q, hq, hql⟩ := (h1.comp hsl).divSG (Cf.ofRat k) (fun i => by
    rw [lane_one]; exact (Real.sqrt_pos.mpr (hpos _ (h i))).ne')
  exact ⟨s, q, hs, hq, hql.congr' fun i x => by rw [lane_one, Lanes.lane_ofRat, sq]⟩

theorem recip_sqrt_smooth {x : ℝ} (hx : |x| < 1) (k : ℝ) (n : ℕ) :
    ContDiffAt ℝ n (fun x : ℝ => k / √(1 - x ^ 2)) x := by
  have hpos : 0 < 1 - x ^ 2 := by have := abs_lt.mp hx; nlinarith
  exact ContDiffAt.div contDiffAt_const (ContDiffAt.sqrt (by fun_prop) hpos.ne') (Real.sqrt_pos.mpr hpos).ne'

theorem bind_divSG_undef {e : GDual C} (he : e.Valid) (h : ¬ ∀ i : ι, 0 < coeff 0 (e.toMv i : MvPolynomial String ℝ)) {k : ℚ}
    (hk : k ≠ 0) : (sqrt e >>= divSG (Cf.ofRat k)) = .error .nonFinite := by
  rcases sqrt_not_pos he h with h1 | ⟨s, h1, hsv, -, -, -, hz⟩
  · rw [bind_error h1]
  · rw [bind_ok h1]
    refine divSG_error (ι := ι) (K := ℝ) hsv hz ?_
    rw [← Bool.not_eq_true, Lanes.isZero_iff (ι := ι) (K := ℝ)]
    intro hc
    obtain ⟨i⟩ := Lanes.nonempty C (ι := ι) (K := ℝ)
    have := hc i
    rw [Lanes.lane_ofRat] at this
    exact hk (by exact_mod_cast this)

theorem recip_sqrt_undef (hd : d.Valid) (h : ¬ ∀ i : ι, |coeff 0 (d.toMv i : MvPolynomial String ℝ)| < 1) {k : ℚ} (hk : k ≠ 0) :
    (sqrt ((d.mul d).subSG (Cf.ofRat 1)) >>= divSG (Cf.ofRat k)) = .error .nonFinite := by
  have h1 := ((IsLift.id (ι := ι) hd).mul (IsLift.id hd)).subSG (Cf.ofRat 1)
  refine bind_divSG_undef (ι := ι) h1.valid (fun hs => h fun i => ?_) hk
  have e1 := hs i
  rw [h1.coeff_zero, lane_one] at e1
  rw [abs_lt]; constructor <;> nlinarith

theorem composeD_error {f : GDual C} {dg : Res (GDual C)} {g0 : C} (h : dg = .error .nonFinite) (h0 : f.degree ≠ 0) :
    composeD f dg g0 = .error .nonFinite := by
  subst h
  exact if_neg h0

theorem asinOk_bad (hd : d.Valid) (h : ∃ i : ι, 1 < |coeff 0 (d.toMv i : MvPolynomial String ℝ)|) {p0 : C}
    (hp0 : d.constantCf = .ok p0) : ¬ CfFun.asinOk p0 = true := fun hok => by
  obtain ⟨i, hi⟩ := h
  have := (LanesFun.asinOk_iff p0).mp hok i
  rw [lane_constantCf hd hp0] at this
  exact absurd this (not_le.mpr hi)

theorem computesD_asin : ComputesD (C := C) (ι := ι) asinD Real.arcsin (fun x => |x| < 1) (fun x => 1 < |x|) where
  lift d hd hn h := by
    obtain ⟨p0, hp0⟩ := constantCf_isOk d
    have hl : ∀ i : ι, (Lanes.lane i p0 : ℝ) = coeff 0 (d.toMv i) := lane_constantCf hd hp0
    have hok : CfFun.asinOk p0 = true := (LanesFun.asinOk_iff p0).mpr fun i => by rw [hl]; exact (h i).le
    obtain ⟨s, q, hs, hq, hql⟩ := recip_sqrt_lift hd h 1
    obtain ⟨r, hr, hrl⟩ := compose_liftD (g0 := CfFun.asin p0) (g := fun _ => Real.arcsin) hd hn hql
      (fun i => by rw [LanesFun.lane_asin _ _ (by rw [hl]; exact (h i).le), hl])
      (fun i => recip_sqrt_smooth (h i) _ _)
      (fun i => by
        have := abs_lt.mp (h i)
        filter_upwards [Ioo_mem_nhds this.1 this.2] with t ht
        refine (Real.hasDerivAt_arcsin ht.1.ne' ht.2.ne).congr_deriv ?_
        push_cast; rfl)
    refine ⟨r, ?_, hrl⟩
    unfold asinD
    rw [bind_ok hp0, bind_ok (guardFinite_true hok), bind_ok hs, hq]
    exact hr
  bad d hd h := by
    obtain ⟨p0, hp0⟩ := constantCf_isOk d
    unfold asinD
    rw [bind_ok hp0, bind_error (guardFinite_false (asinOk_bad hd h hp0))]
  edge d hd h h0 := by
    obtain ⟨p0, hp0⟩ := constantCf_isOk d
    unfold asinD
    rw [bind_ok hp0]
    by_cases hok : CfFun.asinOk p0 = true
    · rw [bind_ok (guardFinite_true hok), composeD_error (recip_sqrt_undef hd h one_ne_zero) h0]
    · rw [bind_error (guardFinite_false hok)]

theorem computesD_acos : ComputesD (C := C) (ι := ι) acosD Real.arccos (fun x => |x| < 1) (fun x => 1 < |x|) where
  lift d hd hn h := by
    obtain ⟨p0, hp0⟩ := constantCf_isOk d
    have hl : ∀ i : ι, (Lanes.lane i p0 : ℝ) = coeff 0 (d.toMv i) := lane_constantCf hd hp0
    have hok : CfFun.asinOk p0 = true := (LanesFun.asinOk_iff p0).mpr fun i => by rw [hl]; exact (h i).le
    obtain ⟨s, q, hs, hq, hql⟩ := recip_sqrt_lift hd h (-1)
    obtain ⟨r, hr, hrl⟩ := compose_liftD (g0 := CfFun.acos p0) (g := fun _ => Real.arccos) hd hn hql
      (fun i => by rw [LanesFun.lane_acos _ _ (by rw [hl]; exact (h i).le), hl])
      (fun i => recip_sqrt_smooth (h i) _ _)
      (fun i => by
        have := abs_lt.mp (h i)
        filter_upwards [Ioo_mem_nhds this.1 this.2] with t ht
        refine (Real.hasDerivAt_arccos ht.1.ne' ht.2.ne).congr_deriv ?_
        push_cast; ring)
    refine ⟨r, ?_, hrl⟩
    unfold acosD
    rw [bind_ok hp0, bind_ok (guardFinite_true hok), bind_ok hs, hq]
    exact hr
  bad d hd h := by
    obtain ⟨p0, hp0⟩ := constantCf_isOk d
    unfold acosD
    rw [bind_ok hp0, bind_error (guardFinite_false (asinOk_bad hd h hp0))]
  edge d hd h h0 := by
    obtain ⟨p0, hp0⟩ := constantCf_isOk d
    unfold acosD
    rw [bind_ok hp0]
    by_cases hok : CfFun.asinOk p0 = true
    · rw [bind_ok (guardFinite_true hok), composeD_error (recip_sqrt_undef hd h (neg_ne_zero.mpr one_ne_zero)) h0]
    · rw [bind_error (guardFinite_false hok)]

theorem computesD_acosh : ComputesD (C := C) (ι := ι) acoshD Real.arcosh (fun x => 1 < x) (fun x => x < 1) where
  lift d hd hn h := by
    obtain ⟨p0, hp0⟩ := constantCf_isOk d
    have hl : ∀ i : ι, (Lanes.lane i p0 : ℝ) = coeff 0 (d.toMv i) := lane_constantCf hd hp0
    have hok : CfFun.acoshOk p0 = true := (LanesFun.acoshOk_iff p0).mpr fun i => by rw [hl]; exact (h i).le
    have h1 := (((IsLift.id (ι := ι) hd).subGS (Cf.ofRat 1)).mul ((IsLift.id hd).addGS (Cf.ofRat 1))).congr'
      (h := fun _ x => x ^ 2 - 1) fun i x => by rw [lane_one]; ring
    have hpos : ∀ x : ℝ, 1 < x → 0 < x ^ 2 - 1 := fun x hx => by nlinarith
    obtain ⟨s, hs, hsl⟩ := computes_sqrt.lift _ h1.valid (ι := ι) fun i => by
      rw [h1.coeff_zero]; exact hpos _ (h i)
    obtain ⟨q, hq, hql⟩ := (h1.comp hsl).divSG (Cf.ofRat 1) (fun i => (Real.sqrt_pos.mpr (hpos _ (h i))).ne')
    have h2 := hql.congr' (h := fun _ x => (√(x ^ 2 - 1))⁻¹) fun i x => by rw [lane_one, one_div]
    obtain ⟨r, hr, hrl⟩ := compose_liftD (g0 := CfFun.acosh p0) (g := fun _ => Real.arcosh) hd hn h2
      (fun i => by rw [LanesFun.lane_acosh _ _ (by rw [hl]; exact (h i).le), hl])
      (fun i => ContDiffAt.inv (ContDiffAt.sqrt (by fun_prop) (hpos _ (h i)).ne') (Real.sqrt_pos.mpr (hpos _ (h i))).ne')
      (fun i => by
        filter_upwards [Ioi_mem_nhds (h i)] with t ht using Real.hasDerivAt_arcosh ht)
    refine ⟨r, ?_, hrl⟩
    unfold acoshD
    rw [bind_ok hp0, bind_ok (guardFinite_true hok), bind_ok hs, hq]
    exact hr
  bad d hd h := by
    obtain ⟨p0, hp0⟩ := constantCf_isOk d
    obtain ⟨i, hi⟩ := h
    unfold acoshD
    rw [bind_ok hp0, bind_error (guardFinite_false fun hok => ?_)]
    have := (LanesFun.acoshOk_iff p0).mp hok i
    rw [lane_constantCf hd hp0] at this
    exact absurd this (not_le.mpr hi)
  edge d hd h hdeg := by
    obtain ⟨p0, hp0⟩ := constantCf_isOk d
    have hl : ∀ i : ι, (Lanes.lane i p0 : ℝ) = coeff 0 (d.toMv i) := lane_constantCf hd hp0
    unfold acoshD
    rw [bind_ok hp0]
    by_cases hok : CfFun.acoshOk p0 = true
    · have h0 := (LanesFun.acoshOk_iff p0).mp hok
      have h1 := (((IsLift.id (ι := ι) hd).subGS (Cf.ofRat 1)).mul ((IsLift.id hd).addGS (Cf.ofRat 1))).congr'
        (h := fun _ x => x ^ 2 - 1) fun i x => by rw [lane_one]; ring
      rw [bind_ok (guardFinite_true hok), composeD_error (bind_divSG_undef (ι := ι) h1.valid (fun hs => h fun i => ?_) one_ne_zero) hdeg]
      have e1 := hs i
      have e2 := h0 i
      rw [hl] at e2
      rw [h1.coeff_zero] at e1
      nlinarith
    · rw [bind_error (guardFinite_false hok)]

end GDual
end Audi
