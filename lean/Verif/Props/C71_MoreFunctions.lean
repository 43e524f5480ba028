import Verif.Model.MoreFunctions
import Verif.Props.C05_Division
import Verif.Props.C59_Identities
import Mathlib.Analysis.SpecialFunctions.Log.Base
import Mathlib.Analysis.Complex.ExponentialBounds

/-! # C71, C72: the functions for quadruple precision and the functions added by the Python module -/

namespace Audi

open MvPolynomial Spec GDual Filter Topology

variable {C : Type} [CfFun C] {ι : Type} [Lanes C ι ℝ] [LanesFun C ι] {d : GDual C}

/-- **C71.** `tan` for quadruple precision (`sin / cos`, at every order) computes Taylor expansions of the tangent where the cosine of the constant part does
not vanish, otherwise the outcome is not finite. -/
theorem C71_tan : Computes (C := C) (ι := ι) tanQuad Real.tan (fun x => Real.cos x ≠ 0) where
  lift d hd h := by
    obtain ⟨s, c, h1, -, -, h2, h3⟩ := sinAndCos_lift (ι := ι) hd
    obtain ⟨q, h4, h5⟩ := h2.div h3 h
    refine ⟨q, ?_, h5.congr' fun i x => (Real.tan_eq_sin_div_cos x).symm⟩
    unfold tanQuad
    rw [bind_ok h1]
    exact h4
  undef d hd h := by
    push Not at h
    obtain ⟨i, hi⟩ := h
    obtain ⟨s, c, h1, -, -, h2, h3⟩ := sinAndCos_lift (ι := ι) hd
    unfold tanQuad
    rw [bind_ok h1]
    refine (C05_division_by_zero (ι := ι) (K := ℝ) h2.valid h3.valid ⟨i, by rw [h3.coeff_zero]; exact hi⟩ ⟨i, fun h0 => ?_⟩
      (s := Cf.one) ⟨i, by rw [show (Lanes.lane i (Cf.one : C) : ℝ) = 1 from lane_one i]; exact one_ne_zero⟩).1
    have h4 := congrArg (coeff 0) h0
    rw [h2.coeff_zero, coeff_zero] at h4
    have := Real.sin_sq_add_cos_sq (coeff 0 (d.toMv i : MvPolynomial String ℝ))
    rw [h4, hi] at this
    norm_num at this

/-- **C71.** `tanh` for quadruple precision (`sinh / cosh`). -/
theorem C71_tanh : Computes (C := C) (ι := ι) tanhQuad Real.tanh (fun _ => True) where
  lift d hd _ := by
    obtain ⟨s, c, h1, -, -, h2, h3⟩ := sinhAndCosh_lift (ι := ι) hd
    obtain ⟨q, h4, h5⟩ := h2.div h3 fun i => (Real.cosh_pos _).ne'
    refine ⟨q, ?_, h5.congr' fun i x => (Real.tanh_eq_sinh_div_cosh x).symm⟩
    unfold tanhQuad
    rw [bind_ok h1]
    exact h4
  undef d hd h := absurd (fun _ => trivial) h

omit [LanesFun C ι] in
/-- Two functions which compute the same Taylor expansions have the same outcome: both are not finite, or the results have the same order and the
same polynomial. -/
theorem Computes.agree {f f' : GDual C → Res (GDual C)} {g : ℝ → ℝ} {dom : ℝ → Prop} (h : Computes (ι := ι) f g dom) (h' : Computes (ι := ι) f' g dom)
    (hd : d.Valid) : (f d = .error .nonFinite ∧ f' d = .error .nonFinite) ∨
      ∃ r s, f d = .ok r ∧ f' d = .ok s ∧ r.getOrder = s.getOrder ∧ GDual.eq r s = true := by
  by_cases hdom : ∀ i : ι, dom (coeff 0 (d.toMv i : MvPolynomial String ℝ))
  · obtain ⟨r, h1, h2⟩ := h.lift d hd hdom
    obtain ⟨s, h3, h4⟩ := h'.lift d hd hdom
    exact Or.inr ⟨r, s, h1, h3, h2.order.trans h4.order.symm, h2.eq h4 fun i => Eventually.of_forall fun x => rfl⟩
  · exact Or.inl ⟨h.undef d hd hdom, h'.undef d hd hdom⟩

include ι in
/-- **C71.** The versions for quadruple precision and the generic versions (which use Bernoulli numbers) agree. -/
theorem C71_agree (hd : d.Valid) :
    ((tan d = .error .nonFinite ∧ tanQuad d = .error .nonFinite) ∨
      ∃ r s, tan d = .ok r ∧ tanQuad d = .ok s ∧ r.getOrder = s.getOrder ∧ GDual.eq r s = true) ∧
    ∃ r s, tanh d = .ok r ∧ tanhQuad d = .ok s ∧ r.getOrder = s.getOrder ∧ GDual.eq r s = true := by
  refine ⟨C28_tan.agree (ι := ι) C71_tan hd, ?_⟩
  rcases C28_tanh.agree (ι := ι) C71_tanh hd with h | h
  · obtain ⟨r, h1, -⟩ := C28_tanh.lift d hd (ι := ι) fun _ => trivial
    rw [h1] at h; cases h.1
  · exact h

/-- **C72.** `log10` and `log2` compute the Taylor expansions of the logarithms in base 10 and 2 where the constant part is positive, otherwise the
outcome is not finite. -/
theorem C72_log10 : Computes (C := C) (ι := ι) pyLog10 (Real.logb 10) (fun x => 0 < x) where
  lift d hd h := by
    obtain ⟨l, h1, h2⟩ := computes_log.lift d hd h
    have h10 : ∀ i : ι, (Lanes.lane i (CfFun.log (Cf.ofRat 10 : C)) : ℝ) = Real.log 10 := fun i => by
      rw [LanesFun.lane_log _ _ (by rw [Lanes.lane_ofRat]; norm_num), Lanes.lane_ofRat]; norm_num
    obtain ⟨q, h3, h4⟩ := h2.divGS (c := CfFun.log (Cf.ofRat 10)) fun i => by rw [h10]; exact (Real.log_pos (by norm_num)).ne'
    refine ⟨q, ?_, h4.congr' fun i x => by rw [h10, Real.logb]⟩
    unfold pyLog10
    rw [bind_ok h1, h3]
  undef d hd h := by
    unfold pyLog10
    rw [computes_log.undef d hd h]
    rfl

theorem C72_log2 : Computes (C := C) (ι := ι) pyLog2 (Real.logb 2) (fun x => 0 < x) where
  lift d hd h := by
    obtain ⟨l, h1, h2⟩ := computes_log.lift d hd h
    have h10 : ∀ i : ι, (Lanes.lane i (CfFun.log (Cf.ofRat 2 : C)) : ℝ) = Real.log 2 := fun i => by
      rw [LanesFun.lane_log _ _ (by rw [Lanes.lane_ofRat]; norm_num), Lanes.lane_ofRat]; norm_num
    obtain ⟨q, h3, h4⟩ := h2.divGS (c := CfFun.log (Cf.ofRat 2)) fun i => by rw [h10]; exact (Real.log_pos (by norm_num)).ne'
    refine ⟨q, ?_, h4.congr' fun i x => by rw [h10, Real.logb]⟩
    unfold pyLog2
    rw [bind_ok h1, h3]
  undef d hd h := by
    unfold pyLog2
    rw [computes_log.undef d hd h]
    rfl

/-- **C72.** `log1p` computes the Taylor expansion of `log(1 + x)` where the constant part is larger than -1, otherwise the
outcome is not finite. (The documentation string says `log(x)+1`, which is another function: `C72_log1p_doc_counterexample`.) -/
theorem C72_log1p : Computes (C := C) (ι := ι) pyLog1p (fun x => Real.log (1 + x)) (fun x => -1 < x) where
  lift d hd h := by
    have h1 := (IsLift.id (ι := ι) hd).addGS (Cf.ofRat 1)
    obtain ⟨l, h2, h3⟩ := computes_log.lift _ h1.valid (ι := ι) fun i => by
      rw [h1.coeff_zero, lane_one]; linarith [h i]
    exact ⟨l, h2, (h1.comp h3).congr' fun i x => by rw [lane_one, add_comm]⟩
  undef d hd h := by
    have h1 := (IsLift.id (ι := ι) hd).addGS (Cf.ofRat 1)
    refine computes_log.undef _ h1.valid (ι := ι) fun h2 => h fun i => ?_
    have := h2 i
    rw [h1.coeff_zero, lane_one] at this
    linarith

/-- **C72.** `expm1` computes the Taylor expansion of `exp(x) - 1`. -/
theorem C72_expm1 : Computes (C := C) (ι := ι) pyExpm1 (fun x => Real.exp x - 1) (fun _ => True) where
  lift d hd h := by
    obtain ⟨e, h1, h2⟩ := computes_exp.lift d hd (ι := ι) fun _ => trivial
    refine ⟨_, ?_, (h2.subGS (Cf.ofRat 1)).congr' fun i x => by rw [lane_one]⟩
    unfold pyExpm1
    rw [bind_ok h1]
  undef d hd h := absurd (fun _ => trivial) h

/-- **C72.** `erfc` computes the Taylor expansion of the complementary error function `1 - erf(x)`. -/
theorem C72_erfc : ComputesD (C := C) (ι := ι) pyErfc (fun x => 1 - Spec.erf x) (fun _ => True) (fun _ => False) where
  lift d hd hn _ := by
    obtain ⟨e, h1, h2⟩ := computesD_erf.lift d hd hn (ι := ι) fun _ => trivial
    refine ⟨e.subSG (Cf.ofRat 1), ?_, ⟨h2.valid.subSG _, h2.order, fun i F a hF => ?_⟩⟩
    · unfold pyErfc
      rw [bind_ok h1]
    · rw [toMv_subSG _ h2.valid, lane_one]
      exact (IsTaylor.const 1).sub (h2.taylor i F a hF)
  bad d hd h := h.elim fun _ => False.elim
  edge d hd h := absurd (fun _ => trivial) h

include ι in
/-- **C72.** `log1p` and `expm1` are inverse to each other, as documented: `log1p(expm1(d)) == d`, and `expm1(log1p(d)) == d` if the constant part is larger
than -1. -/
theorem C72_inverse (hd : d.Valid) : (∃ r s, pyExpm1 d = .ok r ∧ pyLog1p r = .ok s ∧ GDual.eq s d = true) ∧
    ((∀ i : ι, -1 < coeff 0 (d.toMv i : MvPolynomial String ℝ)) → ∃ r s, pyLog1p d = .ok r ∧ pyExpm1 r = .ok s ∧ GDual.eq s d = true) := by
  constructor
  · obtain ⟨r, h1, h2⟩ := C72_expm1.lift d hd (ι := ι) fun _ => trivial
    obtain ⟨s, h3, h4⟩ := C72_log1p.lift r h2.valid (ι := ι) fun i => by
      rw [h2.coeff_zero]; linarith [Real.exp_pos (coeff 0 (d.toMv i : MvPolynomial String ℝ))]
    refine ⟨r, s, h1, h3, (h2.comp h4).eq (IsLift.id hd) fun i => Eventually.of_forall fun x => ?_⟩
    simp
  · intro h
    obtain ⟨r, h1, h2⟩ := C72_log1p.lift d hd h
    obtain ⟨s, h3, h4⟩ := C72_expm1.lift r h2.valid (ι := ι) fun i => trivial
    refine ⟨r, s, h1, h3, (h2.comp h4).eq (IsLift.id hd) fun i => ?_⟩
    filter_upwards [lt_mem_nhds (h i)] with x hx
    rw [Real.exp_log (by linarith)]; ring

include ι in
/-- **C72.** `pow(10, log10(d)) == d` and `pow(2, log2(d)) == d` with a number as base, for positive constant parts (comparing polynomials). -/
theorem C72_pow_log (hd : d.Valid) (h : ∀ i : ι, 0 < coeff 0 (d.toMv i : MvPolynomial String ℝ)) :
    (∃ r s, pyLog10 d = .ok r ∧ powBase 10 r = .ok s ∧ GDual.eq s d = true) ∧ (∃ r s, pyLog2 d = .ok r ∧ powBase 2 r = .ok s ∧ GDual.eq s d = true) := by
  have key : ∀ (q : ℚ) (f : GDual C → Res (GDual C)), 1 < q → Computes (ι := ι) f (Real.logb q) (fun x => 0 < x) →
      ∃ r s, f d = .ok r ∧ powBase q r = .ok s ∧ GDual.eq s d = true := fun q f hq hf => by
    obtain ⟨r, h1, h2⟩ := hf.lift d hd h
    obtain ⟨s, h3, h4, h5, h6, h7⟩ := powBase_lift (ι := ι) h2.valid (q := q) (by linarith)
    refine ⟨r, s, h1, h3, eq_of_toMv (ι := ι) (K := ℝ) h4 hd fun i => ?_⟩
    have hF := isTaylor_poly (fun _ => 0) d.order (d.toMv i : MvPolynomial String ℝ)
    have t1 := h7 i _ _ (h2.order.symm ▸ h2.taylor i _ _ hF)
    rw [h2.order] at t1
    have hq' : (1 : ℝ) < q := by exact_mod_cast hq
    refine EqUpTo.eq_of_degLE (m := d.order) ((t1.congr_fun ?_).unique hF) ?_ (hd.degLE i)
    · filter_upwards [hF.cont.eventually (lt_mem_nhds ((h i).trans_eq hF.val.symm))] with x hx
      exact Real.rpow_logb (by linarith) hq'.ne' hx
    · have hle : s.order ≤ d.order := by
        by_cases h0 : r.degree = 0
        · rw [(h6 h0).1]; exact Nat.zero_le _
        · rw [h5 h0, h2.order]
      exact fun e he => h4.degLE (K := ℝ) i e (lt_of_le_of_lt hle he)
  exact ⟨key 10 _ (by norm_num) (by exact_mod_cast C72_log10), key 2 _ (by norm_num) (by exact_mod_cast C72_log2)⟩

example : ∃ d : GDual ℝ, GDual.mk3 2 "x" 40 = .ok d ∧ d.Valid ∧ ∀ i : Unit, 0 < coeff 0 (d.toMv i : MvPolynomial String ℝ) := by
  obtain ⟨d, hd, hv, -, -, ht⟩ := Ex.real 2 40 (by omega) (by omega)
  exact ⟨d, hd, hv, fun i => by rw [Ex.real_coeff ht]; norm_num⟩

/-- **C72 (counterexample).** `log1p` is not the function `log(x) + 1` of its documentation string. -/
theorem C72_log1p_doc_counterexample : ∃ d r : GDual ℝ, GDual.mk3 1 "x" 1 = .ok d ∧ pyLog1p d = .ok r ∧
    (r.constantCf = .ok (Real.log 2)) ∧ Real.log 2 ≠ Real.log 1 + 1 := by
  obtain ⟨d, hd, hv, -, -, ht⟩ := Ex.real 1 1 (by omega) (by omega)
  obtain ⟨r, h1, h2⟩ := C72_log1p.lift d hv (ι := Unit) fun i => by rw [Ex.real_coeff ht]; norm_num
  obtain ⟨u, hu⟩ := constantCf_isOk r
  have h3 : u = coeff 0 (r.toMv () : MvPolynomial String ℝ) := lane_constantCf (ι := Unit) (K := ℝ) h2.valid hu ()
  refine ⟨d, r, hd, h1, ?_, ?_⟩
  · rw [hu, h3, h2.coeff_zero, Ex.real_coeff ht]; norm_num
  · have := Real.log_two_lt_d9
    rw [Real.log_one]
    intro h; rw [h] at this; norm_num at this

end Audi
