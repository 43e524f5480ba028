import Verif.Props.C30_Inverse
import Mathlib.Analysis.Real.Pi.Bounds

/-! # C59: exact identities between the truncated functions -/

namespace Audi

open MvPolynomial Spec GDual Filter Topology

variable {C : Type} [CfFun C] {ι : Type} [Lanes C ι ℝ] [LanesFun C ι] {a b : GDual C}

omit [LanesFun C ι] in
/-- Gduals of the same order which expand the same functions are equal. -/
theorem eq_of_taylor {r s : GDual C} {n : ℕ} (hr : r.Valid) (hs : s.Valid) (hro : r.order = n) (hso : s.order = n)
    (h : ∀ i : ι, ∃ (F G : (String → ℝ) → ℝ) (x : String → ℝ), IsTaylor x n F (r.toMv i) ∧ IsTaylor x n G (s.toMv i) ∧ F =ᶠ[𝓝 x] G) :
    GDual.eq r s = true := by
  refine eq_of_toMv (ι := ι) (K := ℝ) hr hs fun i => ?_
  obtain ⟨F, G, x, h1, h2, h3⟩ := h i
  refine EqUpTo.eq_of_degLE (m := n) ((h1.congr_fun h3).unique h2) ?_ ?_
  · have := hr.degLE (K := ℝ) i; rwa [hro] at this
  · have := hs.degLE (K := ℝ) i; rwa [hso] at this

omit [LanesFun C ι] in
theorem taylor_add (ha : a.Valid) (hb : b.Valid) {n : ℕ} (i : ι) {F G : (String → ℝ) → ℝ} {x : String → ℝ}
    (hF : IsTaylor x n F (a.toMv i)) (hG : IsTaylor x n G (b.toMv i)) : IsTaylor x n (fun v => F v + G v) ((a.add b).toMv i) := by
  rw [toMv_add ha hb]; exact hF.add hG

omit [LanesFun C ι] in
theorem taylor_mul (ha : a.Valid) (hb : b.Valid) {n : ℕ} (hao : a.order = n) (hbo : b.order = n) (i : ι) {F G : (String → ℝ) → ℝ}
    {x : String → ℝ} (hF : IsTaylor x n F (a.toMv i)) (hG : IsTaylor x n G (b.toMv i)) :
    IsTaylor x n (fun v => F v * G v) ((a.mul b).toMv i) := by
  have := toMv_mul ha hb i (K := ℝ)
  rw [hao, hbo, max_self] at this
  exact (hF.mul hG).congr_poly this.symm

include ι in
/-- **C59.** `exp(a + b) == exp(a) * exp(b)` (equal orders). -/
theorem C59_exp_add (ha : a.Valid) (hb : b.Valid) (ho : a.getOrder = b.getOrder) :
    ∃ r s t, exp (a.add b) = .ok r ∧ exp a = .ok s ∧ exp b = .ok t ∧ GDual.eq r (s.mul t) = true := by
  have ho' : b.order = a.order := ho.symm
  obtain ⟨r, h1, h2⟩ := computes_exp.lift _ (ha.add hb) (ι := ι) fun _ => trivial
  obtain ⟨s, h3, h4⟩ := computes_exp.lift _ ha (ι := ι) fun _ => trivial
  obtain ⟨t, h5, h6⟩ := computes_exp.lift _ hb (ι := ι) fun _ => trivial
  have hab : (a.add b).order = a.order := by change max a.order b.order = _; rw [ho', max_self]
  refine ⟨r, s, t, h1, h3, h5, eq_of_taylor (ι := ι) (n := a.order) h2.valid (h4.valid.mul h6.valid) (h2.order.trans hab) ?_ fun i => ?_⟩
  · change max s.order t.order = _; rw [h4.order, h6.order, ho', max_self]
  · have hF := isTaylor_poly (fun _ => 0) a.order (a.toMv i : MvPolynomial String ℝ)
    have hG := isTaylor_poly (fun _ => 0) a.order (b.toMv i : MvPolynomial String ℝ)
    have e1 := h2.taylor i _ _ (hab.symm ▸ taylor_add ha hb i hF hG)
    rw [hab] at e1
    have e2 := taylor_mul h4.valid h6.valid h4.order (h6.order.trans ho') i (h4.taylor i _ _ hF) (ho' ▸ h6.taylor i _ _ (ho'.symm ▸ hG))
    exact ⟨_, _, _, e1, e2, Eventually.of_forall fun v => Real.exp_add _ _⟩

include ι in
/-- **C59.** `log(a * b) == log(a) + log(b)` (equal orders, positive constant parts). -/
theorem C59_log_mul (ha : a.Valid) (hb : b.Valid) (ho : a.getOrder = b.getOrder)
    (ha0 : ∀ i : ι, 0 < coeff 0 (a.toMv i : MvPolynomial String ℝ)) (hb0 : ∀ i : ι, 0 < coeff 0 (b.toMv i : MvPolynomial String ℝ)) :
    ∃ r s t, log (a.mul b) = .ok r ∧ log a = .ok s ∧ log b = .ok t ∧ GDual.eq r (s.add t) = true := by
  have ho' : b.order = a.order := ho.symm
  have hab : (a.mul b).order = a.order := by change max a.order b.order = _; rw [ho', max_self]
  have hF := fun i : ι => isTaylor_poly (fun _ => 0) a.order (a.toMv i : MvPolynomial String ℝ)
  have hG := fun i : ι => isTaylor_poly (fun _ => 0) a.order (b.toMv i : MvPolynomial String ℝ)
  have hM := fun i : ι => taylor_mul ha hb rfl ho' i (hF i) (hG i)
  obtain ⟨s, h3, h4⟩ := computes_log.lift _ ha (ι := ι) ha0
  obtain ⟨t, h5, h6⟩ := computes_log.lift _ hb (ι := ι) hb0
  obtain ⟨r, h1, h2⟩ := computes_log.lift _ (ha.mul hb) (ι := ι) fun i => by
    rw [← (hM i).val, (hF i).val, (hG i).val]; exact mul_pos (ha0 i) (hb0 i)
  refine ⟨r, s, t, h1, h3, h5, eq_of_taylor (ι := ι) (n := a.order) h2.valid (h4.valid.add h6.valid) (h2.order.trans hab) ?_ fun i => ?_⟩
  · change max s.order t.order = _; rw [h4.order, h6.order, ho', max_self]
  · have e1 := h2.taylor i _ _ (hab.symm ▸ hM i)
    rw [hab] at e1
    have e2 := taylor_add h4.valid h6.valid i (h4.taylor i _ _ (hF i)) (ho' ▸ h6.taylor i _ _ (ho'.symm ▸ hG i))
    refine ⟨_, _, _, e1, e2, ?_⟩
    filter_upwards [(hF i).cont.eventually (lt_mem_nhds ((ha0 i).trans_eq (hF i).val.symm)),
      (hG i).cont.eventually (lt_mem_nhds ((hb0 i).trans_eq (hG i).val.symm))] with v hv1 hv2
    exact Real.log_mul hv1.ne' hv2.ne'

include ι in
/-- **C59.** `log(exp(a)) == a`. -/
theorem C59_log_exp (ha : a.Valid) : ∃ r s, exp a = .ok r ∧ log r = .ok s ∧ GDual.eq s a = true := by
  obtain ⟨r, h1, h2⟩ := computes_exp.lift _ ha (ι := ι) fun _ => trivial
  obtain ⟨s, h3, h4⟩ := computes_log.lift _ h2.valid (ι := ι) fun i => by rw [h2.coeff_zero]; exact Real.exp_pos _
  exact ⟨r, s, h1, h3, (h2.comp h4).eq (IsLift.id ha) fun i => Eventually.of_forall fun x => Real.log_exp x⟩

/-- **C59.** `exp(log(a)) == a`. -/
theorem C59_exp_log (ha : a.Valid) (h : ∀ i : ι, 0 < coeff 0 (a.toMv i : MvPolynomial String ℝ)) :
    ∃ r s, log a = .ok r ∧ exp r = .ok s ∧ GDual.eq s a = true := by
  obtain ⟨r, h1, h2⟩ := computes_log.lift _ ha (ι := ι) h
  obtain ⟨s, h3, h4⟩ := computes_exp.lift _ h2.valid (ι := ι) fun i => trivial
  refine ⟨r, s, h1, h3, (h2.comp h4).eq (IsLift.id ha) fun i => ?_⟩
  filter_upwards [lt_mem_nhds (h i)] with x hx
  exact Real.exp_log hx

/-- **C59.** `tan(a) == sin(a) / cos(a)`. -/
theorem C59_tan (ha : a.Valid) (h : ∀ i : ι, Real.cos (coeff 0 (a.toMv i : MvPolynomial String ℝ)) ≠ 0) :
    ∃ t s c q, tan a = .ok t ∧ sin a = .ok s ∧ cos a = .ok c ∧ s.div c = .ok q ∧ GDual.eq t q = true := by
  obtain ⟨t, h1, h2⟩ := computes_tan.lift _ ha (ι := ι) h
  obtain ⟨s, h3, h4⟩ := computes_sin.lift _ ha (ι := ι) fun i => trivial
  obtain ⟨c, h5, h6⟩ := computes_cos.lift _ ha (ι := ι) fun i => trivial
  obtain ⟨q, h7, h8⟩ := h4.div h6 h
  exact ⟨t, s, c, q, h1, h3, h5, h7, h2.eq h8 fun i => Eventually.of_forall fun x => Real.tan_eq_sin_div_cos x⟩

include ι in
/-- **C59.** `tanh(a) == sinh(a) / cosh(a)`. -/
theorem C59_tanh (ha : a.Valid) :
    ∃ t s c q, tanh a = .ok t ∧ sinh a = .ok s ∧ cosh a = .ok c ∧ s.div c = .ok q ∧ GDual.eq t q = true := by
  obtain ⟨t, h1, h2⟩ := computes_tanh.lift _ ha (ι := ι) fun i => trivial
  obtain ⟨s, h3, h4⟩ := computes_sinh.lift _ ha (ι := ι) fun i => trivial
  obtain ⟨c, h5, h6⟩ := computes_cosh.lift _ ha (ι := ι) fun i => trivial
  obtain ⟨q, h7, h8⟩ := h4.div h6 fun i => (Real.cosh_pos _).ne'
  exact ⟨t, s, c, q, h1, h3, h5, h7, h2.eq h8 fun i => Eventually.of_forall fun x => Real.tanh_eq_sinh_div_cosh x⟩

/-- **C59.** `sqrt(a) == pow(a, 0.5)`. -/
theorem C59_sqrt_pow (ha : a.Valid) (h : ∀ i : ι, 0 < coeff 0 (a.toMv i : MvPolynomial String ℝ)) :
    ∃ r s, sqrt a = .ok r ∧ powQ a (1 / 2) = .ok s ∧ GDual.eq r s = true := by
  obtain ⟨r, h1, h2⟩ := computes_sqrt.lift _ ha (ι := ι) h
  obtain ⟨s, h3, h4⟩ := C24_pow_real (ι := ι) (α := 1 / 2) ha ⟨by norm_num, by norm_num⟩ (Or.inl h)
  refine ⟨r, s, h1, h3, h2.eq h4 fun i => Eventually.of_forall fun x => ?_⟩
  push_cast
  exact Real.sqrt_eq_rpow x

include ι in
/-- **C59.** `cosh(a) + sinh(a) == exp(a)`. -/
theorem C59_cosh_sinh_exp (ha : a.Valid) :
    ∃ c s e, cosh a = .ok c ∧ sinh a = .ok s ∧ exp a = .ok e ∧ GDual.eq (c.add s) e = true := by
  obtain ⟨t, h1, h2⟩ := computes_exp.lift _ ha (ι := ι) fun i => trivial
  obtain ⟨s, h3, h4⟩ := computes_sinh.lift _ ha (ι := ι) fun i => trivial
  obtain ⟨c, h5, h6⟩ := computes_cosh.lift _ ha (ι := ι) fun i => trivial
  exact ⟨c, s, t, h5, h3, h1, (h6.add h4).eq h2 fun i => Eventually.of_forall fun x => Real.cosh_add_sinh x⟩

/-- **C59 (partial).** `sin(asin(a)) == a` and `cos(acos(a)) == a` up to order 30. At every larger order they fail: `C59_sin_asin_counterexample`. -/
theorem C59_sin_asin_partial (ha : a.Valid) (ho : a.getOrder ≤ 30) (h : ∀ i : ι, |coeff 0 (a.toMv i : MvPolynomial String ℝ)| < 1) :
    (∃ r s, asin a = .ok r ∧ sin r = .ok s ∧ GDual.eq s a = true) ∧ (∃ r s, acos a = .ok r ∧ cos r = .ok s ∧ GDual.eq s a = true) := by
  constructor
  · obtain ⟨r, h1, h2⟩ := C30_asin_partial (ι := ι) ha ho h
    obtain ⟨s, h3, h4⟩ := computes_sin.lift _ h2.valid (ι := ι) fun i => trivial
    refine ⟨r, s, h1, h3, (h2.comp h4).eq (IsLift.id ha) fun i => ?_⟩
    have := abs_lt.mp (h i)
    filter_upwards [Ioo_mem_nhds this.1 this.2] with x hx
    exact Real.sin_arcsin hx.1.le hx.2.le
  · obtain ⟨r, h1, h2⟩ := C30_acos_partial (ι := ι) ha ho h
    obtain ⟨s, h3, h4⟩ := computes_cos.lift _ h2.valid (ι := ι) fun i => trivial
    refine ⟨r, s, h1, h3, (h2.comp h4).eq (IsLift.id ha) fun i => ?_⟩
    have := abs_lt.mp (h i)
    filter_upwards [Ioo_mem_nhds this.1 this.2] with x hx
    exact Real.cos_arccos hx.1.le hx.2.le

/-- **C59 (counterexample).** At every order from 31 on neither `sin(asin(x))` nor `cos(acos(x))` is `x`, for a variable with value `1/√2`. -/
theorem C59_sin_asin_counterexample (n : ℕ) (h31 : 31 ≤ n) (hn : n < 4294967285) : ∃ d r s t u : GDual ℝ, GDual.mk3 rsqrt2 "x" n = .ok d ∧
    asin d = .ok r ∧ sin r = .ok s ∧ GDual.eq s d = false ∧ acos d = .ok t ∧ cos t = .ok u ∧ GDual.eq u d = false := by
  obtain ⟨d, r, e, hd, hv, hr, hrv, hro, hr0, hs, hne⟩ := asin31 n h31 hn
  have hpi := Real.pi_pos
  have hnarrow : ∀ {v : GDual ℝ}, v.Valid → GDual.eq v d = true → ∀ i : Unit, |coeff 0 (v.toMv i : MvPolynomial String ℝ)| < 1 := by
    intro v hvv he i
    rw [toMv_of_eq (ι := Unit) (K := ℝ) hvv hv he i, toMv_mk3 hd, coeff_add]
    have h1 := rsqrt2_pos
    have h2 := rsqrt2_sq
    have h3 : coeff 0 (if n = 0 then (0 : MvPolynomial String ℝ) else X ("d" ++ "x")) = 0 := by split_ifs <;> simp
    have h4 : (Lanes.lane i rsqrt2 : ℝ) = rsqrt2 := rfl
    simp only [h3, h4, coeff_C, if_true, add_zero]
    rw [abs_of_pos h1]
    nlinarith
  obtain ⟨w, hw, hwl⟩ := computes_sin.lift r hrv (ι := Unit) fun _ => trivial
  set t := r.subSG (Cf.mul (Cf.ofRat (1 / 2)) CfFun.pi) with ht
  have htv : t.Valid := hrv.subSG (ι := Unit) (K := ℝ) _
  have hto : t.order = d.order := hro
  have hpi2 : (Lanes.lane () (Cf.mul (Cf.ofRat (1 / 2)) CfFun.pi : ℝ) : ℝ) = Real.pi / 2 := by
    rw [Lanes.lane_mul, Lanes.lane_ofRat, LanesFun.lane_pi]; push_cast; ring
  have htm : (t.toMv () : MvPolynomial String ℝ) = MvPolynomial.C (Real.pi / 2) - r.toMv () := by
    rw [ht, toMv_subSG _ hrv, hpi2]
  have hat : acos d = .ok t := by
    change (do let s ← asinWith binomialU32 d; .ok (s.subSG (Cf.mul (Cf.ofRat (1 / 2)) CfFun.pi)) : Res (GDual ℝ)) = _
    have : asinWith binomialU32 d = .ok r := hr
    rw [bind_ok this]
  obtain ⟨u, hu, hul⟩ := computes_cos.lift t htv (ι := Unit) fun _ => trivial
  refine ⟨d, r, w, t, u, hd, hr, hw, ?_, hat, hu, ?_⟩
  · by_contra hc
    rw [Bool.not_eq_false] at hc
    obtain ⟨v, -, hvl⟩ := (C30_exact_binomials_partial (ι := Unit) hwl.valid (hnarrow hwl.valid hc)).1
    have hwo : w.order = d.order := hwl.order.trans hro
    have hvd : IsLift (fun _ : Unit => Real.arcsin) d v := ⟨hvl.valid, hvl.order.trans hwo, fun i F x hF => by
      rw [← hwo]
      exact hvl.taylor i F x (by rw [hwo, toMv_of_eq (ι := Unit) (K := ℝ) hwl.valid hv hc]; exact hF)⟩
    have h1 := (hwl.comp hvl).toMv_eq (IsLift.id (ι := Unit) hrv) (fun i => by
      have : coeff 0 (r.toMv i : MvPolynomial String ℝ) = Real.pi / 4 := hr0
      rw [this]
      filter_upwards [Ioo_mem_nhds (show -(Real.pi / 2) < Real.pi / 4 by linarith) (show Real.pi / 4 < Real.pi / 2 by linarith)] with x hx
      exact Real.arcsin_sin hx.1.le hx.2.le) ()
    exact hne (by rw [← h1, hvd.toMv_eq hs (fun i => EventuallyEq.rfl) ()])
  · by_contra hc
    rw [Bool.not_eq_false] at hc
    obtain ⟨v, -, hvl⟩ := (C30_exact_binomials_partial (ι := Unit) hul.valid (hnarrow hul.valid hc)).2
    have huo : u.order = d.order := hul.order.trans hto
    have hvd : IsLift (fun _ : Unit => Real.arccos) d v := ⟨hvl.valid, hvl.order.trans huo, fun i F x hF => by
      rw [← huo]
      exact hvl.taylor i F x (by rw [huo, toMv_of_eq (ι := Unit) (K := ℝ) hul.valid hv hc]; exact hF)⟩
    have h1 := (hul.comp hvl).toMv_eq (IsLift.id (ι := Unit) htv) (fun i => by
      have : coeff 0 (t.toMv i : MvPolynomial String ℝ) = Real.pi / 4 := by
        change coeff 0 (t.toMv () : MvPolynomial String ℝ) = _
        rw [htm, coeff_sub, hr0, coeff_C, if_pos rfl]; ring
      rw [this]
      filter_upwards [Ioo_mem_nhds (show 0 < Real.pi / 4 by linarith) (show Real.pi / 4 < Real.pi by linarith)] with x hx
      exact Real.arccos_cos hx.1.le hx.2.le) ()
    have h2 : IsLift (fun _ : Unit => Real.arccos) d (e.subSG (Cf.mul (Cf.ofRat (1 / 2)) CfFun.pi)) := (hs.subSG _).congr' fun i x => by
      rw [Lanes.lane_mul, Lanes.lane_ofRat, LanesFun.lane_pi, Real.arccos]; push_cast; ring
    have h3 := hvd.toMv_eq h2 (fun i => EventuallyEq.rfl) ()
    rw [h1, htm, toMv_subSG _ hs.valid, hpi2] at h3
    exact hne (congrArg (coeff (Finsupp.single "dx" 31)) (sub_right_injective h3))

example : ∃ d r s : GDual ℝ, GDual.mk3 rsqrt2 "x" 31 = .ok d ∧ asin d = .ok r ∧ sin r = .ok s ∧ GDual.eq s d = false := by
  obtain ⟨d, r, s, -, -, h1, h2, h3, h4, -⟩ := C59_sin_asin_counterexample 31 (by omega) (by omega)
  exact ⟨d, r, s, h1, h2, h3, h4⟩

include ι in
/-- **C59.** `sinh(asinh(a)) == a`, and `tanh(atanh(a)) == a` where defined. -/
theorem C59_sinh_asinh (ha : a.Valid) : ∃ r s, asinh a = .ok r ∧ sinh r = .ok s ∧ GDual.eq s a = true := by
  obtain ⟨r, h1, h2⟩ := C30_asinh.lift _ ha (ι := ι) fun _ => trivial
  obtain ⟨s, h3, h4⟩ := computes_sinh.lift _ h2.valid (ι := ι) fun i => trivial
  exact ⟨r, s, h1, h3, (h2.comp h4).eq (IsLift.id ha) fun i => Eventually.of_forall fun x => Real.sinh_arsinh x⟩

theorem C59_tanh_atanh (ha : a.Valid) (h : ∀ i : ι, |coeff 0 (a.toMv i : MvPolynomial String ℝ)| < 1) :
    ∃ r s, atanh a = .ok r ∧ tanh r = .ok s ∧ GDual.eq s a = true := by
  obtain ⟨r, h1, h2⟩ := C29_atanh.lift _ ha (ι := ι) h
  obtain ⟨s, h3, h4⟩ := computes_tanh.lift _ h2.valid (ι := ι) fun i => trivial
  refine ⟨r, s, h1, h3, (h2.comp h4).eq (IsLift.id ha) fun i => ?_⟩
  have := abs_lt.mp (h i)
  filter_upwards [Ioo_mem_nhds this.1 this.2] with x hx
  exact Real.tanh_artanh hx

example : ∃ a : GDual ℝ, GDual.mk3 (1 / 2) "x" 5 = .ok a ∧ a.Valid ∧ a.getOrder ≤ 30 ∧
    (∀ i : Unit, 0 < coeff 0 (a.toMv i : MvPolynomial String ℝ)) ∧ (∀ i : Unit, |coeff 0 (a.toMv i : MvPolynomial String ℝ)| < 1) ∧
    (∀ i : Unit, Real.cos (coeff 0 (a.toMv i : MvPolynomial String ℝ)) ≠ 0) := by
  obtain ⟨d, hd, hv, ho, -, ht⟩ := Ex.real (1 / 2) 5 (by omega) (by omega)
  refine ⟨d, hd, hv, by change d.order ≤ 30; omega, fun i => ?_, fun i => ?_, fun i => ?_⟩
  · rw [Ex.real_coeff ht]; norm_num
  · rw [Ex.real_coeff ht, abs_of_pos] <;> norm_num
  · rw [Ex.real_coeff ht]
    refine (Real.cos_pos_of_mem_Ioo ⟨?_, ?_⟩).ne' <;> linarith [Real.pi_gt_three]

end Audi
