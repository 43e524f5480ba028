import Verif.Spec.Complex
import Verif.Proofs.Expr

/-! Functions of gduals with complex coefficients. -/

namespace Audi

open MvPolynomial Spec GDual Filter Topology

variable {d r : GDual ℂ} {m : ℕ}

/-- The constant part. -/
noncomputable abbrev GDual.czero (d : GDual ℂ) : ℂ := coeff 0 (d.toMv () : MvPolynomial String ℂ)

theorem hasDerivAt_logNear {z₀ z : ℂ} (h0 : z₀ ≠ 0) (hz : z / z₀ ∈ Complex.slitPlane) : HasDerivAt (logNear z₀) z⁻¹ z := by
  have h1 : HasDerivAt (fun z => z / z₀) (1 / z₀) z := (hasDerivAt_id z).div_const z₀
  have h2 := (h1.clog hz).const_add (Complex.log z₀)
  refine h2.congr_deriv ?_
  have hz0 : z ≠ 0 := by
    rintro rfl
    simp at hz
  field_simp

theorem eventually_div_slit {z₀ : ℂ} (h0 : z₀ ≠ 0) : ∀ᶠ z in 𝓝 z₀, z / z₀ ∈ Complex.slitPlane := by
  have h1 : ContinuousAt (fun z : ℂ => z / z₀) z₀ := by fun_prop
  refine h1.eventually (Complex.isOpen_slitPlane.mem_nhds ?_)
  change z₀ / z₀ ∈ _
  rw [div_self h0]
  exact Complex.one_mem_slitPlane

theorem logNear_self {z₀ : ℂ} (h0 : z₀ ≠ 0) : logNear z₀ z₀ = Complex.log z₀ := by
  rw [logNear, div_self h0, Complex.log_one, add_zero]

theorem exp_logNear {z₀ z : ℂ} (h0 : z₀ ≠ 0) (hz : z ≠ 0) : Complex.exp (logNear z₀ z) = z := by
  rw [logNear, Complex.exp_add, Complex.exp_log h0, Complex.exp_log (div_ne_zero hz h0)]
  field_simp

theorem lane_ofRat_c (q : ℚ) : (Cf.ofRat q : ℂ) = (q : ℂ) := Lanes.lane_ofRat (C := ℂ) () q

theorem logOk_c (z : ℂ) : CfFun.logOk z = true ↔ ∀ _ : Unit, z ≠ 0 := by
  change decide (z ≠ 0) = true ↔ _
  simp

theorem computes_exp_c : Computes (C := ℂ) (ι := Unit) exp Complex.exp (fun _ => True) :=
  computes_expLike (fun _ _ => rfl) Complex.hasDerivAt_exp

/-- `log` at any constant part which is not zero. -/
theorem log_branch_c (hd : d.Valid) (h : d.czero ≠ 0) :
    ∃ r, log d = .ok r ∧ IsLift (fun _ : Unit => logNear d.czero) d r := by
  obtain ⟨r, h1, h2, h3⟩ := log_repK (ι := Unit) (l := Complex.log) (dom := fun z : ℂ => z ≠ 0) hd (fun h => h rfl)
    (fun _ _ _ => rfl) logOk_c (fun _ => h)
  refine ⟨r, h1, isLift_of_rep h2 h3 fun _ => ?_⟩
  have := isTaylor₁_logLike (m := d.order) (L := logNear d.czero) h
    (by filter_upwards [eventually_div_slit h] with t ht using hasDerivAt_logNear h ht)
  rwa [logNear_self h] at this

theorem log_slit_c (hd : d.Valid) (h : d.czero ∈ Complex.slitPlane) :
    ∃ r, log d = .ok r ∧ IsLift (fun _ : Unit => Complex.log) d r :=
  computes_logLike (l := Complex.log) (dom := fun z : ℂ => z ≠ 0) (dif := fun z => z ∈ Complex.slitPlane) (fun h => h rfl)
    (fun _ => Complex.slitPlane_ne_zero) (fun _ _ _ => rfl) logOk_c
    (fun _ hc => by filter_upwards [Complex.isOpen_slitPlane.mem_nhds hc] with t ht using Complex.hasDerivAt_log ht) d hd fun _ => h

theorem trigLike_c : TrigLike Complex.sin Complex.cos :=
  ⟨Complex.hasDerivAt_sin, Complex.hasDerivAt_cos, Complex.sin_zero, Complex.cos_zero, Complex.sin_add, Complex.cos_add⟩

theorem hypLike_c : HypLike Complex.sinh Complex.cosh :=
  ⟨Complex.hasDerivAt_sinh, Complex.hasDerivAt_cosh, Complex.sinh_zero, Complex.cosh_zero, Complex.sinh_add, Complex.cosh_add⟩

theorem tanOk_c (z : ℂ) : CfFun.tanOk z = true ↔ ∀ _ : Unit, Complex.cos z ≠ 0 := by
  change decide (Complex.cos z ≠ 0) = true ↔ _
  simp

theorem hasDerivAt_catanh {z : ℂ} (h1 : 1 + z ∈ Complex.slitPlane) (h2 : 1 - z ∈ Complex.slitPlane) :
    HasDerivAt catanh (1 / 2 * ((1 - z)⁻¹ + (1 + z)⁻¹)) z := by
  have e1 : HasDerivAt (fun z : ℂ => 1 + z) 1 z := (hasDerivAt_id z).const_add 1
  have e2 : HasDerivAt (fun z : ℂ => 1 - z) (-1) z := (hasDerivAt_id z).const_sub 1
  refine (((e1.clog h1).sub (e2.clog h2)).const_mul (1 / 2 : ℂ)).congr_deriv ?_
  rw [neg_div, sub_neg_eq_add, add_comm, one_div (1 - z), one_div (1 + z)]

theorem atanh_c (hd : d.Valid) (h1 : 1 + d.czero ∈ Complex.slitPlane) (h2 : 1 - d.czero ∈ Complex.slitPlane) :
    ∃ r, atanh d = .ok r ∧ IsLift (fun _ : Unit => catanh) d r := by
  have hl : ∀ p0, d.constantCf = .ok p0 → p0 = d.czero := fun p0 hp0 => lane_constantCf (ι := Unit) (K := ℂ) hd hp0 ()
  have n1 := Complex.slitPlane_ne_zero h1
  have n2 := Complex.slitPlane_ne_zero h2
  refine atanh_liftK hd (fun p0 hp0 => ?_) (fun p0 hp0 _ => ?_) (fun p0 hp0 k _ => ?_) (fun _ => isTaylor₁_atanhLike n2 n1 ?_)
  · rw [hl p0 hp0]
    refine decide_eq_true ⟨fun h => n2 (by rw [h, sub_self]), fun h => n1 (by rw [h]; ring)⟩
  · rw [hl p0 hp0]; rfl
  · rw [hl p0 hp0]
    have e : ∀ z : ℂ, (CfFun.pow z (k : ℚ) : ℂ) = z ^ k := fun z => by
      change z ^ (((k : ℚ) : ℂ)) = z ^ k
      rw [Rat.cast_natCast, Complex.cpow_natCast]
    constructor
    · change CfFun.pow (Cf.sub (Cf.ofRat 1) d.czero) (k : ℚ) = _
      rw [e, lane_ofRat_c]
      change (((1 : ℚ) : ℂ) - _) ^ k = _
      rw [Rat.cast_one]
    · change CfFun.pow (Cf.add (Cf.ofRat 1) d.czero) (k : ℚ) = _
      rw [e, lane_ofRat_c]
      change (((1 : ℚ) : ℂ) + _) ^ k = _
      rw [Rat.cast_one]
  · have c1 : ContinuousAt (fun z : ℂ => 1 + z) d.czero := by fun_prop
    have c2 : ContinuousAt (fun z : ℂ => 1 - z) d.czero := by fun_prop
    filter_upwards [c1.eventually (Complex.isOpen_slitPlane.mem_nhds h1), c2.eventually (Complex.isOpen_slitPlane.mem_nhds h2)]
      with t t1 t2 using hasDerivAt_catanh t1 t2

/-! Powers -/

/-- The series of `pow(d, α)` is the expansion of any power function with the value of the principal power at the constant part. -/
theorem powQ_c {α : ℚ} {P : ℂ → ℂ} (hd : d.Valid) (hr : -2147483649 < α ∧ α < 2147483648) (hα : ¬ (α.den = 1 ∧ α > 0)) (h : d.czero ≠ 0)
    (hP : ∀ᶠ t in 𝓝 d.czero, HasDerivAt P (α * P t / t) t) (hv : P d.czero = d.czero ^ (α : ℂ)) :
    ∃ r, powQ d α = .ok r ∧ IsLift (fun _ : Unit => P) d r := by
  refine powQ_series_liftK (W := fun q z => z ^ (q : ℂ)) hd hr hα (fun p0 hp0 j => ?_) fun _ => ?_
  · have hl : p0 = d.czero := lane_constantCf (ι := Unit) (K := ℂ) hd hp0 ()
    refine ⟨decide_eq_true (Or.inl (hl ▸ h)), fun _ => ?_⟩
    rw [hl]; rfl
  · refine (isTaylor₁_power h (α : ℂ) hP).congr fun i _ => ?_
    push_cast
    rw [hv, Complex.cpow_sub _ _ h, Complex.cpow_natCast]
    ring

theorem powQ_branch_c {α : ℚ} (hd : d.Valid) (hr : -2147483649 < α ∧ α < 2147483648) (hα : ¬ (α.den = 1 ∧ α > 0)) (h : d.czero ≠ 0) :
    ∃ r, powQ d α = .ok r ∧ IsLift (fun (_ : Unit) z => Complex.exp (α * logNear d.czero z)) d r := by
  refine powQ_c hd hr hα h ?_ ?_
  · filter_upwards [eventually_div_slit h] with t ht
    refine (((hasDerivAt_logNear h ht).const_mul (α : ℂ)).cexp).congr_deriv ?_
    rw [div_eq_mul_inv]; ring
  · rw [logNear_self h, Complex.cpow_def_of_ne_zero h, mul_comm]

theorem powQ_slit_c {α : ℚ} (hd : d.Valid) (hr : -2147483649 < α ∧ α < 2147483648) (hα : ¬ (α.den = 1 ∧ α > 0))
    (h : d.czero ∈ Complex.slitPlane) : ∃ r, powQ d α = .ok r ∧ IsLift (fun (_ : Unit) (z : ℂ) => z ^ (α : ℂ)) d r := by
  refine powQ_c hd hr hα (Complex.slitPlane_ne_zero h) ?_ rfl
  filter_upwards [Complex.isOpen_slitPlane.mem_nhds h] with t ht
  have h0 := Complex.slitPlane_ne_zero ht
  refine ((hasDerivAt_id t).cpow_const (c := (α : ℂ)) ht).congr_deriv ?_
  rw [mul_one, id, Complex.cpow_sub _ _ h0, Complex.cpow_one]
  ring

theorem cast_of_den_one {α : ℚ} (h : α.den = 1) : (α : ℂ) = (α.num : ℂ) := by
  conv_lhs => rw [← Rat.coe_int_num_of_den_eq_one h]
  push_cast; rfl

theorem powQ_int_c {α : ℚ} (hd : d.Valid) (hr : -2147483649 < α ∧ α < 2147483648) (hα : α.den = 1) (h : 0 < α ∨ d.czero ≠ 0) :
    ∃ r, powQ d α = .ok r ∧ IsLift (fun (_ : Unit) (z : ℂ) => z ^ (α : ℂ)) d r := by
  have e := cast_of_den_one hα
  by_cases hpos : 0 < α
  · obtain ⟨r, h1, h2⟩ := powQ_pos_liftK (ι := Unit) (𝕜 := ℂ) hd hr.2 hα hpos
    refine ⟨r, h1, h2.congr' fun _ z => ?_⟩
    have hnum : 0 < α.num := Rat.num_pos.mpr hpos
    rw [e, Complex.cpow_intCast, ← zpow_natCast, Int.toNat_of_nonneg hnum.le]
  · have h0 := h.resolve_left hpos
    refine powQ_c hd hr (fun hh => hpos hh.2) h0 ?_ rfl
    rw [e]
    filter_upwards [isOpen_ne.mem_nhds h0] with t ht
    have : (fun z : ℂ => z ^ (α.num : ℂ)) = fun z => z ^ α.num := funext fun z => Complex.cpow_intCast _ _
    rw [this]
    refine (hasDerivAt_zpow α.num t (Or.inl ht)).congr_deriv ?_
    simp only [Complex.cpow_intCast]
    rw [zpow_sub_one₀ ht]
    ring

/-! Powers of numbers -/

theorem powBase_c {q : ℚ} (hd : d.Valid) (hq : q ≠ 0) :
    ∃ r, powBase q d = .ok r ∧ r.Valid ∧ (d.degree ≠ 0 → r.order = d.order) ∧ (d.degree = 0 → r.order = 0 ∧ r.p.syms = []) ∧
      ∀ (i : Unit) (F : (String → ℂ) → ℂ) (a : String → ℂ), IsTaylor a d.order F (d.toMv i) →
        IsTaylor a d.order (fun x => (q : ℂ) ^ F x) (r.toMv i) := by
  have hq' : (q : ℂ) ≠ 0 := by exact_mod_cast hq
  have h1 := (IsLift.id (ι := Unit) hd).mulSG (CfFun.log (Cf.ofRat q : ℂ))
  obtain ⟨r, hr, hrl⟩ := computes_exp_c.lift _ h1.valid fun _ => trivial
  have h2 := (h1.comp hrl).congr' (h := fun _ z => (q : ℂ) ^ z) fun i z => by
    rw [Complex.cpow_def_of_ne_zero hq']
    change Complex.exp (Complex.log (Cf.ofRat q : ℂ) * z) = _
    rw [lane_ofRat_c]
  unfold powBase
  by_cases h0 : d.degree = 0
  · rw [if_pos h0]
    obtain ⟨p0, hp0⟩ := constantCf_isOk d
    have hl : p0 = d.czero := lane_constantCf (ι := Unit) (K := ℂ) hd hp0 ()
    refine ⟨ofCf (CfFun.powBase q p0), ?_, valid_ofCf _, fun h => absurd h0 h, fun _ => ⟨rfl, rfl⟩, fun i F a hF => ?_⟩
    · rw [bind_ok hp0, bind_ok (guardFinite_true (show CfFun.powBaseOk q p0 = true from decide_eq_true hq))]
    · -- the expansion is the constant one
      have h3 := h2.taylor i F a hF
      refine h3.congr_poly ?_
      have hc : (d.toMv i : MvPolynomial String ℂ) = MvPolynomial.C d.czero := (degree_eq_zero_iff hd).mp h0 i
      have h4 := h2.taylor i (fun _ => d.czero) a (by rw [hc]; exact IsTaylor.const _)
      refine (h4.unique (IsTaylor.const _)).trans (EqUpTo.of_eq ?_)
      rw [toMv_ofCf, hl]
      rfl
  · rw [if_neg h0]
    refine ⟨r, ?_, h2.valid, fun _ => h2.order, fun h => absurd h h0, h2.taylor⟩
    rw [bind_ok (guardFinite_true ((logOk_c _).mpr fun _ => by rw [lane_ofRat_c]; exact hq')), hr]

/-- Every available function lifts. -/
theorem Fn.lift_c (f : Fn) (hd : d.Valid) (h : f.CDom d.czero) :
    ∃ r, f.run d = .ok r ∧ WLift (fun _ : Unit => f.cplx) d r ∧ ((∀ q, f ≠ .powBase q) → r.order = d.order) := by
  have key' : ∀ {f : GDual ℂ → Res (GDual ℂ)} {g : Unit → ℂ → ℂ} {P : Prop}, (∃ r, f d = .ok r ∧ IsLift g d r) →
      ∃ r, f d = .ok r ∧ WLift g d r ∧ (P → r.order = d.order) := fun ⟨r, h1, h2⟩ => ⟨r, h1, h2.w, fun _ => h2.order⟩
  obtain ⟨s, c, -, hs, hc, hsl, hcl⟩ := sinAndCos_liftK (ι := Unit) trigLike_c (fun _ _ => rfl) (fun _ _ => rfl) hd
  obtain ⟨sh, ch, -, hsh, hch, hshl, hchl⟩ := sinhAndCosh_liftK (ι := Unit) hypLike_c (fun _ _ => rfl) (fun _ _ => rfl) hd
  cases f with
  | exp => exact key' (computes_exp_c.lift d hd fun _ => trivial)
  | log => exact key' (log_slit_c hd h)
  | sqrt => exact h.elim
  | cbrt => exact h.elim
  | sin => exact key' ⟨s, hs, hsl⟩
  | cos => exact key' ⟨c, hc, hcl⟩
  | tan => exact key' (tan_liftK trigLike_c (fun _ => rfl) (fun _ _ _ => rfl) tanOk_c hd fun _ => h)
  | sinh => exact key' ⟨sh, hsh, hshl⟩
  | cosh => exact key' ⟨ch, hch, hchl⟩
  | tanh => exact key' (tanh_liftK hypLike_c (fun _ => rfl) (fun _ _ _ => rfl) hd fun _ => h)
  | asinh => exact h.elim
  | acosh => exact h.elim
  | atanh => exact key' (atanh_c hd h.1 h.2)
  | atan => exact h.elim
  | asin => exact h.elim
  | acos => exact h.elim
  | neg => exact key' (f := fun d => .ok d.neg) ⟨_, rfl, (IsLift.id hd).neg⟩
  | powQ α =>
    obtain ⟨h1, h2, h3⟩ := h
    by_cases hα : α.den = 1
    · refine key' (powQ_int_c hd ⟨h1, h2⟩ hα ?_)
      rcases h3 with h3 | h3
      · exact Or.inr (Complex.slitPlane_ne_zero h3)
      · exact h3.2
    · exact key' (powQ_slit_c hd ⟨h1, h2⟩ (fun hh => hα hh.1) (h3.resolve_right fun hh => hα hh.1))
  | powInt z => exact key' (powInt_lift hd h.1 (h.2.imp id fun h _ => h))
  | powBase q =>
    obtain ⟨r, h1, h2, h3, h4, h5⟩ := powBase_c hd h
    refine ⟨r, h1, ⟨h2, ?_, ?_, h5⟩, fun hh => absurd rfl (hh q)⟩
    · by_cases h0 : d.degree = 0
      · rw [(h4 h0).1]; exact Nat.zero_le _
      · exact (h3 h0).le
    · by_cases h0 : d.degree = 0
      · exact Or.inr (isConst_of_order_zero h2 (h4 h0).1)
      · exact Or.inl (h3 h0)

/-- Evaluation of an expression computes its Taylor expansion. -/
theorem Expr.run_good_c {v : String → ℂ} {p : Unit → String → ℂ} (hm : m < UINT_MAX - 10) (hp : ∀ (i : Unit) (s : String), p i ("d" ++ s) = v s) :
    ∀ e : Expr ℂ, e.Legal m → e.CDom v →
      ∃ r, e.run v m = .ok r ∧ Good m p (fun (i : Unit) x => e.csem (fun s => x ("d" ++ s))) r ∧ (e.full = true → r.order = m) := by
  have hpv : ∀ i : Unit, (fun s => p i ("d" ++ s)) = v := fun i => funext (hp i)
  intro e
  induction e with
  | var s =>
    intro hl _
    obtain ⟨r, hr⟩ : ∃ r, GDual.mk3 (v s) s m = .ok r := ⟨_, mk3_ok.mpr ⟨hm, hl, rfl⟩⟩
    have hv := valid_mk3 (ι := Unit) (K := ℂ) hr
    have ho := order_mk3 hr
    refine ⟨r, hr, ⟨hv, ho.le, Or.inl ho, fun i => ?_⟩, fun _ => ho⟩
    have h1 := IsTaylor.coord (a := p i) (m := m) ("d" ++ s)
    refine h1.congr_poly ?_
    rw [toMv_mk3 hr, hp, show (Lanes.lane i (v s) : ℂ) = v s from rfl]
    split_ifs with h0
    · subst h0
      intro e he
      have : e = 0 := by rw [← Finsupp.degree_eq_zero_iff]; omega
      rw [this]; simp
    · exact EqUpTo.of_eq (by ring)
  | const c => exact fun _ _ => ⟨_, rfl, Good.const c, fun h => by cases h⟩
  | bin op e1 e2 ih1 ih2 =>
    intro hl hd
    obtain ⟨r1, h1, g1, f1⟩ := ih1 hl.1 hd.1
    obtain ⟨r2, h2, g2, f2⟩ := ih2 hl.2 hd.2.1
    obtain ⟨r, hr, gr⟩ := Good.op op g1 g2 fun i => by rw [hpv]; exact hd.2.2
    have hord : r.order = max r1.order r2.order := by
      cases op with
      | add => injection hr with hr; rw [← hr]; rfl
      | sub => injection hr with hr; rw [← hr]; rfl
      | mul => injection hr with hr; rw [← hr]; rfl
      | div =>
        have h0' : ∀ i : Unit, coeff 0 (r2.toMv i : MvPolynomial String ℂ) ≠ 0 := fun i => by
          rw [← (g2.taylor i).val, hpv]; exact hd.2.2
        obtain ⟨r', hr', -, ho, -⟩ := div_spec' g1.valid g2.valid h0'
        have : Op.div.run r1 r2 = .ok r' := hr'
        rw [hr] at this; injection this with this; rw [this, ho]
    refine ⟨r, ?_, gr, fun hf => ?_⟩
    · change (do op.run (← e1.run v m) (← e2.run v m)) = _
      rw [bind2_ok h1 h2, hr]
    · rw [hord]
      simp only [Expr.full, Bool.or_eq_true] at hf
      rcases hf with hf | hf
      · rw [f1 hf]; exact max_eq_left g2.le
      · rw [f2 hf]; exact max_eq_right g1.le
  | left op c e ih =>
    intro hl hd
    obtain ⟨r1, h1, g1, f1⟩ := ih hl hd.1
    obtain ⟨r, hr, gr⟩ := Good.opL op c g1 fun i => by rw [hpv]; exact hd.2
    refine ⟨r, ?_, gr, fun hf => ?_⟩
    · change (e.run v m >>= fun d => op.runL c d) = _
      rw [bind_ok h1, hr]
    · have hord : r.order = r1.order := by
        cases op with
        | add => injection hr with hr; rw [← hr]; rfl
        | sub => injection hr with hr; rw [← hr]; rfl
        | mul => injection hr with hr; rw [← hr]; exact ((IsLift.id (ι := Unit) g1.valid).mulSG c).order
        | div =>
          have h0' : ∀ i : Unit, coeff 0 (r1.toMv i : MvPolynomial String ℂ) ≠ 0 := fun i => by
            rw [← (g1.taylor i).val, hpv]; exact hd.2
          obtain ⟨r', hr', -, ho, -⟩ := divSG_spec c g1.valid h0'
          have : Op.div.runL c r1 = .ok r' := hr'
          rw [hr] at this; injection this with this; rw [this, ho]
      rw [hord, f1 hf]
  | right op e c ih =>
    intro hl hd
    obtain ⟨r1, h1, g1, f1⟩ := ih hl hd.1
    obtain ⟨r, hr, gr⟩ := Good.opR op c g1 fun i => hd.2
    refine ⟨r, ?_, gr, fun hf => ?_⟩
    · change (e.run v m >>= fun d => op.runR d c) = _
      rw [bind_ok h1, hr]
    · have hord : r.order = r1.order := by
        cases op with
        | add => injection hr with hr; rw [← hr]; rfl
        | sub => injection hr with hr; rw [← hr]; rfl
        | mul => injection hr with hr; rw [← hr]; exact ((IsLift.id (ι := Unit) g1.valid).mulGS c).order
        | div =>
          obtain ⟨r', hr', hw⟩ := (IsLift.id (ι := Unit) g1.valid).divGS (c := c) fun i => hd.2
          have : Op.div.runR r1 c = .ok r' := hr'
          rw [hr] at this; injection this with this; rw [this, hw.order]
      rw [hord, f1 hf]
  | fn f e ih =>
    intro hl hd
    obtain ⟨r1, h1, g1, f1⟩ := ih hl.1 hd.1
    obtain ⟨r, hr, gr⟩ := Good.fn (f := f.run) (g := fun _ => f.cplx) (dom := fun _ => f.CDom)
      (fun d hdv hle hdom => by
        obtain ⟨r, e1, e2, -⟩ := Fn.lift_c f hdv (hdom ())
        exact ⟨r, e1, e2⟩) g1 fun i => by rw [hpv]; exact hd.2
    refine ⟨r, ?_, gr, fun hf => ?_⟩
    · change (e.run v m >>= fun d => f.run d) = _
      rw [bind_ok h1, hr]
    · have hdom : ∀ i : Unit, f.CDom (coeff 0 (r1.toMv i : MvPolynomial String ℂ)) := fun i => by
        rw [← (g1.taylor i).val, hpv]; exact hd.2
      obtain ⟨r', e1, -, e3⟩ := Fn.lift_c f g1.valid (hdom ())
      rw [hr] at e1; injection e1 with e1
      have hne : ∀ q, f ≠ .powBase q := by rintro q rfl; simp [Expr.full] at hf
      rw [e1, e3 hne, f1]
      cases f <;> first | exact hf | exact absurd rfl (hne _)
  | pow e1 e2 ih1 ih2 =>
    intro hl hd
    obtain ⟨r1, h1, g1, f1⟩ := ih1 hl.1 hd.1
    obtain ⟨r2, h2, g2, f2⟩ := ih2 hl.2 hd.2.1
    obtain ⟨l, hl', gl⟩ := Good.fn (f := GDual.log) (g := fun _ => Complex.log) (dom := fun _ x => x ∈ Complex.slitPlane)
      (fun d hdv _ hdom => by
        obtain ⟨r, e1, e2⟩ := log_slit_c hdv (hdom ())
        exact ⟨r, e1, e2.w⟩) g1 fun i => by rw [hpv]; exact hd.2.2
    have hlo : l.order = r1.order := by
      obtain ⟨r, e1, e2⟩ := log_slit_c g1.valid (by
        rw [czero, ← (g1.taylor ()).val, hpv]; exact hd.2.2)
      rw [hl'] at e1; injection e1 with e1; rw [e1, e2.order]
    have gm := g2.mul gl
    obtain ⟨r, hr, gr⟩ := Good.fn (f := GDual.exp) (g := fun _ => Complex.exp) (dom := fun _ _ => True)
      (fun d hdv _ hdom => by
        obtain ⟨r, e1, e2⟩ := computes_exp_c.lift (ι := Unit) d hdv hdom
        exact ⟨r, e1, e2.w⟩) gm fun i => trivial
    have hro : r.order = max r2.order r1.order := by
      obtain ⟨r', e1, e2⟩ := computes_exp_c.lift (ι := Unit) _ gm.valid fun i => trivial
      rw [hr] at e1; injection e1 with e1; rw [e1, e2.order, ← hlo]; rfl
    refine ⟨r, ?_, ⟨gr.valid, gr.le, gr.order, fun i => (gr.taylor i).congr_fun ?_⟩, fun hf => ?_⟩
    · change (do GDual.powG (← e1.run v m) (← e2.run v m)) = _
      rw [bind2_ok h1 h2]
      unfold powG
      rw [bind_ok hl', hr]
    · have hpos : e1.csem (fun s => p i ("d" ++ s)) ∈ Complex.slitPlane := by rw [hpv]; exact hd.2.2
      filter_upwards [(g1.taylor i).cont.eventually (Complex.isOpen_slitPlane.mem_nhds hpos)] with x hx
      change _ = e1.csem (fun s => x ("d" ++ s)) ^ e2.csem (fun s => x ("d" ++ s))
      rw [Complex.cpow_def_of_ne_zero (Complex.slitPlane_ne_zero hx), mul_comm]
    · rw [hro]
      simp only [Expr.full, Bool.or_eq_true] at hf
      rcases hf with hf | hf
      · rw [f1 hf]; exact max_eq_right g2.le
      · rw [f2 hf]; exact max_eq_left g1.le

end Audi
