import Verif.Spec.Expr
import Verif.Props.C22_Functions

/-! Evaluation of expressions on gduals. -/

namespace Audi

open MvPolynomial Spec GDual Filter Topology

section generic
variable {C : Type} [CfFun C] {ι : Type} {𝕜 : Type} [NontriviallyNormedField 𝕜] [CharZero 𝕜] [Lanes C ι 𝕜] {d : GDual C} {m : ℕ} {p : ι → String → 𝕜}

/-- `r` is a constant. -/
def IsConst (ι : Type) [Lanes C ι 𝕜] (r : GDual C) : Prop := ∀ i : ι, (r.toMv i : MvPolynomial String 𝕜) = MvPolynomial.C (coeff 0 (r.toMv i))

theorem isConst_of_order_zero {r : GDual C} (hr : r.Valid) (h : r.order = 0) : IsConst ι r := fun i => by
  refine EqUpTo.eq_of_degLE (m := 0) ?_ (h ▸ hr.degLE (K := 𝕜) i) ?_
  · intro e he
    have : e = 0 := by rw [← Finsupp.degree_eq_zero_iff]; omega
    rw [this]; simp
  · intro e he
    rw [coeff_C, if_neg]
    rintro rfl; simp at he

/-- As `IsLift`, allowing a loss of order when the result is constant. -/
structure WLift (g : ι → 𝕜 → 𝕜) (d r : GDual C) : Prop where
  valid : r.Valid
  le : r.order ≤ d.order
  order : r.order = d.order ∨ IsConst ι r
  taylor : ∀ (i : ι) (F : (String → 𝕜) → 𝕜) (a : String → 𝕜), IsTaylor a d.order F (d.toMv i) →
    IsTaylor a d.order (fun x => g i (F x)) (r.toMv i)

theorem IsLift.w {g : ι → 𝕜 → 𝕜} {d r : GDual C} (h : IsLift g d r) : WLift g d r := ⟨h.valid, h.order.le, Or.inl h.order, h.taylor⟩

/-- The invariant of the evaluation. -/
structure Good (m : ℕ) (p : ι → String → 𝕜) (F : ι → (String → 𝕜) → 𝕜) (r : GDual C) : Prop where
  valid : r.Valid
  le : r.order ≤ m
  order : r.order = m ∨ IsConst ι r
  taylor : ∀ i : ι, IsTaylor (p i) m (F i) (r.toMv i)

/-- The same polynomial with another order. -/
def withOrder (d : GDual C) (m : ℕ) : GDual C := ⟨d.p, m⟩

theorem valid_withOrder (hd : d.Valid) (h : d.order ≤ m) : (withOrder d m).Valid := ⟨hd.wf, fun t ht => (hd.deg t ht).trans h⟩

theorem Good.fn {f : GDual C → Res (GDual C)} {g : ι → 𝕜 → 𝕜} {dom : ι → 𝕜 → Prop}
    (hf : ∀ d : GDual C, d.Valid → d.order ≤ m → (∀ i : ι, dom i (coeff 0 (d.toMv i : MvPolynomial String 𝕜))) →
      ∃ r, f d = .ok r ∧ WLift g d r) {F : ι → (String → 𝕜) → 𝕜} (h : Good m p F d) (hdom : ∀ i, dom i (F i (p i))) :
    ∃ r, f d = .ok r ∧ Good m p (fun i x => g i (F i x)) r := by
  have hdom' : ∀ i : ι, dom i (coeff 0 (d.toMv i : MvPolynomial String 𝕜)) := fun i => by rw [← (h.taylor i).val]; exact hdom i
  obtain ⟨r, hr, hw⟩ := hf d h.valid h.le hdom'
  suffices hs : (r.order = m ∨ IsConst ι r) ∧ ∀ i : ι, IsTaylor (p i) m (fun x => g i (F i x)) (r.toMv i) from
    ⟨r, hr, hw.valid, hw.le.trans h.le, hs.1, hs.2⟩
  rcases h.order with ho | hc
  · refine ⟨?_, fun i => ?_⟩
    · rw [← ho]; exact hw.order
    · have := hw.taylor i (F i) (p i) (ho.symm ▸ h.taylor i)
      rwa [ho] at this
  · have key : ∀ {d r : GDual C}, WLift g d r → IsConst ι d → ∀ i : ι,
        (r.toMv i : MvPolynomial String 𝕜) = MvPolynomial.C (g i (coeff 0 (d.toMv i : MvPolynomial String 𝕜))) := by
      intro d r hw hc i
      have h1 := hw.taylor i (fun _ => coeff 0 (d.toMv i : MvPolynomial String 𝕜)) (p i) (by
        conv => arg 4; rw [hc i]
        exact IsTaylor.const _)
      refine EqUpTo.eq_of_degLE (m := d.order) (h1.unique (IsTaylor.const _)) ?_ ?_
      · exact fun e he => hw.valid.degLE (K := 𝕜) i e (lt_of_le_of_lt hw.le he)
      · intro e he
        rw [coeff_C, if_neg]
        rintro rfl; simp at he
    have hr1 := key hw hc
    have hrc : IsConst ι r := fun i => by rw [hr1 i]; simp
    refine ⟨Or.inr hrc, fun i => ?_⟩
    obtain ⟨r', -, hw'⟩ := hf (withOrder d m) (valid_withOrder h.valid h.le) le_rfl hdom'
    have h2 := hw'.taylor i (F i) (p i) (h.taylor i)
    rw [key hw' hc i] at h2
    rw [hr1 i]
    exact h2

theorem order_cases {a b : GDual C} {F G : ι → (String → 𝕜) → 𝕜} (ha : Good m p F a) (hb : Good m p G b) :
    max a.order b.order = m ∨ IsConst ι a ∧ IsConst ι b := by
  rcases ha.order with h | h
  · left; rw [h]; exact max_eq_left hb.le
  rcases hb.order with h' | h'
  · left; rw [h']; exact max_eq_right ha.le
  · exact Or.inr ⟨h, h'⟩

theorem Good.add {a b : GDual C} {F G : ι → (String → 𝕜) → 𝕜} (ha : Good m p F a) (hb : Good m p G b) :
    Good m p (fun i x => F i x + G i x) (a.add b) := by
  refine ⟨ha.valid.add hb.valid, max_le ha.le hb.le, (order_cases ha hb).imp id fun h i => ?_, fun i => ?_⟩
  · rw [toMv_add ha.valid hb.valid, h.1 i, h.2 i]; simp
  · rw [toMv_add ha.valid hb.valid]; exact (ha.taylor i).add (hb.taylor i)

theorem Good.sub {a b : GDual C} {F G : ι → (String → 𝕜) → 𝕜} (ha : Good m p F a) (hb : Good m p G b) :
    Good m p (fun i x => F i x - G i x) (a.sub b) := by
  refine ⟨ha.valid.sub hb.valid, max_le ha.le hb.le, (order_cases ha hb).imp id fun h i => ?_, fun i => ?_⟩
  · rw [toMv_sub ha.valid hb.valid, h.1 i, h.2 i]; simp
  · rw [toMv_sub ha.valid hb.valid]; exact (ha.taylor i).sub (hb.taylor i)

theorem degLE_C (n : ℕ) (c : 𝕜) : DegLE n (MvPolynomial.C c : MvPolynomial String 𝕜) := fun e he => by
  rw [coeff_C, if_neg]
  rintro rfl; simp at he

theorem Good.mul {a b : GDual C} {F G : ι → (String → 𝕜) → 𝕜} (ha : Good m p F a) (hb : Good m p G b) :
    Good m p (fun i x => F i x * G i x) (a.mul b) := by
  have hm := toMv_mul ha.valid hb.valid (K := 𝕜) (ι := ι)
  rcases order_cases ha hb with ho | ⟨h1, h2⟩
  · rw [ho] at hm
    exact ⟨ha.valid.mul hb.valid, max_le ha.le hb.le, Or.inl ho, fun i => ((ha.taylor i).mul (hb.taylor i)).congr_poly (hm i).symm⟩
  · have he : ∀ i : ι, ((a.mul b).toMv i : MvPolynomial String 𝕜) = a.toMv i * b.toMv i := fun i => by
      refine EqUpTo.eq_of_degLE (hm i) ((ha.valid.mul hb.valid).degLE i) ?_
      rw [h1 i, h2 i, ← map_mul]; exact degLE_C _ _
    refine ⟨ha.valid.mul hb.valid, max_le ha.le hb.le, Or.inr fun i => ?_, fun i => ?_⟩
    · rw [he, h1 i, h2 i, ← map_mul]; simp
    · rw [he]; exact (ha.taylor i).mul (hb.taylor i)

theorem Good.div {a b : GDual C} {F G : ι → (String → 𝕜) → 𝕜} (ha : Good m p F a) (hb : Good m p G b)
    (h0 : ∀ i, G i (p i) ≠ 0) : ∃ r, a.div b = .ok r ∧ Good m p (fun i x => F i x / G i x) r := by
  have h0' : ∀ i : ι, coeff 0 (b.toMv i : MvPolynomial String 𝕜) ≠ 0 := fun i => by rw [← (hb.taylor i).val]; exact h0 i
  obtain ⟨r, hr, hv, ho, hI⟩ := div_spec' ha.valid hb.valid h0'
  have hle : r.order ≤ m := by rw [ho]; exact max_le ha.le hb.le
  -- if the denominator is constant, its inverse is exact
  have hex : ∀ i, ∃ I : MvPolynomial String 𝕜, (EqUpTo m (I * b.toMv i) 1 ∧ (IsConst ι b → I * b.toMv i = 1 ∧ ∃ c, I = MvPolynomial.C c)) ∧
      EqUpTo (max a.order b.order) (r.toMv i) (a.toMv i * I) := by
    intro i
    obtain ⟨I, h1, h2, h3⟩ := hI i
    have hc : IsConst ι b → I * b.toMv i = 1 := fun hc => by
      refine EqUpTo.eq_of_degLE h2 ?_ ?_
      · rw [hc i, mul_comm]; exact degLE_C_mul h1 _
      · rw [← MvPolynomial.C_1]; exact degLE_C _ _
    refine ⟨I, ⟨?_, fun hcc => ⟨hc hcc, (coeff 0 (b.toMv i))⁻¹, ?_⟩⟩, h3⟩
    · rcases hb.order with h | h
      · rw [h] at h2; exact h2
      · exact EqUpTo.of_eq (hc h)
    · have e1 := hc hcc
      rw [hcc i] at e1
      calc I = I * MvPolynomial.C (coeff 0 (b.toMv i)) * MvPolynomial.C (coeff 0 (b.toMv i))⁻¹ := by
            rw [mul_assoc, ← map_mul, mul_inv_cancel₀ (h0' i), map_one, mul_one]
        _ = _ := by rw [e1, one_mul]
  suffices hs : (r.order = m ∨ IsConst ι r) ∧ ∀ i : ι, IsTaylor (p i) m (fun x => F i x / G i x) (r.toMv i) from
    ⟨r, hr, hv, hle, hs.1, hs.2⟩
  rcases order_cases ha hb with hm | ⟨h1, h2⟩
  · refine ⟨Or.inl (ho.trans hm), fun i => ?_⟩
    obtain ⟨I, ⟨h1, -⟩, h2⟩ := hex i
    rw [hm] at h2
    refine (IsTaylor.div_of_mul (ha.taylor i) (hb.taylor i) (h0' i) (R := a.toMv i * I) ?_).congr_poly h2.symm
    have := (EqUpTo.refl (m := m) (a.toMv i : MvPolynomial String 𝕜)).mul h1
    rwa [mul_one, ← mul_assoc] at this
  · have he : ∀ i : ι, ∃ I c : _, I * b.toMv i = 1 ∧ I = MvPolynomial.C c ∧ (r.toMv i : MvPolynomial String 𝕜) = a.toMv i * I := fun i => by
      obtain ⟨I, ⟨-, h3⟩, h4⟩ := hex i
      obtain ⟨h5, c, h6⟩ := h3 h2
      refine ⟨I, c, h5, h6, EqUpTo.eq_of_degLE h4 (ho ▸ hv.degLE i) ?_⟩
      rw [h6, h1 i, ← map_mul]; exact degLE_C _ _
    refine ⟨Or.inr fun i => ?_, fun i => ?_⟩
    · obtain ⟨I, c, -, h3, h4⟩ := he i
      rw [h4, h3, h1 i, ← map_mul]; simp
    · obtain ⟨I, c, h3, -, h4⟩ := he i
      rw [h4]
      refine IsTaylor.div_of_mul (ha.taylor i) (hb.taylor i) (h0' i) (EqUpTo.of_eq ?_)
      rw [mul_assoc, h3, mul_one]

theorem Good.const (c : C) : Good m p (fun i _ => Lanes.lane i c) (ofCf c) :=
  ⟨valid_ofCf c, Nat.zero_le _, Or.inr fun i => by rw [toMv_ofCf]; simp, fun i => by rw [toMv_ofCf]; exact IsTaylor.const _⟩

theorem Good.op {a b : GDual C} {F G : ι → (String → 𝕜) → 𝕜} (op : Op) (ha : Good m p F a) (hb : Good m p G b)
    (h0 : ∀ i, op.Dom (G i (p i))) : ∃ r, op.run a b = .ok r ∧ Good m p (fun i x => op.real (F i x) (G i x)) r := by
  cases op with
  | add => exact ⟨_, rfl, ha.add hb⟩
  | sub => exact ⟨_, rfl, ha.sub hb⟩
  | mul => exact ⟨_, rfl, ha.mul hb⟩
  | div => exact ha.div hb h0

theorem Good.opL {a : GDual C} {F : ι → (String → 𝕜) → 𝕜} (op : Op) (c : C) (ha : Good m p F a)
    (h0 : ∀ i, op.Dom (F i (p i))) : ∃ r, op.runL c a = .ok r ∧ Good m p (fun i x => op.real (Lanes.lane i c) (F i x)) r := by
  refine Good.fn (f := op.runL c) (g := fun i x => op.real (Lanes.lane i c) x) (dom := fun _ x => op.Dom x) (fun d hd _ hdom => ?_) ha h0
  cases op with
  | add => exact ⟨_, rfl, ((IsLift.id hd).addSG c).w⟩
  | sub => exact ⟨_, rfl, ((IsLift.id hd).subSG c).w⟩
  | mul => exact ⟨_, rfl, ((IsLift.id hd).mulSG c).w⟩
  | div =>
    obtain ⟨r, h1, h2⟩ := (IsLift.id (ι := ι) hd).divSG c hdom
    exact ⟨r, h1, h2.w⟩

theorem Good.opR {a : GDual C} {F : ι → (String → 𝕜) → 𝕜} (op : Op) (c : C) (ha : Good m p F a)
    (h0 : ∀ i : ι, op.Dom (Lanes.lane i c)) : ∃ r, op.runR a c = .ok r ∧ Good m p (fun i x => op.real (F i x) (Lanes.lane i c)) r := by
  refine Good.fn (f := fun a => op.runR a c) (g := fun i x => op.real x (Lanes.lane i c)) (dom := fun _ _ => True) (fun d hd _ _ => ?_) ha
    fun _ => trivial
  cases op with
  | add => exact ⟨_, rfl, ((IsLift.id hd).addGS c).w⟩
  | sub => exact ⟨_, rfl, ((IsLift.id hd).subGS c).w⟩
  | mul => exact ⟨_, rfl, ((IsLift.id hd).mulGS c).w⟩
  | div =>
    obtain ⟨r, h1, h2⟩ := (IsLift.id (ι := ι) hd).divGS (c := c) h0
    exact ⟨r, h1, h2.w⟩

end generic

variable {C : Type} [CfFun C] {ι : Type} [Lanes C ι ℝ] {d : GDual C} {m : ℕ} {p : ι → String → ℝ}
variable [LanesFun C ι]

/-- Every function of the list lifts. -/
theorem Fn.lift (f : Fn) (hd : d.Valid) (hm : f.MaxOrder d.order) (h : ∀ i : ι, f.Dom (coeff 0 (d.toMv i : MvPolynomial String ℝ))) :
    ∃ r, f.run d = .ok r ∧ WLift (fun _ : ι => f.real) d r ∧ ((∀ q, f ≠ .powBase q) → r.order = d.order) := by
  have key : ∀ {f : GDual C → Res (GDual C)} {g : ι → ℝ → ℝ}, (∃ r, f d = .ok r ∧ IsLift g d r) →
      ∃ r, f d = .ok r ∧ WLift g d r ∧ r.order = d.order := fun ⟨r, h1, h2⟩ => ⟨r, h1, h2.w, h2.order⟩
  have key' : ∀ {f : GDual C → Res (GDual C)} {g : ι → ℝ → ℝ} {P : Prop}, (∃ r, f d = .ok r ∧ IsLift g d r) →
      ∃ r, f d = .ok r ∧ WLift g d r ∧ (P → r.order = d.order) := fun h =>
    let ⟨r, h1, h2, h3⟩ := key h; ⟨r, h1, h2, fun _ => h3⟩
  obtain ⟨i0⟩ := Lanes.nonempty C (ι := ι) (K := ℝ)
  cases f with
  | exp => exact key' (computes_exp.lift d hd h)
  | log => exact key' (computes_log.lift d hd h)
  | sqrt => exact key' (computes_sqrt.lift d hd h)
  | cbrt => exact key' (computes_cbrt.lift d hd h)
  | sin => exact key' (computes_sin.lift d hd h)
  | cos => exact key' (computes_cos.lift d hd h)
  | tan => exact key' (computes_tan.lift d hd h)
  | sinh => exact key' (computes_sinh.lift d hd h)
  | cosh => exact key' (computes_cosh.lift d hd h)
  | tanh => exact key' (computes_tanh.lift d hd h)
  | asinh => exact key' (computes_asinh.lift d hd h)
  | acosh => exact key' (computes_acosh.lift d hd h)
  | atanh => exact key' (computes_atanh.lift d hd h)
  | atan => exact key' (C29_atan_partial hd hm)
  | asin => exact key' (asinWith_lift hd (fun _ _ hk => binomialU32_eq (hk.trans hm)) h)
  | acos => exact key' (acosWith_lift hd (fun _ _ hk => binomialU32_eq (hk.trans hm)) h)
  | neg => exact key' (f := fun d => .ok d.neg) ⟨_, rfl, (IsLift.id hd).neg⟩
  | powQ α =>
    refine key' (C24_pow_real hd ⟨(h i0).1, (h i0).2.1⟩ ?_)
    by_cases hden : α.den = 1
    · refine Or.inr ⟨hden, ?_⟩
      by_cases h0 : 0 ≤ α
      · exact Or.inl h0
      · refine Or.inr fun i => ?_
        rcases (h i).2.2 with h1 | ⟨-, h1⟩
        · exact h1.ne'
        · exact h1.resolve_left h0
    · exact Or.inl fun i => (h i).2.2.resolve_right fun hh => hden hh.1
  | powInt z =>
    refine key' (C24_pow_int hd (h i0).1 ?_)
    by_cases h0 : 0 ≤ z
    · exact Or.inl h0
    · exact Or.inr fun i => (h i).2.resolve_left h0
  | powBase q =>
    obtain ⟨r, h1, h2, h3, h4, h5⟩ := powBase_lift (ι := ι) hd (h i0)
    refine ⟨r, h1, ⟨h2, ?_, ?_, h5⟩, fun hh => absurd rfl (hh q)⟩
    · by_cases h0 : d.degree = 0
      · rw [(h4 h0).1]; exact Nat.zero_le _
      · exact (h3 h0).le
    · by_cases h0 : d.degree = 0
      · exact Or.inr (isConst_of_order_zero h2 (h4 h0).1)
      · exact Or.inl (h3 h0)

theorem Fn.maxOrder_mono {f : Fn} {k m : ℕ} (h : f.MaxOrder m) (hk : k ≤ m) : f.MaxOrder k := by
  cases f <;> first | exact hk.trans h | trivial

theorem bind2_ok {α β γ : Type} {x : Res α} {y : Res β} {f : α → β → Res γ} {a : α} {b : β} (hx : x = .ok a) (hy : y = .ok b) :
    (do f (← x) (← y)) = f a b := by subst hx hy; rfl

/-- Evaluation of an expression computes its Taylor expansion. -/
theorem Expr.run_good {v : String → C} (hm : m < UINT_MAX - 10) (hp : ∀ (i : ι) (s : String), p i ("d" ++ s) = Lanes.lane i (v s)) :
    ∀ e : Expr C, e.Legal m → (∀ i : ι, e.Dom i (fun s => Lanes.lane i (v s))) →
      ∃ r, e.run v m = .ok r ∧ Good m p (fun (i : ι) x => e.sem i (fun s => x ("d" ++ s))) r ∧ (e.full = true → r.order = m) := by
  have hpv : ∀ i : ι, (fun s => p i ("d" ++ s)) = fun s => Lanes.lane i (v s) := fun i => funext (hp i)
  intro e
  induction e with
  | var s =>
    intro hl _
    obtain ⟨r, hr⟩ : ∃ r, GDual.mk3 (v s) s m = .ok r := ⟨_, mk3_ok.mpr ⟨hm, hl, rfl⟩⟩
    have hv := valid_mk3 (ι := ι) (K := ℝ) hr
    have ho := order_mk3 hr
    refine ⟨r, hr, ⟨hv, ho.le, Or.inl ho, fun i => ?_⟩, fun _ => ho⟩
    have h1 := IsTaylor.coord (a := p i) (m := m) ("d" ++ s)
    refine h1.congr_poly ?_
    rw [toMv_mk3 hr, hp]
    split_ifs with h0
    · subst h0
      intro e he
      have : e = 0 := by rw [← Finsupp.degree_eq_zero_iff]; omega
      rw [this]; simp
    · exact EqUpTo.of_eq (by ring)
  | const c => exact fun _ _ => ⟨_, rfl, Good.const c, fun h => by cases h⟩
  | bin op e1 e2 ih1 ih2 =>
    intro hl hd
    obtain ⟨r1, h1, g1, f1⟩ := ih1 hl.1 fun i => (hd i).1
    obtain ⟨r2, h2, g2, f2⟩ := ih2 hl.2 fun i => (hd i).2.1
    obtain ⟨r, hr, gr⟩ := Good.op op g1 g2 fun i => by rw [hpv]; exact (hd i).2.2
    have hord : r.order = max r1.order r2.order := by
      cases op with
      | add => injection hr with hr; rw [← hr]; rfl
      | sub => injection hr with hr; rw [← hr]; rfl
      | mul => injection hr with hr; rw [← hr]; rfl
      | div =>
        have h0' : ∀ i : ι, coeff 0 (r2.toMv i : MvPolynomial String ℝ) ≠ 0 := fun i => by
          rw [← (g2.taylor i).val, hpv]; exact (hd i).2.2
        obtain ⟨r', hr', -, ho, -⟩ := div_spec' g1.valid g2.valid h0'
        have : Op.div.run r1 r2 = .ok r' := hr'
        rw [hr] at this; injection this with this; rw [this, ho]
    refine ⟨r, ?_, gr, fun hf => ?_⟩
    · change (do op.run (← e1.run v m) (← e2.run v m)) = _
      rw [bind2_ok h1 h2, hr]
    · rw [hord]
      simp only [Expr.full, Bool.or_eq_true] at hf
      rcases hf with hf | hf
      · rw [f1 hf]; exact max_eq_left g2.le
      · rw [f2 hf]; exact max_eq_right g1.le
  | left op c e ih =>
    intro hl hd
    obtain ⟨r1, h1, g1, f1⟩ := ih hl fun i => (hd i).1
    obtain ⟨r, hr, gr⟩ := Good.opL op c g1 fun i => by rw [hpv]; exact (hd i).2
    refine ⟨r, ?_, gr, fun hf => ?_⟩
    · change (e.run v m >>= fun d => op.runL c d) = _
      rw [bind_ok h1, hr]
    · have hord : r.order = r1.order := by
        cases op with
        | add => injection hr with hr; rw [← hr]; rfl
        | sub => injection hr with hr; rw [← hr]; rfl
        | mul => injection hr with hr; rw [← hr]; exact ((IsLift.id (ι := ι) g1.valid).mulSG c).order
        | div =>
          have h0' : ∀ i : ι, coeff 0 (r1.toMv i : MvPolynomial String ℝ) ≠ 0 := fun i => by
            rw [← (g1.taylor i).val, hpv]; exact (hd i).2
          obtain ⟨r', hr', -, ho, -⟩ := divSG_spec c g1.valid h0'
          have : Op.div.runL c r1 = .ok r' := hr'
          rw [hr] at this; injection this with this; rw [this, ho]
      rw [hord, f1 hf]
  | right op e c ih =>
    intro hl hd
    obtain ⟨r1, h1, g1, f1⟩ := ih hl fun i => (hd i).1
    obtain ⟨r, hr, gr⟩ := Good.opR op c g1 fun i => (hd i).2
    refine ⟨r, ?_, gr, fun hf => ?_⟩
    · change (e.run v m >>= fun d => op.runR d c) = _
      rw [bind_ok h1, hr]
    · have hord : r.order = r1.order := by
        cases op with
        | add => injection hr with hr; rw [← hr]; rfl
        | sub => injection hr with hr; rw [← hr]; rfl
        | mul => injection hr with hr; rw [← hr]; exact ((IsLift.id (ι := ι) g1.valid).mulGS c).order
        | div =>
          obtain ⟨r', hr', hw⟩ := (IsLift.id (ι := ι) g1.valid).divGS (c := c) fun i => (hd i).2
          have : Op.div.runR r1 c = .ok r' := hr'
          rw [hr] at this; injection this with this; rw [this, hw.order]
      rw [hord, f1 hf]
  | fn f e ih =>
    intro hl hd
    obtain ⟨r1, h1, g1, f1⟩ := ih hl.1 fun i => (hd i).1
    obtain ⟨r, hr, gr⟩ := Good.fn (f := f.run) (g := fun _ => f.real) (dom := fun _ => f.Dom)
      (fun d hdv hle hdom => by
        obtain ⟨r, e1, e2, -⟩ := Fn.lift (ι := ι) f hdv (Fn.maxOrder_mono hl.2 hle) hdom
        exact ⟨r, e1, e2⟩) g1 fun i => by rw [hpv]; exact (hd i).2
    refine ⟨r, ?_, gr, fun hf => ?_⟩
    · change (e.run v m >>= fun d => f.run d) = _
      rw [bind_ok h1, hr]
    · have hdom : ∀ i : ι, f.Dom (coeff 0 (r1.toMv i : MvPolynomial String ℝ)) := fun i => by
        rw [← (g1.taylor i).val, hpv]; exact (hd i).2
      obtain ⟨r', e1, -, e3⟩ := Fn.lift (ι := ι) f g1.valid (Fn.maxOrder_mono hl.2 g1.le) hdom
      rw [hr] at e1; injection e1 with e1
      have hne : ∀ q, f ≠ .powBase q := by rintro q rfl; simp [Expr.full] at hf
      rw [e1, e3 hne, f1]
      cases f <;> first | exact hf | exact absurd rfl (hne _)
  | pow e1 e2 ih1 ih2 =>
    intro hl hd
    obtain ⟨r1, h1, g1, f1⟩ := ih1 hl.1 fun i => (hd i).1
    obtain ⟨r2, h2, g2, f2⟩ := ih2 hl.2 fun i => (hd i).2.1
    obtain ⟨l, hl', gl⟩ := Good.fn (f := GDual.log) (g := fun _ => Real.log) (dom := fun _ x => 0 < x)
      (fun d hdv _ hdom => by
        obtain ⟨r, e1, e2⟩ := computes_log.lift (ι := ι) d hdv hdom
        exact ⟨r, e1, e2.w⟩) g1 fun i => by rw [hpv]; exact (hd i).2.2
    have hlo : l.order = r1.order := by
      obtain ⟨r, e1, e2⟩ := computes_log.lift (ι := ι) r1 g1.valid fun i => by
        rw [← (g1.taylor i).val, hpv]; exact (hd i).2.2
      rw [hl'] at e1; injection e1 with e1; rw [e1, e2.order]
    have gm := g2.mul gl
    obtain ⟨r, hr, gr⟩ := Good.fn (f := GDual.exp) (g := fun _ => Real.exp) (dom := fun _ _ => True)
      (fun d hdv _ hdom => by
        obtain ⟨r, e1, e2⟩ := computes_exp.lift (ι := ι) d hdv hdom
        exact ⟨r, e1, e2.w⟩) gm fun i => trivial
    have hro : r.order = max r2.order r1.order := by
      obtain ⟨r', e1, e2⟩ := computes_exp.lift (ι := ι) _ gm.valid fun i => trivial
      rw [hr] at e1; injection e1 with e1; rw [e1, e2.order, ← hlo]; rfl
    refine ⟨r, ?_, ⟨gr.valid, gr.le, gr.order, fun i => (gr.taylor i).congr_fun ?_⟩, fun hf => ?_⟩
    · change (do GDual.powG (← e1.run v m) (← e2.run v m)) = _
      rw [bind2_ok h1 h2]
      unfold powG
      rw [bind_ok hl', hr]
    · have hpos : 0 < e1.sem i (fun s => p i ("d" ++ s)) := by rw [hpv]; exact (hd i).2.2
      filter_upwards [(g1.taylor i).cont.eventually (lt_mem_nhds hpos)] with x hx
      change _ = e1.sem i (fun s => x ("d" ++ s)) ^ e2.sem i (fun s => x ("d" ++ s))
      rw [Real.rpow_def_of_pos hx, mul_comm]
    · rw [hro]
      simp only [Expr.full, Bool.or_eq_true] at hf
      rcases hf with hf | hf
      · rw [f1 hf]; exact max_eq_right g2.le
      · rw [f2 hf]; exact max_eq_left g1.le

end Audi
