import Verif.Spec.MixedOrders
import Verif.Proofs.Expr
import Verif.Proofs.GDualOps

/-! Evaluation of expressions on gduals of different orders. -/

namespace Audi

open MvPolynomial Spec GDual Filter Topology

section generic
variable {C : Type} [CfFun C] {ι : Type} {𝕜 : Type} [NontriviallyNormedField 𝕜] [CharZero 𝕜] [Lanes C ι 𝕜] {d : GDual C} {m M : ℕ} {p : ι → String → 𝕜}

/-- A polynomial is the Taylor polynomial of its function. -/
theorem isTaylor_self (a : String → 𝕜) (m : ℕ) (P : MvPolynomial String 𝕜) : IsTaylor a m (fun x => eval (fun s => x s - a s) P) P := by
  induction P using MvPolynomial.induction_on with
  | C c => simpa using IsTaylor.const (a := a) (m := m) c
  | add P Q hP hQ => simpa using hP.add hQ
  | mul_X P s hP =>
    have h : IsTaylor a m (fun x => x s - a s) (X s) := by
      have := (IsTaylor.coord (a := a) (m := m) s).sub (IsTaylor.const (a := a) (m := m) (a s))
      simpa using this
    simpa using hP.mul h

/-- The invariant of the evaluation: correct up to order `m`, which is at most the orders of all variables; `M` is at least these. -/
structure Mix (m M : ℕ) (p : ι → String → 𝕜) (F : ι → (String → 𝕜) → 𝕜) (r : GDual C) : Prop where
  valid : r.Valid
  le : r.order ≤ M
  order : m ≤ r.order ∨ IsConst ι r
  taylor : ∀ i : ι, IsTaylor (p i) m (F i) (r.toMv i)

/-- The terms up to degree `m`, with order `m`. -/
def cutTo (d : GDual C) (m : ℕ) : GDual C := ⟨d.p.truncate m, m⟩

theorem valid_cutTo (hd : d.Valid) : (cutTo d m).Valid := ⟨hd.wf.truncate _, Poly.deg_truncate _ _⟩

theorem toMv_cutTo (hd : d.Valid) (i : ι) : EqUpTo m ((cutTo d m).toMv i : MvPolynomial String 𝕜) (d.toMv i) := fun e he => by
  rw [cutTo, GDual.toMv, Poly.coeff_truncate hd.wf, if_pos he]; rfl

theorem Mix.fn {f : GDual C → Res (GDual C)} {g : ι → 𝕜 → 𝕜} {dom : ι → 𝕜 → Prop} (hM : m ≤ M)
    (hf : ∀ d : GDual C, d.Valid → d.order ≤ M → (∀ i : ι, dom i (coeff 0 (d.toMv i : MvPolynomial String 𝕜))) →
      ∃ r, f d = .ok r ∧ WLift g d r) {F : ι → (String → 𝕜) → 𝕜} (h : Mix m M p F d) (hdom : ∀ i, dom i (F i (p i))) :
    ∃ r, f d = .ok r ∧ Mix m M p (fun i x => g i (F i x)) r := by
  have hdom' : ∀ i : ι, dom i (coeff 0 (d.toMv i : MvPolynomial String 𝕜)) := fun i => by rw [← (h.taylor i).val]; exact hdom i
  obtain ⟨r, hr, hw⟩ := hf d h.valid h.le hdom'
  by_cases ho : m ≤ d.order
  · refine ⟨r, hr, hw.valid, hw.le.trans h.le, hw.order.imp (fun e => ho.trans e.ge) id, fun i => ?_⟩
    have hc := toMv_cutTo (m := m) (𝕜 := 𝕜) (ι := ι) h.valid
    obtain ⟨r', -, hw'⟩ := hf (cutTo d m) (valid_cutTo h.valid) hM fun i => by
      rw [hc i 0 (by simp)]; exact hdom' i
    have e1 := hw'.taylor i (F i) (p i) ((h.taylor i).congr_poly (hc i).symm)
    have e2 := hw'.taylor i _ (p i) ((isTaylor_self (p i) m (d.toMv i)).congr_poly (hc i).symm)
    have e3 := (hw.taylor i _ (p i) (isTaylor_self (p i) d.order (d.toMv i))).mono ho
    exact e1.congr_poly (e2.unique e3)
  · have hcst : IsConst ι d := h.order.resolve_left ho
    have key : ∀ {d r : GDual C}, WLift g d r → IsConst ι d → ∀ i : ι,
        (r.toMv i : MvPolynomial String 𝕜) = MvPolynomial.C (g i (coeff 0 (d.toMv i : MvPolynomial String 𝕜))) := by
      intro d r hw hc i
      have h1 := hw.taylor i (fun _ => coeff 0 (d.toMv i : MvPolynomial String 𝕜)) (p i) (by
        conv => arg 4; rw [hc i]
        exact IsTaylor.const _)
      refine EqUpTo.eq_of_degLE (m := d.order) (h1.unique (IsTaylor.const _)) ?_ (degLE_C _ _)
      exact fun e he => hw.valid.degLE (K := 𝕜) i e (lt_of_le_of_lt hw.le he)
    have hr1 := key hw hcst
    refine ⟨r, hr, hw.valid, hw.le.trans h.le, Or.inr fun i => by rw [hr1 i]; simp, fun i => ?_⟩
    obtain ⟨r', -, hw'⟩ := hf (withOrder d m) (valid_withOrder h.valid (by omega)) hM hdom'
    have h2 := hw'.taylor i (F i) (p i) (h.taylor i)
    rw [key hw' hcst i] at h2
    rw [hr1 i]
    exact h2

omit [CharZero 𝕜] in
theorem Mix.order_cases {a b : GDual C} {F G : ι → (String → 𝕜) → 𝕜} (ha : Mix m M p F a) (hb : Mix m M p G b) :
    m ≤ max a.order b.order ∨ IsConst ι a ∧ IsConst ι b := by
  rcases ha.order with h | h
  · exact Or.inl (h.trans (le_max_left _ _))
  rcases hb.order with h' | h'
  · exact Or.inl (h'.trans (le_max_right _ _))
  · exact Or.inr ⟨h, h'⟩

theorem Mix.add {a b : GDual C} {F G : ι → (String → 𝕜) → 𝕜} (ha : Mix m M p F a) (hb : Mix m M p G b) :
    Mix m M p (fun i x => F i x + G i x) (a.add b) := by
  refine ⟨ha.valid.add hb.valid, max_le ha.le hb.le, (ha.order_cases hb).imp id fun h i => ?_, fun i => ?_⟩
  · rw [toMv_add ha.valid hb.valid, h.1 i, h.2 i]; simp
  · rw [toMv_add ha.valid hb.valid]; exact (ha.taylor i).add (hb.taylor i)

theorem Mix.sub {a b : GDual C} {F G : ι → (String → 𝕜) → 𝕜} (ha : Mix m M p F a) (hb : Mix m M p G b) :
    Mix m M p (fun i x => F i x - G i x) (a.sub b) := by
  refine ⟨ha.valid.sub hb.valid, max_le ha.le hb.le, (ha.order_cases hb).imp id fun h i => ?_, fun i => ?_⟩
  · rw [toMv_sub ha.valid hb.valid, h.1 i, h.2 i]; simp
  · rw [toMv_sub ha.valid hb.valid]; exact (ha.taylor i).sub (hb.taylor i)

theorem Mix.mul {a b : GDual C} {F G : ι → (String → 𝕜) → 𝕜} (ha : Mix m M p F a) (hb : Mix m M p G b) :
    Mix m M p (fun i x => F i x * G i x) (a.mul b) := by
  have hm := toMv_mul ha.valid hb.valid (K := 𝕜) (ι := ι)
  rcases ha.order_cases hb with ho | ⟨h1, h2⟩
  · exact ⟨ha.valid.mul hb.valid, max_le ha.le hb.le, Or.inl ho, fun i => ((ha.taylor i).mul (hb.taylor i)).congr_poly ((hm i).mono ho).symm⟩
  · have he : ∀ i : ι, ((a.mul b).toMv i : MvPolynomial String 𝕜) = a.toMv i * b.toMv i := fun i => by
      refine EqUpTo.eq_of_degLE (hm i) ((ha.valid.mul hb.valid).degLE i) ?_
      rw [h1 i, h2 i, ← map_mul]; exact degLE_C _ _
    refine ⟨ha.valid.mul hb.valid, max_le ha.le hb.le, Or.inr fun i => ?_, fun i => ?_⟩
    · rw [he, h1 i, h2 i, ← map_mul]; simp
    · rw [he]; exact (ha.taylor i).mul (hb.taylor i)

theorem Mix.div {a b : GDual C} {F G : ι → (String → 𝕜) → 𝕜} (ha : Mix m M p F a) (hb : Mix m M p G b)
    (h0 : ∀ i, G i (p i) ≠ 0) : ∃ r, a.div b = .ok r ∧ Mix m M p (fun i x => F i x / G i x) r := by
  have h0' : ∀ i : ι, coeff 0 (b.toMv i : MvPolynomial String 𝕜) ≠ 0 := fun i => by rw [← (hb.taylor i).val]; exact h0 i
  obtain ⟨r, hr, hv, ho, hI⟩ := div_spec' ha.valid hb.valid h0'
  have hle : r.order ≤ M := by rw [ho]; exact max_le ha.le hb.le
  have hex : ∀ i, ∃ I : MvPolynomial String 𝕜, (EqUpTo m (I * b.toMv i) 1 ∧ (IsConst ι b → I * b.toMv i = 1 ∧ ∃ c, I = MvPolynomial.C c)) ∧
      EqUpTo (max a.order b.order) (r.toMv i) (a.toMv i * I) := by
    intro i
    obtain ⟨I, h1, h2, h3⟩ := hI i
    have hc : IsConst ι b → I * b.toMv i = 1 := fun hc => by
      refine EqUpTo.eq_of_degLE h2 ?_ ?_
      · rw [hc i, mul_comm]; exact degLE_C_mul h1 _
      · rw [← MvPolynomial.C_1]; exact degLE_C _ _
    refine ⟨I, ⟨?_, fun hcc => ⟨hc hcc, (coeff 0 (b.toMv i))⁻¹, ?_⟩⟩, h3⟩
    · rcases hb.order with h | h
      · exact h2.mono h
      · exact EqUpTo.of_eq (hc h)
    · have e1 := hc hcc
      rw [hcc i] at e1
      calc I = I * MvPolynomial.C (coeff 0 (b.toMv i)) * MvPolynomial.C (coeff 0 (b.toMv i))⁻¹ := by
            rw [mul_assoc, ← map_mul, mul_inv_cancel₀ (h0' i), map_one, mul_one]
        _ = _ := by rw [e1, one_mul]
  suffices hs : (m ≤ r.order ∨ IsConst ι r) ∧ ∀ i : ι, IsTaylor (p i) m (fun x => F i x / G i x) (r.toMv i) from
    ⟨r, hr, hv, hle, hs.1, hs.2⟩
  rcases ha.order_cases hb with hm | ⟨h1, h2⟩
  · refine ⟨Or.inl (ho ▸ hm), fun i => ?_⟩
    obtain ⟨I, ⟨h1, -⟩, h2⟩ := hex i
    refine (IsTaylor.div_of_mul (ha.taylor i) (hb.taylor i) (h0' i) (R := a.toMv i * I) ?_).congr_poly (h2.mono hm).symm
    have := (EqUpTo.refl (m := m) (a.toMv i : MvPolynomial String 𝕜)).mul h1
    rwa [mul_one, ← mul_assoc] at this
  · have he : ∀ i : ι, ∃ I c : _, I * b.toMv i = 1 ∧ I = MvPolynomial.C c ∧ (r.toMv i : MvPolynomial String 𝕜) = a.toMv i * I := fun i => by
      obtain ⟨I, ⟨-, h3⟩, h4⟩ := hex i
      obtain ⟨h5, c, h6⟩ := h3 h2
      refine ⟨I, c, h5, h6, EqUpTo.eq_of_degLE h4 (ho ▸ hv.degLE i) ?_⟩
      rw [h6, h1 i, ← map_mul]; exact degLE_C _ _
    refine ⟨Or.inr fun i => ?_, fun i => ?_⟩
    · obtain ⟨I, c, -, h3, h4⟩ := he i
      rw [h4, h3, h1 i, ← map_mul]; simp
    · obtain ⟨I, c, h3, -, h4⟩ := he i
      rw [h4]
      refine IsTaylor.div_of_mul (ha.taylor i) (hb.taylor i) (h0' i) (EqUpTo.of_eq ?_)
      rw [mul_assoc, h3, mul_one]

omit [CharZero 𝕜] in
theorem Mix.const (c : C) : Mix m M p (fun i _ => Lanes.lane i c) (ofCf c) :=
  ⟨valid_ofCf c, Nat.zero_le _, Or.inr fun i => by rw [toMv_ofCf]; simp, fun i => by rw [toMv_ofCf]; exact IsTaylor.const _⟩

theorem Mix.op {a b : GDual C} {F G : ι → (String → 𝕜) → 𝕜} (op : Op) (ha : Mix m M p F a) (hb : Mix m M p G b)
    (h0 : ∀ i, op.Dom (G i (p i))) : ∃ r, op.run a b = .ok r ∧ Mix m M p (fun i x => op.real (F i x) (G i x)) r := by
  cases op with
  | add => exact ⟨_, rfl, ha.add hb⟩
  | sub => exact ⟨_, rfl, ha.sub hb⟩
  | mul => exact ⟨_, rfl, ha.mul hb⟩
  | div => exact ha.div hb h0

theorem Mix.opL {a : GDual C} {F : ι → (String → 𝕜) → 𝕜} (hM : m ≤ M) (op : Op) (c : C) (ha : Mix m M p F a)
    (h0 : ∀ i, op.Dom (F i (p i))) : ∃ r, op.runL c a = .ok r ∧ Mix m M p (fun i x => op.real (Lanes.lane i c) (F i x)) r := by
  refine Mix.fn hM (f := op.runL c) (g := fun i x => op.real (Lanes.lane i c) x) (dom := fun _ x => op.Dom x) (fun d hd _ hdom => ?_) ha h0
  cases op with
  | add => exact ⟨_, rfl, ((IsLift.id hd).addSG c).w⟩
  | sub => exact ⟨_, rfl, ((IsLift.id hd).subSG c).w⟩
  | mul => exact ⟨_, rfl, ((IsLift.id hd).mulSG c).w⟩
  | div =>
    obtain ⟨r, h1, h2⟩ := (IsLift.id (ι := ι) hd).divSG c hdom
    exact ⟨r, h1, h2.w⟩

theorem Mix.opR {a : GDual C} {F : ι → (String → 𝕜) → 𝕜} (hM : m ≤ M) (op : Op) (c : C) (ha : Mix m M p F a)
    (h0 : ∀ i : ι, op.Dom (Lanes.lane i c)) : ∃ r, op.runR a c = .ok r ∧ Mix m M p (fun i x => op.real (F i x) (Lanes.lane i c)) r := by
  refine Mix.fn hM (f := fun a => op.runR a c) (g := fun i x => op.real x (Lanes.lane i c)) (dom := fun _ _ => True) (fun d hd _ _ => ?_) ha
    fun _ => trivial
  cases op with
  | add => exact ⟨_, rfl, ((IsLift.id hd).addGS c).w⟩
  | sub => exact ⟨_, rfl, ((IsLift.id hd).subGS c).w⟩
  | mul => exact ⟨_, rfl, ((IsLift.id hd).mulGS c).w⟩
  | div =>
    obtain ⟨r, h1, h2⟩ := (IsLift.id (ι := ι) hd).divGS (c := c) h0
    exact ⟨r, h1, h2.w⟩

end generic

variable {C : Type} [CfFun C] {ι : Type} [Lanes C ι ℝ] {m M : ℕ} {p : ι → String → ℝ}
variable [LanesFun C ι]

/-- Evaluation of an expression on variables of different orders computes its Taylor expansion up to the smallest order. -/
theorem Expr.run_mix {v : String → C} {o : String → ℕ} (hM : M < UINT_MAX - 10) (hmM : m ≤ M) (ho : ∀ s, m ≤ o s ∧ o s ≤ M)
    (hp : ∀ (i : ι) (s : String), p i ("d" ++ s) = Lanes.lane i (v s)) :
    ∀ e : Expr C, e.Legal M → (∀ i : ι, e.Dom i (fun s => Lanes.lane i (v s))) →
      ∃ r, e.runO v o = .ok r ∧ Mix m M p (fun (i : ι) x => e.sem i (fun s => x ("d" ++ s))) r ∧ (e.full = true → m ≤ r.order) := by
  have hpv : ∀ i : ι, (fun s => p i ("d" ++ s)) = fun s => Lanes.lane i (v s) := fun i => funext (hp i)
  intro e
  induction e with
  | var s =>
    intro hl _
    obtain ⟨r, hr⟩ : ∃ r, GDual.mk3 (v s) s (o s) = .ok r := ⟨_, mk3_ok.mpr ⟨(ho s).2.trans_lt hM, hl, rfl⟩⟩
    have hv := valid_mk3 (ι := ι) (K := ℝ) hr
    have hor := order_mk3 hr
    refine ⟨r, hr, ⟨hv, hor.le.trans (ho s).2, Or.inl (hor ▸ (ho s).1), fun i => ?_⟩, fun _ => hor ▸ (ho s).1⟩
    refine IsTaylor.mono ?_ (ho s).1
    refine (IsTaylor.coord (a := p i) (m := o s) ("d" ++ s)).congr_poly ?_
    rw [toMv_mk3 hr, hp]
    split_ifs with h0
    · rw [h0]
      intro e he
      have : e = 0 := by rw [← Finsupp.degree_eq_zero_iff]; omega
      rw [this]; simp
    · exact EqUpTo.of_eq (by ring)
  | const c => exact fun _ _ => ⟨_, rfl, Mix.const c, fun h => by cases h⟩
  | bin op e1 e2 ih1 ih2 =>
    intro hl hd
    obtain ⟨r1, h1, g1, f1⟩ := ih1 hl.1 fun i => (hd i).1
    obtain ⟨r2, h2, g2, f2⟩ := ih2 hl.2 fun i => (hd i).2.1
    obtain ⟨r, hr, gr⟩ := Mix.op op g1 g2 fun i => by rw [hpv]; exact (hd i).2.2
    have hord : r.order = max r1.order r2.order := by
      cases op with
      | add => injection hr with hr; rw [← hr]; rfl
      | sub => injection hr with hr; rw [← hr]; rfl
      | mul => injection hr with hr; rw [← hr]; rfl
      | div =>
        have h0' : ∀ i : ι, coeff 0 (r2.toMv i : MvPolynomial String ℝ) ≠ 0 := fun i => by
          rw [← (g2.taylor i).val, hpv]; exact (hd i).2.2
        obtain ⟨r', hr', -, ho, -⟩ := div_spec' g1.valid g2.valid h0'
        have : Op.div.run r1 r2 = .ok r' := hr'
        rw [hr] at this; injection this with this; rw [this, ho]
    refine ⟨r, ?_, gr, fun hf => ?_⟩
    · change (do op.run (← e1.runO v o) (← e2.runO v o)) = _
      rw [bind2_ok h1 h2, hr]
    · rw [hord]
      simp only [Expr.full, Bool.or_eq_true] at hf
      rcases hf with hf | hf
      · exact (f1 hf).trans (le_max_left _ _)
      · exact (f2 hf).trans (le_max_right _ _)
  | left op c e ih =>
    intro hl hd
    obtain ⟨r1, h1, g1, f1⟩ := ih hl fun i => (hd i).1
    obtain ⟨r, hr, gr⟩ := Mix.opL hmM op c g1 fun i => by rw [hpv]; exact (hd i).2
    refine ⟨r, ?_, gr, fun hf => ?_⟩
    · change (e.runO v o >>= fun d => op.runL c d) = _
      rw [bind_ok h1, hr]
    · have hord : r.order = r1.order := by
        cases op with
        | add => injection hr with hr; rw [← hr]; rfl
        | sub => injection hr with hr; rw [← hr]; rfl
        | mul => injection hr with hr; rw [← hr]; exact ((IsLift.id (ι := ι) g1.valid).mulSG c).order
        | div =>
          have h0' : ∀ i : ι, coeff 0 (r1.toMv i : MvPolynomial String ℝ) ≠ 0 := fun i => by
            rw [← (g1.taylor i).val, hpv]; exact (hd i).2
          obtain ⟨r', hr', -, ho, -⟩ := divSG_spec c g1.valid h0'
          have : Op.div.runL c r1 = .ok r' := hr'
          rw [hr] at this; injection this with this; rw [this, ho]
      rw [hord]; exact f1 hf
  | right op e c ih =>
    intro hl hd
    obtain ⟨r1, h1, g1, f1⟩ := ih hl fun i => (hd i).1
    obtain ⟨r, hr, gr⟩ := Mix.opR hmM op c g1 fun i => (hd i).2
    refine ⟨r, ?_, gr, fun hf => ?_⟩
    · change (e.runO v o >>= fun d => op.runR d c) = _
      rw [bind_ok h1, hr]
    · have hord : r.order = r1.order := by
        cases op with
        | add => injection hr with hr; rw [← hr]; rfl
        | sub => injection hr with hr; rw [← hr]; rfl
        | mul => injection hr with hr; rw [← hr]; exact ((IsLift.id (ι := ι) g1.valid).mulGS c).order
        | div =>
          obtain ⟨r', hr', hw⟩ := (IsLift.id (ι := ι) g1.valid).divGS (c := c) fun i => (hd i).2
          have : Op.div.runR r1 c = .ok r' := hr'
          rw [hr] at this; injection this with this; rw [this, hw.order]
      rw [hord]; exact f1 hf
  | fn f e ih =>
    intro hl hd
    obtain ⟨r1, h1, g1, f1⟩ := ih hl.1 fun i => (hd i).1
    obtain ⟨r, hr, gr⟩ := Mix.fn hmM (f := f.run) (g := fun _ => f.real) (dom := fun _ => f.Dom)
      (fun d hdv hle hdom => by
        obtain ⟨r, e1, e2, -⟩ := Fn.lift (ι := ι) f hdv (Fn.maxOrder_mono hl.2 hle) hdom
        exact ⟨r, e1, e2⟩) g1 fun i => by rw [hpv]; exact (hd i).2
    refine ⟨r, ?_, gr, fun hf => ?_⟩
    · change (e.runO v o >>= fun d => f.run d) = _
      rw [bind_ok h1, hr]
    · have hdom : ∀ i : ι, f.Dom (coeff 0 (r1.toMv i : MvPolynomial String ℝ)) := fun i => by
        rw [← (g1.taylor i).val, hpv]; exact (hd i).2
      obtain ⟨r', e1, -, e3⟩ := Fn.lift (ι := ι) f g1.valid (Fn.maxOrder_mono hl.2 g1.le) hdom
      rw [hr] at e1; injection e1 with e1
      have hne : ∀ q, f ≠ .powBase q := by rintro q rfl; simp [Expr.full] at hf
      rw [e1, e3 hne]
      refine f1 ?_
      cases f <;> first | exact hf | exact absurd rfl (hne _)
  | pow e1 e2 ih1 ih2 =>
    intro hl hd
    obtain ⟨r1, h1, g1, f1⟩ := ih1 hl.1 fun i => (hd i).1
    obtain ⟨r2, h2, g2, f2⟩ := ih2 hl.2 fun i => (hd i).2.1
    obtain ⟨l, hl', gl⟩ := Mix.fn hmM (f := GDual.log) (g := fun _ => Real.log) (dom := fun _ x => 0 < x)
      (fun d hdv _ hdom => by
        obtain ⟨r, e1, e2⟩ := computes_log.lift (ι := ι) d hdv hdom
        exact ⟨r, e1, e2.w⟩) g1 fun i => by rw [hpv]; exact (hd i).2.2
    have hlo : l.order = r1.order := by
      obtain ⟨r, e1, e2⟩ := computes_log.lift (ι := ι) r1 g1.valid fun i => by
        rw [← (g1.taylor i).val, hpv]; exact (hd i).2.2
      rw [hl'] at e1; injection e1 with e1; rw [e1, e2.order]
    have gm := g2.mul gl
    obtain ⟨r, hr, gr⟩ := Mix.fn hmM (f := GDual.exp) (g := fun _ => Real.exp) (dom := fun _ _ => True)
      (fun d hdv _ hdom => by
        obtain ⟨r, e1, e2⟩ := computes_exp.lift (ι := ι) d hdv hdom
        exact ⟨r, e1, e2.w⟩) gm fun i => trivial
    have hro : r.order = max r2.order r1.order := by
      obtain ⟨r', e1, e2⟩ := computes_exp.lift (ι := ι) _ gm.valid fun i => trivial
      rw [hr] at e1; injection e1 with e1; rw [e1, e2.order, ← hlo]; rfl
    refine ⟨r, ?_, ⟨gr.valid, gr.le, gr.order, fun i => (gr.taylor i).congr_fun ?_⟩, fun hf => ?_⟩
    · change (do GDual.powG (← e1.runO v o) (← e2.runO v o)) = _
      rw [bind2_ok h1 h2]
      unfold powG
      rw [bind_ok hl', hr]
    · have hpos : 0 < e1.sem i (fun s => p i ("d" ++ s)) := by rw [hpv]; exact (hd i).2.2
      filter_upwards [(g1.taylor i).cont.eventually (lt_mem_nhds hpos)] with x hx
      change _ = e1.sem i (fun s => x ("d" ++ s)) ^ e2.sem i (fun s => x ("d" ++ s))
      rw [Real.rpow_def_of_pos hx, mul_comm]
    · rw [hro]
      simp only [Expr.full, Bool.or_eq_true] at hf
      rcases hf with hf | hf
      · exact (f1 hf).trans (le_max_right _ _)
      · exact (f2 hf).trans (le_max_left _ _)

end Audi
