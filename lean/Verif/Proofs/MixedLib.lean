import Verif.Spec.MixedLib
import Verif.Proofs.MixedOrders
import Verif.Proofs.LibExpr

/-! Evaluation of expressions with all the functions on gduals of different orders. -/

namespace Audi

open MvPolynomial Spec GDual Filter Topology

section generic
variable {C : Type} [CfFun C] {ι : Type} {𝕜 : Type} [NontriviallyNormedField 𝕜] [CharZero 𝕜] [Lanes C ι 𝕜] {d : GDual C} {m M : ℕ} {p : ι → String → 𝕜}

/-- As `Mix.fn`, for functions with a condition on the symbols. -/
theorem Mix.fnP {P : List String → Prop} {f : GDual C → Res (GDual C)} {g : ι → 𝕜 → 𝕜} {dom : ι → 𝕜 → Prop} (hM : m ≤ M)
    (hf : ∀ d : GDual C, d.Valid → P d.p.syms → d.order ≤ M → (∀ i : ι, dom i (coeff 0 (d.toMv i : MvPolynomial String 𝕜))) →
      ∃ r, f d = .ok r ∧ WLift g d r) (hP : P d.p.syms) {F : ι → (String → 𝕜) → 𝕜} (h : Mix m M p F d) (hdom : ∀ i, dom i (F i (p i))) :
    ∃ r, f d = .ok r ∧ Mix m M p (fun i x => g i (F i x)) r := by
  have hdom' : ∀ i : ι, dom i (coeff 0 (d.toMv i : MvPolynomial String 𝕜)) := fun i => by rw [← (h.taylor i).val]; exact hdom i
  obtain ⟨r, hr, hw⟩ := hf d h.valid hP h.le hdom'
  by_cases ho : m ≤ d.order
  · refine ⟨r, hr, hw.valid, hw.le.trans h.le, hw.order.imp (fun e => ho.trans e.ge) id, fun i => ?_⟩
    have hc := toMv_cutTo (m := m) (𝕜 := 𝕜) (ι := ι) h.valid
    obtain ⟨r', -, hw'⟩ := hf (cutTo d m) (valid_cutTo h.valid) hP hM fun i => by
      rw [hc i 0 (by simp)]; exact hdom' i
    have e1 := hw'.taylor i (F i) (p i) ((h.taylor i).congr_poly (hc i).symm)
    have e2 := hw'.taylor i _ (p i) ((isTaylor_self (p i) m (d.toMv i)).congr_poly (hc i).symm)
    have e3 := (hw.taylor i _ (p i) (isTaylor_self (p i) d.order (d.toMv i))).mono ho
    exact e1.congr_poly (e2.unique e3)
  · have hcst : IsConst ι d := h.order.resolve_left ho
    have key : ∀ {d r : GDual C}, WLift g d r → IsConst ι d → ∀ i : ι,
        (r.toMv i : MvPolynomial String 𝕜) = MvPolynomial.C (g i (coeff 0 (d.toMv i : MvPolynomial String 𝕜))) := by
      intro d r hw hc i
      have h1 := hw.taylor i (fun _ => coeff 0 (d.toMv i : MvPolynomial String 𝕜)) (p i) (by
        conv => arg 4; rw [hc i]
        exact IsTaylor.const _)
      refine EqUpTo.eq_of_degLE (m := d.order) (h1.unique (IsTaylor.const _)) ?_ (degLE_C _ _)
      exact fun e he => hw.valid.degLE (K := 𝕜) i e (lt_of_le_of_lt hw.le he)
    have hr1 := key hw hcst
    refine ⟨r, hr, hw.valid, hw.le.trans h.le, Or.inr fun i => by rw [hr1 i]; simp, fun i => ?_⟩
    obtain ⟨r', -, hw'⟩ := hf (withOrder d m) (valid_withOrder h.valid (by omega)) hP hM hdom'
    have h2 := hw'.taylor i (F i) (p i) (h.taylor i)
    rw [key hw' hcst i] at h2
    rw [hr1 i]
    exact h2

end generic

variable {C : Type} [CfFun C] [AbsFn C] {ι : Type} [Lanes C ι ℝ] [LanesFun C ι] {m M : ℕ} {p : ι → String → ℝ}

/-- Evaluation of an expression on variables of different orders computes its Taylor expansion up to the smallest order. -/
theorem LExpr.run_mix {v : String → C} {o : String → ℕ} (hM : M < UINT_MAX - 10) (hmM : m ≤ M) (ho : ∀ s, m ≤ o s ∧ o s ≤ M)
     (hp : ∀ (i : ι) (s : String), p i ("d" ++ s) = Lanes.lane i (v s)) :
    ∀ e : LExpr C, (e.NoAbs ∨ AbsLaw C ι) → e.Legal M → (∀ i : ι, e.Dom i (fun s => Lanes.lane i (v s))) →
      ∃ r, e.runO v o = .ok r ∧ Mix m M p (fun (i : ι) x => e.sem i (fun s => x ("d" ++ s))) r ∧ SymsOk r ∧
        (e.full = true → m ≤ r.order ∧ (r.p.syms = [] → m = 0)) := by
  have hpv : ∀ i : ι, (fun s => p i ("d" ++ s)) = fun s => Lanes.lane i (v s) := fun i => _root_.funext (hp i)
  intro e
  induction e with
  | var s =>
    intro _ hl _
    obtain ⟨r, hr⟩ : ∃ r, GDual.mk3 (v s) s (o s) = .ok r := ⟨_, mk3_ok.mpr ⟨(ho s).2.trans_lt hM, hl, rfl⟩⟩
    have hv := valid_mk3 (ι := ι) (K := ℝ) hr
    have hor := order_mk3 hr
    refine ⟨r, hr, ⟨hv, hor.le.trans (ho s).2, Or.inl (hor ▸ (ho s).1), fun i => ?_⟩,
      ⟨by rw [syms_mk3 hr]; exact List.pairwise_singleton _ _, goodNames_mk3 hr⟩, fun _ => ⟨hor ▸ (ho s).1, fun h => by rw [syms_mk3 hr] at h; cases h⟩⟩
    refine IsTaylor.mono ?_ (ho s).1
    refine (IsTaylor.coord (a := p i) (m := o s) ("d" ++ s)).congr_poly ?_
    rw [toMv_mk3 hr, hp]
    split_ifs with h0
    · rw [h0]
      intro e he
      have : e = 0 := by rw [← Finsupp.degree_eq_zero_iff]; omega
      rw [this]; simp
    · exact EqUpTo.of_eq (by ring)
  | const c => exact fun _ _ _ => ⟨_, rfl, Mix.const c, ⟨List.Pairwise.nil, fun _ hs => absurd hs List.not_mem_nil⟩, fun h => by cases h⟩
  | bin op e1 e2 ih1 ih2 =>
    intro hA hl hd
    obtain ⟨r1, h1, g1, s1, f1⟩ := ih1 (hA.imp (·.1) id) hl.1 fun i => (hd i).1
    obtain ⟨r2, h2, g2, s2, f2⟩ := ih2 (hA.imp (·.2) id) hl.2 fun i => (hd i).2.1
    obtain ⟨r, hr, gr⟩ := Mix.op op g1 g2 fun i => by rw [hpv]; exact (hd i).2.2
    have hord : r.order = max r1.order r2.order := by
      cases op with
      | add => injection hr with hr; rw [← hr]; rfl
      | sub => injection hr with hr; rw [← hr]; rfl
      | mul => injection hr with hr; rw [← hr]; rfl
      | div =>
        have h0' : ∀ i : ι, coeff 0 (r2.toMv i : MvPolynomial String ℝ) ≠ 0 := fun i => by
          rw [← (g2.taylor i).val, hpv]; exact (hd i).2.2
        obtain ⟨r', hr', -, ho, -⟩ := div_spec' g1.valid g2.valid h0'
        have : Op.div.run r1 r2 = .ok r' := hr'
        rw [hr] at this; injection this with this; rw [this, ho]
    have hsym := op.run_syms s2.sorted s1.sorted hr
    refine ⟨r, ?_, gr, s1.merge s2 hsym, fun hf => ?_⟩
    · change (do op.run (← e1.runO v o) (← e2.runO v o)) = _
      rw [bind2_ok h1 h2, hr]
    · rw [hord]
      simp only [LExpr.full, Bool.or_eq_true] at hf
      rcases hf with hf | hf
      · exact ⟨(f1 hf).1.trans (le_max_left _ _), fun h => (f1 hf).2 (mergeSyms_eq_nil (hsym.symm.trans h)).1⟩
      · exact ⟨(f2 hf).1.trans (le_max_right _ _), fun h => (f2 hf).2 (mergeSyms_eq_nil (hsym.symm.trans h)).2⟩
  | left op c e ih =>
    intro hA hl hd
    obtain ⟨r1, h1, g1, s1, f1⟩ := ih hA hl fun i => (hd i).1
    obtain ⟨r, hr, gr⟩ := Mix.opL hmM op c g1 fun i => by rw [hpv]; exact (hd i).2
    have hsym := op.runL_syms s1.sorted hr
    refine ⟨r, ?_, gr, s1.of_eq hsym, fun hf => ?_⟩
    · change (e.runO v o >>= fun d => op.runL c d) = _
      rw [bind_ok h1, hr]
    · have hord : r.order = r1.order := by
        cases op with
        | add => injection hr with hr; rw [← hr]; rfl
        | sub => injection hr with hr; rw [← hr]; rfl
        | mul => injection hr with hr; rw [← hr]; exact ((IsLift.id (ι := ι) g1.valid).mulSG c).order
        | div =>
          have h0' : ∀ i : ι, coeff 0 (r1.toMv i : MvPolynomial String ℝ) ≠ 0 := fun i => by
            rw [← (g1.taylor i).val, hpv]; exact (hd i).2
          obtain ⟨r', hr', -, ho, -⟩ := divSG_spec c g1.valid h0'
          have : Op.div.runL c r1 = .ok r' := hr'
          rw [hr] at this; injection this with this; rw [this, ho]
      rw [hord, hsym]
      exact f1 hf
  | right op e c ih =>
    intro hA hl hd
    obtain ⟨r1, h1, g1, s1, f1⟩ := ih hA hl fun i => (hd i).1
    obtain ⟨r, hr, gr⟩ := Mix.opR hmM op c g1 fun i => (hd i).2
    have hsym := op.runR_syms s1.sorted hr
    refine ⟨r, ?_, gr, s1.of_eq hsym, fun hf => ?_⟩
    · change (e.runO v o >>= fun d => op.runR d c) = _
      rw [bind_ok h1, hr]
    · have hord : r.order = r1.order := by
        cases op with
        | add => injection hr with hr; rw [← hr]; rfl
        | sub => injection hr with hr; rw [← hr]; rfl
        | mul => injection hr with hr; rw [← hr]; exact ((IsLift.id (ι := ι) g1.valid).mulGS c).order
        | div =>
          obtain ⟨r', hr', hw⟩ := (IsLift.id (ι := ι) g1.valid).divGS (c := c) fun i => (hd i).2
          have : Op.div.runR r1 c = .ok r' := hr'
          rw [hr] at this; injection this with this; rw [this, hw.order]
      rw [hord, hsym]
      exact f1 hf
  | fn f e ih =>
    intro hA hl hd
    have hAf : f ≠ .abs ∨ AbsLaw C ι := hA.imp (·.2) id
    obtain ⟨r1, h1, g1, s1, f1⟩ := ih (hA.imp (·.1) id) hl.1 fun i => (hd i).1
    obtain ⟨r, hr, gr⟩ := Mix.fnP hmM (P := fun l : List String => l.Pairwise (· < ·) ∧ ∀ s ∈ l, ∃ t : String, s = "d" ++ t ∧ checkVarName t = .ok ()) (f := f.run) (g := fun _ => f.real) (dom := fun _ => f.Dom)
      (fun d hdv hP hle hdom => by
        obtain ⟨r, e1, e2, -⟩ := LFn.lift (ι := ι) f hAf hdv hP.1 hP.2 (LFn.maxOrder_mono hl.2 hle) hdom
        exact ⟨r, e1, e2⟩) ⟨s1.sorted, s1.names⟩ g1 fun i => by rw [hpv]; exact (hd i).2
    have hdom : ∀ i : ι, f.Dom (coeff 0 (r1.toMv i : MvPolynomial String ℝ)) := fun i => by
      rw [← (g1.taylor i).val, hpv]; exact (hd i).2
    obtain ⟨r', e1, -, e3, e4⟩ := LFn.lift (ι := ι) f hAf g1.valid s1.sorted s1.names (LFn.maxOrder_mono hl.2 g1.le) hdom
    obtain rfl : r = r' := by rw [hr] at e1; injection e1
    refine ⟨r, ?_, gr, s1.of_sub e3, fun hf => ?_⟩
    · change (e.runO v o >>= fun d => f.run d) = _
      rw [bind_ok h1, hr]
    · have hne : ∀ q, f ≠ .base (.powBase q) := by rintro q rfl; simp [LExpr.full] at hf
      have hfe : e.full = true := by
        cases f with
        | base f => cases f <;> first | exact hf | exact absurd rfl (hne _)
        | _ => exact hf
      obtain ⟨ho, hs⟩ := f1 hfe
      refine ⟨?_, fun h => ?_⟩
      · by_cases h0 : r1.p.syms = []
        · rw [hs h0]; exact Nat.zero_le _
        · rw [(e4 hne).1 fun h => absurd h h0]; exact ho
      by_contra h0
      rw [(e4 hne).2 (by omega)] at h
      exact h0 (hs h)
  | pow e1 e2 ih1 ih2 =>
    intro hA hl hd
    obtain ⟨r1, h1, g1, s1, f1⟩ := ih1 (hA.imp (·.1) id) hl.1 fun i => (hd i).1
    obtain ⟨r2, h2, g2, s2, f2⟩ := ih2 (hA.imp (·.2) id) hl.2 fun i => (hd i).2.1
    obtain ⟨l, hl', gl⟩ := Mix.fn hmM (f := GDual.log) (g := fun _ => Real.log) (dom := fun _ x => 0 < x)
      (fun d hdv _ hdom => by
        obtain ⟨r, e1, e2⟩ := computes_log.lift (ι := ι) d hdv hdom
        exact ⟨r, e1, e2.w⟩) g1 fun i => by rw [hpv]; exact (hd i).2.2
    have hlo : l.order = r1.order := by
      obtain ⟨r, e1, e2⟩ := computes_log.lift (ι := ι) r1 g1.valid fun i => by
        rw [← (g1.taylor i).val, hpv]; exact (hd i).2.2
      rw [hl'] at e1; injection e1 with e1; rw [e1, e2.order]
    have gm := g2.mul gl
    obtain ⟨r, hr, gr⟩ := Mix.fn hmM (f := GDual.exp) (g := fun _ => Real.exp) (dom := fun _ _ => True)
      (fun d hdv _ hdom => by
        obtain ⟨r, e1, e2⟩ := computes_exp.lift (ι := ι) d hdv hdom
        exact ⟨r, e1, e2.w⟩) gm fun i => trivial
    have hro : r.order = max r2.order r1.order := by
      obtain ⟨r', e1, e2⟩ := computes_exp.lift (ι := ι) _ gm.valid fun i => trivial
      rw [hr] at e1; injection e1 with e1; rw [e1, e2.order, ← hlo]; rfl
    have hpw : r1.powG r2 = .ok r := by
      unfold powG
      rw [bind_ok hl', hr]
    have hsym := powG_syms s2.sorted s1.sorted hpw
    refine ⟨r, ?_, ⟨gr.valid, gr.le, gr.order, fun i => (gr.taylor i).congr_fun ?_⟩, s2.merge s1 hsym, fun hf => ?_⟩
    · change (do GDual.powG (← e1.runO v o) (← e2.runO v o)) = _
      rw [bind2_ok h1 h2, hpw]
    · have hpos : 0 < e1.sem i (fun s => p i ("d" ++ s)) := by rw [hpv]; exact (hd i).2.2
      filter_upwards [(g1.taylor i).cont.eventually (lt_mem_nhds hpos)] with x hx
      change _ = e1.sem i (fun s => x ("d" ++ s)) ^ e2.sem i (fun s => x ("d" ++ s))
      rw [Real.rpow_def_of_pos hx, mul_comm]
    · rw [hro]
      simp only [LExpr.full, Bool.or_eq_true] at hf
      rcases hf with hf | hf
      · exact ⟨(f1 hf).1.trans (le_max_right _ _), fun h => (f1 hf).2 (mergeSyms_eq_nil (hsym.symm.trans h)).2⟩
      · exact ⟨(f2 hf).1.trans (le_max_left _ _), fun h => (f2 hf).2 (mergeSyms_eq_nil (hsym.symm.trans h)).1⟩

end Audi
