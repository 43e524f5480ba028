import Verif.Props.C55_TaylorInverse
import Verif.Proofs.TMRootsRem

/-!
Calculations with concrete Taylor models of order 1 in one variable `x`, used by the counterexamples to the functions that are composed of other operations.
-/

namespace Audi

open TM MvPolynomial Spec

/-- `t` is a Taylor model of order 1 with the polynomial `α + β x`, expanded at 0, over `I`. -/
structure Line (t : TM ℝ) (α β : ℝ) (I : Itv ℝ) : Prop where
  wf : t.WF
  order : t.order = 1
  syms : ∀ s ∈ t.tpol.p.syms, s = "dx"
  exp : ∀ e ∈ t.exp, e = ("x", 0)
  dom : ∀ e ∈ t.dom, e = ("x", I)
  poly : (t.tpol.toMv () : MvPolynomial String ℝ) = monomial 0 α + monomial (Finsupp.single "dx" 1) β

namespace Line

variable {t t' : TM ℝ} {α β γ δ ρ : ℝ} {I : Itv ℝ}

theorem s01 : (0 : String →₀ ℕ) ≠ Finsupp.single "dx" 1 := fun h => by simpa using congrArg (fun f => f "dx") h

theorem s12 : Finsupp.single "dx" 1 ≠ Finsupp.single "dx" 2 := (Finsupp.single_injective "dx").ne (by norm_num)

theorem s02 : (0 : String →₀ ℕ) ≠ Finsupp.single "dx" 2 := fun h => by simpa using congrArg (fun f => f "dx") h

theorem slope {I : Itv ℝ} (hI : InItv I 0) {rem : Itv ℝ} (hr : rem.lo ≤ rem.hi) : Line (Ex.slopeR 1 1 rem I) 0 1 I where
  wf := Ex.slopeR_wf one_ne_zero le_rfl hr hI
  order := rfl
  syms := by simp [Ex.slopeR]
  exp := by simp [Ex.slopeR]
  dom := by simp [Ex.slopeR]
  poly := by rw [Ex.slopeR_toMv one_ne_zero le_rfl, monomial_zero, zero_add]

theorem line {c : ℝ} (hc : c ≠ 0) {I : Itv ℝ} (hI : InItv I 0) {rem : Itv ℝ} (hr : rem.lo ≤ rem.hi) : Line (Ex.lineR c 1 rem I) c 1 I where
  wf := Ex.lineR_wf hc le_rfl hr hI
  order := rfl
  syms := by simp [Ex.lineR]
  exp := by simp [Ex.lineR]
  dom := by simp [Ex.lineR]
  poly := by rw [Ex.lineR_toMv hc le_rfl]; rfl

theorem coeff_zero (h : Line t α β I) : coeff 0 (t.tpol.toMv () : MvPolynomial String ℝ) = α := by
  rw [h.poly, coeff_add, coeff_monomial, coeff_monomial, if_pos rfl, if_neg s01.symm, add_zero]

theorem coeff_one (h : Line t α β I) : coeff (Finsupp.single "dx" 1) (t.tpol.toMv () : MvPolynomial String ℝ) = β := by
  rw [h.poly, coeff_add, coeff_monomial, coeff_monomial, if_pos rfl, if_neg s01, zero_add]

theorem rest (h : Line t α β I) : (t.tpol.toMv () : MvPolynomial String ℝ) - C α = monomial (Finsupp.single "dx" 1) β := by
  rw [h.poly]
  exact add_sub_cancel_left _ _

theorem absVal_rest (h : Line t α β I) (ρ : ℝ) : absVal (fun _ => ρ) ((t.tpol.toMv () : MvPolynomial String ℝ) - C α) = |β| * ρ := by
  rw [h.rest, absVal_monomial]
  simp

theorem radius (h : Line t α β I) (h1 : |I.lo| ≤ ρ) (h2 : |I.hi| ≤ ρ) : Radius t fun _ => ρ := by
  intro s e he _ f hf _
  rw [h.dom e he, h.exp f hf]
  simp only [sub_zero]
  exact ⟨h1, h2⟩

theorem lin (h : Line t α β I) : DegLE 1 (t.tpol.toMv () : MvPolynomial String ℝ) := by
  have := h.wf.valid.degLE (ι := Unit) (K := ℝ) ()
  rwa [← h.wf.order, h.order] at this

theorem mem_syms (h : Line t α β I) (hβ : β ≠ 0) : "dx" ∈ t.tpol.p.syms := by
  have h1 : Finsupp.single "dx" 1 ∈ (t.tpol.toMv () : MvPolynomial String ℝ).support := by
    rw [mem_support_iff, h.coeff_one]
    exact hβ
  exact mem_supported.1 (toMv_mem_supported t.tpol () (S := {s | s ∈ t.tpol.p.syms}) fun s hs => hs)
    ((mem_vars_iff_mem_support "dx").2 ⟨_, h1, by simp⟩)

theorem polyAt (h : Line t α β I) (x : String → ℝ) : t.polyAt x = α + β * x "x" := by
  unfold TM.polyAt
  rw [h.poly, map_add, eval_monomial, eval_monomial]
  by_cases hβ : β = 0
  · simp [hβ]
  · obtain ⟨J, e, -, e2, -⟩ := h.wf.lookup (List.mem_map_of_mem (f := varName) (h.mem_syms hβ))
    rw [Ex.varName_dx] at e2
    have := h.exp _ (VMap.mem_of_lookup e2)
    obtain rfl : e = 0 := congrArg Prod.snd this
    simp [displacement, Ex.varName_dx, e2]

theorem inDom (h : Line t α β I) {v : ℝ} (hv : InItv I v) : t.InDom fun _ => v := by
  intro e he
  rw [h.dom e he]
  exact hv

theorem inDom_of (h : Line t α β I) (hβ : β ≠ 0) {x : String → ℝ} (hx : t.InDom x) : InItv I (x "x") := by
  obtain ⟨J, e, e1, -, -⟩ := h.wf.lookup (List.mem_map_of_mem (f := varName) (h.mem_syms hβ))
  rw [Ex.varName_dx] at e1
  have h1 := VMap.mem_of_lookup e1
  obtain rfl : J = I := congrArg Prod.snd (h.dom _ h1)
  exact hx _ h1

/-- The end points of the bounds are values of the polynomial. -/
theorem bounds_of (h : Line t α β I) (h0 : InItv I 0) {b : Itv ℝ} (hb : t.bounds id = .ok b) :
    ∀ z, z = b.lo ∨ z = b.hi → ∃ v, InItv I v ∧ z = α + β * v := by
  intro z hz
  obtain ⟨x, x1, x2⟩ := bounds_attained (ord := id) h.wf h.lin rfl hb z hz
  rw [h.polyAt] at x2
  by_cases hβ : β = 0
  · refine ⟨0, h0, ?_⟩
    rw [← x2, hβ, zero_mul, zero_mul]
  · exact ⟨_, h.inDom_of hβ x1, x2.symm⟩

theorem compatible (h : Line t α β I) (h' : Line t' γ δ I) : Compatible t t' :=
  ⟨fun e he f hf _ => by rw [h.exp e he, h'.exp f hf], fun e he f hf _ => by rw [h.dom e he, h'.dom f hf]⟩

theorem coeff_eq {P : MvPolynomial String ℝ} {a b c : ℝ} (n : String →₀ ℕ)
    (hP : P = monomial 0 a + monomial (Finsupp.single "dx" 1) b + monomial (Finsupp.single "dx" 2) c) :
    (if n.degree ≤ 1 then coeff n P else 0) = coeff n (monomial 0 a + monomial (Finsupp.single "dx" 1) b) ∧
      (if n.degree ≤ 1 then 0 else coeff n P) = coeff n (monomial (Finsupp.single "dx" 2) c) := by
  rw [hP]
  simp only [coeff_add, coeff_monomial]
  by_cases e0 : 0 = n
  · subst e0
    simp
  · by_cases e1 : Finsupp.single "dx" 1 = n
    · subst e1
      rw [Finsupp.degree_single, if_neg e0, if_pos rfl, if_neg s12.symm]
      simp
    · by_cases e2 : Finsupp.single "dx" 2 = n
      · subst e2
        rw [Finsupp.degree_single, if_neg e0, if_neg s12, if_pos rfl]
        simp
      · simp [e0, e1, e2]

/-- The product of two such models. -/
theorem mul (h : Line t α β I) (h' : Line t' γ δ I) (h0 : α ≠ 0 ∨ β ≠ 0) (h0' : γ ≠ 0 ∨ δ ≠ 0) (hI : InItv I 0) (h1 : |I.lo| ≤ ρ) (h2 : |I.hi| ≤ ρ)
    (ht : β * δ = 0 ∨ ((tiny : ℚ) : ℝ) < |β * δ|) : ∃ r, TM.mul id t t' = .ok r ∧ Line r (α * γ) (α * δ + β * γ) I ∧
      ∃ E B1 B2 : Itv ℝ, r.rem = ((E.add (B1.mul t'.rem)).add (t.rem.mul B2)).add (t.rem.mul t'.rem) ∧ (β * δ = 0 → E = ⟨0, 0⟩) ∧ E.AbsLE (|β * δ| * ρ ^ 2) ∧
        (∀ z, z = B1.lo ∨ z = B1.hi → ∃ v, InItv I v ∧ z = α + β * v) ∧ ∀ z, z = B2.lo ∨ z = B2.hi → ∃ v, InItv I v ∧ z = γ + δ * v := by
  have hz : ∀ {t : TM ℝ} {α β : ℝ}, Line t α β I → α ≠ 0 ∨ β ≠ 0 → (t.tpol.toMv () : MvPolynomial String ℝ) ≠ 0 := by
    intro t α β h hn h0
    rcases hn with hn | hn
    · exact hn (by rw [← h.coeff_zero, h0, MvPolynomial.coeff_zero])
    · exact hn (by rw [← h.coeff_one, h0, MvPolynomial.coeff_zero])
  have hP : (t.tpol.toMv () * t'.tpol.toMv () : MvPolynomial String ℝ) =
      monomial 0 (α * γ) + monomial (Finsupp.single "dx" 1) (α * δ + β * γ) + monomial (Finsupp.single "dx" 2) (β * δ) := by
    rw [h.poly, h'.poly, add_mul, mul_add, mul_add, monomial_mul, monomial_mul, monomial_mul, monomial_mul, ← Finsupp.single_add, map_add, zero_add, zero_add, add_zero]
    ring
  have hmax : max t.order t'.order = 1 := by rw [h.order, h'.order, max_self]
  have hH : ∀ {H : MvPolynomial String ℝ}, (∀ m, coeff m H = if m.degree ≤ max t.order t'.order then 0 else coeff m (t.tpol.toMv () * t'.tpol.toMv () : MvPolynomial String ℝ)) →
      H = monomial (Finsupp.single "dx" 2) (β * δ) := by
    intro H hH
    ext n
    rw [hH, hmax]
    exact (coeff_eq n hP).2
  have hc2 : ∀ m : String →₀ ℕ, max t.order t'.order < m.degree → coeff m (t.tpol.toMv () * t'.tpol.toMv () : MvPolynomial String ℝ) =
      coeff m (monomial (Finsupp.single "dx" 2) (β * δ)) := by
    intro m hm
    rw [hmax] at hm
    have := (coeff_eq m hP).2
    rwa [if_neg (by omega)] at this
  obtain ⟨r, q1, q2, q3, -, -, q6, q7, q8, q9⟩ := mul_parts (ord := id) h.wf h'.wf (h.compatible h') (hz h h0) (hz h' h0') (by rw [h.order]; omega)
    (by rw [h.order, h'.order]; norm_num) (fun _ _ _ => rfl) (by
      rcases ht with ht | ht
      · right
        intro m hm
        rw [hc2 m hm, ht, monomial_zero, MvPolynomial.coeff_zero]
      · left
        refine ⟨Finsupp.single "dx" 2, by rw [hmax, Finsupp.degree_single]; exact one_lt_two, ?_⟩
        rw [hc2 _ (by rw [hmax, Finsupp.degree_single]; exact one_lt_two), coeff_monomial, if_pos rfl]
        exact ht)
  obtain ⟨E, B1, B2, H, r1, r2, r3, r4, r5, r6⟩ := mul_rem (ord := id) h.wf h'.wf (h.compatible h') (hz h h0) (hz h' h0') (by rw [h.order]; omega)
    (by rw [h.order, h'.order]; norm_num) (fun _ _ _ => rfl) q1
  have hH := hH r4
  subst hH
  refine ⟨r, q1, ⟨q2, by rw [q3, hmax], fun s hs => (q7 s hs).elim (h.syms s) (h'.syms s), fun e he => (q8 e he).elim (h.exp e) (h'.exp e),
    fun e he => (q9 e he).elim (h.dom e) (h'.dom e), ?_⟩, E, B1, B2, r3, fun hb => r5 fun m => ?_, ?_, h.bounds_of hI r1, h'.bounds_of hI r2⟩
  · ext n
    rw [q6, hmax]
    exact (coeff_eq n hP).1
  · rw [hb, monomial_zero, MvPolynomial.coeff_zero, abs_zero]
    norm_num [tiny]
  · have := r6 _ (h.radius h1 h2) (h'.radius h1 h2)
    rw [absVal_monomial] at this
    have h3 : ((Finsupp.single "dx" 2).prod fun _ k => ρ ^ k) = ρ ^ 2 := by simp
    rw [h3] at this
    exact this

/-- The reciprocal of such a model. -/
theorem inv (h : Line t α β I) (hα : 0 < α) (h1 : |I.lo| ≤ ρ) (h2 : |I.hi| ≤ ρ) {σ : ℝ} (hσ : t.rem.AbsLE σ) (hN : |β| * ρ + σ < α) :
    ∃ r, divST id 1 t = .ok r ∧ Line r (1 / α) (-β / α ^ 2) I ∧ r.rem.AbsLE ((|β| * ρ + σ) ^ 2 / (α - (|β| * ρ + σ)) ^ 3) := by
  obtain ⟨r, i1, i2, i3, i4, i5, i6, i7, i8⟩ := divST_abs (ord := id) h.wf (by rw [h.order]; norm_num) rfl (h.radius h1 h2) h.coeff_zero hσ
    (by rw [h.absVal_rest]) (by rw [abs_of_pos hα]; exact hN) 1
  obtain ⟨iv, j1, -, -, -, j5, -⟩ := divSG_linear h.wf.valid h.lin h.coeff_zero hα.ne' 1
  obtain rfl : iv = r.tpol := Except.ok.inj (j1.symm.trans i7)
  refine ⟨r, i1, ⟨i2, by rw [i3, h.order], by rw [i6]; exact h.syms, by rw [i4]; exact h.exp, by rw [i5]; exact h.dom, ?_⟩, ?_⟩
  · rw [j5, ← h.wf.order, h.order, h.rest, Finset.sum_range_succ, Finset.sum_range_one, show 1 * (-1 : ℝ) ^ 0 * α⁻¹ ^ (0 + 1) = 1 / α by ring,
      show 1 * (-1 : ℝ) ^ 1 * α⁻¹ ^ (1 + 1) = -1 / α ^ 2 by ring, pow_zero, mul_one, pow_one, C_mul_monomial, C_apply, show -1 / α ^ 2 * β = -β / α ^ 2 by ring]
  · rw [h.order, abs_of_pos hα] at i8
    exact i8

/-- A function of such a polynomial. -/
theorem lift (h : Line t α β I) {p : GDual ℝ} {g : ℝ → ℝ} {b : ℕ → ℝ} (hl : IsLift (fun _ : Unit => g) t.tpol p) (hg : IsTaylor₁ α 1 g b) :
    (p.toMv () : MvPolynomial String ℝ) = monomial 0 (b 0) + monomial (Finsupp.single "dx" 1) (b 1 * β) := by
  rw [GDual.lift_linear hl (by rw [h.coeff_zero, ← h.wf.order, h.order]; exact hg) h.lin, h.coeff_zero, h.rest, ← h.wf.order, h.order, Finset.sum_range_succ,
    Finset.sum_range_one, pow_zero, mul_one, pow_one, C_mul_monomial]
  rfl

/-- `sin`, `cos`, `sinh`, `cosh` of such a model with remainder {0}. -/
theorem trig (h : Line t α β I) (hr : t.rem = ⟨0, 0⟩) (hI : InItv I 0) {fn : GDual ℝ → Res (GDual ℝ)} {cond : ℕ → Itv ℝ → Itv ℝ} {G : ℕ → ℝ → ℝ}
    (hG : Derivs Set.univ G) (hfn : Computes (C := ℝ) (ι := Unit) fn (G 0) fun _ => True)
    (hsy : ∀ d r : GDual ℝ, d.p.syms.Pairwise (· < ·) → fn d = .ok r → r.p.syms = d.p.syms) :
    ∃ r B, TM.trig fn cond id t = .ok r ∧ Line r (G 0 α) (G 1 α * β) I ∧ r.rem = trigRem 2 (cond 1 (thetaArg α B)) B 1 ∧ B.lo ≤ B.hi ∧
      ∀ z, z = B.lo ∨ z = B.hi → ∃ v, InItv I v ∧ z = β * v := by
  obtain ⟨c, B, b, h1, -, h3, -, h5, -, -, h8⟩ := prologue_ok (ord := id) h.wf (by rw [h.order]; norm_num) rfl
  obtain rfl : c = α := h3.symm.trans h.coeff_zero
  obtain ⟨p, p1, p2⟩ := hfn.lift t.tpol h.wf.valid fun _ => trivial
  have hs := hsy _ _ h.wf.valid.wf.sorted p1
  obtain ⟨r, r1, r2, r3, r4, r5, r6, r7⟩ := remake h.wf p2.valid hs (rem := trigRem 2 (cond 1 (thetaArg c B)) B 1) (Itv.lo_le_hi_mul _ _)
  refine ⟨r, B, ?_, ⟨r2, by rw [r3, p2.order, ← h.wf.order, h.order], by rw [r4, hs]; exact h.syms, by rw [r6]; exact h.exp, by rw [r7]; exact h.dom, ?_⟩, r5, h5,
    fun z hz => ?_⟩
  · unfold TM.trig
    rw [bind_ok h1]
    simp only
    rw [h.order, bind_ok (factorial_ok (by norm_num : 1 + 1 ≤ 170)), bind_ok p1, ← r1]
    norm_num
  · rw [r4, h.lift p2 (hG.isTaylor₁ isOpen_univ trivial 1)]
    norm_num
  · obtain ⟨x, y, x1, x2, x3⟩ := (h8 h.lin).1 z hz
    unfold Allows at x2
    rw [hr, h.polyAt, x3] at x2
    have : z = β * x "x" := by linarith [x2.1, x2.2]
    by_cases hβ : β = 0
    · exact ⟨0, hI, by rw [this, hβ, zero_mul, zero_mul]⟩
    · exact ⟨_, h.inDom_of hβ x1, this⟩

theorem scalar (h : Line t α β I) {p : GDual ℝ} (hp : p.Valid) (hs : p.p.syms = t.tpol.p.syms) (ho : p.order = t.tpol.order) {rem : Itv ℝ} (hr : rem.lo ≤ rem.hi)
    (hP : (p.toMv () : MvPolynomial String ℝ) = monomial 0 γ + monomial (Finsupp.single "dx" 1) δ) :
    ∃ r, make p rem t.exp t.dom = .ok r ∧ Line r γ δ I ∧ r.rem = rem := by
  obtain ⟨r, r1, r2, r3, r4, r5, r6, r7⟩ := remake h.wf hp hs hr
  exact ⟨r, r1, ⟨r2, by rw [r3, ho, ← h.wf.order, h.order], by rw [r4, hs]; exact h.syms, by rw [r6]; exact h.exp, by rw [r7]; exact h.dom, by rw [r4, hP]⟩, r5⟩

theorem addTS (h : Line t α β I) (c : ℝ) : ∃ r, TM.addTS t c = .ok r ∧ Line r (α + c) β I ∧ r.rem = t.rem := by
  refine h.scalar (GDual.Valid.addGS c h.wf.valid) (syms_const_add h.wf.valid.wf.sorted) ?_ h.wf.rem ?_
  · rfl
  · rw [GDual.toMv_addGS c h.wf.valid, h.poly]
    change _ + C c = _
    rw [C_apply, map_add]
    ring

theorem subTS (h : Line t α β I) (c : ℝ) : ∃ r, TM.subTS t c = .ok r ∧ Line r (α - c) β I ∧ r.rem = t.rem := by
  refine h.scalar (GDual.Valid.subGS (ι := Unit) (K := ℝ) c h.wf.valid) (GDual.HasSyms.subGS (a := t.tpol) rfl c) ?_ h.wf.rem ?_
  · rfl
  · rw [GDual.toMv_subGS c h.wf.valid, h.poly]
    change _ - C c = _
    rw [C_apply, map_sub]
    ring

theorem addST (h : Line t α β I) (c : ℝ) : ∃ r, TM.addST c t = .ok r ∧ Line r (c + α) β I ∧ r.rem = t.rem := by
  refine h.scalar (GDual.Valid.addSG c h.wf.valid) (GDual.HasSyms.addSG h.wf.valid.wf.sorted (a := t.tpol) rfl c) ?_ h.wf.rem ?_
  · exact Nat.zero_max _
  · rw [GDual.toMv_addSG c h.wf.valid, h.poly]
    change C c + _ = _
    rw [C_apply, map_add]
    ring

theorem subST (h : Line t α β I) (c : ℝ) : ∃ r, TM.subST c t = .ok r ∧ Line r (c - α) (-β) I ∧ r.rem = t.rem := by
  refine h.scalar (GDual.Valid.subSG (ι := Unit) (K := ℝ) c h.wf.valid) (GDual.HasSyms.subSG h.wf.valid.wf.sorted (a := t.tpol) rfl c) ?_ h.wf.rem ?_
  · exact Nat.zero_max _
  · rw [GDual.toMv_subSG c h.wf.valid, h.poly]
    change C c - _ = _
    rw [C_apply, map_sub, map_neg]
    ring

theorem mulST (h : Line t α β I) (c : ℝ) : ∃ r, TM.mulST c t = .ok r ∧ Line r (c * α) (c * β) I ∧ r.rem = (Itv.point c).mul t.rem := by
  refine h.scalar (GDual.Valid.mulSG c h.wf.valid) (GDual.HasSyms.mulSG h.wf.valid.wf.sorted (a := t.tpol) rfl c) (GDual.order_mulSG _ _) (Itv.lo_le_hi_mul _ _) ?_
  rw [GDual.toMv_mulSG c h.wf.valid, h.poly]
  change C c * _ = _
  rw [mul_add, C_mul_monomial, C_mul_monomial]

theorem add (h : Line t α β I) (h' : Line t' γ δ I) : ∃ r, TM.add t t' = .ok r ∧ Line r (α + γ) (β + δ) I ∧ r.rem = t.rem.add t'.rem := by
  obtain ⟨r, r1, r2, r3, -⟩ := add_sound h.wf h'.wf (h.compatible h')
  have r4 := r1
  unfold TM.add at r4
  rw [bind_ok (h.compatible h').commonExp, bind_ok (h.compatible h').commonDom] at r4
  obtain ⟨ne, e3, r4⟩ := bind_ok_iff.1 r4
  obtain ⟨nd, e4, r4⟩ := bind_ok_iff.1 r4
  have r5 : make (t.tpol.add t'.tpol) (t.rem.add t'.rem) ne nd = .ok r := r4
  unfold make at r5
  obtain ⟨_, -, r5⟩ := bind_ok_iff.1 r5
  have r4 := Except.ok.inj r5
  refine ⟨r, r1, ⟨r2, by rw [r3, h.order, h'.order, max_self], ?_, ?_, ?_, ?_⟩, by rw [← r4]⟩
  · rw [← r4]
    exact fun s hs => (mem_mergeSyms.1 (show s ∈ mergeSyms t.tpol.p.syms t'.tpol.p.syms from hs)).elim (h.syms s) (h'.syms s)
  · rw [← r4]
    exact fun e he => (mem_trimmed e3 e he).elim (h.exp e) (h'.exp e)
  · rw [← r4]
    exact fun e he => (mem_trimmed e4 e he).elim (h.dom e) (h'.dom e)
  · rw [← r4]
    simp only
    rw [GDual.toMv_add h.wf.valid h'.wf.valid, h.poly, h'.poly, map_add, map_add]
    ring

/-- The square of such a model with remainder {0}. -/
theorem square (h : Line t α β I) (hr : t.rem = ⟨0, 0⟩) (h0 : α ≠ 0 ∨ β ≠ 0) (hI : InItv I 0) (h1 : |I.lo| ≤ ρ) (h2 : |I.hi| ≤ ρ) (hβ : ((tiny : ℚ) : ℝ) < |β * β|) :
    ∃ r, powInt id t 2 = .ok r ∧ Line r (α * α) (2 * α * β) I ∧ r.rem.AbsLE (|β * β| * ρ ^ 2) := by
  obtain ⟨p, p1, p2, p3⟩ := h.mulST 1
  rw [one_mul, one_mul] at p2
  obtain ⟨r, r1, r2, E, B1, B2, r3, -, r5, -⟩ := p2.mul h h0 h0 hI h1 h2 (.inr hβ)
  refine ⟨r, ?_, by rw [show 2 * α * β = α * β + β * α by ring]; exact r2, ?_⟩
  · unfold powInt
    rw [if_neg (by norm_num), if_neg (by norm_num), if_pos (by norm_num), bind_ok p1]
    simp only [show ((2 : ℤ) - 1).toNat = 1 from rfl, List.range_one, List.foldlM_cons, List.foldlM_nil]
    rw [bind_ok r1]
    rfl
  · rw [r3, p3, hr]
    have e1 : ((Itv.point (1 : ℝ)).mul ⟨0, 0⟩) = ⟨0, 0⟩ := by simp [Itv.mul, Itv.point]
    have e2 : B1.mul ⟨0, 0⟩ = ⟨0, 0⟩ := by simp [Itv.mul]
    rw [e1, e2, itv_mul_zero, itv_mul_zero]
    simpa [Itv.add] using r5

/-- The square root of such a model. -/
theorem sqrt (h : Line t α β I) (hα : 0 < α) (h1 : |I.lo| ≤ ρ) (h2 : |I.hi| ≤ ρ) {σ : ℝ} (hσ : t.rem.AbsLE σ) (hN : |β| * ρ + σ < α) :
    ∃ r, TM.sqrt id t = .ok r ∧ Line r (√α) (β / (2 * √α)) I ∧
      r.rem.AbsLE (√α / 8 * ((|β| * ρ + σ) / α) ^ 2 / √((1 - (|β| * ρ + σ) / α) ^ 3)) := by
  obtain ⟨r, r1, r2, r3, r4, r5, r6, r7, r8⟩ := powHalf_abs (ord := id) h.wf (by rw [h.order]; norm_num) rfl (h.radius h1 h2) h.coeff_zero hσ
    (by rw [h.absVal_rest]) hN
  obtain ⟨p, p1, p2⟩ := GDual.powQ_series_lift (C := ℝ) (ι := Unit) (α := 1 / 2) h.wf.valid (by norm_num) (fun h => absurd h.1 (by decide +kernel))
    fun _ => Or.inl (by rw [h.coeff_zero]; exact hα)
  obtain rfl : p = r.tpol := Except.ok.inj (p1.symm.trans r7)
  have hd := (derivs_rpow (1 / 2)).isTaylor₁ isOpen_Ioi (Set.mem_Ioi.2 hα) 1
  refine ⟨r, r1, ⟨r2, by rw [r3, h.order], by rw [r4]; exact h.syms, fun e he => h.exp e (r5 e he), fun e he => h.dom e (r6 e he), ?_⟩, ?_⟩
  · have hl := h.lift (g := fun x => x ^ ((1 / 2 : ℚ) : ℝ)) (b := fun i => fall (1 / 2) i * α ^ (1 / 2 - (i : ℝ)) / i.factorial) p2 (by simpa [fall] using hd)
    rw [hl]
    have e1 : α ^ (1 / 2 - ((1 : ℕ) : ℝ)) = 1 / √α := by
      rw [Real.sqrt_eq_rpow, one_div (α ^ (1 / 2 : ℝ)), ← Real.rpow_neg hα.le]
      norm_num
    have e0 : α ^ (1 / 2 - ((0 : ℕ) : ℝ)) = √α := by
      rw [Real.sqrt_eq_rpow]
      norm_num
    simp only [e0, e1, fall]
    congr 2
    · norm_num
    · norm_num
      ring
  · rw [h.order] at r8
    refine r8.mono (le_of_eq ?_)
    norm_num [fact2Loop]

/-- The logarithm of such a model. -/
theorem log (h : Line t α β I) (hα : 0 < α) (h1 : |I.lo| ≤ ρ) (h2 : |I.hi| ≤ ρ) {σ : ℝ} (hσ : t.rem.AbsLE σ) (hN : |β| * ρ + σ < α) :
    ∃ r, rlog id t = .ok r ∧ Line r (Real.log α) (β / α) I ∧
      r.rem.AbsLE (1 / 2 * ((|β| * ρ + σ) / α) ^ 2 / (1 - (|β| * ρ + σ) / α) ^ 2) ∧ r.rem.hi ≤ 0 := by
  obtain ⟨r, r1, r2, r3, r4, r5, r6, r7, r8, r9⟩ := rlog_abs (ord := id) h.wf (by rw [h.order]; norm_num) rfl (h.radius h1 h2) h.coeff_zero hσ
    (by rw [h.absVal_rest]) hN
  obtain ⟨p, p1, p2⟩ := (GDual.computes_log (C := ℝ) (ι := Unit)).lift t.tpol h.wf.valid fun i => by rw [h.coeff_zero]; exact hα
  obtain rfl : p = r.tpol := Except.ok.inj (p1.symm.trans r7)
  refine ⟨r, r1, ⟨r2, by rw [r3, h.order], by rw [r4]; exact h.syms, by rw [r5]; exact h.exp, by rw [r6]; exact h.dom, ?_⟩, ?_, r9 (by rw [h.order])⟩
  · rw [h.lift p2 (derivs_log.isTaylor₁ isOpen_Ioi (Set.mem_Ioi.2 hα) 1)]
    simp only [logD]
    congr 2
    · norm_num
    · norm_num
      ring
  · rw [h.order] at r8
    refine r8.mono (le_of_eq ?_)
    norm_num

end Line
end Audi
