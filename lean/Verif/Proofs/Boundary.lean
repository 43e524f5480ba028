import Verif.Proofs.Cst
import Verif.Props.C96_SpecialDiv

/-! Functions of gduals with special values: terms which are removed, terms which are kept. -/

namespace Audi
open Poly

variable {F : XFormat}

theorem notOccurs_of_nil {C : Type} {p : Poly C} (h : p.terms = []) (E : String →₀ ℕ) : ¬ Occurs p E := by
  rintro ⟨t, ht, -⟩
  rw [h] at ht
  simp at ht

/-- Adding symbols which are there already. -/
theorem addSymbols_eq {C : Type} [Cf C] {p : Poly C} (hp : p.WF) {ss : List String} (h : ∀ s ∈ ss, s ∈ p.syms) : p.addSymbols ss = p := by
  have hm : mergeSyms p.syms ss = p.syms := mergeSyms_eq_left hp.sorted h
  have ht : (p.terms.map fun t => (reindex p.syms (mergeSyms p.syms ss) t.1, t.2)) = p.terms := by
    refine (List.map_congr_left fun t ht => ?_).trans (List.map_id _)
    refine Prod.ext ?_ rfl
    have h1 := toExp_addSymbols hp ss (e := t.1)
    rw [hm] at h1 ⊢
    exact toExp_inj hp.ndsyms (length_reindex _ _ _) (hp.len t ht) h1
  unfold addSymbols
  simp only
  rw [ht, hm]

/-- The coefficient of a gdual scaled by a number. -/
theorem cfAt_mulGS {d : GDual (XF F)} (hd : d.p.WF) (s : XF F) {E : String →₀ ℕ} (hE : E.degree ≤ d.order) : cfAt (d.mulGS s).p E = cmul (cfAt d.p E) s := by
  have hw : (d.mulGS s).p.WF := wf_mulGS hd s
  cases hs : Cf.isZero s with
  | true =>
    rw [CfZero.eq_zero s hs, cmul_zero_right, cfAt_of_not]
    rintro ⟨t, ht, -⟩
    rw [mulGS_zero d XF.zero_v] at ht
    simp at ht
  | false =>
    by_cases ho : Occurs d.p E
    · obtain ⟨t, ht, -, rfl⟩ := ho
      rw [cfAt_of_mem hd ht]
      have hl := hd.len t ht
      have hE' : keyDegree t.1 ≤ d.order := by rw [degree_toExp hl] at hE; exact hE
      have hp' : d.p.addSymbols (Poly.const s).syms = d.p := addSymbols_eq hd (by simp [Poly.const])
      unfold cmul
      rw [if_neg (by rw [hd.nz t ht, hs]; simp)]
      have hsy : (d.mulGS s).p.syms = d.p.syms := (show (d.mulGS s).p.syms = (d.p.addSymbols (Poly.const s).syms).syms from rfl).trans (congrArg _ hp')
      have e3 := cfAt_toExp hw (k := t.1) (by rw [hl, hsy])
      rw [hsy] at e3
      rw [e3]
      have hc : ((Poly.const s).addSymbols d.p.syms).terms = [(List.replicate d.p.syms.length 0, s)] := by
        have h1 : (Poly.const s).terms = [([], s)] := by simp [Poly.const, insertTerm, hs]
        have h2 : (mergeSyms (Poly.const s).syms d.p.syms).length = d.p.syms.length := by
          have h3 := syms_swap hd (wf_const s)
          rw [hp'] at h3
          exact (congrArg List.length h3).symm
        unfold addSymbols
        simp only
        rw [h1, List.map_singleton]
        congr 2
        refine List.eq_replicate_iff.mpr ⟨by rw [length_reindex, h2], fun b hb => ?_⟩
        obtain ⟨x, -, rfl⟩ := List.mem_map.mp hb
        simp [Poly.const, expOf]
      have hT : (d.mulGS s).p.terms = insertTerms [] (d.p.terms.flatMap fun t =>
          ([(t.1, Cf.mul t.2 s)] : List (List ℕ × XF F)).filter fun v => keyDegree v.1 ≤ max d.order d.order) := by
        change (mulBy _ d.p (Poly.const s)).terms = _
        unfold mulBy
        simp only
        rw [hp', hc]
        congr 1
        rw [List.flatMap_def, List.flatMap_def]
        congr 1
        refine List.map_congr_left fun t ht => ?_
        have : List.zipWith (· + ·) t.1 (List.replicate d.p.syms.length 0) = t.1 := by
          rw [← hd.len t ht]
          generalize t.1 = l
          induction l with
          | nil => rfl
          | cons x l ih => simp [List.replicate_succ, ih]
        rw [List.map_singleton, this]
        rfl
      rw [hT, tAt_insertTerms (by simp), tAt_nil, List.filter_flatMap]
      have hf : ∀ l : List (List ℕ × XF F), l.filter (fun y => y.1 = t.1) = [t] →
          (l.flatMap fun x => (([(x.1, Cf.mul x.2 s)] : List (List ℕ × XF F)).filter fun v => decide (keyDegree v.1 ≤ max d.order d.order)).filter fun x => decide (x.1 = t.1)) =
          [(t.1, Cf.mul t.2 s)] := by
        intro l
        have h0 : ∀ l : List (List ℕ × XF F), l.filter (fun y => y.1 = t.1) = [] →
          (l.flatMap fun x => (([(x.1, Cf.mul x.2 s)] : List (List ℕ × XF F)).filter fun v => decide (keyDegree v.1 ≤ max d.order d.order)).filter fun x => decide (x.1 = t.1)) = [] := by
          intro l hl
          rw [List.filter_eq_nil_iff] at hl
          rw [List.flatMap_eq_nil_iff]
          intro x hx
          rw [List.filter_eq_nil_iff]
          intro y hy
          rw [List.mem_filter, List.mem_singleton] at hy
          rw [hy.1]
          exact hl x hx
        induction l with
        | nil => simp
        | cons x l ih =>
          intro hx
          rw [List.flatMap_cons]
          by_cases h1 : x.1 = t.1
          · rw [List.filter_cons_of_pos (by simpa using h1), List.cons.injEq] at hx
            rw [h0 l hx.2, hx.1]
            simp [hE']
          · rw [List.filter_cons_of_neg (by simpa using h1)] at hx
            rw [ih hx, List.filter_eq_nil_iff.mpr, List.nil_append]
            intro y hy
            rw [List.mem_filter, List.mem_singleton] at hy
            rw [hy.1]
            simpa using h1
      rw [hf _ (filter_keys hd.nodup ht)]
      simp [CfZero.zero_add]
    · have hz := (cfAt_isZero_iff (E := E) hd XF.isZero_zero).mpr ho
      rw [CfZero.eq_zero _ hz, cmul_zero_left]
      refine CfZero.eq_zero _ ((cfAt_isZero_iff hw XF.isZero_zero).mpr fun h => ho ?_)
      obtain ⟨A, B, h1, h2, h3, -⟩ := occurs_truncMul hd (wf_const s) h
      rw [occurs_const h2, add_zero] at h3
      rwa [← h3]

theorem divGS_ok (a : GDual (XF F)) (s : XF F) : a.divGS s = .ok (a.mulGS (Cf.div Cf.one s)) := by simp [GDual.divGS, XF.isUnit_true]

/-- The gdual is well formed and has no terms. -/
structure NoTerms (d : GDual (XF F)) : Prop where
  wf : d.p.WF
  no : ∀ E, ¬ Occurs d.p E

namespace NoTerms
variable {a b : GDual (XF F)}

theorem of_nil (hw : a.p.WF) (h : a.p.terms = []) : NoTerms a := ⟨hw, fun E => notOccurs_of_nil h E⟩

theorem nil (ha : NoTerms a) : a.p.terms = [] := List.eq_nil_iff_forall_not_mem.mpr fun t ht => ha.no _ ⟨t, ht, trivial, rfl⟩

theorem mul_left (ha : NoTerms a) (hb : b.p.WF) : NoTerms (a.mul b) :=
  ⟨wf_gmul ha.wf hb, fun E h => by obtain ⟨A, B, h1, -⟩ := occurs_truncMul ha.wf hb h; exact ha.no A h1⟩

theorem mul_right (ha : a.p.WF) (hb : NoTerms b) : NoTerms (a.mul b) :=
  ⟨wf_gmul ha hb.wf, fun E h => by obtain ⟨A, B, -, h1, -⟩ := occurs_truncMul ha hb.wf h; exact hb.no B h1⟩

theorem mulGS (ha : NoTerms a) (s : XF F) : NoTerms (a.mulGS s) := ha.mul_left (wf_const s)

theorem mulSG (ha : NoTerms a) (s : XF F) : NoTerms (GDual.mulSG s a) := mul_right (a := GDual.ofCfOrder s _) (wf_const s) ha

theorem divGS (ha : NoTerms a) (s : XF F) : ∃ r, a.divGS s = .ok r ∧ NoTerms r := ⟨a.mulGS (Cf.div Cf.one s), by simp [GDual.divGS, XF.isUnit_true], ha.mulGS _⟩

theorem cst (ha : NoTerms a) : Cst P a Cf.zero :=
  Cst.exact ha.wf (CfZero.eq_zero _ ((cfAt_isZero_iff ha.wf XF.isZero_zero).mpr (ha.no 0)))

end NoTerms

theorem zero_mulGS {a : GDual (XF F)} (ha : a.p.WF) {s : XF F} (hs : s.v = .fin 0) : NoTerms (a.mulGS s) := .of_nil (wf_mulGS ha s) (mulGS_zero a hs)

/-- A sum with a gdual without terms, whose symbols are there already. -/
theorem add_noTerms {a b : GDual (XF F)} (ha : a.p.WF) (hb : NoTerms b) (hs : ∀ s ∈ b.p.syms, s ∈ a.p.syms) (ho : b.order ≤ a.order) : a.add b = a := by
  unfold GDual.add Poly.add
  simp only
  rw [addSymbols_eq ha hs]
  have : (b.p.addSymbols a.p.syms).terms = [] := by unfold addSymbols; rw [hb.nil]; rfl
  rw [this, max_eq_left ho]
  rfl

/-- A well formed gdual with symbols among those of `d` and at most its order. -/
structure Sub (d a : GDual (XF F)) : Prop where
  wf : a.p.WF
  syms : ∀ s ∈ a.p.syms, s ∈ d.p.syms
  order : a.order ≤ d.order

namespace Sub
variable {d a b : GDual (XF F)}

theorem refl (h : d.p.WF) : Sub d d := ⟨h, fun _ h => h, le_rfl⟩

theorem add (ha : Sub d a) (hb : Sub d b) : Sub d (a.add b) :=
  ⟨ha.wf.add hb.wf, fun s hs => (mem_mergeSyms.mp hs).elim (ha.syms s) (hb.syms s), max_le ha.order hb.order⟩

theorem mul (ha : Sub d a) (hb : Sub d b) : Sub d (a.mul b) :=
  ⟨wf_gmul ha.wf hb.wf, fun s hs => (mem_mergeSyms.mp hs).elim (ha.syms s) (hb.syms s), max_le ha.order hb.order⟩

theorem ofCf (d : GDual (XF F)) (c : XF F) : Sub d (GDual.ofCf c) := ⟨wf_const c, by simp [GDual.ofCf, Poly.const], Nat.zero_le _⟩

theorem mulGS (ha : Sub d a) (c : XF F) : Sub d (a.mulGS c) := ha.mul ⟨wf_const c, by simp [GDual.ofCfOrder, Poly.const], ha.order⟩

theorem mulSG (ha : Sub d a) (c : XF F) : Sub d (GDual.mulSG c a) := mul (a := GDual.ofCfOrder c _) ⟨wf_const c, by simp [GDual.ofCfOrder, Poly.const], ha.order⟩ ha

theorem neg (ha : Sub d a) : Sub d a.neg := ⟨wf_neg ha.wf, ha.syms, ha.order⟩

theorem subGS (ha : Sub d a) (c : XF F) : Sub d (a.subGS c) := by
  have h := ha.add (ofCf d c).neg
  exact ⟨h.wf, h.syms, ha.order⟩

end Sub

/-- The constant coefficient is NaN. -/
structure CN (d : GDual (XF F)) : Prop where
  wf : d.p.WF
  nan : IsNaN (cfAt d.p 0)

namespace CN
variable {a b : GDual (XF F)}

theorem ok (h : CN a) : ∃ c, a.constantCf = .ok c ∧ IsNaN c := ⟨_, constantCf_cfAt h.wf, h.nan⟩

theorem of_cst {P : Prop} {v : XF F} (h : Cst P a v) (hv : IsNaN v) : CN a := ⟨h.wf, h.cf.elim (fun h1 => by rwa [h1]) fun h1 => h1.2⟩

theorem self (h : CN a) : Cst False a (cfAt a.p 0) := ⟨h.wf, Or.inl rfl⟩

theorem add_left (ha : CN a) (hb : b.p.WF) : CN (a.add b) :=
  of_cst (ha.self.add (b := b) ⟨hb, Or.inl rfl⟩) (absorbing_nan.add_left _ _ ha.nan)

theorem add_right (ha : a.p.WF) (hb : CN b) : CN (a.add b) :=
  of_cst (Cst.add (a := a) (P := False) ⟨ha, Or.inl rfl⟩ hb.self) (absorbing_nan.add_right _ _ hb.nan)

theorem sq (ha : CN a) : CN (a.mul a) := of_cst (ha.self.mul ha.self) (cmul_nan_left ha.nan (absorbing_nan.nz _ ha.nan))

theorem addSG (ha : CN a) (s : XF F) : CN (GDual.addSG s a) := of_cst (ha.self.addSG s) (absorbing_nan.add_right _ _ ha.nan)

theorem subSG (ha : CN a) (s : XF F) : CN (GDual.subSG s a) := of_cst (ha.self.subSG s) (absorbing_nan.add_right _ _ (absorbing_nan.neg _ ha.nan))

theorem subGS (ha : CN a) (s : XF F) : CN (a.subGS s) := of_cst (ha.self.subGS s) (absorbing_nan.add_left _ _ ha.nan)

/-- A value which is not zero, divided by NaN. -/
theorem div {u : XF F} (ha : Cst False a u) (hu : Cf.isZero u = false) (hb : CN b) : ∃ r, a.div b = .ok r ∧ CN r := by
  obtain ⟨r, h1, h2⟩ := (ha.weaken (P := True)).div hb.self (Or.inl trivial)
  refine ⟨r, h1, of_cst h2 (cmul_nan_right ?_ hu)⟩
  have := hb.nan
  rw [XF.div_def]; unfold IsNaN at *; unfold XF.div; rw [this, XF.one_v]; rfl

end CN

section
variable [XLibm F] {d : GDual (XF F)} {p0 : XF F}
open GDual

theorem order_addF (a b : GDual (XF F)) : (a.add b).order = max a.order b.order := rfl
theorem order_mulF (a b : GDual (XF F)) : (a.mul b).order = max a.order b.order := rfl
theorem order_mulSGF (s : XF F) (a : GDual (XF F)) : (GDual.mulSG s a).order = a.order := by simp [GDual.mulSG, GDual.mul, GDual.ofCfOrder]

/-- Roots at zero. -/
theorem rootSeries_zero (hd : d.p.WF) (alpha p0 : XF F) {root : XF F} (hr : root.v = .fin 0) :
    ∃ r, rootSeries d alpha p0 root = .ok r ∧ NoTerms r ∧ Sub d r := by
  have hs := Sub.refl hd
  have hp : Sub d ((d.subGS p0).mulGS (Cf.div Cf.one p0)) := (hs.subGS p0).mulGS _
  have h := foldl_inv (f := rootStep alpha ((d.subGS p0).mulGS (Cf.div Cf.one p0))) (Q := fun s : PowSt (XF F) => Sub d s.retval ∧ Sub d s.phat)
    (fun s i h => ⟨h.1.add ((h.2.mul hp).mulSG _), h.2.mul hp⟩) (List.range' 2 (d.order - 1))
    (s := ⟨(GDual.ofRat 1).add (GDual.mulSG alpha ((d.subGS p0).mulGS (Cf.div Cf.one p0))), (d.subGS p0).mulGS (Cf.div Cf.one p0)⟩)
    ⟨(Sub.ofCf d _).add (hp.mulSG _), hp⟩
  refine ⟨_, by unfold rootSeries; rw [show (d.subGS p0).divGS p0 = .ok ((d.subGS p0).mulGS (Cf.div Cf.one p0)) by simp [GDual.divGS, XF.isUnit_true], res_bind],
    zero_mulGS h.1.wf hr, h.1.mulGS _⟩

end

end Audi
