import Verif.Proofs.Special

/-! Lemmas on special values in quotients. -/

set_option linter.unusedSectionVars false

namespace Audi
open Poly

variable {C : Type} [Cf C] {N : C → Prop} {p q : Poly C} {E G : String →₀ ℕ}

theorem mem_insertTerm_ne {e k : List ℕ} (hk : k ≠ e) {c x : C} {t : List (List ℕ × C)} :
    (k, x) ∈ insertTerm e c t ↔ (k, x) ∈ t := by
  induction t with
  | nil =>
    unfold insertTerm
    split_ifs <;> simp [hk]
  | cons y t ih =>
    obtain ⟨e', c'⟩ := y
    unfold insertTerm
    by_cases he : e = e'
    · have : k ≠ e' := fun h => hk (h.trans he.symm)
      rw [if_pos he]
      split_ifs <;> simp [this]
    · rw [if_neg he, List.mem_cons, List.mem_cons, ih]

theorem mem_insertTerms_ne {k : List ℕ} {x : C} {t new : List (List ℕ × C)} (hk : ∀ y ∈ new, y.1 ≠ k) :
    (k, x) ∈ insertTerms t new ↔ (k, x) ∈ t := by
  unfold insertTerms
  induction new generalizing t with
  | nil => rfl
  | cons y new ih =>
    rw [List.foldl_cons, ih fun z hz => hk z (List.mem_cons_of_mem _ hz), mem_insertTerm_ne (hk y (by simp)).symm]

theorem phas_add_iff (hp : p.WF) (hq : q.WF) (hE : ¬ Occurs q E) : PHas N (p.add q) E ↔ PHas N p E := by
  rw [← phas_addSymbols hp q.syms]
  have hE' : ¬ Occurs (q.addSymbols p.syms) E := fun h => hE ((phas_addSymbols hq p.syms).mp h)
  have key : ∀ t : List ℕ × C, toExp (p.addSymbols q.syms).syms t.1 = E →
      (t ∈ (p.add q).terms ↔ t ∈ (p.addSymbols q.syms).terms) := by
    rintro ⟨k, x⟩ ht
    refine mem_insertTerms_ne fun y hy hyk => hE' ⟨y, hy, trivial, ?_⟩
    rw [← syms_swap hp hq, hyk]
    exact ht
  constructor
  · rintro ⟨t, ht, h1, h2⟩; exact ⟨t, (key t h2).mp ht, h1, h2⟩
  · rintro ⟨t, ht, h1, h2⟩; exact ⟨t, (key t h2).mpr ht, h1, h2⟩

theorem occurs_add (hp : p.WF) (hq : q.WF) (h : Occurs (p.add q) E) : Occurs p E ∨ Occurs q E := by
  by_cases hE : Occurs q E
  · exact Or.inr hE
  · exact Or.inl ((phas_add_iff hp hq hE).mp h)

theorem phas_neg_iff : Occurs p.neg E ↔ Occurs p E := by
  constructor
  · rintro ⟨t, ht, -, h2⟩
    obtain ⟨u, hu, rfl⟩ := List.mem_map.mp ht
    exact ⟨u, hu, trivial, h2⟩
  · rintro ⟨t, ht, -, h2⟩
    exact ⟨_, List.mem_map_of_mem ht, trivial, h2⟩

theorem occurs_const {c : C} (h : Occurs (Poly.const c) E) : E = 0 := by
  obtain ⟨t, -, -, h2⟩ := h
  rw [← h2]
  simp [Poly.const, toExp]

theorem occurs_truncMul (hp : p.WF) (hq : q.WF) {n : ℕ} (h : Occurs (truncMul p q n) E) :
    ∃ A B, Occurs p A ∧ Occurs q B ∧ A + B = E ∧ E.degree ≤ n := by
  obtain ⟨x, hx, -, hE⟩ := h
  have h1 : x.1 ∈ (truncMul p q n).terms.map (·.1) := List.mem_map_of_mem hx
  unfold truncMul at h1
  rw [mulBy_terms] at h1
  rcases mem_insertTerms_keys h1 with h2 | h2
  · obtain ⟨y, hy, hyx⟩ := List.mem_map.mp h2
    obtain ⟨hy, hk⟩ := List.mem_filter.mp hy
    have hl := products_len hp hq y hy
    obtain ⟨t, ht, hy⟩ := List.mem_flatMap.mp hy
    obtain ⟨u, hu, rfl⟩ := List.mem_map.mp hy
    have lt := (hp.addSymbols q.syms).len t ht
    have lu := (hq.addSymbols p.syms).len u hu
    have lu' := lu
    rw [← syms_swap hp hq] at lu'
    have hE' : toExp (p.addSymbols q.syms).syms x.1 = E := hE
    rw [← hyx, toExp_zipWith_add lt lu'] at hE'
    have hd : (List.zipWith (· + ·) t.1 u.1).sum ≤ n := of_decide_eq_true hk
    refine ⟨_, _, (phas_addSymbols hp q.syms).mp ⟨t, ht, trivial, rfl⟩,
      (phas_addSymbols hq p.syms).mp ⟨u, hu, trivial, rfl⟩, by rw [← syms_swap hp hq]; exact hE', ?_⟩
    rw [← hE', ← toExp_zipWith_add lt lu', degree_toExp hl]
    exact hd
  · simp at h2

/-! ### gduals -/

variable [NegZero C]

theorem wf_subGS {d : GDual C} (h : d.p.WF) (c : C) : (d.subGS c).p.WF := wf_sub h (wf_const c)

theorem wf_gmul {a b : GDual C} (ha : a.p.WF) (hb : b.p.WF) : (a.mul b).p.WF := WF.mulBy ha hb fun e => keyDegree e ≤ max a.order b.order

theorem wf_mulGS {d : GDual C} (h : d.p.WF) (c : C) : (d.mulGS c).p.WF := wf_gmul h (wf_const c)

theorem wf_mulSG {d : GDual C} (h : d.p.WF) (c : C) : (GDual.mulSG c d).p.WF := wf_gmul (a := GDual.ofCfOrder c d.order) (wf_const c) h

/-- The invariant of the loop of `div`: the state is well formed, the powers have no constant coefficient. -/
structure DivInv (n : ℕ) (s : GDual.DivSt C) : Prop where
  wr : s.retval.p.WF
  wp : s.phat.p.WF
  ro : s.retval.order = n
  po : s.phat.order = n

theorem DivInv.step {n : ℕ} {tmp : GDual C} (ht : tmp.p.WF) (hto : tmp.order = n) {s : GDual.DivSt C} (h : DivInv n s) :
    DivInv n (GDual.divStep tmp s) where
  wr := h.wr.add (wf_mulSG (wf_gmul h.wp ht) _)
  wp := wf_gmul h.wp ht
  ro := by simp [GDual.divStep, GDual.add, GDual.mulSG, GDual.mul, GDual.ofCfOrder, h.ro, h.po, hto]
  po := by simp [GDual.divStep, GDual.mul, h.po, hto]

/-- A property of the states holds at the end of the loop if the steps keep it. -/
theorem divLoop_inv {tmp : GDual C} {Q : GDual.DivSt C → Prop} (hQ : ∀ s, Q s → Q (GDual.divStep tmp s)) (l : List ℕ) {s : GDual.DivSt C} (h : Q s) :
    Q (l.foldl (fun s _ => GDual.divStep tmp s) s) := by
  induction l generalizing s with
  | nil => exact h
  | cons _ l ih => exact ih (hQ s h)

end Audi

namespace Audi
open Poly

variable {C : Type} [Cf C] {N : C → Prop} {p q : Poly C} {E G : String →₀ ℕ}

theorem notMem_insertTerm_cancel {k : List ℕ} {x c : C} {t : List (List ℕ × C)} (hn : (t.map (·.1)).Nodup) (hx : (k, x) ∈ t)
    (hz : Cf.isZero (Cf.add x c) = true) : k ∉ (insertTerm k c t).map (·.1) := by
  induction t with
  | nil => simp at hx
  | cons y t ih =>
    obtain ⟨e', c'⟩ := y
    rw [List.map_cons, List.nodup_cons] at hn
    unfold insertTerm
    rcases List.mem_cons.mp hx with h1 | h1
    · simp only [Prod.mk.injEq] at h1
      obtain ⟨rfl, rfl⟩ := h1
      rw [if_pos rfl, if_pos hz]
      exact hn.1
    · have hne : k ≠ e' := by
        rintro rfl
        exact hn.1 (List.mem_map_of_mem (f := (·.1)) h1)
      rw [if_neg hne, List.map_cons, List.mem_cons, not_or]
      exact ⟨hne, ih hn.2 h1⟩

theorem GDual.constantCf_ok {d : GDual C} : ∃ c, d.constantCf = .ok c ∧ (d.p.find? (List.replicate d.p.syms.length 0)).getD Cf.zero = c := by
  refine ⟨_, ?_, rfl⟩
  unfold GDual.constantCf GDual.findCf GDual.expSum
  rw [if_neg (by simp), if_neg (by simp [GDual.symbolSetSize])]
  unfold GDual.symbolSetSize
  cases d.p.find? (List.replicate d.p.syms.length 0) <;> rfl

theorem constantCf_eq {d : GDual C} {c : C} (h : d.constantCf = .ok c) : (d.p.find? (List.replicate d.p.syms.length 0)).getD Cf.zero = c := by
  obtain ⟨c', h1, h2⟩ := GDual.constantCf_ok (d := d)
  rw [h1] at h
  cases h
  exact h2

/-- The constant coefficient, when it is not zero, is in the table. -/
theorem phas_constantCf {d : GDual C} {c : C} (h : d.constantCf = .ok c) (hz : (Cf.zero : C) ≠ c) : PHas (· = c) d.p 0 := by
  have h1 := constantCf_eq h
  cases hf : d.p.find? (List.replicate d.p.syms.length 0) with
  | none => rw [hf] at h1; exact absurd h1 hz
  | some x =>
    rw [hf] at h1
    exact ⟨_, mem_of_find? hf, h1, toExp_replicate_zero _ _⟩

theorem occurs_zero_constantCf {d : GDual C} (hd : d.p.WF) {c : C} (h : d.constantCf = .ok c) (ho : Occurs d.p 0) : Cf.isZero c = false := by
  obtain ⟨t, ht, -, h0⟩ := ho
  have h1 := constantCf_eq h
  have h2 : t.1 = List.replicate d.p.syms.length 0 :=
    toExp_inj hd.ndsyms (hd.len t ht) (by simp) (h0.trans (toExp_replicate_zero _ _).symm)
  have h3 := find?_eq_some_of_mem (e := t.1) (c := t.2) hd ht
  rw [h2] at h3
  rw [h3] at h1
  rw [← h1]
  exact hd.nz t ht

variable [NegZero C]

/-- Subtracting the constant coefficient removes it. -/
theorem notOccurs_subGS {d : GDual C} (hd : d.p.WF) {c : C} (h : d.constantCf = .ok c) (h0 : Cf.isZero (Cf.zero : C) = true)
    (hc : Cf.isZero (Cf.add c (Cf.neg c)) = true) : ¬ Occurs (d.subGS c).p 0 := by
  intro ho
  by_cases hz : Cf.isZero c = true
  · have h1 : ¬ Occurs (Poly.const c).neg 0 := by
      rintro ⟨t, ht, -⟩
      simp [Poly.neg, Poly.const, insertTerm, hz] at ht
    have h2 : Occurs d.p 0 := (phas_add_iff hd (wf_neg (wf_const c)) h1).mp ho
    have := occurs_zero_constantCf hd h h2
    rw [hz] at this
    exact absurd this (by decide)
  · have hne : (Cf.zero : C) ≠ c := by rintro rfl; exact hz h0
    rw [Bool.not_eq_true] at hz
    obtain ⟨t, ht, rfl, ht0⟩ := (phas_addSymbols hd (Poly.const c).neg.syms).mpr (phas_constantCf h hne)
    have hw := hd.addSymbols (Poly.const t.2).neg.syms
    obtain ⟨y, hy, -, hy0⟩ := ho
    have hk : y.1 = t.1 := by
      have hwf := wf_subGS hd t.2
      refine toExp_inj hwf.ndsyms (hwf.len y hy) ?_ (hy0.trans ht0.symm)
      exact hw.len t ht
    have ht' : t.1 = reindex ([] : List String) (mergeSyms [] d.p.syms) [] := by
      have e1 : mergeSyms [] d.p.syms = d.p.syms := by
        rw [mergeSyms_comm (by simp) hd.sorted]; rfl
      refine toExp_inj hw.ndsyms (hw.len t ht) ?_ (ht0.trans ?_)
      · rw [length_reindex, e1]; rfl
      · have e2 : (d.p.addSymbols (Poly.const t.2).neg.syms).syms = mergeSyms [] d.p.syms := by rw [e1]; rfl
        rw [e2, toExp_reindex (by simp) ((sorted_mergeSyms (by simp)).imp ne_of_lt) (by simp)]
        simp [toExp]
    have hterms : (d.subGS t.2).p.terms = insertTerm t.1 (Cf.neg t.2) (d.p.addSymbols (Poly.const t.2).neg.syms).terms := by
      simp only [GDual.subGS, Poly.sub, Poly.add, Poly.addSymbols, Poly.neg, Poly.const, insertTerm, hz, Bool.false_eq_true, if_false,
        List.map_cons, List.map_nil, insertTerms, List.foldl_cons, List.foldl_nil]
      rw [ht']
    refine notMem_insertTerm_cancel (k := t.1) (x := t.2) (c := Cf.neg t.2) hw.nodup ht hc ?_
    rw [← hterms, ← hk]
    exact List.mem_map_of_mem hy

theorem phas_subGS {d : GDual C} (hd : d.p.WF) (c : C) (hE : E ≠ 0) : PHas N (d.subGS c).p E ↔ PHas N d.p E :=
  phas_add_iff hd (wf_neg (wf_const c)) fun h => hE (occurs_const (phas_neg_iff.mp h))

theorem order_divGS (d : GDual C) (c : C) : (d.mulGS c).order = d.order := by simp [GDual.mulGS, GDual.mul, GDual.ofCfOrder]

theorem phas_mulGS (h : Absorbing N) {d : GDual C} (hd : d.p.WF) {c : C} (hz : Cf.isZero c = false) (hE : PHas N d.p E) (hdeg : E.degree ≤ d.order) :
    PHas N (d.mulGS c).p E := by
  have := PHas.mul_left (n := max d.order d.order) h hd (wf_const c) hE (phas_const (N := fun _ => True) trivial hz) (by simpa using hdeg)
  rwa [add_zero] at this

theorem phas_mulSG (h : Absorbing N) {d : GDual C} (hd : d.p.WF) {c : C} (hz : Cf.isZero c = false) (hE : PHas N d.p E) (hdeg : E.degree ≤ d.order) :
    PHas N (GDual.mulSG c d).p E := by
  have := PHas.mul_right (n := max d.order d.order) h (wf_const c) hd (phas_const (N := fun _ => True) trivial hz) hE (by simpa using hdeg)
  rwa [zero_add] at this

/-- All the coefficients of a scaled gdual satisfy `N` if the scalar does. -/
theorem phas_mulGS_scalar (h : Absorbing N) {d : GDual C} (hd : d.p.WF) {c : C} (hc : N c) (hE : Occurs d.p E) (hdeg : E.degree ≤ d.order) :
    PHas N (d.mulGS c).p E := by
  have := PHas.mul_right (n := max d.order d.order) h hd (wf_const c) hE (phas_const hc (h.nz c hc)) (by simpa using hdeg)
  rwa [add_zero] at this

theorem notOccurs_mul_zero {a b : GDual C} (ha : a.p.WF) (hb : b.p.WF) (h : ¬ Occurs b.p 0) : ¬ Occurs (a.mul b).p 0 := by
  intro ho
  obtain ⟨A, B, -, h2, h3, -⟩ := occurs_truncMul ha hb ho
  have : B = 0 := (add_eq_zero.mp h3).2
  rw [this] at h2
  exact h h2

theorem notOccurs_mul_zero' {a b : GDual C} (ha : a.p.WF) (hb : b.p.WF) (h : ¬ Occurs a.p 0) : ¬ Occurs (a.mul b).p 0 := by
  intro ho
  obtain ⟨A, B, h1, -, h3, -⟩ := occurs_truncMul ha hb ho
  have : A = 0 := (add_eq_zero.mp h3).1
  rw [this] at h1
  exact h h1

/-- What the loop of `div` starts from: `phat = (d2 - p0) * (1/p0)`, `retval = 1 - phat`. -/
def divStart (d2 : GDual C) (p0 : C) : GDual.DivSt C :=
  let phat := (d2.subGS p0).mulGS (Cf.div Cf.one p0)
  ⟨(GDual.ofRat 1).sub phat, Cf.ofRat (-1), phat⟩

/-- The series computed by `div`. -/
def divRet (d2 : GDual C) (p0 : C) : GDual C :=
  ((List.range' 2 (d2.order - 1)).foldl (fun s _ => GDual.divStep (divStart d2 p0).phat s) (divStart d2 p0)).retval

theorem divStart_inv {d2 : GDual C} (h : d2.p.WF) (p0 : C) : DivInv d2.order (divStart d2 p0) where
  wr := wf_sub (wf_const _) (wf_mulGS (wf_subGS h p0) _)
  wp := wf_mulGS (wf_subGS h p0) _
  ro := by simp [divStart, GDual.sub, order_divGS, GDual.subGS, GDual.ofRat, GDual.ofCf]
  po := by simp [divStart, order_divGS, GDual.subGS]

theorem divRet_inv {d2 : GDual C} (h : d2.p.WF) (p0 : C) {Q : GDual.DivSt C → Prop} (h0 : Q (divStart d2 p0))
    (hs : ∀ s, DivInv d2.order s → Q s → Q (GDual.divStep (divStart d2 p0).phat s)) :
    (divRet d2 p0).p.WF ∧ (divRet d2 p0).order = d2.order ∧ ∃ s, Q s ∧ s.retval = divRet d2 p0 := by
  have hi := divStart_inv h p0
  have := divLoop_inv (tmp := (divStart d2 p0).phat) (Q := fun s => DivInv d2.order s ∧ Q s)
    (fun s hq => ⟨hq.1.step hi.wp hi.po, hs s hq.1 hq.2⟩) (List.range' 2 (d2.order - 1)) ⟨hi, h0⟩
  exact ⟨this.1.wr, this.1.ro, _, this.2, rfl⟩

theorem div_eq (hu : ∀ c : C, Cf.isUnit c = true) (d1 : GDual C) {d2 : GDual C} {p0 : C} (hc : d2.constantCf = .ok p0) :
    d1.div d2 = .ok ((d1.mul (divRet d2 p0)).mulGS (Cf.div Cf.one p0)) := by
  unfold GDual.div GDual.divSeries
  rw [hc]
  simp only [Bind.bind, Except.bind, GDual.divGS, hu, if_true]
  rfl

theorem divSG_eq (hu : ∀ c : C, Cf.isUnit c = true) (s : C) {d2 : GDual C} {p0 : C} (hc : d2.constantCf = .ok p0) :
    GDual.divSG s d2 = .ok ((GDual.mulSG s (divRet d2 p0)).mulGS (Cf.div Cf.one p0)) := by
  unfold GDual.divSG GDual.divSeries
  rw [hc]
  simp only [Bind.bind, Except.bind, GDual.divGS, hu, if_true]
  rfl

/-- With a constant coefficient that cancels, the series has the constant coefficient 1. -/
theorem divRet_one {d2 : GDual C} (h : d2.p.WF) {p0 : C} (hc : d2.constantCf = .ok p0) (h0 : Cf.isZero (Cf.zero : C) = true)
    (h1 : Cf.isZero (Cf.one : C) = false) (hcancel : Cf.isZero (Cf.add p0 (Cf.neg p0)) = true) : PHas (· = (Cf.one : C)) (divRet d2 p0).p 0 := by
  have hp : ¬ Occurs (divStart d2 p0).phat.p 0 :=
    notOccurs_mul_zero' (wf_subGS h p0) (wf_const _) (notOccurs_subGS h hc h0 hcancel)
  obtain ⟨-, -, s, hs, he⟩ := divRet_inv h p0
    (Q := fun s => PHas (· = (Cf.one : C)) s.retval.p 0 ∧ ¬ Occurs s.phat.p 0)
    ⟨(phas_add_iff (wf_const _) (wf_neg (divStart_inv h p0).wp) fun ho => hp (phas_neg_iff.mp ho)).mpr (phas_const (N := (· = (Cf.one : C))) rfl h1), hp⟩
    (fun s hi hq => by
      have h2 := notOccurs_mul_zero' hi.wp (divStart_inv h p0).wp hq.2
      have hw := wf_gmul hi.wp (divStart_inv h p0).wp
      exact ⟨(phas_add_iff hi.wr (wf_mulSG hw _) (notOccurs_mul_zero (a := GDual.ofCfOrder _ _) (wf_const _) hw h2)).mpr hq.1, h2⟩)
  rw [← he]
  exact hs.1

/-- Special coefficients of the denominator are special coefficients of the series. -/
theorem divRet_keep (hN : Absorbing N) {d2 : GDual C} (h : d2.p.WF) (p0 : C) (hE : PHas N (divStart d2 p0).phat.p E) : PHas N (divRet d2 p0).p E := by
  obtain ⟨-, -, s, hs, he⟩ := divRet_inv h p0 (Q := fun s => PHas N s.retval.p E)
    (PHas.add_right hN (wf_const _) (wf_neg (divStart_inv h p0).wp) (hE.neg hN))
    (fun s hi hq => hq.add_left hN hi.wr _)
  rw [← he]
  exact hs

end Audi

namespace Audi
open Poly

variable {C : Type} [Cf C] {N : C → Prop} {p q : Poly C} {E G : String →₀ ℕ}

/-- If the monomial is in the table, its coefficient satisfies `N`. -/
def PAll (N : C → Prop) (p : Poly C) (E : String →₀ ℕ) : Prop := ∀ t ∈ p.terms, toExp p.syms t.1 = E → N t.2

theorem PAll.addSymbols (hp : p.WF) (h : PAll N p E) (ss : List String) : PAll N (p.addSymbols ss) E := by
  intro t ht hE
  obtain ⟨u, hu, rfl⟩ := List.mem_map.mp ht
  refine h u hu ?_
  rw [← hE]
  exact (toExp_addSymbols hp ss).symm

theorem PAll.add (hN : Absorbing N) (hp : p.WF) (hq : q.WF) (h1 : PAll N p E) (h2 : PAll N q E) : PAll N (p.add q) E := by
  intro t ht hE
  refine hN.allAt_insertTerms (k := t.1) (fun x hx hk => h1.addSymbols hp q.syms x hx ?_) (fun x hx hk => h2.addSymbols hq p.syms x hx ?_) t ht rfl
  · rw [hk]; exact hE
  · rw [← syms_swap hp hq, hk]; exact hE

theorem PAll.neg (hN : Absorbing N) (h : PAll N p E) : PAll N p.neg E := by
  intro t ht hE
  obtain ⟨u, hu, rfl⟩ := List.mem_map.mp ht
  exact hN.neg _ (h u hu hE)

theorem PAll.mul_left (hN : Absorbing N) (hp : p.WF) (hq : q.WF) (h1 : ∀ A, PAll N p A) (n : ℕ) (E : String →₀ ℕ) : PAll N (truncMul p q n) E := by
  intro t ht _
  unfold truncMul at ht
  rw [mulBy_terms] at ht
  refine hN.allAt_insertTerms (k := t.1) (t := []) (by intro x hx; simp at hx) (fun x hx _ => ?_) t ht rfl
  obtain ⟨a, ha, hx⟩ := List.mem_flatMap.mp (List.mem_of_mem_filter hx)
  obtain ⟨b, hb, rfl⟩ := List.mem_map.mp hx
  exact hN.mul_left _ _ ((h1 _).addSymbols hp q.syms a ha rfl)

theorem PAll.mul_right (hN : Absorbing N) (hp : p.WF) (hq : q.WF) (h1 : ∀ A, PAll N q A) (n : ℕ) (E : String →₀ ℕ) : PAll N (truncMul p q n) E := by
  intro t ht _
  unfold truncMul at ht
  rw [mulBy_terms] at ht
  refine hN.allAt_insertTerms (k := t.1) (t := []) (by intro x hx; simp at hx) (fun x hx _ => ?_) t ht rfl
  obtain ⟨a, ha, hx⟩ := List.mem_flatMap.mp (List.mem_of_mem_filter hx)
  obtain ⟨b, hb, rfl⟩ := List.mem_map.mp hx
  exact hN.mul_right _ _ ((h1 _).addSymbols hq p.syms b hb rfl)

theorem pall_const {c : C} (hc : N c) (E : String →₀ ℕ) : PAll N (Poly.const c) E := by
  intro t ht _
  unfold Poly.const at ht
  simp only [insertTerm] at ht
  split_ifs at ht
  · simp at ht
  · rw [List.mem_singleton] at ht
    subst ht
    exact hc

theorem pall_const_ne (c : C) (hE : E ≠ 0) : PAll N (Poly.const c) E := fun t ht h => absurd (occurs_const ⟨t, ht, trivial, h⟩) hE

/-- Products with a factor whose constant coefficient is 1 and whose other coefficients are special: no monomial of the first factor is lost. -/
theorem occurs_mul_one (hN : Absorbing N) (hone : ∀ c : C, Cf.isZero c = false → Cf.isZero (Cf.mul c Cf.one) = false) (hp : p.WF) (hq : q.WF)
    (h0 : PHas (· = (Cf.one : C)) q 0) (hA : ∀ A, A ≠ 0 → PAll N q A) {n : ℕ} (hE : Occurs p E) (hd : E.degree ≤ n) : Occurs (truncMul p q n) E := by
  obtain ⟨t, ht, -, h2⟩ := (phas_addSymbols hp q.syms).mpr hE
  obtain ⟨u, hu, h3, h4⟩ := (phas_addSymbols hq p.syms).mpr h0
  have wp := hp.addSymbols q.syms
  have wq := hq.addSymbols p.syms
  have hq' : ∀ A, A ≠ 0 → PAll N (q.addSymbols p.syms) A := fun A hA0 => (hA A hA0).addSymbols hq p.syms
  have hss := syms_swap hp hq
  have e0 : (truncMul p q n).terms = insertTerms [] (((p.addSymbols q.syms).terms.flatMap fun t =>
      (q.addSymbols p.syms).terms.map fun u => (List.zipWith (· + ·) t.1 u.1, Cf.mul t.2 u.2)).filter fun v => keyDegree v.1 ≤ n) := mulBy_terms _ p q
  have es : (truncMul p q n).syms = (p.addSymbols q.syms).syms := rfl
  generalize p.addSymbols q.syms = p' at *
  generalize q.addSymbols p.syms = q' at *
  have hsn := wp.ndsyms
  rw [← hss] at h4
  have lq : ∀ x ∈ q'.terms, x.1.length = p'.syms.length := fun x hx => (wq.len x hx).trans (by rw [hss])
  set k := List.zipWith (· + ·) t.1 u.1 with hk
  have hkE : toExp p'.syms k = E := by rw [hk, toExp_zipWith_add (wp.len t ht) (lq u hu), h2, h4, add_zero]
  have hkl : k.length = p'.syms.length := by simp [hk, wp.len t ht, lq u hu]
  have hkeep : (fun v : List ℕ × C => decide (keyDegree v.1 ≤ n)) (k, Cf.mul t.2 u.2) = true := by
    refine decide_eq_true ?_
    change k.sum ≤ n
    rw [← degree_toExp hkl, hkE]
    exact hd
  obtain ⟨l, r, hlr⟩ := List.append_of_mem ht
  obtain ⟨m, m', hmm⟩ := List.append_of_mem hu
  have ndp := wp.nodup
  have ndq := wq.nodup
  rw [hlr, List.map_append, List.map_cons, List.nodup_append] at ndp
  rw [hmm, List.map_append, List.map_cons, List.nodup_append] at ndq
  -- contributions of the other terms of p'
  have other : ∀ x : List ℕ × C, x ∈ p'.terms → x.1 ≠ t.1 →
      AllAt N (q'.terms.map fun u => (List.zipWith (· + ·) x.1 u.1, Cf.mul x.2 u.2)) k := by
    intro x hx hxt y hy hyk
    obtain ⟨b, hb, rfl⟩ := List.mem_map.mp hy
    refine hN.mul_right _ _ (hq' (toExp q'.syms b.1) ?_ b hb rfl)
    intro hb0
    apply hxt
    refine toExp_inj hsn (wp.len x hx) (wp.len t ht) ?_
    have := congrArg (toExp p'.syms) hyk
    simp only at this
    rw [toExp_zipWith_add (wp.len x hx) (lq b hb), hkE, hss, hb0, add_zero] at this
    rw [hss, this, ← h2, hss]
  -- the other contributions of t
  have other' : ∀ b : List ℕ × C, b ∈ q'.terms → b.1 ≠ u.1 → List.zipWith (· + ·) t.1 b.1 ≠ k := by
    intro b hb hbu hbk
    apply hbu
    refine toExp_inj hsn (lq b hb) (lq u hu) ?_
    have := congrArg (toExp p'.syms) hbk
    rw [toExp_zipWith_add (wp.len t ht) (lq b hb), hkE, h2] at this
    have h6 : toExp p'.syms b.1 = 0 := by simpa using this
    rw [h6, h4]
  have hsplit : ((p'.terms.flatMap fun t => q'.terms.map fun u => (List.zipWith (· + ·) t.1 u.1, Cf.mul t.2 u.2)).filter fun v => keyDegree v.1 ≤ n) =
      ((l.flatMap fun t => q'.terms.map fun u => (List.zipWith (· + ·) t.1 u.1, Cf.mul t.2 u.2)).filter (fun v => keyDegree v.1 ≤ n) ++
        (m.map fun u => (List.zipWith (· + ·) t.1 u.1, Cf.mul t.2 u.2)).filter (fun v => keyDegree v.1 ≤ n)) ++ (k, Cf.mul t.2 u.2) ::
      ((m'.map fun u => (List.zipWith (· + ·) t.1 u.1, Cf.mul t.2 u.2)).filter (fun v => keyDegree v.1 ≤ n) ++
        (r.flatMap fun t => q'.terms.map fun u => (List.zipWith (· + ·) t.1 u.1, Cf.mul t.2 u.2)).filter (fun v => keyDegree v.1 ≤ n)) := by
    conv_lhs => rw [hlr, List.flatMap_append, List.flatMap_cons]
    rw [List.filter_append, List.filter_append]
    conv_lhs =>
      arg 2
      arg 1
      rw [hmm, List.map_append, List.map_cons, List.filter_append, List.filter_cons_of_pos (p := fun v : List ℕ × C => decide (keyDegree v.1 ≤ n)) hkeep]
    simp [List.append_assoc]
  have hz : Cf.isZero (Cf.mul t.2 u.2) = false := by rw [h3]; exact hone _ (wp.nz t ht)
  have := hN.tabs_single (k := k) hz
    (l := (l.flatMap fun t => q'.terms.map fun u => (List.zipWith (· + ·) t.1 u.1, Cf.mul t.2 u.2)).filter (fun v => keyDegree v.1 ≤ n) ++
        (m.map fun u => (List.zipWith (· + ·) t.1 u.1, Cf.mul t.2 u.2)).filter (fun v => keyDegree v.1 ≤ n))
    (r := (m'.map fun u => (List.zipWith (· + ·) t.1 u.1, Cf.mul t.2 u.2)).filter (fun v => keyDegree v.1 ≤ n) ++
        (r.flatMap fun t => q'.terms.map fun u => (List.zipWith (· + ·) t.1 u.1, Cf.mul t.2 u.2)).filter (fun v => keyDegree v.1 ≤ n)) ?_ ?_
  · rw [← hsplit, ← e0] at this
    obtain ⟨x, hx, -, hxk⟩ := this
    exact ⟨x, hx, trivial, by rw [hxk, es]; exact hkE⟩
  · intro x hx hxk
    rcases List.mem_append.mp hx with hx | hx
    · obtain ⟨a, ha, hx⟩ := List.mem_flatMap.mp (List.mem_of_mem_filter hx)
      refine other a (by rw [hlr]; simp [ha]) ?_ x hx hxk
      exact ndp.2.2 _ (List.mem_map_of_mem ha) _ (by simp)
    · obtain ⟨b, hb, rfl⟩ := List.mem_map.mp (List.mem_of_mem_filter hx)
      exact absurd hxk (other' b (by rw [hmm]; simp [hb]) (ndq.2.2 _ (List.mem_map_of_mem hb) _ (by simp)))
  · intro x hx hxk
    rcases List.mem_append.mp hx with hx | hx
    · obtain ⟨b, hb, rfl⟩ := List.mem_map.mp (List.mem_of_mem_filter hx)
      refine absurd hxk (other' b (by rw [hmm]; simp [hb]) ?_)
      intro h
      exact (List.nodup_cons.mp ndq.2.1).1 (h ▸ List.mem_map_of_mem hb)
    · obtain ⟨a, ha, hx⟩ := List.mem_flatMap.mp (List.mem_of_mem_filter hx)
      refine other a (by rw [hlr]; simp [ha]) ?_ x hx hxk
      intro h
      exact (List.nodup_cons.mp ndp.2.1).1 (h ▸ List.mem_map_of_mem ha)

variable [NegZero C]

/-- If `1/p0` is special, all the coefficients of the series but the constant one are special. -/
theorem divRet_all (hN : Absorbing N) {d2 : GDual C} (h : d2.p.WF) {p0 : C} (hinv : N (Cf.div Cf.one p0)) (hE : E ≠ 0) : PAll N (divRet d2 p0).p E := by
  have hi := divStart_inv h p0
  have hph : ∀ A, PAll N (divStart d2 p0).phat.p A := PAll.mul_right hN (wf_subGS h p0) (wf_const _) (pall_const hinv) _
  obtain ⟨-, -, s, hs, he⟩ := divRet_inv h p0 (Q := fun s => PAll N s.retval.p E ∧ ∀ A, PAll N s.phat.p A)
    ⟨PAll.add hN (wf_const _) (wf_neg hi.wp) (pall_const_ne _ hE) ((hph E).neg hN), hph⟩
    (fun s hj hq => by
      have hw := wf_gmul hj.wp hi.wp
      have h2 : ∀ A, PAll N (s.phat.mul (divStart d2 p0).phat).p A := PAll.mul_left hN hj.wp hi.wp hq.2 _
      exact ⟨PAll.add hN hj.wr (wf_mulSG hw _) hq.1 (PAll.mul_right hN (wf_const _) hw h2 _ _), h2⟩)
  rw [← he]
  exact hs.1

end Audi
