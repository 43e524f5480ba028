import Verif.Proofs.TMExpr
import Verif.Proofs.BoundsShrink
import Verif.Proofs.ItvIsotone

/-!
# Proofs: operations of Taylor models are isotone

Operands with the same polynomials, over smaller domains and with smaller remainders: the results have the same polynomials, and smaller remainders.
-/

namespace Audi
namespace TM

open MvPolynomial Spec GDual Itv

variable {m : ℕ} {E : String → ℝ} {D D' R R' : String → Itv ℝ} {t t' u u' r : TM ℝ} {ord : List String → List String}

/-- `t'` is a Taylor model over `D'`, `t` one over `D`; the polynomials are the same, the remainder of `t'` lies in that of `t`. -/
structure Finer (m : ℕ) (E : String → ℝ) (D' D : String → Itv ℝ) (t' t : TM ℝ) : Prop where
  big : ∃ F, Centred m E D F t
  small : ∃ F, Centred m E D' F t'
  tpol : t'.tpol = t.tpol
  rem : Inside t'.rem t.rem

theorem Finer.order (h : Finer m E D' D t' t) : t'.order = t.order := by
  obtain ⟨F, hb⟩ := h.big
  obtain ⟨G, hs⟩ := h.small
  rw [hb.wf.order, hs.wf.order, h.tpol]

/-! ### Bounds -/

/-- A map with the entries `f v` for the variables of `q`. -/
def canon {α : Type} (q : GDual ℝ) (f : String → α) : VMap α := q.symbolSet.map fun v => (v, f v)

theorem lookup_canon {α : Type} {q : GDual ℝ} (hn : (q.p.syms.map varName).Nodup) (f : String → α) {v : String} (hv : v ∈ q.p.syms.map varName) :
    (canon q f).lookup v = some (f v) := by
  refine VMap.lookup_of_mem ?_ (List.mem_map.2 ⟨v, hv, rfl⟩)
  unfold canon
  rw [List.map_map]
  simpa [Function.comp_def, symbolSet_eq] using hn

theorem shiftedDomain_congr {vars : List String} {exp exp' : VMap ℝ} {dom dom' : VMap (Itv ℝ)}
    (h : ∀ v ∈ vars, exp.lookup v = exp'.lookup v ∧ dom.lookup v = dom'.lookup v) : shiftedDomain vars exp dom = shiftedDomain vars exp' dom' := by
  unfold shiftedDomain
  induction vars with
  | nil => rfl
  | cons v vs ih =>
    rw [List.mapM_cons, List.mapM_cons, ih fun w hw => h w (List.mem_cons_of_mem _ hw)]
    have := h v List.mem_cons_self
    unfold VMap.at'
    rw [this.1, this.2]

theorem getBounds_congr {q : GDual ℝ} {exp exp' : VMap ℝ} {dom dom' : VMap (Itv ℝ)}
    (h : ∀ v ∈ q.p.syms.map varName, exp.lookup v = exp'.lookup v ∧ dom.lookup v = dom'.lookup v) : getBounds ord q exp dom = getBounds ord q exp' dom' := by
  unfold getBounds
  rw [symbolSet_eq, shiftedDomain_congr h]

theorem getBounds_nonempty {q : GDual ℝ} {exp : VMap ℝ} {dom : VMap (Itv ℝ)} {B : Itv ℝ} (h : getBounds ord q exp dom = .ok B) : B.lo ≤ B.hi := by
  unfold getBounds at h
  obtain ⟨_, -, h⟩ := bind_ok_iff.1 h
  obtain ⟨_, -, h⟩ := bind_ok_iff.1 h
  split_ifs at h
  · obtain ⟨_, -, h⟩ := bind_ok_iff.1 h
    obtain ⟨_, -, h⟩ := bind_ok_iff.1 h
    unfold minmax at h
    split at h
    · cases h
    · unfold Itv.make at h
      split_ifs at h with hle
      injection h with h
      rw [← h]
      exact hle
  · obtain ⟨_, -, h⟩ := bind_ok_iff.1 h
    injection h with h
    rw [← h]

/-- The bounds of a polynomial over `D'` lie in those over `D`. -/
theorem canon_inside (hord : ∀ l, (ord l).Perm l) (hD : ∀ s, Inside (D' s) (D s)) {q : GDual ℝ} (hq : q.Valid) (hn : ∀ s ∈ q.p.syms, ∃ v, s = "d" ++ v)
    (ho : q.order ≤ 62) (hE : ∀ v ∈ q.p.syms.map varName, InItv (D' v) (E v)) {B : Itv ℝ} (hB : getBounds ord q (canon q E) (canon q D) = .ok B) :
    ∃ B', getBounds ord q (canon q E) (canon q D') = .ok B' ∧ Inside B' B := by
  have hnd := nodup_varNames hq.wf.ndsyms hn
  obtain ⟨B', h1, -⟩ := getBounds_point (ord := ord) hord hq hn ho (exp := canon q E) (dom := canon q D') fun v hv =>
    ⟨D' v, E v, lookup_canon hnd _ hv, lookup_canon hnd _ hv, hE v hv⟩
  refine ⟨B', h1, ?_⟩
  have h2 := getBounds_shrink hq hn (fun e he k hk => ((List.le_sum_of_mem hk).trans (hq.deg _ he)).trans ho) (hord _)
    (fun v hv => ⟨D v, E v, lookup_canon hnd _ hv, lookup_canon hnd _ hv, (hD v).1.trans ((hD v).2.1.trans (hD v).2.2)⟩)
    (fun v hv => ⟨D' v, E v, lookup_canon hnd _ hv, lookup_canon hnd _ hv, (hD v).2.1⟩)
    (fun v hv I J hI hJ => by
      rw [lookup_canon hnd _ hv] at hI hJ
      injection hI with hI
      injection hJ with hJ
      subst hI hJ
      exact ⟨(hD v).1, (hD v).2.2⟩) hB h1
  exact ⟨h2.1, getBounds_nonempty h1, h2.2⟩

theorem Centred.lookup {F : (String → ℝ) → ℝ} (h : Centred m E D F t) {v : String} (hv : v ∈ t.tpol.p.syms.map varName) :
    t.dom.lookup v = some (D v) ∧ t.exp.lookup v = some (E v) ∧ InItv (D v) (E v) := by
  obtain ⟨I, x, h1, h2, h3⟩ := h.wf.lookup hv
  have e1 := h.dom _ (VMap.mem_of_lookup h1)
  have e2 := h.exp _ (VMap.mem_of_lookup h2)
  simp only at e1 e2
  rw [← e1, ← e2]
  exact ⟨h1, h2, h3⟩

theorem Centred.getBounds_canon {F : (String → ℝ) → ℝ} (h : Centred m E D F t) {q : GDual ℝ} (hq : q.Valid) (hs : q.p.syms = t.tpol.p.syms) :
    getBounds ord q t.exp t.dom = getBounds ord q (canon q E) (canon q D) := by
  have hnd := nodup_varNames hq.wf.ndsyms (by rw [hs]; exact h.wf.names)
  refine getBounds_congr fun v hv => ?_
  rw [lookup_canon hnd _ hv, lookup_canon hnd _ hv]
  rw [hs] at hv
  exact ⟨(h.lookup hv).2.1, (h.lookup hv).1⟩

theorem Finer.getBounds (hord : ∀ l, (ord l).Perm l) (hD : ∀ s, Inside (D' s) (D s)) (h : Finer m E D' D t' t) {q : GDual ℝ} (hq : q.Valid)
    (hs : q.p.syms = t.tpol.p.syms) (ho : q.order ≤ 62) {B : Itv ℝ} (hB : getBounds ord q t.exp t.dom = .ok B) :
    ∃ B', TM.getBounds ord q t'.exp t'.dom = .ok B' ∧ Inside B' B := by
  obtain ⟨F, hb⟩ := h.big
  obtain ⟨G, hs'⟩ := h.small
  rw [hb.getBounds_canon hq hs] at hB
  rw [hs'.getBounds_canon hq (by rw [hs, h.tpol])]
  refine canon_inside hord hD hq (by rw [hs]; exact hb.wf.names) ho (fun v hv => ?_) hB
  rw [hs, ← h.tpol] at hv
  exact (hs'.lookup hv).2.2

theorem Finer.order_le (h : Finer m E D' D t' t) : t.tpol.order ≤ m := by
  obtain ⟨F, hb⟩ := h.big
  exact hb.good.le

theorem Finer.bounds (hord : ∀ l, (ord l).Perm l) (hD : ∀ s, Inside (D' s) (D s)) (hm : m ≤ 62) (h : Finer m E D' D t' t) {B : Itv ℝ}
    (hB : t.bounds ord = .ok B) : ∃ B', t'.bounds ord = .ok B' ∧ Inside B' B := by
  obtain ⟨F, hb⟩ := h.big
  unfold TM.bounds at hB ⊢
  rw [h.tpol]
  exact h.getBounds hord hD hb.wf.valid rfl (h.order_le.trans hm) hB

theorem Finer.prologue (hord : ∀ l, (ord l).Perm l) (hD : ∀ s, Inside (D' s) (D s)) (hm : m ≤ 62) (h : Finer m E D' D t' t) {c : ℝ} {B : Itv ℝ} {k : ℕ}
    (hB : TM.prologue ord t = .ok (c, B, k)) : ∃ B', TM.prologue ord t' = .ok (c, B', k) ∧ Inside B' B := by
  obtain ⟨F, hb⟩ := h.big
  unfold TM.prologue at hB ⊢
  obtain ⟨c', h1, hB⟩ := bind_ok_iff.1 hB
  obtain ⟨b, h2, hB⟩ := bind_ok_iff.1 hB
  injection hB with hB
  injection hB with e1 e2
  injection e2 with e2 e3
  subst e1 e2 e3
  obtain ⟨b', h3, h4⟩ := h.getBounds hord hD (GDual.Valid.subGS (ι := Unit) (K := ℝ) c' hb.wf.valid) rfl (h.order_le.trans hm) h2
  rw [h.tpol, bind_ok h1, bind_ok h3]
  exact ⟨_, rfl, h4.add h.rem⟩

theorem Finer.above (hord : ∀ l, (ord l).Perm l) (hD : ∀ s, Inside (D' s) (D s)) (hm : m ≤ 62) (h : Finer m E D' D t' t) {l : ℝ} {x : Unit}
    (hr : requireAbove ord t l = .ok x) : requireAbove ord t' l = .ok x := by
  unfold requireAbove at hr ⊢
  obtain ⟨b, h1, hr⟩ := bind_ok_iff.1 hr
  obtain ⟨b', h2, h3⟩ := h.bounds hord hD hm h1
  split_ifs at hr with hl
  rw [bind_ok h2, if_pos (hl.trans (h3.add h.rem).1)]

/-! ### The constructor -/

theorem make_fields {p : GDual ℝ} {rem : Itv ℝ} {exp : VMap ℝ} {dom : VMap (Itv ℝ)} (h : make p rem exp dom = .ok r) : r.tpol = p ∧ r.rem = rem := by
  unfold make at h
  obtain ⟨_, -, h⟩ := bind_ok_iff.1 h
  injection h with h
  rw [← h]
  exact ⟨rfl, rfl⟩

theorem Finer.make (h : Finer m E D' D t' t) {p : GDual ℝ} {rem rem' : Itv ℝ} (hr : make p rem t.exp t.dom = .ok r) (hrem : Inside rem' rem) :
    ∃ r', TM.make p rem' t'.exp t'.dom = .ok r' ∧ r'.tpol = r.tpol ∧ Inside r'.rem r.rem := by
  obtain ⟨F, hb⟩ := h.big
  obtain ⟨G, hs⟩ := h.small
  have hf := make_fields hr
  unfold TM.make at hr ⊢
  obtain ⟨_, h1, -⟩ := bind_ok_iff.1 hr
  have h2 : checkInput p.symbolSetSize t'.exp t'.dom = .ok () := by
    rw [checkInput_ok] at h1 ⊢
    have e1 := hs.wf.expKeys
    have e2 := hs.wf.domKeys
    refine ⟨fun v => ?_, fun e he => ?_, ?_⟩
    · exact (e1.trans e2.symm).mem_iff
    · obtain ⟨x, x1, x2⟩ := hs.wf.inside e he
      exact ⟨x, VMap.lookup_of_mem hs.wf.nodupExp x1, x2⟩
    · rw [← h1.2.2]
      have l1 := e2.length_eq
      have l2 := hb.wf.domKeys.length_eq
      rw [List.length_map] at l1 l2
      rw [l1, l2, h.tpol]
  rw [bind_ok h2]
  exact ⟨_, rfl, hf.1.symm, by rw [hf.2]; exact hrem⟩

theorem Finer.remap (h : Finer m E D' D t' t) {p : GDual ℝ} (hp : p.Valid) (hs : p.p.syms = t.tpol.p.syms) {rem rem' : Itv ℝ}
    (hr : (do
      let ne ← trimMap p.symbolSet t.exp
      let nd ← trimMap p.symbolSet t.dom
      TM.make p rem ne nd) = .ok r) (hrem : Inside rem' rem) :
    ∃ r', (do
      let ne ← trimMap p.symbolSet t'.exp
      let nd ← trimMap p.symbolSet t'.dom
      TM.make p rem' ne nd) = .ok r' ∧ r'.tpol = r.tpol ∧ Inside r'.rem r.rem := by
  obtain ⟨G, hs'⟩ := h.small
  obtain ⟨_, -, hr⟩ := bind_ok_iff.1 hr
  obtain ⟨_, -, hr⟩ := bind_ok_iff.1 hr
  have hf := make_fields hr
  obtain ⟨ne, nd, t1, t2, -, t4⟩ := retrim hs'.wf hp (by rw [hs, h.tpol])
  obtain ⟨r', r1, -, -, r4, r5, -⟩ := t4 rem' hrem.2.1
  exact ⟨r', by rw [bind_ok t1, bind_ok t2, r1], by rw [r4, hf.1], by rw [r5, hf.2]; exact hrem⟩

/-! ### Sums and multiples -/

theorem ok_unique {o : Res (TM ℝ)} {P : TM ℝ → Prop} (h : ∃ r, o = .ok r ∧ P r) (hr : o = .ok r) : P r := by
  obtain ⟨r', r1, r2⟩ := h
  rw [r1] at hr
  injection hr with hr
  exact hr ▸ r2

theorem Finer.scalar (h : Finer m E D' D t' t) {p : GDual ℝ} {rem rem' : Itv ℝ} (hrem : Inside rem' rem) (hr : TM.make p rem t.exp t.dom = .ok r)
    (h1 : ∀ F, Centred m E D F t → ∃ G r, TM.make p rem t.exp t.dom = .ok r ∧ Centred m E D G r)
    (h2 : ∀ F, Centred m E D' F t' → ∃ G r, TM.make p rem' t'.exp t'.dom = .ok r ∧ Centred m E D' G r) :
    ∃ r', TM.make p rem' t'.exp t'.dom = .ok r' ∧ Finer m E D' D r' r := by
  obtain ⟨F, hb⟩ := h.big
  obtain ⟨F', hs⟩ := h.small
  obtain ⟨r', e1, e2, e3⟩ := h.make hr hrem
  obtain ⟨G, g⟩ := h1 F hb
  obtain ⟨G', g'⟩ := h2 F' hs
  exact ⟨r', e1, ⟨G, ok_unique g hr⟩, ⟨G', ok_unique g' e1⟩, e2, e3⟩

theorem Finer.addST (c : ℝ) (h : Finer m E D' D t' t) (hr : TM.addST c t = .ok r) : ∃ r', TM.addST c t' = .ok r' ∧ Finer m E D' D r' r := by
  have e : TM.addST c t' = TM.make (GDual.addSG c t.tpol) t'.rem t'.exp t'.dom := by rw [← h.tpol]; rfl
  rw [e]
  refine h.scalar h.rem hr (fun F hF => ?_) fun F hF => ?_
  · obtain ⟨r, r1, r2, -⟩ := hF.addST c; exact ⟨_, r, r1, r2⟩
  · obtain ⟨r, r1, r2, -⟩ := hF.addST c; exact ⟨_, r, e ▸ r1, r2⟩

theorem Finer.addTS (h : Finer m E D' D t' t) (c : ℝ) (hr : TM.addTS t c = .ok r) : ∃ r', TM.addTS t' c = .ok r' ∧ Finer m E D' D r' r := by
  have e : TM.addTS t' c = TM.make (t.tpol.addGS c) t'.rem t'.exp t'.dom := by rw [← h.tpol]; rfl
  rw [e]
  refine h.scalar h.rem hr (fun F hF => ?_) fun F hF => ?_
  · obtain ⟨r, r1, r2, -⟩ := hF.addTS c; exact ⟨_, r, r1, r2⟩
  · obtain ⟨r, r1, r2, -⟩ := hF.addTS c; exact ⟨_, r, e ▸ r1, r2⟩

theorem Finer.subST (c : ℝ) (h : Finer m E D' D t' t) (hr : TM.subST c t = .ok r) : ∃ r', TM.subST c t' = .ok r' ∧ Finer m E D' D r' r := by
  have e : TM.subST c t' = TM.make (GDual.subSG c t.tpol) t'.rem t'.exp t'.dom := by rw [← h.tpol]; rfl
  rw [e]
  refine h.scalar h.rem hr (fun F hF => ?_) fun F hF => ?_
  · obtain ⟨r, r1, r2, -⟩ := hF.subST c; exact ⟨_, r, r1, r2⟩
  · obtain ⟨r, r1, r2, -⟩ := hF.subST c; exact ⟨_, r, e ▸ r1, r2⟩

theorem Finer.subTS (h : Finer m E D' D t' t) (c : ℝ) (hr : TM.subTS t c = .ok r) : ∃ r', TM.subTS t' c = .ok r' ∧ Finer m E D' D r' r := by
  have e : TM.subTS t' c = TM.make (t.tpol.subGS c) t'.rem t'.exp t'.dom := by rw [← h.tpol]; rfl
  rw [e]
  refine h.scalar h.rem hr (fun F hF => ?_) fun F hF => ?_
  · obtain ⟨r, r1, r2, -⟩ := hF.subTS c; exact ⟨_, r, r1, r2⟩
  · obtain ⟨r, r1, r2, -⟩ := hF.subTS c; exact ⟨_, r, e ▸ r1, r2⟩

theorem Finer.mulST (c : ℝ) (h : Finer m E D' D t' t) (hr : TM.mulST c t = .ok r) : ∃ r', TM.mulST c t' = .ok r' ∧ Finer m E D' D r' r := by
  have e : TM.mulST c t' = TM.make (GDual.mulSG c t.tpol) ((Itv.point c).mul t'.rem) t'.exp t'.dom := by rw [← h.tpol]; rfl
  rw [e]
  refine h.scalar ((Inside.point c).mul h.rem) hr (fun F hF => ?_) fun F hF => ?_
  · obtain ⟨r, r1, r2, -⟩ := hF.mulST c; exact ⟨_, r, r1, r2⟩
  · obtain ⟨r, r1, r2, -⟩ := hF.mulST c; exact ⟨_, r, e ▸ r1, r2⟩

theorem Finer.mulTS (h : Finer m E D' D t' t) (c : ℝ) (hr : TM.mulTS t c = .ok r) : ∃ r', TM.mulTS t' c = .ok r' ∧ Finer m E D' D r' r := by
  have e : TM.mulTS t' c = TM.make (t.tpol.mulGS c) (t'.rem.mul (Itv.point c)) t'.exp t'.dom := by rw [← h.tpol]; rfl
  rw [e]
  refine h.scalar (h.rem.mul (Inside.point c)) hr (fun F hF => ?_) fun F hF => ?_
  · obtain ⟨r, r1, r2, -⟩ := hF.mulTS c; exact ⟨_, r, r1, r2⟩
  · obtain ⟨r, r1, r2, -⟩ := hF.mulTS c; exact ⟨_, r, e ▸ r1, r2⟩

theorem Finer.neg (h : Finer m E D' D t' t) (hr : TM.neg t = .ok r) : ∃ r', TM.neg t' = .ok r' ∧ Finer m E D' D r' r := h.subST 0 hr

theorem Finer.divTS (h : Finer m E D' D t' t) {c : ℝ} (hr : TM.divTS t c = .ok r) : ∃ r', TM.divTS t' c = .ok r' ∧ Finer m E D' D r' r := by
  have hr' := hr
  unfold TM.divTS at hr
  obtain ⟨p, p1, hr⟩ := bind_ok_iff.1 hr
  obtain ⟨q, q1, hr⟩ := bind_ok_iff.1 hr
  have hc : c ≠ 0 := by
    rintro rfl
    exact sdiv_zero q1
  obtain ⟨q', q2, q3⟩ := h.rem.sdiv q1
  have e : TM.divTS t' c = TM.make p q' t'.exp t'.dom := by
    unfold TM.divTS
    rw [h.tpol, bind_ok p1, bind_ok q2]
  rw [e]
  refine h.scalar q3 hr (fun F hF => ?_) fun F hF => ?_
  · exact ⟨_, r, hr, (ok_unique (hF.divTS hc) hr').1⟩
  · obtain ⟨r, r1, r2, -⟩ := hF.divTS hc; exact ⟨_, r, e ▸ r1, r2⟩

theorem Finer.add (h : Finer m E D' D t' t) (hu : Finer m E D' D u' u) (hr : TM.add t u = .ok r) :
    ∃ r', TM.add t' u' = .ok r' ∧ Finer m E D' D r' r := by
  obtain ⟨F, hb⟩ := h.big
  obtain ⟨F', hs⟩ := h.small
  obtain ⟨G, ub⟩ := hu.big
  obtain ⟨G', us⟩ := hu.small
  obtain ⟨r', r1, r2, -⟩ := hs.add us
  have c1 := (ok_unique (hb.add ub) hr).1
  suffices k : r'.tpol = r.tpol ∧ Inside r'.rem r.rem from ⟨r', r1, ⟨_, c1⟩, ⟨_, r2⟩, k.1, k.2⟩
  unfold TM.add at hr r1
  obtain ⟨_, -, hr⟩ := bind_ok_iff.1 hr
  obtain ⟨_, -, hr⟩ := bind_ok_iff.1 hr
  obtain ⟨_, -, hr⟩ := bind_ok_iff.1 hr
  obtain ⟨_, -, hr⟩ := bind_ok_iff.1 hr
  obtain ⟨_, -, r1⟩ := bind_ok_iff.1 r1
  obtain ⟨_, -, r1⟩ := bind_ok_iff.1 r1
  obtain ⟨_, -, r1⟩ := bind_ok_iff.1 r1
  obtain ⟨_, -, r1⟩ := bind_ok_iff.1 r1
  rw [(make_fields hr).1, (make_fields hr).2, (make_fields r1).1, (make_fields r1).2, h.tpol, hu.tpol]
  exact ⟨rfl, h.rem.add hu.rem⟩

theorem Finer.sub (h : Finer m E D' D t' t) (hu : Finer m E D' D u' u) (hr : TM.sub t u = .ok r) :
    ∃ r', TM.sub t' u' = .ok r' ∧ Finer m E D' D r' r := by
  obtain ⟨F, hb⟩ := h.big
  obtain ⟨F', hs⟩ := h.small
  obtain ⟨G, ub⟩ := hu.big
  obtain ⟨G', us⟩ := hu.small
  obtain ⟨r', r1, r2, -⟩ := hs.sub us
  have c1 := (ok_unique (hb.sub ub) hr).1
  suffices k : r'.tpol = r.tpol ∧ Inside r'.rem r.rem from ⟨r', r1, ⟨_, c1⟩, ⟨_, r2⟩, k.1, k.2⟩
  unfold TM.sub at hr r1
  obtain ⟨_, -, hr⟩ := bind_ok_iff.1 hr
  obtain ⟨_, -, hr⟩ := bind_ok_iff.1 hr
  obtain ⟨_, -, hr⟩ := bind_ok_iff.1 hr
  obtain ⟨_, -, hr⟩ := bind_ok_iff.1 hr
  obtain ⟨_, -, r1⟩ := bind_ok_iff.1 r1
  obtain ⟨_, -, r1⟩ := bind_ok_iff.1 r1
  obtain ⟨_, -, r1⟩ := bind_ok_iff.1 r1
  obtain ⟨_, -, r1⟩ := bind_ok_iff.1 r1
  rw [(make_fields hr).1, (make_fields hr).2, (make_fields r1).1, (make_fields r1).2, h.tpol, hu.tpol]
  exact ⟨rfl, h.rem.sub hu.rem⟩

/-! ### Product -/

theorem union_lookup {F G : (String → ℝ) → ℝ} (ht : Centred m E D F t) (hu : Centred m E D G u) {v : String}
    (hv : v ∈ t.tpol.p.syms.map varName ∨ v ∈ u.tpol.p.syms.map varName) :
    (unionMap t.dom u.dom).lookup v = some (D v) ∧ (unionMap t.exp u.exp).lookup v = some (E v) ∧ InItv (D v) (E v) := by
  rcases hv with h | h
  · rw [lookup_dom_left ht.wf h, lookup_exp_left ht.wf h]
    exact ht.lookup h
  · rw [lookup_dom_right (ht.compatible hu) hu.wf h, lookup_exp_right (ht.compatible hu) hu.wf h]
    exact hu.lookup h

theorem truncation_canon {F G : (String → ℝ) → ℝ} (ht : Centred m E D F t) (hu : Centred m E D G u) {q : GDual ℝ}
    (hs : ∀ s ∈ q.p.syms, s ∈ t.tpol.p.syms ∨ s ∈ u.tpol.p.syms) :
    truncationBounds ord q (unionMap t.exp u.exp) (unionMap t.dom u.dom) =
      if q.isZeroTol tiny then .ok ⟨0, 0⟩ else TM.getBounds ord q (canon q E) (canon q D) := by
  have hv : ∀ v ∈ q.symbolSet, v ∈ t.tpol.p.syms.map varName ∨ v ∈ u.tpol.p.syms.map varName := by
    intro v h
    obtain ⟨s, h1, rfl⟩ := List.mem_map.1 h
    exact (hs s h1).imp List.mem_map_of_mem List.mem_map_of_mem
  unfold truncationBounds
  have e1 : (q.symbolSet.map fun v => (v, ((unionMap t.exp u.exp).lookup v).getD 0)) = canon q E :=
    List.map_congr_left fun v h => by rw [(union_lookup ht hu (hv v h)).2.1]; rfl
  have e2 : (q.symbolSet.map fun v => (v, ((unionMap t.dom u.dom).lookup v).getD ⟨0, 0⟩)) = canon q D :=
    List.map_congr_left fun v h => by rw [(union_lookup ht hu (hv v h)).1]; rfl
  rw [e1, e2]

theorem Finer.mul (hord : ∀ l, (ord l).Perm l) (hD : ∀ s, Inside (D' s) (D s)) (hm : m ≤ 31) (h : Finer m E D' D t' t) (hu : Finer m E D' D u' u)
    (ho : 1 ≤ t.order + u.order) (hr : TM.mul ord t u = .ok r) : ∃ r', TM.mul ord t' u' = .ok r' ∧ Finer m E D' D r' r := by
  obtain ⟨F, hb⟩ := h.big
  obtain ⟨F', hs⟩ := h.small
  obtain ⟨G, ub⟩ := hu.big
  obtain ⟨G', us⟩ := hu.small
  obtain ⟨r', r1, r2, -⟩ := hs.mul hord hm us (by rw [h.order, hu.order]; exact ho)
  have c1 := (ok_unique (hb.mul hord hm ub ho) hr).1
  suffices k : r'.tpol = r.tpol ∧ Inside r'.rem r.rem from ⟨r', r1, ⟨_, c1⟩, ⟨_, r2⟩, k.1, k.2⟩
  unfold TM.mul at hr r1
  rw [h.tpol, hu.tpol] at r1
  obtain ⟨z, z1, hr⟩ := bind_ok_iff.1 hr
  rw [bind_ok z1] at r1
  split_ifs at hr r1
  · injection hr with hr
    injection r1 with r1
    subst hr r1
    exact ⟨rfl, le_rfl, le_rfl, le_rfl⟩
  rw [bind_ok (hb.compatible ub).commonExp, bind_ok (hb.compatible ub).commonDom] at hr
  rw [bind_ok (hs.compatible us).commonExp, bind_ok (hs.compatible us).commonDom] at r1
  simp only [GDual.getOrder] at hr r1
  have hao := hb.wf.order
  have hbo := ub.wf.order
  have hal := hb.order_le
  have hbl := ub.order_le
  have hu73 : (73 : ℕ) < UINT_MAX - 10 := by decide
  obtain ⟨h1, e1, v1, o1, p1, s1⟩ := increasedOrder_spec hb.wf.valid (n := t.tpol.order + u.tpol.order) (by omega) (by omega) (by omega)
  obtain ⟨h2, e2, v2, o2, p2, s2⟩ := increasedOrder_spec ub.wf.valid (n := t.tpol.order + u.tpol.order) (by omega) (by omega) (by omega)
  have vq := v1.mul v2
  have oq : (h1.mul h2).order = t.tpol.order + u.tpol.order := by
    change max h1.order h2.order = _
    rw [o1, o2, max_self]
  have sq : ∀ s ∈ (h1.mul h2).p.syms, s ∈ t.tpol.p.syms ∨ s ∈ u.tpol.p.syms := fun s hs =>
    (mem_mergeSyms.1 (show s ∈ mergeSyms h1.p.syms h2.p.syms from hs)).imp (s1 s) (s2 s)
  obtain ⟨g, eg, vg, og, sg, cg⟩ := agreeable_spec vq (n := max t.tpol.order u.tpol.order) (by rw [oq]; omega)
  have ve := GDual.Valid.sub (ι := Unit) (K := ℝ) vq vg
  have se : ∀ s ∈ ((h1.mul h2).sub g).p.syms, s ∈ t.tpol.p.syms ∨ s ∈ u.tpol.p.syms := fun s hs => by
    rcases mem_mergeSyms.1 (show s ∈ mergeSyms (h1.mul h2).p.syms g.p.syms from hs) with h | h
    · exact sq s h
    · rw [sg] at h
      exact sq s h
  have oe : ((h1.mul h2).sub g).order ≤ 62 := by
    change max (h1.mul h2).order g.order ≤ 62
    rw [oq, og]
    omega
  rw [bind_ok e1, bind_ok e2, bind_ok eg] at hr r1
  obtain ⟨_, -, hr⟩ := bind_ok_iff.1 hr
  obtain ⟨_, -, hr⟩ := bind_ok_iff.1 hr
  obtain ⟨_, -, r1⟩ := bind_ok_iff.1 r1
  obtain ⟨_, -, r1⟩ := bind_ok_iff.1 r1
  obtain ⟨eb, b1, hr⟩ := bind_ok_iff.1 hr
  obtain ⟨eb', b1', r1⟩ := bind_ok_iff.1 r1
  obtain ⟨bt, b2, hr⟩ := bind_ok_iff.1 hr
  obtain ⟨bt', b2', r1⟩ := bind_ok_iff.1 r1
  obtain ⟨bu, b3, hr⟩ := bind_ok_iff.1 hr
  obtain ⟨bu', b3', r1⟩ := bind_ok_iff.1 r1
  have i1 : Inside eb' eb := by
    rw [truncation_canon hb ub se] at b1
    rw [truncation_canon hs us (by rw [h.tpol, hu.tpol]; exact se)] at b1'
    split_ifs at b1 b1' with hz
    · injection b1 with b1
      injection b1' with b1'
      subst b1 b1'
      exact ⟨le_rfl, le_rfl, le_rfl⟩
    · obtain ⟨B', k1, k2⟩ := canon_inside hord hD ve (fun s hs => (se s hs).elim (hb.wf.names s) (ub.wf.names s)) oe (fun v hv => by
        obtain ⟨s, h1, rfl⟩ := List.mem_map.1 hv
        refine (union_lookup hs us ?_).2.2
        rw [h.tpol, hu.tpol]
        exact (se s h1).imp List.mem_map_of_mem List.mem_map_of_mem) b1
      rw [k1] at b1'
      injection b1' with b1'
      exact b1' ▸ k2
  have i2 : Inside bt' bt := by
    obtain ⟨B', k1, k2⟩ := h.bounds hord hD (by omega) b2
    rw [k1] at b2'
    injection b2' with b2'
    exact b2' ▸ k2
  have i3 : Inside bu' bu := by
    obtain ⟨B', k1, k2⟩ := hu.bounds hord hD (by omega) b3
    rw [k1] at b3'
    injection b3' with b3'
    exact b3' ▸ k2
  rw [(make_fields hr).1, (make_fields hr).2, (make_fields r1).1, (make_fields r1).2]
  exact ⟨rfl, ((i1.add (i2.mul hu.rem)).add (h.rem.mul i3)).add (h.rem.mul hu.rem)⟩

/-! ### Quotient -/

theorem Finer.divST (hord : ∀ l, (ord l).Perm l) (hD : ∀ s, Inside (D' s) (D s)) (hm : m ≤ 62) (c : ℝ) (h : Finer m E D' D t' t)
    (hr : TM.divST ord c t = .ok r) : ∃ r', TM.divST ord c t' = .ok r' ∧ Finer m E D' D r' r ∧ r.order = t.order := by
  obtain ⟨F, hb⟩ := h.big
  obtain ⟨F', hs⟩ := h.small
  have c1 := (hb.divST hord hm c hr).2
  suffices k : ∃ r', TM.divST ord c t' = .ok r' ∧ r'.tpol = r.tpol ∧ Inside r'.rem r.rem by
    obtain ⟨r', k1, k2, k3⟩ := k
    exact ⟨r', k1, ⟨⟨_, c1.1⟩, ⟨_, (hs.divST hord hm c k1).2.1⟩, k2, k3⟩, c1.2⟩
  unfold TM.divST at hr ⊢
  obtain ⟨b, b1, hr⟩ := bind_ok_iff.1 hr
  obtain ⟨b', b2, b3⟩ := h.bounds hord hD hm b1
  rw [bind_ok b2]
  split_ifs at hr with hz
  have hz' : ¬ (b'.add t'.rem).zeroIn = true := by
    have i := b3.add h.rem
    rw [Bool.not_eq_true, Itv.zeroIn_false_iff] at hz ⊢
    exact hz.imp (fun k => k.trans_le i.1) fun k => i.2.2.trans_lt k
  rw [if_neg hz', h.tpol]
  obtain ⟨x, x1, hr⟩ := bind_ok_iff.1 hr
  rw [bind_ok x1]
  simp only at hr ⊢
  obtain ⟨fb, f1, hr⟩ := bind_ok_iff.1 hr
  obtain ⟨fb', f2, f3⟩ := h.getBounds hord hD (GDual.Valid.subGS (ι := Unit) (K := ℝ) x hb.wf.valid) rfl (h.order_le.trans hm) f1
  rw [bind_ok f2]
  have i := f3.add h.rem
  obtain ⟨num, n1, hr⟩ := bind_ok_iff.1 hr
  obtain ⟨num', n2, n3⟩ := ((i.pow _).smul _).sdiv n1
  obtain ⟨q, q1, hr⟩ := bind_ok_iff.1 hr
  obtain ⟨q', q2, q3⟩ := i.sdiv q1
  obtain ⟨den, d1, hr⟩ := bind_ok_iff.1 hr
  obtain ⟨den', d2, d3⟩ := (Inside.point 1).div (((Inside.point 1).add (q3.mul .unit)).pow _) d1
  obtain ⟨p, p1, hr⟩ := bind_ok_iff.1 hr
  rw [bind_ok n2, bind_ok q2, bind_ok d2, bind_ok p1]
  exact h.make hr (n3.mul d3)

theorem Finer.div (hord : ∀ l, (ord l).Perm l) (hD : ∀ s, Inside (D' s) (D s)) (hm : m ≤ 31) (h : Finer m E D' D t' t) (hu : Finer m E D' D u' u)
    (ho : 1 ≤ t.order + u.order) (hr : TM.div ord t u = .ok r) : ∃ r', TM.div ord t' u' = .ok r' ∧ Finer m E D' D r' r := by
  unfold TM.div at hr ⊢
  obtain ⟨q, q1, hr⟩ := bind_ok_iff.1 hr
  obtain ⟨q', q2, q3, q4⟩ := hu.divST hord hD (by omega) 1 q1
  rw [bind_ok q2]
  exact h.mul hord hD hm q3 (by omega) hr

/-! ### Functions -/

theorem Finer.rexp (hord : ∀ l, (ord l).Perm l) (hD : ∀ s, Inside (D' s) (D s)) (hm : m ≤ 62) (h : Finer m E D' D t' t)
    (hr : TM.rexp ord t = .ok r) : ∃ r', TM.rexp ord t' = .ok r' ∧ Finer m E D' D r' r := by
  obtain ⟨F, hb⟩ := h.big
  obtain ⟨F', hs⟩ := h.small
  have c1 := (ok_unique (hb.rexp hord hm) hr).1
  suffices k : ∃ r', TM.rexp ord t' = .ok r' ∧ r'.tpol = r.tpol ∧ Inside r'.rem r.rem by
    obtain ⟨r', k1, k2, k3⟩ := k
    exact ⟨r', k1, ⟨_, c1⟩, ⟨_, (ok_unique (hs.rexp hord hm) k1).1⟩, k2, k3⟩
  unfold TM.rexp at hr ⊢
  obtain ⟨⟨c, B, k⟩, b1, hr⟩ := bind_ok_iff.1 hr
  obtain ⟨B', b2, b3⟩ := h.prologue hord hD hm b1
  rw [bind_ok b2]
  simp only at hr ⊢
  obtain ⟨f1, f2, hr⟩ := bind_ok_iff.1 hr
  obtain ⟨p, p1, hr⟩ := bind_ok_iff.1 hr
  rw [bind_ok f2, h.tpol, bind_ok p1]
  exact h.make hr (((b3.pow _).smul _).mul (b3.mul .unit).rexp)

theorem Finer.trig (hord : ∀ l, (ord l).Perm l) (hD : ∀ s, Inside (D' s) (D s)) (hm : m ≤ 62) (h : Finer m E D' D t' t)
    {fn : GDual ℝ → Res (GDual ℝ)} {cond : ℕ → Itv ℝ → Itv ℝ} (hc : ∀ k a b, Inside a b → Inside (cond k a) (cond k b))
    (hr : TM.trig fn cond ord t = .ok r) : ∃ r', TM.trig fn cond ord t' = .ok r' ∧ r'.tpol = r.tpol ∧ Inside r'.rem r.rem := by
  unfold TM.trig at hr ⊢
  obtain ⟨⟨c, B, k⟩, b1, hr⟩ := bind_ok_iff.1 hr
  obtain ⟨B', b2, b3⟩ := h.prologue hord hD hm b1
  rw [bind_ok b2]
  simp only at hr ⊢
  obtain ⟨f1, f2, hr⟩ := bind_ok_iff.1 hr
  obtain ⟨p, p1, hr⟩ := bind_ok_iff.1 hr
  rw [bind_ok f2, h.tpol, bind_ok p1]
  exact h.make hr (b3.trigRem (hc k _ _ (b3.thetaArg c)) f1 k)

theorem Finer.rsin (hord : ∀ l, (ord l).Perm l) (hD : ∀ s, Inside (D' s) (D s)) (hm : m ≤ 62) (h : Finer m E D' D t' t)
    (hr : TM.rsin ord t = .ok r) : ∃ r', TM.rsin ord t' = .ok r' ∧ Finer m E D' D r' r ∧ r.order = t.order := by
  obtain ⟨F, hb⟩ := h.big
  obtain ⟨F', hs⟩ := h.small
  obtain ⟨r', k1, k2, k3⟩ := h.trig hord hD hm (fun k _ _ i => i.sinCond k) hr
  exact ⟨r', k1, ⟨⟨_, (ok_unique (hb.rsin hord hm) hr).1⟩, ⟨_, (ok_unique (hs.rsin hord hm) k1).1⟩, k2, k3⟩, (ok_unique (hb.rsin hord hm) hr).2⟩

theorem Finer.rcos (hord : ∀ l, (ord l).Perm l) (hD : ∀ s, Inside (D' s) (D s)) (hm : m ≤ 62) (h : Finer m E D' D t' t)
    (hr : TM.rcos ord t = .ok r) : ∃ r', TM.rcos ord t' = .ok r' ∧ Finer m E D' D r' r ∧ r.order = t.order := by
  obtain ⟨F, hb⟩ := h.big
  obtain ⟨F', hs⟩ := h.small
  obtain ⟨r', k1, k2, k3⟩ := h.trig hord hD hm (fun k _ _ i => i.cosCond k) hr
  exact ⟨r', k1, ⟨⟨_, (ok_unique (hb.rcos hord hm) hr).1⟩, ⟨_, (ok_unique (hs.rcos hord hm) k1).1⟩, k2, k3⟩, (ok_unique (hb.rcos hord hm) hr).2⟩

theorem Finer.rsinh (hord : ∀ l, (ord l).Perm l) (hD : ∀ s, Inside (D' s) (D s)) (hm : m ≤ 62) (h : Finer m E D' D t' t)
    (hr : TM.rsinh ord t = .ok r) : ∃ r', TM.rsinh ord t' = .ok r' ∧ Finer m E D' D r' r ∧ r.order = t.order := by
  obtain ⟨F, hb⟩ := h.big
  obtain ⟨F', hs⟩ := h.small
  obtain ⟨r', k1, k2, k3⟩ := h.trig hord hD hm (fun k _ _ i => i.sinhCond k) hr
  exact ⟨r', k1, ⟨⟨_, (ok_unique (hb.rsinh hord hm) hr).1⟩, ⟨_, (ok_unique (hs.rsinh hord hm) k1).1⟩, k2, k3⟩, (ok_unique (hb.rsinh hord hm) hr).2⟩

theorem Finer.rcosh (hord : ∀ l, (ord l).Perm l) (hD : ∀ s, Inside (D' s) (D s)) (hm : m ≤ 62) (h : Finer m E D' D t' t)
    (hr : TM.rcosh ord t = .ok r) : ∃ r', TM.rcosh ord t' = .ok r' ∧ Finer m E D' D r' r ∧ r.order = t.order := by
  obtain ⟨F, hb⟩ := h.big
  obtain ⟨F', hs⟩ := h.small
  obtain ⟨r', k1, k2, k3⟩ := h.trig hord hD hm (fun k _ _ i => i.coshCond k) hr
  exact ⟨r', k1, ⟨⟨_, (ok_unique (hb.rcosh hord hm) hr).1⟩, ⟨_, (ok_unique (hs.rcosh hord hm) k1).1⟩, k2, k3⟩, (ok_unique (hb.rcosh hord hm) hr).2⟩

theorem Finer.rtan (hord : ∀ l, (ord l).Perm l) (hD : ∀ s, Inside (D' s) (D s)) (hm : m ≤ 31) (h : Finer m E D' D t' t) (ho : 1 ≤ t.order)
    (hr : TM.rtan ord t = .ok r) : ∃ r', TM.rtan ord t' = .ok r' ∧ Finer m E D' D r' r := by
  unfold TM.rtan at hr ⊢
  obtain ⟨s, s1, hr⟩ := bind_ok_iff.1 hr
  obtain ⟨c, c1, hr⟩ := bind_ok_iff.1 hr
  obtain ⟨s', s2, s3, s4⟩ := h.rsin hord hD (by omega) s1
  obtain ⟨c', c2, c3, c4⟩ := h.rcos hord hD (by omega) c1
  rw [bind_ok s2, bind_ok c2]
  exact s3.div hord hD hm c3 (by omega) hr

theorem Finer.rtanh (hord : ∀ l, (ord l).Perm l) (hD : ∀ s, Inside (D' s) (D s)) (hm : m ≤ 31) (h : Finer m E D' D t' t) (ho : 1 ≤ t.order)
    (hr : TM.rtanh ord t = .ok r) : ∃ r', TM.rtanh ord t' = .ok r' ∧ Finer m E D' D r' r := by
  unfold TM.rtanh at hr ⊢
  obtain ⟨s, s1, hr⟩ := bind_ok_iff.1 hr
  obtain ⟨c, c1, hr⟩ := bind_ok_iff.1 hr
  obtain ⟨s', s2, s3, s4⟩ := h.rsinh hord hD (by omega) s1
  obtain ⟨c', c2, c3, c4⟩ := h.rcosh hord hD (by omega) c1
  rw [bind_ok s2, bind_ok c2]
  exact s3.div hord hD hm c3 (by omega) hr

theorem one_mem_theta (q : Itv ℝ) (n : ℕ) : InItv (((Itv.point 1).add (q.mul ⟨0, 1⟩)).pow n) 1 := by
  have h0 : InItv (q.mul ⟨0, 1⟩) 0 := Itv.mul_zero ⟨le_rfl, zero_le_one⟩ q
  have h1 := Itv.mem_add (Itv.mem_point (1 : ℝ)) h0
  have h2 := Itv.mem_pow h1 n
  rwa [add_zero, one_pow] at h2

theorem Finer.powHalf (hord : ∀ l, (ord l).Perm l) (hD : ∀ s, Inside (D' s) (D s)) (hm : m ≤ 62) (h : Finer m E D' D t' t)
    (hr : TM.powHalf ord t = .ok r) : ∃ r', TM.powHalf ord t' = .ok r' ∧ Finer m E D' D r' r := by
  obtain ⟨F, hb⟩ := h.big
  obtain ⟨F', hs⟩ := h.small
  obtain ⟨hpos, c1, -⟩ := hb.powHalf hord hm hr
  suffices k : ∃ r', TM.powHalf ord t' = .ok r' ∧ r'.tpol = r.tpol ∧ Inside r'.rem r.rem by
    obtain ⟨r', k1, k2, k3⟩ := k
    exact ⟨r', k1, ⟨_, c1⟩, ⟨_, (hs.powHalf hord hm k1).2.1⟩, k2, k3⟩
  unfold TM.powHalf at hr ⊢
  obtain ⟨⟨c, B, k⟩, b1, hr⟩ := bind_ok_iff.1 hr
  obtain ⟨B', b2, b3⟩ := h.prologue hord hD hm b1
  rw [bind_ok b2]
  simp only at hr ⊢
  obtain ⟨_, a1, hr⟩ := bind_ok_iff.1 hr
  rw [bind_ok (h.above hord hD hm a1)]
  obtain ⟨q, q1, hr⟩ := bind_ok_iff.1 hr
  obtain ⟨q', q2, q3⟩ := b3.sdiv q1
  obtain ⟨den, d1, hr⟩ := bind_ok_iff.1 hr
  obtain ⟨den', d2, d3⟩ := (((Inside.point 1).add (q3.mul .unit)).pow _).rsqrt (one_mem_theta _ _) zero_le_one d1
  obtain ⟨f2, g2, hr⟩ := bind_ok_iff.1 hr
  obtain ⟨f1, g1, hr⟩ := bind_ok_iff.1 hr
  obtain ⟨num, n1, hr⟩ := bind_ok_iff.1 hr
  obtain ⟨num', n2, n3⟩ := ((b3.pow _).smul _).sdiv n1
  obtain ⟨rem, e1, hr⟩ := bind_ok_iff.1 hr
  obtain ⟨rem', e2, e3⟩ := (n3.mul (.point 1)).div d3 e1
  obtain ⟨p, p1, hr⟩ := bind_ok_iff.1 hr
  rw [bind_ok q2, bind_ok d2, bind_ok g2, bind_ok g1, bind_ok n2, bind_ok e2, h.tpol, bind_ok p1]
  obtain ⟨p', p2, p3, p4⟩ := hb.fn (f := fun d => d.powQ (1 / 2)) (g := fun x => x ^ (((1 / 2 : ℚ) : ℚ) : ℝ)) (dom := fun x => 0 < x)
    (fun d hd _ hdom => GDual.powQ_series_lift hd (by norm_num) (fun h => absurd h.1 (by decide +kernel)) fun i => Or.inl (hdom i)) hpos
  rw [p1] at p2
  injection p2 with p2
  subst p2
  exact h.remap p4.valid (GDual.HasSyms.powQ hb.wf.valid.wf.sorted (d := t.tpol) rfl p1) hr e3

theorem Finer.powMinusHalf (hord : ∀ l, (ord l).Perm l) (hD : ∀ s, Inside (D' s) (D s)) (hm : m ≤ 62) (h : Finer m E D' D t' t)
    (hr : TM.powMinusHalf ord t = .ok r) : ∃ r', TM.powMinusHalf ord t' = .ok r' ∧ Finer m E D' D r' r := by
  obtain ⟨F, hb⟩ := h.big
  obtain ⟨F', hs⟩ := h.small
  obtain ⟨hpos, c1, -⟩ := hb.powMinusHalf hord hm hr
  suffices k : ∃ r', TM.powMinusHalf ord t' = .ok r' ∧ r'.tpol = r.tpol ∧ Inside r'.rem r.rem by
    obtain ⟨r', k1, k2, k3⟩ := k
    exact ⟨r', k1, ⟨_, c1⟩, ⟨_, (hs.powMinusHalf hord hm k1).2.1⟩, k2, k3⟩
  unfold TM.powMinusHalf at hr ⊢
  obtain ⟨⟨c, B, k⟩, b1, hr⟩ := bind_ok_iff.1 hr
  obtain ⟨B', b2, b3⟩ := h.prologue hord hD hm b1
  rw [bind_ok b2]
  simp only at hr ⊢
  obtain ⟨_, a1, hr⟩ := bind_ok_iff.1 hr
  rw [bind_ok (h.above hord hD hm a1)]
  obtain ⟨q, q1, hr⟩ := bind_ok_iff.1 hr
  obtain ⟨q', q2, q3⟩ := b3.sdiv q1
  obtain ⟨den, d1, hr⟩ := bind_ok_iff.1 hr
  obtain ⟨den', d2, d3⟩ := (((Inside.point 1).add (q3.mul .unit)).pow _).rsqrt (one_mem_theta _ _) zero_le_one d1
  obtain ⟨f2, g2, hr⟩ := bind_ok_iff.1 hr
  obtain ⟨f1, g1, hr⟩ := bind_ok_iff.1 hr
  obtain ⟨num, n1, hr⟩ := bind_ok_iff.1 hr
  obtain ⟨num', n2, n3⟩ := ((b3.pow _).smul _).sdiv n1
  obtain ⟨rem, e1, hr⟩ := bind_ok_iff.1 hr
  obtain ⟨rem', e2, e3⟩ := (n3.mul (.point 1)).div d3 e1
  obtain ⟨p, p1, hr⟩ := bind_ok_iff.1 hr
  rw [bind_ok q2, bind_ok d2, bind_ok g2, bind_ok g1, bind_ok n2, bind_ok e2, h.tpol, bind_ok p1]
  obtain ⟨p', p2, p3, p4⟩ := hb.fn (f := fun d => d.powQ (-(1 / 2))) (g := fun x => x ^ ((-(1 / 2 : ℚ) : ℚ) : ℝ)) (dom := fun x => 0 < x)
    (fun d hd _ hdom => GDual.powQ_series_lift hd (by norm_num) (fun h => absurd h.1 (by decide +kernel)) fun i => Or.inl (hdom i)) hpos
  rw [p1] at p2
  injection p2 with p2
  subst p2
  exact h.remap p4.valid (GDual.HasSyms.powQ hb.wf.valid.wf.sorted (d := t.tpol) rfl p1) hr e3

theorem Finer.rlog (hord : ∀ l, (ord l).Perm l) (hD : ∀ s, Inside (D' s) (D s)) (hm : m ≤ 62) (h : Finer m E D' D t' t)
    (hr : TM.rlog ord t = .ok r) : ∃ r', TM.rlog ord t' = .ok r' ∧ Finer m E D' D r' r := by
  obtain ⟨F, hb⟩ := h.big
  obtain ⟨F', hs⟩ := h.small
  obtain ⟨hpos, c1, -⟩ := hb.rlog hord hm hr
  suffices k : ∃ r', TM.rlog ord t' = .ok r' ∧ r'.tpol = r.tpol ∧ Inside r'.rem r.rem by
    obtain ⟨r', k1, k2, k3⟩ := k
    exact ⟨r', k1, ⟨_, c1⟩, ⟨_, (hs.rlog hord hm k1).2.1⟩, k2, k3⟩
  unfold TM.rlog at hr ⊢
  obtain ⟨_, a1, hr⟩ := bind_ok_iff.1 hr
  rw [bind_ok (h.above hord hD hm a1)]
  obtain ⟨⟨c, B, k⟩, b1, hr⟩ := bind_ok_iff.1 hr
  obtain ⟨B', b2, b3⟩ := h.prologue hord hD hm b1
  rw [bind_ok b2]
  simp only at hr ⊢
  obtain ⟨num, n1, hr⟩ := bind_ok_iff.1 hr
  obtain ⟨num', n2, n3⟩ := ((Inside.point _).mul (b3.pow _)).sdiv n1
  obtain ⟨q, q1, hr⟩ := bind_ok_iff.1 hr
  obtain ⟨q', q2, q3⟩ := b3.sdiv q1
  obtain ⟨den, d1, hr⟩ := bind_ok_iff.1 hr
  obtain ⟨den', d2, d3⟩ := (Inside.point 1).div ((Inside.point 1).add (q3.mul .unit)) d1
  obtain ⟨p, p1, hr⟩ := bind_ok_iff.1 hr
  rw [bind_ok n2, bind_ok q2, bind_ok d2, h.tpol, bind_ok p1]
  exact h.make hr (n3.mul (d3.pow _))

/-! ### Powers -/

theorem Finer.powNat (hord : ∀ l, (ord l).Perm l) (hD : ∀ s, Inside (D' s) (D s)) (hm : m ≤ 31) (h : Finer m E D' D t' t) (ho : 1 ≤ t.order) (n : ℕ)
    {p p' : TM ℝ} (hp : Finer m E D' D p' p) (hr : (List.range n).foldlM (fun (p : TM ℝ) (_ : ℕ) => TM.mul ord p t) p = .ok r) :
    ∃ r', (List.range n).foldlM (fun (p : TM ℝ) (_ : ℕ) => TM.mul ord p t') p' = .ok r' ∧ Finer m E D' D r' r := by
  induction n generalizing r with
  | zero =>
    injection hr with hr
    subst hr
    exact ⟨p', rfl, hp⟩
  | succ n ih =>
    rw [List.range_succ, List.foldlM_append] at hr ⊢
    obtain ⟨q, q1, hr⟩ := bind_ok_iff.1 hr
    obtain ⟨q', q2, q3⟩ := ih q1
    rw [bind_ok q2]
    change (do let q ← TM.mul ord q t; .ok q) = _ at hr
    obtain ⟨w, w1, hr⟩ := bind_ok_iff.1 hr
    injection hr with hr
    subst hr
    obtain ⟨w', w2, w3⟩ := q3.mul hord hD hm h (by omega) w1
    refine ⟨w', ?_, w3⟩
    change (do let q ← TM.mul ord q' t'; .ok q) = _
    rw [bind_ok w2]

theorem Finer.powNeg (hord : ∀ l, (ord l).Perm l) (hD : ∀ s, Inside (D' s) (D s)) (hm : m ≤ 31) (h : Finer m E D' D t' t) (ho : 1 ≤ t.order) (n : ℕ)
    {p p' : TM ℝ} (hp : Finer m E D' D p' p) (hr : (List.range n).foldlM (fun (p : TM ℝ) (_ : ℕ) => do
      let q ← TM.mulTS p 1
      TM.div ord q t) p = .ok r) :
    ∃ r', (List.range n).foldlM (fun (p : TM ℝ) (_ : ℕ) => do
      let q ← TM.mulTS p 1
      TM.div ord q t') p' = .ok r' ∧ Finer m E D' D r' r := by
  induction n generalizing r with
  | zero =>
    injection hr with hr
    subst hr
    exact ⟨p', rfl, hp⟩
  | succ n ih =>
    rw [List.range_succ, List.foldlM_append] at hr ⊢
    obtain ⟨q, q1, hr⟩ := bind_ok_iff.1 hr
    obtain ⟨q', q2, q3⟩ := ih q1
    rw [bind_ok q2]
    change (do let p ← (do let q' ← TM.mulTS q 1; TM.div ord q' t); .ok p) = _ at hr
    obtain ⟨w, w1, hr⟩ := bind_ok_iff.1 hr
    injection hr with hr
    subst hr
    obtain ⟨y, y1, w1⟩ := bind_ok_iff.1 w1
    obtain ⟨y', y2, y3⟩ := q3.mulTS 1 y1
    obtain ⟨w', w2, w3⟩ := y3.div hord hD hm h (by omega) w1
    refine ⟨w', ?_, w3⟩
    change (do let p ← (do let y ← TM.mulTS q' 1; TM.div ord y t'); .ok p) = _
    rw [bind_ok y2, bind_ok w2]

theorem Finer.powInt (hord : ∀ l, (ord l).Perm l) (hD : ∀ s, Inside (D' s) (D s)) (hm : m ≤ 31) (h : Finer m E D' D t' t) (ho : 1 ≤ t.order)
    {n : ℤ} (hn : n ≠ 0) (hr : TM.powInt ord t n = .ok r) : ∃ r', TM.powInt ord t' n = .ok r' ∧ Finer m E D' D r' r := by
  unfold TM.powInt at hr ⊢
  rw [if_neg hn] at hr ⊢
  split_ifs at hr ⊢ with h1 h2
  · injection hr with hr
    subst hr
    exact ⟨t', rfl, h⟩
  · obtain ⟨p, p1, hr⟩ := bind_ok_iff.1 hr
    obtain ⟨p', p2, p3⟩ := h.mulST 1 p1
    rw [bind_ok p2]
    exact h.powNat hord hD hm ho _ p3 hr
  · obtain ⟨p, p1, hr⟩ := bind_ok_iff.1 hr
    obtain ⟨p', p2, p3, -⟩ := h.divST hord hD (by omega) 1 p1
    rw [bind_ok p2]
    exact h.powNeg hord hD hm ho _ p3 hr

theorem Finer.rasinh (hord : ∀ l, (ord l).Perm l) (hD : ∀ s, Inside (D' s) (D s)) (hm : m ≤ 31) (h : Finer m E D' D t' t) (ho : 1 ≤ t.order)
    (hr : TM.rasinh ord t = .ok r) : ∃ r', TM.rasinh ord t' = .ok r' ∧ Finer m E D' D r' r := by
  unfold TM.rasinh at hr ⊢
  obtain ⟨s, s1, hr⟩ := bind_ok_iff.1 hr
  obtain ⟨s', s2, s3⟩ := h.powInt hord hD hm ho (by decide) s1
  obtain ⟨u, u1, hr⟩ := bind_ok_iff.1 hr
  obtain ⟨u', u2, u3⟩ := s3.addTS 1 u1
  obtain ⟨v, v1, hr⟩ := bind_ok_iff.1 hr
  obtain ⟨v', v2, v3⟩ := u3.powHalf hord hD (by omega) v1
  obtain ⟨w, w1, hr⟩ := bind_ok_iff.1 hr
  obtain ⟨w', w2, w3⟩ := h.add v3 w1
  rw [bind_ok s2, bind_ok u2, bind_ok (show TM.sqrt ord u' = .ok v' from v2), bind_ok w2]
  exact w3.rlog hord hD (by omega) hr

theorem Finer.racosh (hord : ∀ l, (ord l).Perm l) (hD : ∀ s, Inside (D' s) (D s)) (hm : m ≤ 31) (h : Finer m E D' D t' t) (ho : 1 ≤ t.order)
    (hr : TM.racosh ord t = .ok r) : ∃ r', TM.racosh ord t' = .ok r' ∧ Finer m E D' D r' r := by
  unfold TM.racosh at hr ⊢
  obtain ⟨s, s1, hr⟩ := bind_ok_iff.1 hr
  obtain ⟨s', s2, s3⟩ := h.powInt hord hD hm ho (by decide) s1
  obtain ⟨_, a1, hr⟩ := bind_ok_iff.1 hr
  have a2 := s3.above hord hD (by omega) a1
  obtain ⟨u, u1, hr⟩ := bind_ok_iff.1 hr
  obtain ⟨u', u2, u3⟩ := s3.subTS 1 u1
  obtain ⟨v, v1, hr⟩ := bind_ok_iff.1 hr
  obtain ⟨v', v2, v3⟩ := u3.powHalf hord hD (by omega) v1
  obtain ⟨w, w1, hr⟩ := bind_ok_iff.1 hr
  obtain ⟨w', w2, w3⟩ := h.add v3 w1
  rw [bind_ok s2, bind_ok a2, bind_ok u2, bind_ok (show TM.sqrt ord u' = .ok v' from v2), bind_ok w2]
  exact w3.rlog hord hD (by omega) hr

theorem Finer.ratanh (hord : ∀ l, (ord l).Perm l) (hD : ∀ s, Inside (D' s) (D s)) (hm : m ≤ 31) (h : Finer m E D' D t' t) (ho : 1 ≤ t.order)
    (hr : TM.ratanh ord t = .ok r) : ∃ r', TM.ratanh ord t' = .ok r' ∧ Finer m E D' D r' r := by
  obtain ⟨F, hb⟩ := h.big
  unfold TM.ratanh at hr ⊢
  obtain ⟨n, n1, hr⟩ := bind_ok_iff.1 hr
  obtain ⟨n', n2, n3⟩ := h.addST 1 n1
  obtain ⟨d, d1, hr⟩ := bind_ok_iff.1 hr
  obtain ⟨d', d2, d3⟩ := h.subST 1 d1
  have on : n.order = t.order := (ok_unique (hb.addST 1) n1).2
  obtain ⟨q, q1, hr⟩ := bind_ok_iff.1 hr
  obtain ⟨q', q2, q3⟩ := n3.div hord hD hm d3 (by omega) q1
  obtain ⟨l, l1, hr⟩ := bind_ok_iff.1 hr
  obtain ⟨l', l2, l3⟩ := q3.rlog hord hD (by omega) l1
  rw [bind_ok n2, bind_ok d2, bind_ok q2, bind_ok l2]
  exact l3.mulST (1 / 2) hr

theorem Finer.ratan (hord : ∀ l, (ord l).Perm l) (hD : ∀ s, Inside (D' s) (D s)) (hm : m ≤ 30) (h : Finer m E D' D t' t) (ho : 1 ≤ t.order)
    (hr : TM.ratan ord t = .ok r) : ∃ r', TM.ratan ord t' = .ok r' ∧ Finer m E D' D r' r := by
  obtain ⟨F, hb⟩ := h.big
  obtain ⟨F', hs⟩ := h.small
  have c1 := (hb.ratan hord hm ho hr).1
  suffices k : ∃ r', TM.ratan ord t' = .ok r' ∧ r'.tpol = r.tpol ∧ Inside r'.rem r.rem by
    obtain ⟨r', k1, k2, k3⟩ := k
    exact ⟨r', k1, ⟨_, c1⟩, ⟨_, (hs.ratan hord hm (by rw [h.order]; exact ho) k1).1⟩, k2, k3⟩
  unfold TM.ratan at hr ⊢
  obtain ⟨c, x1, hr⟩ := bind_ok_iff.1 hr
  obtain ⟨b, b1, hr⟩ := bind_ok_iff.1 hr
  obtain ⟨b', b2, b3⟩ := h.subTS c b1
  have ob : b.order = t.order := (ok_unique (hb.subTS c) b1).2
  obtain ⟨u, u1, hr⟩ := bind_ok_iff.1 hr
  obtain ⟨u', u2, u3⟩ := h.mulST c u1
  obtain ⟨d, d1, hr⟩ := bind_ok_iff.1 hr
  obtain ⟨d', d2, d3⟩ := u3.addST 1 d1
  obtain ⟨q, q1, hr⟩ := bind_ok_iff.1 hr
  obtain ⟨q', q2, q3⟩ := b3.div hord hD (by omega) d3 (by omega) q1
  obtain ⟨B, B1, hr⟩ := bind_ok_iff.1 hr
  obtain ⟨B', B2, B3⟩ := q3.bounds hord hD (by omega) B1
  obtain ⟨p, p1, hr⟩ := bind_ok_iff.1 hr
  rw [h.tpol, bind_ok x1, bind_ok b2, bind_ok u2, bind_ok d2, bind_ok q2,
    bind_ok (show TM.getBounds ord q'.tpol q'.exp q'.dom = .ok B' from B2), bind_ok p1]
  exact h.make hr ((B3.add q3.rem).atanRem _)

theorem Finer.rasin (hord : ∀ l, (ord l).Perm l) (hD : ∀ s, Inside (D' s) (D s)) (hm : m ≤ 30) (h : Finer m E D' D t' t) (ho : 1 ≤ t.order)
    (hr : TM.rasin ord t = .ok r) : ∃ r', TM.rasin ord t' = .ok r' ∧ Finer m E D' D r' r := by
  obtain ⟨F, hb⟩ := h.big
  obtain ⟨F', hs⟩ := h.small
  have c1 := (hb.rasin hord hm ho hr).2.1
  suffices k : ∃ r', TM.rasin ord t' = .ok r' ∧ r'.tpol = r.tpol ∧ Inside r'.rem r.rem by
    obtain ⟨r', k1, k2, k3⟩ := k
    exact ⟨r', k1, ⟨_, c1⟩, ⟨_, (hs.rasin hord hm (by rw [h.order]; exact ho) k1).2.1⟩, k2, k3⟩
  unfold TM.rasin at hr ⊢
  obtain ⟨b, b1, hr⟩ := bind_ok_iff.1 hr
  obtain ⟨b', b2, b3⟩ := h.bounds hord hD (by omega) b1
  have i := b3.add h.rem
  split_ifs at hr with hc
  have hc' : ¬ ¬ (-1 ≤ (b'.add t'.rem).lo ∧ (b'.add t'.rem).hi ≤ 1) := by
    rw [not_not]
    exact ⟨hc.1.trans i.1, i.2.2.trans hc.2⟩
  rw [bind_ok b2, if_neg hc']
  obtain ⟨c, x1, hr⟩ := bind_ok_iff.1 hr
  obtain ⟨l, l1, hr⟩ := bind_ok_iff.1 hr
  obtain ⟨l', l2, l3⟩ := h.mulTS _ l1
  obtain ⟨s, s1, hr⟩ := bind_ok_iff.1 hr
  obtain ⟨s', s2, s3⟩ := h.powInt hord hD (by omega) ho (by decide) s1
  obtain ⟨u, u1, hr⟩ := bind_ok_iff.1 hr
  obtain ⟨u', u2, u3⟩ := s3.subST 1 u1
  obtain ⟨v, v1, hr⟩ := bind_ok_iff.1 hr
  obtain ⟨v', v2, v3⟩ := u3.powHalf hord hD (by omega) v1
  obtain ⟨w, w1, hr⟩ := bind_ok_iff.1 hr
  obtain ⟨w', w2, w3⟩ := v3.mulST c w1
  obtain ⟨a, a1, hr⟩ := bind_ok_iff.1 hr
  obtain ⟨a', a2, a3⟩ := l3.sub w3 a1
  obtain ⟨B, B1, hr⟩ := bind_ok_iff.1 hr
  obtain ⟨B', B2, B3⟩ := a3.bounds hord hD (by omega) B1
  simp only at hr ⊢
  obtain ⟨dv, d1, hr⟩ := bind_ok_iff.1 hr
  have G := B3.add a3.rem
  obtain ⟨dv', d2, d3⟩ := (Inside.unit.mul G).asinDerivative (Itv.zero_mul ⟨le_rfl, zero_le_one⟩ _) _ d1
  obtain ⟨f1, g1, hr⟩ := bind_ok_iff.1 hr
  obtain ⟨p, p1, hr⟩ := bind_ok_iff.1 hr
  rw [h.tpol, bind_ok x1, bind_ok l2, bind_ok s2, bind_ok u2, bind_ok (show TM.sqrt ord u' = .ok v' from v2), bind_ok w2, bind_ok a2,
    bind_ok (show TM.getBounds ord a'.tpol a'.exp a'.dom = .ok B' from B2), bind_ok d2, bind_ok g1, bind_ok p1]
  exact h.make hr (((Inside.point _).mul (G.pow _)).mul d3)

theorem Finer.racos (hord : ∀ l, (ord l).Perm l) (hD : ∀ s, Inside (D' s) (D s)) (hm : m ≤ 30) (h : Finer m E D' D t' t) (ho : 1 ≤ t.order)
    (hr : TM.racos ord t = .ok r) : ∃ r', TM.racos ord t' = .ok r' ∧ Finer m E D' D r' r := by
  unfold TM.racos at hr ⊢
  obtain ⟨s, s1, hr⟩ := bind_ok_iff.1 hr
  obtain ⟨s', s2, s3⟩ := h.rasin hord hD hm ho s1
  rw [bind_ok s2]
  exact s3.subST _ hr

/-- Half-integers that pass the test for integers with tolerance, converted to `int`, are not 0. -/
theorem truncQ_ne_zero {β : ℚ} {n : ℤ} (hβ : β ≠ 0) (c3 : |β - roundQ β| < 1 / 2 ^ 52 * 10) (hz : ∃ z : ℤ, β * 2 = z) (hn : truncQ β = .ok n) : n ≠ 0 := by
  obtain ⟨z, hz⟩ := hz
  have hα : β = (roundQ β : ℤ) := by
    generalize roundQ β = n at c3 ⊢
    have h1 : |(z - 2 * n : ℤ)| < 1 := by
      have : (|((z - 2 * n : ℤ) : ℚ)| : ℚ) < 1 := by
        have e : ((z - 2 * n : ℤ) : ℚ) = 2 * (β - n) := by push_cast; linarith
        rw [e, abs_mul]
        norm_num at c3 ⊢
        linarith
      exact_mod_cast this
    have h3 : z = 2 * n := by have := Int.abs_lt_one_iff.1 h1; omega
    rw [h3] at hz
    push_cast at hz
    linarith
  generalize roundQ β = k at hα
  subst hα
  rw [(truncQ_int hn).1]
  exact_mod_cast hβ

theorem Finer.powT (hord : ∀ l, (ord l).Perm l) (hD : ∀ s, Inside (D' s) (D s)) (hm : m ≤ 31) (h : Finer m E D' D t' t) (ho : 1 ≤ t.order)
    {α : ℚ} (h0 : α ≠ 0) (h2 : (α * 2).den = 1) (hr : TM.powT ord (1 / 2 ^ 52) t α = .ok r) :
    ∃ r', TM.powT ord (1 / 2 ^ 52) t' α = .ok r' ∧ Finer m E D' D r' r := by
  obtain ⟨z, hz⟩ : ∃ z : ℤ, α * 2 = z := ⟨(α * 2).num, (Rat.den_eq_one_iff _).1 h2 |>.symm⟩
  unfold TM.powT at hr ⊢
  obtain ⟨⟨c, B, k⟩, b1, hr⟩ := bind_ok_iff.1 hr
  obtain ⟨B', b2, -⟩ := h.prologue hord hD (by omega) b1
  rw [bind_ok b2]
  split_ifs at hr ⊢ with c1 c2 c3 c4
  · exact h.powHalf hord hD (by omega) hr
  · exact h.powMinusHalf hord hD (by omega) hr
  · obtain ⟨n, n1, hr⟩ := bind_ok_iff.1 hr
    rw [bind_ok n1]
    exact h.powInt hord hD hm ho (truncQ_ne_zero h0 c3 ⟨z, hz⟩ n1) hr
  · obtain ⟨n, n1, hr⟩ := bind_ok_iff.1 hr
    rw [bind_ok n1]
    obtain ⟨s, s1, hr⟩ := bind_ok_iff.1 hr
    obtain ⟨s', s2, s3⟩ := h.powInt hord hD hm ho (truncQ_ne_zero (mul_ne_zero h0 two_ne_zero) c4 ⟨z * 2, by rw [hz]; push_cast; ring⟩ n1) s1
    rw [bind_ok s2]
    exact s3.powHalf hord hD (by omega) hr

/-! ### Expressions -/

theorem Finer.fnTM (hord : ∀ l, (ord l).Perm l) (hD : ∀ s, Inside (D' s) (D s)) (hm : m ≤ 31) (h : Finer m E D' D t' t) (f : Fn) (hmax : f.MaxOrder m)
    (hg : f.GoodExponent) (ho : f.Multiplies → 1 ≤ t.order) (hr : f.runTM ord t = .ok r) :
    ∃ r', f.runTM ord t' = .ok r' ∧ Finer m E D' D r' r := by
  have key : ∀ {o : Res (TM ℝ)} {P : Prop}, (∃ r', o = .ok r' ∧ Finer m E D' D r' r ∧ P) → ∃ r', o = .ok r' ∧ Finer m E D' D r' r :=
    fun ⟨r', h1, h2, _⟩ => ⟨r', h1, h2⟩
  cases f with
  | exp => exact h.rexp hord hD (by omega) hr
  | log => exact h.rlog hord hD (by omega) hr
  | sqrt => exact h.powHalf hord hD (by omega) hr
  | cbrt => exact absurd hr (by simp [Fn.runTM])
  | sin => exact key (h.rsin hord hD (by omega) hr)
  | cos => exact key (h.rcos hord hD (by omega) hr)
  | tan => exact h.rtan hord hD hm (ho trivial) hr
  | sinh => exact key (h.rsinh hord hD (by omega) hr)
  | cosh => exact key (h.rcosh hord hD (by omega) hr)
  | tanh => exact h.rtanh hord hD hm (ho trivial) hr
  | asinh => exact h.rasinh hord hD hm (ho trivial) hr
  | acosh => exact h.racosh hord hD hm (ho trivial) hr
  | atanh => exact h.ratanh hord hD hm (ho trivial) hr
  | atan => exact h.ratan hord hD hmax (ho trivial) hr
  | asin => exact h.rasin hord hD hmax (ho trivial) hr
  | acos => exact h.racos hord hD hmax (ho trivial) hr
  | neg => exact h.neg hr
  | powQ α => exact h.powT hord hD hm (ho trivial) hg.1 hg.2 hr
  | powInt z => exact h.powInt hord hD hm (ho trivial) hg.1 hr
  | powBase q => exact absurd hr (by simp [Fn.runTM])

/-- Evaluation over a smaller domain, with smaller remainders of the variables. -/
theorem runTM_finer (hord : ∀ l, (ord l).Perm l) (hm : m ≤ 31) (hD : ∀ s, Inside (D' s) (D s)) (hE : ∀ s, InItv (D' s) (E s))
    (hR : ∀ s, Inside (R' s) (R s)) (h0 : ∀ s, InItv (R' s) 0) :
    ∀ e : Expr ℝ, e.Legal m → e.Proper ord E D R m → ∀ r, e.runTM ord E D R m = .ok r →
      ∃ r', e.runTM ord E D' R' m = .ok r' ∧ Finer m E D' D r' r := by
  have hU : m < UINT_MAX - 10 := by
    have : (31 : ℕ) < UINT_MAX - 10 := by decide
    omega
  have key : ∀ {o : Res (TM ℝ)} {P : Prop} {r : TM ℝ}, (∃ r', o = .ok r' ∧ Finer m E D' D r' r ∧ P) → ∃ r', o = .ok r' ∧ Finer m E D' D r' r :=
    fun ⟨r', h1, h2, _⟩ => ⟨r', h1, h2⟩
  intro e
  induction e with
  | var s =>
    intro hl _ r hr
    obtain ⟨r', r1, r2, -⟩ := Centred.var_ok (ord := ord) (R := R') hU hl (hE s) (h0 s)
    have c1 := (Centred.var hU hl ((hR s).mem (h0 s)) hr).1
    suffices k : r'.tpol = r.tpol ∧ Inside r'.rem r.rem from ⟨r', r1, ⟨_, c1⟩, ⟨_, r2⟩, k.1, k.2⟩
    change (do let g ← GDual.mk3 (E s) s m; TM.make g (R s) [(s, E s)] [(s, D s)]) = _ at hr
    change (do let g ← GDual.mk3 (E s) s m; TM.make g (R' s) [(s, E s)] [(s, D' s)]) = _ at r1
    obtain ⟨g, g1, hr⟩ := bind_ok_iff.1 hr
    rw [bind_ok g1] at r1
    rw [(make_fields hr).1, (make_fields hr).2, (make_fields r1).1, (make_fields r1).2]
    exact ⟨rfl, hR s⟩
  | const c =>
    intro _ _ r hr
    injection hr with hr
    subst hr
    exact ⟨_, rfl, ⟨_, Centred.ofConst c⟩, ⟨_, Centred.ofConst c⟩, rfl, le_rfl, le_rfl, le_rfl⟩
  | bin op e1 e2 ih1 ih2 =>
    intro hl hp r hr
    change (do op.runTM ord (← e1.runTM ord E D R m) (← e2.runTM ord E D R m)) = _ at hr
    change ∃ r', (do op.runTM ord (← e1.runTM ord E D' R' m) (← e2.runTM ord E D' R' m)) = _ ∧ _
    obtain ⟨a, a1, hr⟩ := bind_ok_iff.1 hr
    obtain ⟨b, b1, hr⟩ := bind_ok_iff.1 hr
    obtain ⟨a', a2, a3⟩ := ih1 hl.1 hp.1 a a1
    obtain ⟨b', b2, b3⟩ := ih2 hl.2 hp.2.1 b b1
    rw [bind_ok a2, bind_ok b2]
    have ho := hp.2.2
    cases op with
    | add => exact a3.add b3 hr
    | sub => exact a3.sub b3 hr
    | mul => exact a3.mul hord hD hm b3 (by have := ho trivial a b a1 b1; omega) hr
    | div => exact a3.div hord hD hm b3 (by have := ho trivial a b a1 b1; omega) hr
  | left op c e ih =>
    intro hl hp r hr
    change (do op.runTML ord c (← e.runTM ord E D R m)) = _ at hr
    change ∃ r', (do op.runTML ord c (← e.runTM ord E D' R' m)) = _ ∧ _
    obtain ⟨a, a1, hr⟩ := bind_ok_iff.1 hr
    obtain ⟨a', a2, a3⟩ := ih hl hp a a1
    rw [bind_ok a2]
    cases op with
    | add => exact a3.addST c hr
    | sub => exact a3.subST c hr
    | mul => exact a3.mulST c hr
    | div => exact key (a3.divST hord hD (by omega) c hr)
  | right op e c ih =>
    intro hl hp r hr
    change (do op.runTMR (← e.runTM ord E D R m) c) = _ at hr
    change ∃ r', (do op.runTMR (← e.runTM ord E D' R' m) c) = _ ∧ _
    obtain ⟨a, a1, hr⟩ := bind_ok_iff.1 hr
    obtain ⟨a', a2, a3⟩ := ih hl hp a a1
    rw [bind_ok a2]
    cases op with
    | add => exact a3.addTS c hr
    | sub => exact a3.subTS c hr
    | mul => exact a3.mulTS c hr
    | div => exact a3.divTS hr
  | fn f e ih =>
    intro hl hp r hr
    change (do f.runTM ord (← e.runTM ord E D R m)) = _ at hr
    change ∃ r', (do f.runTM ord (← e.runTM ord E D' R' m)) = _ ∧ _
    obtain ⟨a, a1, hr⟩ := bind_ok_iff.1 hr
    obtain ⟨a', a2, a3⟩ := ih hl.1 hp.1 a a1
    rw [bind_ok a2]
    exact a3.fnTM hord hD hm f hl.2 hp.2.1 (fun hf => hp.2.2 hf a a1) hr
  | pow e1 e2 => exact fun _ _ r hr => absurd hr (by simp [Expr.runTM])

end TM
end Audi
