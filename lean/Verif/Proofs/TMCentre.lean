import Verif.Proofs.TMAcos
import Verif.Proofs.TMRoots
import Verif.Proofs.TMDivision
import Verif.Proofs.TMPower
import Verif.Proofs.Expr

/-!
# Proofs: Taylor models at their expansion point

The polynomial part of every operation is the Taylor polynomial, and the remainder contains 0. In contrast to the enclosure over the
whole domain, this survives chains of operations, and any iteration order of the maps.
-/

namespace Audi
namespace Itv

open Spec

variable {K : Type} [Field K] [LinearOrder K] [IsStrictOrderedRing K] {a b : Itv K}

theorem zero_mul (h : InItv a 0) (b : Itv K) : InItv (a.mul b) 0 := by
  have h1 := h.1
  have h2 := h.2
  simp only [InItv, mul]
  rcases le_total 0 b.lo with hb | hb
  · exact ⟨((min_le_left _ _).trans (min_le_left _ _)).trans (mul_nonpos_of_nonpos_of_nonneg h1 hb),
      (mul_nonneg h2 hb).trans ((le_max_left _ _).trans (le_max_right _ _))⟩
  · exact ⟨((min_le_right _ _).trans (min_le_left _ _)).trans (mul_nonpos_of_nonneg_of_nonpos h2 hb),
      (mul_nonneg_of_nonpos_of_nonpos h1 hb).trans ((le_max_left _ _).trans (le_max_left _ _))⟩

theorem mul_zero (h : InItv b 0) (a : Itv K) : InItv (a.mul b) 0 := by
  have h1 := h.1
  have h2 := h.2
  simp only [InItv, mul]
  rcases le_total 0 a.lo with ha | ha
  · exact ⟨((min_le_left _ _).trans (min_le_left _ _)).trans (mul_nonpos_of_nonneg_of_nonpos ha h1),
      (mul_nonneg ha h2).trans ((le_max_right _ _).trans (le_max_left _ _))⟩
  · exact ⟨((min_le_left _ _).trans (min_le_right _ _)).trans (mul_nonpos_of_nonpos_of_nonneg ha h2),
      (mul_nonneg_of_nonpos_of_nonpos ha h1).trans ((le_max_left _ _).trans (le_max_left _ _))⟩

theorem zero_div (h : InItv a 0) {q : Itv K} (hq : a.div b = .ok q) : InItv q 0 := by
  unfold div at hq
  obtain ⟨c, -, hc⟩ := bind_ok_iff.1 hq
  injection hc with hc
  rw [← hc]
  exact zero_mul h c

theorem zero_pow (h : InItv a 0) {n : ℕ} (hn : n ≠ 0) : InItv (a.pow n) 0 := by
  have := mem_pow h n
  rwa [_root_.zero_pow hn] at this

theorem zero_add (ha : InItv a 0) (hb : InItv b 0) : InItv (a.add b) 0 := by
  have := mem_add ha hb
  rwa [_root_.add_zero] at this

end Itv

namespace TM

open MvPolynomial Spec GDual Filter Topology

section Bounds
variable {K : Type} [Field K] [LinearOrder K] [IsStrictOrderedRing K] {ord : List String → List String}

omit [Field K] [LinearOrder K] [IsStrictOrderedRing K] in
theorem iterate_perm (hord : ∀ l, (ord l).Perm l) {α : Type} {vars : List String} (f : String → α) (hnd : vars.Nodup) :
    iterate ord (vars.map fun v => (v, f v)) = (ord vars).map fun v => (v, f v) := by
  have hk : (VMap.keys (vars.map fun v => (v, f v)) : List String) = vars := by
    unfold VMap.keys
    rw [List.map_map]
    simp [Function.comp_def]
  unfold iterate
  rw [hk]
  have : ∀ v ∈ ord vars, ((vars.map fun v => (v, f v)) : VMap α).lookup v = some (f v) := by
    intro v hv
    refine VMap.lookup_of_mem ?_ (List.mem_map.2 ⟨v, (hord vars).mem_iff.1 hv, rfl⟩)
    rw [List.map_map]
    simpa [Function.comp_def] using hnd
  rw [List.filterMap_congr (g := fun v => some (v, f v)) fun v hv => by rw [this v hv]; rfl]
  simp

/-- Bounds of a polynomial contain its constant term, for every iteration order. -/
theorem getBounds_point (hord : ∀ l, (ord l).Perm l) {p : GDual K} {exp : VMap K} {dom : VMap (Itv K)} (hp : p.Valid)
    (hn : ∀ s ∈ p.p.syms, ∃ v, s = "d" ++ v) (hdeg : p.order ≤ 62)
    (hm : ∀ v ∈ p.p.syms.map varName, ∃ I x, dom.lookup v = some I ∧ exp.lookup v = some x ∧ InItv I x) :
    ∃ B, getBounds ord p exp dom = .ok B ∧ InItv B (coeff 0 (p.toMv () : MvPolynomial String K)) := by
  have hzero : ∀ {coeffs : List K} {exps : List (List ℕ)}, Bounding.getPoly p = .ok (coeffs, exps) → exps = [] →
      ∃ B, getBounds ord p exp dom = .ok B ∧ InItv B (coeff 0 (p.toMv () : MvPolynomial String K)) := by
    intro coeffs exps h1 h2
    subst h2
    have hnd : Bounding.getNdim coeffs ([] : List (List ℕ)) = .ok 0 := by cases coeffs <;> rfl
    obtain ⟨c, hc1⟩ := GDual.constantCf_isOk p
    have hc2 : c = coeff 0 (p.toMv () : MvPolynomial String K) := GDual.lane_constantCf (ι := Unit) (K := K) hp hc1 ()
    refine ⟨⟨c, c⟩, ?_, ?_⟩
    · unfold getBounds
      rw [bind_ok h1, bind_ok hnd, if_neg (by omega), bind_ok hc1]
    · rw [← hc2]
      exact ⟨le_rfl, le_rfl⟩
  by_cases hs : p.symbolSetSize = 0
  · exact hzero (Bounding.getPoly_no_symbols hs) rfl
  obtain ⟨coeffs, exps, h1, h2, h3, h4⟩ := Bounding.getPoly_spec (ι := Unit) (K := K) hp (Nat.one_le_iff_ne_zero.2 hs)
  by_cases he : exps = []
  · exact hzero h1 he
  have hexps : ∀ e ∈ exps, ∃ c, (e, c) ∈ p.p.terms := by
    intro e hee
    have hm : exps = (exps.zip coeffs).map Prod.fst := (List.map_fst_zip (by rw [h2])).symm
    rw [hm] at hee
    obtain ⟨⟨e', c⟩, hx, rfl⟩ := List.mem_map.1 hee
    exact ⟨c, h3.mem_iff.1 hx⟩
  have hw : ∀ e ∈ exps, e.length = p.p.syms.length := fun e hee => by
    obtain ⟨c, hc⟩ := hexps e hee
    exact hp.wf.len _ hc
  have hd62 : ∀ e ∈ exps, ∀ k ∈ e, k ≤ 62 := fun e hee k hk => by
    obtain ⟨c, hc⟩ := hexps e hee
    exact ((List.le_sum_of_mem hk).trans (hp.deg _ hc)).trans hdeg
  set vars := p.p.syms.map varName with hvars
  have hvnd : vars.Nodup := nodup_varNames hp.wf.ndsyms hn
  have hit := iterate_perm hord (shiftItv exp dom) hvnd
  have hlen : ((ord vars).map fun v => (v, shiftItv exp dom v)).length = p.p.syms.length := by
    rw [List.length_map, (hord vars).length_eq, hvars, List.length_map]
  obtain ⟨patch, e1, e2, e3⟩ := Bounding.patch_encloses (Nat.one_le_iff_ne_zero.2 hs) h2 he hw (h4.imp fun h => ne_of_lt h) hd62
    (domain := (ord vars).map fun v => (v, shiftItv exp dom v)) hlen
  obtain ⟨B, b1, b2⟩ := minmax_ok e2
  refine ⟨B, ?_, ?_⟩
  · unfold getBounds
    rw [bind_ok h1]
    simp only
    rw [bind_ok (Bounding.getNdim_ok h2 he hw), if_pos (show 1 ≤ p.p.syms.length from Nat.one_le_iff_ne_zero.2 hs), symbolSet_eq,
      bind_ok (shiftedDomain_ok fun v hv => by
        obtain ⟨I, x, a1, a2, a3⟩ := hm v hv
        exact ⟨I, x, a1, a2, a3.1.trans a3.2⟩), hit, bind_ok e1]
    exact b1
  · have hbox : InBox (((ord vars).map fun v => (v, shiftItv exp dom v)).map Prod.snd) (p.p.syms.map fun _ => (0 : K)) := by
      have hz : (p.p.syms.map fun _ => (0 : K)) = (ord vars).map fun _ => (0 : K) := by
        rw [List.map_const', List.map_const', (hord vars).length_eq, hvars, List.length_map]
      rw [hz, List.map_map]
      unfold InBox
      rw [List.forall₂_map_left_iff, List.forall₂_map_right_iff, List.forall₂_same]
      intro v hv
      obtain ⟨I, x0, a1, a2, a3⟩ := hm v ((hord vars).mem_iff.1 hv)
      simp only [Function.comp_apply, shiftItv, a1, a2, Option.getD_some]
      exact ⟨sub_nonpos.2 a3.1, sub_nonneg.2 a3.2⟩
    obtain ⟨⟨v, hv, hv'⟩, w, hw1, hw2⟩ := e3 _ hbox
    rw [polyVal_eq hp h3 (fun _ => (0 : K))] at hv' hw2
    have h0 : eval (fun _ => (0 : K)) (p.toMv () : MvPolynomial String K) = coeff 0 (p.toMv () : MvPolynomial String K) :=
      congrFun (congrArg DFunLike.coe (eval_zero (R := K) (σ := String))) _
    rw [h0] at hv' hw2
    exact ⟨(b2 v hv).1.trans hv', hw2.trans (b2 w hw1).2⟩

/-- The bounds of the truncated part contain 0 when its constant term is 0. -/
theorem truncationBounds_zero {a b : TM K} (hord : ∀ l, (ord l).Perm l) (ha : a.WF) (hb : b.WF) (hc : Compatible a b) {q : GDual K} (hq : q.Valid)
    (h62 : q.order ≤ 62) (hs : ∀ s ∈ q.p.syms, s ∈ a.tpol.p.syms ∨ s ∈ b.tpol.p.syms) (h0 : coeff 0 (q.toMv () : MvPolynomial String K) = 0) :
    ∃ B, truncationBounds ord q (unionMap a.exp b.exp) (unionMap a.dom b.dom) = .ok B ∧ InItv B 0 := by
  unfold truncationBounds
  by_cases hz : q.isZeroTol tiny = true
  · rw [if_pos hz]
    exact ⟨_, rfl, le_rfl, le_rfl⟩
  · rw [if_neg hz]
    have hn : ∀ s ∈ q.p.syms, ∃ v, s = "d" ++ v := fun s h => (hs s h).elim (ha.names s) (hb.names s)
    have hv : ∀ v ∈ q.p.syms.map varName, v ∈ a.tpol.p.syms.map varName ∨ v ∈ b.tpol.p.syms.map varName := by
      intro v h
      obtain ⟨s, h1, rfl⟩ := List.mem_map.1 h
      exact (hs s h1).imp List.mem_map_of_mem List.mem_map_of_mem
    have hnd := nodup_varNames hq.wf.ndsyms hn
    have hl : ∀ {α : Type} (m : VMap α) (z : α) (v : String), v ∈ q.p.syms.map varName → v ∈ m.keys →
        (q.symbolSet.map fun v => (v, (m.lookup v).getD z)).lookup v = m.lookup v := by
      intro α m z v h1 h2
      obtain ⟨x, hx⟩ := VMap.lookup_isSome h2
      rw [hx]
      refine VMap.lookup_of_mem ?_ (List.mem_map.2 ⟨v, h1, by rw [hx]; rfl⟩)
      rw [List.map_map]
      simpa [Function.comp_def, symbolSet_eq] using hnd
    obtain ⟨B, h1, h2⟩ := getBounds_point (ord := ord) hord hq hn h62
      (exp := q.symbolSet.map fun v => (v, ((unionMap a.exp b.exp).lookup v).getD 0))
      (dom := q.symbolSet.map fun v => (v, ((unionMap a.dom b.dom).lookup v).getD ⟨0, 0⟩))
      (fun v h => by
        obtain ⟨I, x, e1, e2, e3⟩ := lookup_union ha hb hc (hv v h)
        exact ⟨I, x, by rw [hl _ _ v h (mem_keys_of_lookup e1), e1], by rw [hl _ _ v h (mem_keys_of_lookup e2), e2], e3⟩)
    rw [h0] at h2
    exact ⟨B, h1, h2⟩

end Bounds

/-- The expansion point, by symbol. -/
abbrev pt (E : String → ℝ) : String → ℝ := fun s => E (varName s)

/-- `t` is a Taylor model over the domain `D` around `E`, its polynomial the Taylor polynomial of order `m` of `F`, 0 in its remainder. -/
structure Centred (m : ℕ) (E : String → ℝ) (D : String → Itv ℝ) (F : (String → ℝ) → ℝ) (t : TM ℝ) : Prop where
  wf : t.WF
  exp : ∀ e ∈ t.exp, e.2 = E e.1
  dom : ∀ e ∈ t.dom, e.2 = D e.1
  good : Good m (fun (_ : Unit) => pt E) (fun _ => F) t.tpol
  zero : InItv t.rem 0

variable {m : ℕ} {E : String → ℝ} {D : String → Itv ℝ} {F G : (String → ℝ) → ℝ} {t u r : TM ℝ} {ord : List String → List String}

theorem Centred.val (h : Centred m E D F t) : F (pt E) = coeff 0 (t.tpol.toMv () : MvPolynomial String ℝ) := (h.good.taylor ()).val

theorem Centred.order_le (h : Centred m E D F t) : t.order ≤ m := h.wf.order ▸ h.good.le

theorem Centred.compatible (h : Centred m E D F t) (h' : Centred m E D G u) : Compatible t u :=
  ⟨fun e he f hf hef => by rw [h.exp e he, h'.exp f hf, hef], fun e he f hf hef => by rw [h.dom e he, h'.dom f hf, hef]⟩

theorem Good.congr {p : GDual ℝ} (h : Good m (fun (_ : Unit) => pt E) (fun _ => F) p) (hFG : F =ᶠ[𝓝 (pt E)] G) :
    Good m (fun (_ : Unit) => pt E) (fun _ => G) p := ⟨h.valid, h.le, h.order, fun i => (h.taylor i).congr_fun hFG⟩

theorem Centred.congr (h : Centred m E D F t) (hFG : F =ᶠ[𝓝 (pt E)] G) : Centred m E D G t :=
  ⟨h.wf, h.exp, h.dom, Good.congr h.good hFG, h.zero⟩

theorem Centred.congr' (h : Centred m E D F t) (hFG : ∀ x, F x = G x) : Centred m E D G t := h.congr (Eventually.of_forall hFG)

theorem Centred.cont (h : Centred m E D F t) : ContinuousAt F (pt E) := (h.good.taylor ()).cont

/-- Bounds over the domain of `t` contain the constant term. -/
theorem Centred.getBounds_ok (hord : ∀ l, (ord l).Perm l) (h : Centred m E D F t) {q : GDual ℝ} (hq : q.Valid) (hs : q.p.syms = t.tpol.p.syms)
    (ho : q.order ≤ 62) : ∃ B, getBounds ord q t.exp t.dom = .ok B ∧ InItv B (coeff 0 (q.toMv () : MvPolynomial String ℝ)) :=
  getBounds_point hord hq (by rw [hs]; exact h.wf.names) ho (by rw [hs]; exact fun v hv => h.wf.lookup hv)

theorem Centred.bounds_ok (hord : ∀ l, (ord l).Perm l) (hm : m ≤ 62) (h : Centred m E D F t) :
    ∃ B, t.bounds ord = .ok B ∧ InItv B (F (pt E)) := by
  rw [h.val]
  exact h.getBounds_ok hord h.wf.valid rfl (h.good.le.trans hm)

theorem Centred.constantCf (h : Centred m E D F t) : t.tpol.constantCf = .ok (F (pt E)) := by
  obtain ⟨c, hc⟩ := GDual.constantCf_isOk t.tpol
  have : c = coeff 0 (t.tpol.toMv () : MvPolynomial String ℝ) := GDual.lane_constantCf (ι := Unit) (K := ℝ) h.wf.valid hc ()
  rw [hc, this, h.val]

/-- The common start of the functions. -/
theorem Centred.rest (hord : ∀ l, (ord l).Perm l) (hm : m ≤ 62) (h : Centred m E D F t) :
    ∃ B, getBounds ord (t.tpol.subGS (F (pt E))) t.exp t.dom = .ok B ∧ InItv B 0 := by
  have hv := GDual.Valid.subGS (ι := Unit) (K := ℝ) (F (pt E)) h.wf.valid
  obtain ⟨B, h1, h2⟩ := h.getBounds_ok hord hv rfl (h.good.le.trans hm)
  refine ⟨B, h1, ?_⟩
  have e : coeff 0 ((t.tpol.subGS (F (pt E))).toMv () : MvPolynomial String ℝ) = 0 := by
    rw [GDual.toMv_subGS (ι := Unit) (K := ℝ) (F (pt E)) h.wf.valid (), coeff_sub, ← h.val, coeff_C, if_pos rfl]
    exact sub_self _
  rwa [e] at h2

theorem Centred.prologue (hord : ∀ l, (ord l).Perm l) (hm : m ≤ 62) (h : Centred m E D F t) :
    ∃ B, TM.prologue ord t = .ok (F (pt E), B, t.order) ∧ InItv B 0 := by
  obtain ⟨B, h1, h2⟩ := h.rest hord hm
  refine ⟨B.add t.rem, ?_, Itv.zero_add h2 h.zero⟩
  unfold TM.prologue
  rw [bind_ok h.constantCf, bind_ok h1, h.wf.order]
  rfl

theorem Centred.above (hord : ∀ l, (ord l).Perm l) (hm : m ≤ 62) (h : Centred m E D F t) {l : ℝ} {x : Unit} (hr : requireAbove ord t l = .ok x) :
    l ≤ F (pt E) := by
  obtain ⟨B, h1, h2⟩ := h.bounds_ok hord hm
  unfold requireAbove at hr
  rw [bind_ok h1] at hr
  split_ifs at hr with hl
  have h3 := h2.1
  have h4 := h.zero.1
  change l ≤ B.lo + t.rem.lo at hl
  linarith

/-- A polynomial with the symbols of `t`. -/
theorem Centred.make (h : Centred m E D F t) {p : GDual ℝ} {rem : Itv ℝ} (hs : p.p.syms = t.tpol.p.syms)
    (hg : Good m (fun (_ : Unit) => pt E) (fun _ => G) p) (h0 : InItv rem 0) :
    ∃ r, TM.make p rem t.exp t.dom = .ok r ∧ Centred m E D G r ∧ r.order = p.order := by
  obtain ⟨r, r1, r2, r3, r4, r5, r6, r7⟩ := remake h.wf hg.valid hs (h0.1.trans h0.2)
  refine ⟨r, r1, ⟨r2, ?_, ?_, ?_, ?_⟩, r3⟩
  · rw [r6]; exact h.exp
  · rw [r7]; exact h.dom
  · rw [r4]; exact hg
  · rw [r5]; exact h0

/-- The same with trimmed maps. -/
theorem Centred.remap (h : Centred m E D F t) {p : GDual ℝ} {rem : Itv ℝ} (hs : p.p.syms = t.tpol.p.syms)
    (hg : Good m (fun (_ : Unit) => pt E) (fun _ => G) p) (h0 : InItv rem 0) :
    ∃ r, (∀ ne nd, trimMap p.symbolSet t.exp = .ok ne → trimMap p.symbolSet t.dom = .ok nd → TM.make p rem ne nd = .ok r) ∧
      Centred m E D G r ∧ r.order = p.order := by
  have hn : ∀ s ∈ p.p.syms, ∃ v, s = "d" ++ v := by rw [hs]; exact h.wf.names
  have hnd := nodup_varNames hg.valid.wf.ndsyms hn
  have he : ∀ v ∈ p.p.syms.map varName, v ∈ t.exp.keys := fun v h' => h.wf.expKeys.mem_iff.2 (by rwa [hs] at h')
  have hd : ∀ v ∈ p.p.syms.map varName, v ∈ t.dom.keys := fun v h' => h.wf.domKeys.mem_iff.2 (by rwa [hs] at h')
  obtain ⟨ne, nd, t1, t2, -, t4⟩ := retrim h.wf hg.valid hs
  obtain ⟨r, r1, r2, r3, r4, r5, r6, r7⟩ := t4 rem (h0.1.trans h0.2)
  have e1 := trimMap_ok hnd he
  have e2 := trimMap_ok hnd hd
  rw [← symbolSet_eq] at e1 e2
  have i1 := e1
  have i2 := e2
  rw [t1] at e1
  rw [t2] at e2
  injection e1 with e1
  injection e2 with e2
  refine ⟨r, fun ne' nd' h1 h2 => ?_, ⟨r2, fun e he => ?_, fun e he => ?_, by rw [r4]; exact hg, by rw [r5]; exact h0⟩, r3⟩
  · rw [t1] at h1
    rw [t2] at h2
    injection h1 with h1
    injection h2 with h2
    subst h1 h2
    exact r1
  · rw [r6, e1] at he
    exact h.exp e (VMap.mem_of_lookup (VMap.mem_pick.1 he).2)
  · have : r.dom = nd := by
      unfold TM.make at r1
      obtain ⟨_, -, r1⟩ := bind_ok_iff.1 r1
      injection r1 with r1
      rw [← r1]
    rw [this, e2] at he
    exact h.dom e (VMap.mem_of_lookup (VMap.mem_pick.1 he).2)

theorem Centred.fn {f : GDual ℝ → Res (GDual ℝ)} {g : ℝ → ℝ} {dom : ℝ → Prop}
    (hf : ∀ d : GDual ℝ, d.Valid → d.order ≤ m → (∀ i : Unit, dom (coeff 0 (d.toMv i : MvPolynomial String ℝ))) →
      ∃ r, f d = .ok r ∧ IsLift (fun _ : Unit => g) d r) (h : Centred m E D F t) (hdom : dom (F (pt E))) :
    ∃ p, f t.tpol = .ok p ∧ p.order = t.order ∧ Good m (fun (_ : Unit) => pt E) (fun _ x => g (F x)) p := by
  obtain ⟨p, p1, p2⟩ := Good.fn (f := f) (g := fun _ => g) (dom := fun _ => dom) (fun d h1 h2 h3 => by
    obtain ⟨r, r1, r2⟩ := hf d h1 h2 h3
    exact ⟨r, r1, r2.w⟩) h.good fun _ => hdom
  obtain ⟨p', p3, p4⟩ := hf t.tpol h.wf.valid h.good.le fun _ => by rw [← h.val]; exact hdom
  rw [p1] at p3
  injection p3 with p3
  subst p3
  exact ⟨p, p1, by rw [h.wf.order]; exact p4.order, p2⟩

theorem Centred.ofConst (c : ℝ) : Centred m E D (fun _ => c) (ofConst c) :=
  ⟨⟨GDual.valid_ofCf c, fun _ hs => absurd hs List.not_mem_nil, rfl, rfl, .nil, .nil, fun _ he => absurd he List.not_mem_nil, le_rfl⟩,
    fun _ he => absurd he List.not_mem_nil, fun _ he => absurd he List.not_mem_nil, Good.const c, le_rfl, le_rfl⟩

/-! ### Sums and multiples -/

theorem Centred.merge (ht : Centred m E D F t) (hu : Centred m E D G u) {H : (String → ℝ) → ℝ} {p : GDual ℝ}
    (hs : ∀ s ∈ p.p.syms, s ∈ t.tpol.p.syms ∨ s ∈ u.tpol.p.syms) (hg : Good m (fun (_ : Unit) => pt E) (fun _ => H) p) {rem : Itv ℝ} (h0 : InItv rem 0) :
    ∃ ne nd r, trimMap p.symbolSet (unionMap t.exp u.exp) = .ok ne ∧ trimMap p.symbolSet (unionMap t.dom u.dom) = .ok nd ∧
      TM.make p rem ne nd = .ok r ∧ Centred m E D H r ∧ r.order = p.order := by
  obtain ⟨ne, nd, h1, h2, h3, -⟩ := merged ht.wf hu.wf (ht.compatible hu) hg.valid hs (h0.1.trans h0.2)
  refine ⟨ne, nd, _, h1, h2, (make_wf h3).1, ⟨(make_wf h3).2, fun e he => ?_, fun e he => ?_, hg, h0⟩, rfl⟩
  · exact (mem_trimmed h1 e he).elim (ht.exp e) (hu.exp e)
  · exact (mem_trimmed h2 e he).elim (ht.dom e) (hu.dom e)

theorem Centred.add (ht : Centred m E D F t) (hu : Centred m E D G u) :
    ∃ r, TM.add t u = .ok r ∧ Centred m E D (fun x => F x + G x) r ∧ r.order = max t.order u.order := by
  obtain ⟨ne, nd, r, h1, h2, h3, h4, h5⟩ := ht.merge hu (p := t.tpol.add u.tpol) (fun s hs => mem_mergeSyms.1 hs) (ht.good.add hu.good)
    (Itv.zero_add ht.zero hu.zero)
  refine ⟨r, ?_, h4, h5.trans ?_⟩
  · unfold TM.add
    rw [bind_ok (ht.compatible hu).commonExp, bind_ok (ht.compatible hu).commonDom]
    simp only
    rw [bind_ok h1, bind_ok h2, h3]
  · rw [ht.wf.order, hu.wf.order]
    rfl

theorem Centred.sub (ht : Centred m E D F t) (hu : Centred m E D G u) :
    ∃ r, TM.sub t u = .ok r ∧ Centred m E D (fun x => F x - G x) r ∧ r.order = max t.order u.order := by
  have h0 := Itv.mem_sub ht.zero hu.zero
  rw [sub_zero] at h0
  obtain ⟨ne, nd, r, h1, h2, h3, h4, h5⟩ := ht.merge hu (p := t.tpol.sub u.tpol) (fun s hs => mem_mergeSyms.1 hs) (ht.good.sub hu.good) h0
  refine ⟨r, ?_, h4, h5.trans ?_⟩
  · unfold TM.sub
    rw [bind_ok (ht.compatible hu).commonExp, bind_ok (ht.compatible hu).commonDom]
    simp only
    rw [bind_ok h1, bind_ok h2, h3]
  · rw [ht.wf.order, hu.wf.order]
    rfl

theorem Centred.scalar {f : GDual ℝ → GDual ℝ} {g : ℝ → ℝ} (hf : ∀ d : GDual ℝ, d.Valid → IsLift (fun _ : Unit => g) d (f d)) (h : Centred m E D F t)
    (hs : (f t.tpol).p.syms = t.tpol.p.syms) {rem : Itv ℝ} (h0 : InItv rem 0) :
    ∃ r, TM.make (f t.tpol) rem t.exp t.dom = .ok r ∧ Centred m E D (fun x => g (F x)) r ∧ r.order = t.order := by
  obtain ⟨p, p1, p2, p3⟩ := h.fn (f := fun d => .ok (f d)) (g := g) (dom := fun _ => True) (fun d hd _ _ => ⟨_, rfl, hf d hd⟩) trivial
  injection p1 with p1
  subst p1
  obtain ⟨r, r1, r2, r3⟩ := h.make hs p3 h0
  exact ⟨r, r1, r2, r3.trans p2⟩

theorem Centred.addST (c : ℝ) (h : Centred m E D F t) : ∃ r, TM.addST c t = .ok r ∧ Centred m E D (fun x => c + F x) r ∧ r.order = t.order :=
  h.scalar (f := GDual.addSG c) (g := fun x => c + x) (fun _ hd => (IsLift.id hd).addSG c)
    (GDual.HasSyms.addSG h.wf.valid.wf.sorted (a := t.tpol) rfl c) h.zero

theorem Centred.addTS (h : Centred m E D F t) (c : ℝ) : ∃ r, TM.addTS t c = .ok r ∧ Centred m E D (fun x => F x + c) r ∧ r.order = t.order :=
  h.scalar (f := fun d => d.addGS c) (g := fun x => x + c) (fun _ hd => (IsLift.id hd).addGS c) (syms_const_add h.wf.valid.wf.sorted) h.zero

theorem Centred.subST (c : ℝ) (h : Centred m E D F t) : ∃ r, TM.subST c t = .ok r ∧ Centred m E D (fun x => c - F x) r ∧ r.order = t.order :=
  h.scalar (f := GDual.subSG c) (g := fun x => c - x) (fun _ hd => (IsLift.id hd).subSG c)
    (GDual.HasSyms.subSG h.wf.valid.wf.sorted (a := t.tpol) rfl c) h.zero

theorem Centred.subTS (h : Centred m E D F t) (c : ℝ) : ∃ r, TM.subTS t c = .ok r ∧ Centred m E D (fun x => F x - c) r ∧ r.order = t.order :=
  h.scalar (f := fun d => d.subGS c) (g := fun x => x - c) (fun _ hd => (IsLift.id hd).subGS c) rfl h.zero

theorem Centred.mulST (c : ℝ) (h : Centred m E D F t) : ∃ r, TM.mulST c t = .ok r ∧ Centred m E D (fun x => c * F x) r ∧ r.order = t.order :=
  h.scalar (f := GDual.mulSG c) (g := fun x => c * x) (fun _ hd => (IsLift.id hd).mulSG c)
    (GDual.HasSyms.mulSG h.wf.valid.wf.sorted (a := t.tpol) rfl c) (Itv.mul_zero h.zero _)

theorem Centred.mulTS (h : Centred m E D F t) (c : ℝ) : ∃ r, TM.mulTS t c = .ok r ∧ Centred m E D (fun x => F x * c) r ∧ r.order = t.order :=
  h.scalar (f := fun d => d.mulGS c) (g := fun x => x * c) (fun _ hd => (IsLift.id hd).mulGS c)
    (GDual.HasSyms.mulGS h.wf.valid.wf.sorted (a := t.tpol) rfl c) (Itv.zero_mul h.zero _)

theorem Centred.neg (h : Centred m E D F t) : ∃ r, TM.neg t = .ok r ∧ Centred m E D (fun x => -F x) r ∧ r.order = t.order := by
  obtain ⟨r, h1, h2, h3⟩ := h.subST 0
  exact ⟨r, h1, h2.congr' fun x => zero_sub _, h3⟩

/-! ### Product -/

/-- The product of two models, not both of order 0. -/
theorem Centred.mul (hord : ∀ l, (ord l).Perm l) (hm : m ≤ 31) (ht : Centred m E D F t) (hu : Centred m E D G u) (ho : 1 ≤ t.order + u.order) :
    ∃ r, TM.mul ord t u = .ok r ∧ Centred m E D (fun x => F x * G x) r ∧
      (r.order = max t.order u.order ∨ (t.tpol.toMv () : MvPolynomial String ℝ) = 0 ∨ (u.tpol.toMv () : MvPolynomial String ℝ) = 0) := by
  have hu73 : (73 : ℕ) < UINT_MAX - 10 := by decide
  obtain ⟨z, hz⟩ : ∃ t, GDual.mk3 (0 : ℝ) "irrelevant" 0 = .ok t :=
    ⟨_, GDual.mk3_ok.2 ⟨by omega, ⟨'i', by decide, by decide⟩, rfl⟩⟩
  by_cases hzero : (t.tpol.toMv () : MvPolynomial String ℝ) = 0 ∨ (u.tpol.toMv () : MvPolynomial String ℝ) = 0
  · refine ⟨TM.ofConst 0, ?_, ?_, .inr hzero⟩
    · unfold TM.mul
      rw [bind_ok hz, if_pos]
      rw [Bool.or_eq_true, eq_zero_iff ht.wf.valid hz, eq_zero_iff hu.wf.valid hz]
      exact hzero
    · have h1 := Centred.ofConst (m := m) (E := E) (D := D) 0
      refine ⟨h1.wf, h1.exp, h1.dom, ⟨h1.good.valid, h1.good.le, h1.good.order, fun i => ?_⟩, h1.zero⟩
      have h2 := (ht.good.taylor i).mul (hu.good.taylor i)
      have h3 : (t.tpol.toMv i * u.tpol.toMv i : MvPolynomial String ℝ) = (TM.ofConst (0 : ℝ)).tpol.toMv i := by
        have : ((TM.ofConst (0 : ℝ)).tpol.toMv i : MvPolynomial String ℝ) = 0 := by
          change (GDual.ofCf (0 : ℝ)).toMv i = _
          rw [GDual.toMv_ofCf]
          exact map_zero _
        rw [this]
        rcases hzero with h | h
        · exact mul_eq_zero_of_left h _
        · exact mul_eq_zero_of_right _ h
      rwa [h3] at h2
  push Not at hzero
  have hao := ht.wf.order
  have hbo := hu.wf.order
  have hal := ht.order_le
  have hbl := hu.order_le
  obtain ⟨h1, e1, v1, o1, p1, s1⟩ := increasedOrder_spec ht.wf.valid (n := t.tpol.order + u.tpol.order) (by omega) (by omega) (by omega)
  obtain ⟨h2, e2, v2, o2, p2, s2⟩ := increasedOrder_spec hu.wf.valid (n := t.tpol.order + u.tpol.order) (by omega) (by omega) (by omega)
  have vq := v1.mul v2
  have oq : (h1.mul h2).order = t.tpol.order + u.tpol.order := by
    change max h1.order h2.order = _
    rw [o1, o2, max_self]
  have pq : ((h1.mul h2).toMv () : MvPolynomial String ℝ) = t.tpol.toMv () * u.tpol.toMv () := by
    refine Spec.EqUpTo.eq_of_degLE (m := t.tpol.order + u.tpol.order) ?_ ?_ ?_
    · have := GDual.toMv_mul (K := ℝ) v1 v2 ()
      rw [o1, o2, max_self, p1, p2] at this
      exact this
    · have := GDual.Valid.degLE (ι := Unit) (K := ℝ) vq ()
      rwa [oq] at this
    · exact degLE_mul (GDual.Valid.degLE (ι := Unit) (K := ℝ) ht.wf.valid ()) (GDual.Valid.degLE (ι := Unit) (K := ℝ) hu.wf.valid ())
  have sq : ∀ s ∈ (h1.mul h2).p.syms, s ∈ t.tpol.p.syms ∨ s ∈ u.tpol.p.syms := fun s hs =>
    (mem_mergeSyms.1 (show s ∈ mergeSyms h1.p.syms h2.p.syms from hs)).imp (s1 s) (s2 s)
  obtain ⟨g, eg, vg, og, sg, cg⟩ := agreeable_spec vq (n := max t.tpol.order u.tpol.order) (by rw [oq]; omega)
  have ve := GDual.Valid.sub (ι := Unit) (K := ℝ) vq vg
  have ce : coeff 0 (((h1.mul h2).sub g).toMv () : MvPolynomial String ℝ) = 0 := by
    rw [GDual.toMv_sub vq vg, coeff_sub, cg, if_pos (by simp), sub_self]
  have se : ∀ s ∈ ((h1.mul h2).sub g).p.syms, s ∈ t.tpol.p.syms ∨ s ∈ u.tpol.p.syms := fun s hs => by
    rcases mem_mergeSyms.1 (show s ∈ mergeSyms (h1.mul h2).p.syms g.p.syms from hs) with h | h
    · exact sq s h
    · rw [sg] at h
      exact sq s h
  have hgood : Good m (fun (_ : Unit) => pt E) (fun _ x => F x * G x) g := by
    rcases order_cases ht.good hu.good with ho | ⟨hc1, hc2⟩
    · refine ⟨vg, by omega, .inl (og.trans ho), fun i => ((ht.good.taylor i).mul (hu.good.taylor i)).congr_poly fun e he => ?_⟩
      rw [cg, if_pos (by omega), pq]
    · have hgc : (g.toMv () : MvPolynomial String ℝ) = t.tpol.toMv () * u.tpol.toMv () := by
        ext e
        rw [cg, pq]
        split_ifs with he
        · rfl
        · rw [hc1 (), hc2 (), ← map_mul, coeff_C, if_neg]
          rintro rfl
          simp at he
      refine ⟨vg, by omega, .inr fun i => ?_, fun i => ?_⟩
      · rw [hgc, hc1 (), hc2 (), ← map_mul]
        simp
      · rw [hgc]
        exact (ht.good.taylor ()).mul (hu.good.taylor ())
  obtain ⟨Eb, E1, E2⟩ := truncationBounds_zero hord ht.wf hu.wf (ht.compatible hu) ve
    (by
      change max (h1.mul h2).order g.order ≤ 62
      rw [oq, og]
      omega) se ce
  obtain ⟨B1, F1, -⟩ := ht.bounds_ok hord (by omega)
  obtain ⟨B2, G1, -⟩ := hu.bounds_ok hord (by omega)
  obtain ⟨ne, nd, r, T1, T2, T3, T4, T5⟩ := ht.merge hu (fun s hs => sq s (by rw [← sg]; exact hs)) hgood
    (rem := ((Eb.add (B1.mul u.rem)).add (t.rem.mul B2)).add (t.rem.mul u.rem))
    (Itv.zero_add (Itv.zero_add (Itv.zero_add E2 (Itv.mul_zero hu.zero _)) (Itv.zero_mul ht.zero _)) (Itv.zero_mul ht.zero _))
  refine ⟨r, ?_, T4, .inl (by rw [T5, og, hao, hbo])⟩
  unfold TM.mul
  rw [bind_ok hz]
  have hcond : (t.tpol.eq z || u.tpol.eq z) = false := by
    rw [Bool.or_eq_false_iff, Bool.eq_false_iff, Bool.eq_false_iff, Ne, Ne, eq_zero_iff ht.wf.valid hz, eq_zero_iff hu.wf.valid hz]
    exact hzero
  rw [hcond, if_neg (by simp), bind_ok (ht.compatible hu).commonExp, bind_ok (ht.compatible hu).commonDom]
  simp only [GDual.getOrder]
  rw [bind_ok e1, bind_ok e2, bind_ok eg, bind_ok T1, bind_ok T2, bind_ok E1, bind_ok F1, bind_ok G1, T3]

/-! ### Quotient -/

/-- When `s / t` returns, the value is not 0 and the result is centred. -/
theorem Centred.divST (hord : ∀ l, (ord l).Perm l) (hm : m ≤ 62) (c : ℝ) (h : Centred m E D F t) (hr : TM.divST ord c t = .ok r) :
    F (pt E) ≠ 0 ∧ Centred m E D (fun x => c / F x) r ∧ r.order = t.order := by
  obtain ⟨b, b1, b2⟩ := h.bounds_ok hord hm
  obtain ⟨B, B1, B2⟩ := h.rest hord hm
  unfold TM.divST at hr
  rw [bind_ok b1] at hr
  split_ifs at hr with hz
  have hne : F (pt E) ≠ 0 := by
    intro h0
    rw [h0] at b2
    have := Itv.zero_add b2 h.zero
    apply hz
    unfold Itv.zeroIn
    simp only [Bool.and_eq_true, decide_eq_true_eq]
    exact this
  rw [bind_ok h.constantCf] at hr
  simp only at hr
  rw [bind_ok B1] at hr
  obtain ⟨num, n1, hr⟩ := bind_ok_iff.1 hr
  obtain ⟨q, -, hr⟩ := bind_ok_iff.1 hr
  obtain ⟨den, -, hr⟩ := bind_ok_iff.1 hr
  obtain ⟨p, p1, hr⟩ := bind_ok_iff.1 hr
  obtain ⟨p', p2, p3, p4⟩ := h.fn (f := GDual.divSG c) (g := fun x => c / x) (dom := fun x => x ≠ 0) (fun d hd _ hdom => (IsLift.id hd).divSG c hdom) hne
  rw [p1] at p2
  injection p2 with p2
  subst p2
  have hnum : InItv num 0 := Itv.zero_div (Itv.mul_zero (Itv.zero_pow (Itv.zero_add B2 h.zero) (Nat.succ_ne_zero _)) _) n1
  obtain ⟨r', r1, r2, r3⟩ := h.make (GDual.HasSyms.divSG h.wf.valid.wf.sorted (a := t.tpol) rfl p1) p4 (Itv.zero_mul hnum den)
  rw [hr] at r1
  injection r1 with r1
  subst r1
  exact ⟨hne, r2, r3.trans p3⟩

theorem Centred.div (hord : ∀ l, (ord l).Perm l) (hm : m ≤ 31) (ht : Centred m E D F t) (hu : Centred m E D G u) (ho : 1 ≤ t.order + u.order)
    (hr : TM.div ord t u = .ok r) : G (pt E) ≠ 0 ∧ Centred m E D (fun x => F x / G x) r := by
  unfold TM.div at hr
  obtain ⟨q, q1, hr⟩ := bind_ok_iff.1 hr
  obtain ⟨h1, h2, h3⟩ := hu.divST hord (by omega) 1 q1
  obtain ⟨r', r1, r2, -⟩ := ht.mul hord hm h2 (by omega)
  rw [hr] at r1
  injection r1 with r1
  subst r1
  exact ⟨h1, r2.congr' fun x => by rw [mul_one_div]⟩

theorem Centred.divTS (h : Centred m E D F t) {c : ℝ} (hc : c ≠ 0) : ∃ r, TM.divTS t c = .ok r ∧ Centred m E D (fun x => F x / c) r ∧ r.order = t.order := by
  obtain ⟨p, p1, p2, p3⟩ := h.fn (f := fun d => d.divGS c) (g := fun x => x / c) (dom := fun _ => True)
    (fun d hd _ _ => (IsLift.id (ι := Unit) hd).divGS (c := c) fun _ => hc) trivial
  have hz : (Itv.point c).zeroIn = false := Itv.zeroIn_false_iff.2 ((lt_or_gt_of_ne hc).symm)
  obtain ⟨q, q1⟩ : ∃ q, sdiv t.rem c = .ok q := by
    unfold sdiv Itv.div
    rw [Itv.inv_ok hz]
    exact ⟨_, rfl⟩
  obtain ⟨r, r1, r2, r3⟩ := h.make (GDual.HasSyms.divGS h.wf.valid.wf.sorted (a := t.tpol) rfl p1) p3 (Itv.zero_div h.zero q1)
  refine ⟨r, ?_, r2, r3.trans p2⟩
  unfold TM.divTS
  rw [bind_ok p1, bind_ok q1, r1]

/-! ### Functions of a real variable -/

theorem Centred.rexp (hord : ∀ l, (ord l).Perm l) (hm : m ≤ 62) (h : Centred m E D F t) :
    ∃ r, TM.rexp ord t = .ok r ∧ Centred m E D (fun x => Real.exp (F x)) r ∧ r.order = t.order := by
  obtain ⟨B, B1, B2⟩ := h.prologue hord hm
  obtain ⟨p, p1, p2, p3⟩ := h.fn (f := GDual.exp) (g := Real.exp) (dom := fun _ => True) (fun d hd _ hdom => computes_exp.lift d hd hdom) trivial
  have hk := h.order_le
  obtain ⟨r, r1, r2, r3⟩ := h.make (GDual.HasSyms.exp h.wf.valid.wf.sorted (d := t.tpol) rfl p1) p3
    (rem := (smul (Real.exp (F (pt E)) * (1 / ((t.order + 1).factorial : ℝ))) (B.pow (t.order + 1))).mul (B.mul ⟨0, 1⟩).rexp)
    (Itv.zero_mul (Itv.mul_zero (Itv.zero_pow B2 (Nat.succ_ne_zero _)) _) _)
  refine ⟨r, ?_, r2, r3.trans p2⟩
  unfold TM.rexp
  rw [bind_ok B1]
  simp only
  rw [bind_ok (factorial_ok (by omega : t.order + 1 ≤ 170)), bind_ok p1, r1]

theorem Centred.trig (hord : ∀ l, (ord l).Perm l) (hm : m ≤ 62) (h : Centred m E D F t) {fn : GDual ℝ → Res (GDual ℝ)} {g : ℝ → ℝ}
    (hf : ∀ d : GDual ℝ, d.Valid → ∃ r, fn d = .ok r ∧ IsLift (fun _ : Unit => g) d r)
    (hs : ∀ p, fn t.tpol = .ok p → p.p.syms = t.tpol.p.syms) (cond : ℕ → Itv ℝ → Itv ℝ) :
    ∃ r, TM.trig fn cond ord t = .ok r ∧ Centred m E D (fun x => g (F x)) r ∧ r.order = t.order := by
  obtain ⟨B, B1, B2⟩ := h.prologue hord hm
  obtain ⟨p, p1, p2, p3⟩ := h.fn (f := fn) (g := g) (dom := fun _ => True) (fun d hd _ _ => hf d hd) trivial
  have hk := h.order_le
  obtain ⟨r, r1, r2, r3⟩ := h.make (hs p p1) p3 (rem := trigRem ((t.order + 1).factorial : ℝ) (cond t.order (thetaArg (F (pt E)) B)) B t.order)
    (Itv.mul_zero (Itv.zero_pow B2 (Nat.succ_ne_zero _)) _)
  refine ⟨r, ?_, r2, r3.trans p2⟩
  unfold TM.trig
  rw [bind_ok B1]
  simp only
  rw [bind_ok (factorial_ok (by omega : t.order + 1 ≤ 170)), bind_ok p1, r1]

theorem Centred.rsin (hord : ∀ l, (ord l).Perm l) (hm : m ≤ 62) (h : Centred m E D F t) :
    ∃ r, TM.rsin ord t = .ok r ∧ Centred m E D (fun x => Real.sin (F x)) r ∧ r.order = t.order :=
  h.trig hord hm (fun d hd => computes_sin.lift d hd fun _ => trivial) (fun _ hp => GDual.HasSyms.sin h.wf.valid.wf.sorted (d := t.tpol) rfl hp) _

theorem Centred.rcos (hord : ∀ l, (ord l).Perm l) (hm : m ≤ 62) (h : Centred m E D F t) :
    ∃ r, TM.rcos ord t = .ok r ∧ Centred m E D (fun x => Real.cos (F x)) r ∧ r.order = t.order :=
  h.trig hord hm (fun d hd => computes_cos.lift d hd fun _ => trivial) (fun _ hp => GDual.HasSyms.cos h.wf.valid.wf.sorted (d := t.tpol) rfl hp) _

theorem Centred.rsinh (hord : ∀ l, (ord l).Perm l) (hm : m ≤ 62) (h : Centred m E D F t) :
    ∃ r, TM.rsinh ord t = .ok r ∧ Centred m E D (fun x => Real.sinh (F x)) r ∧ r.order = t.order :=
  h.trig hord hm (fun d hd => computes_sinh.lift d hd fun _ => trivial) (fun _ hp => GDual.HasSyms.sinh h.wf.valid.wf.sorted (d := t.tpol) rfl hp) _

theorem Centred.rcosh (hord : ∀ l, (ord l).Perm l) (hm : m ≤ 62) (h : Centred m E D F t) :
    ∃ r, TM.rcosh ord t = .ok r ∧ Centred m E D (fun x => Real.cosh (F x)) r ∧ r.order = t.order :=
  h.trig hord hm (fun d hd => computes_cosh.lift d hd fun _ => trivial) (fun _ hp => GDual.HasSyms.cosh h.wf.valid.wf.sorted (d := t.tpol) rfl hp) _

theorem Centred.rtan (hord : ∀ l, (ord l).Perm l) (hm : m ≤ 31) (h : Centred m E D F t) (ho : 1 ≤ t.order) (hr : TM.rtan ord t = .ok r) :
    Real.cos (F (pt E)) ≠ 0 ∧ Centred m E D (fun x => Real.tan (F x)) r := by
  obtain ⟨s, s1, s2, s3⟩ := h.rsin hord (by omega)
  obtain ⟨c, c1, c2, c3⟩ := h.rcos hord (by omega)
  unfold TM.rtan at hr
  rw [bind_ok s1, bind_ok c1] at hr
  obtain ⟨r1, r2⟩ := s2.div hord hm c2 (by omega) hr
  exact ⟨r1, r2.congr' fun x => (Real.tan_eq_sin_div_cos _).symm⟩

theorem Centred.rtanh (hord : ∀ l, (ord l).Perm l) (hm : m ≤ 31) (h : Centred m E D F t) (ho : 1 ≤ t.order) (hr : TM.rtanh ord t = .ok r) :
    Centred m E D (fun x => Real.tanh (F x)) r := by
  obtain ⟨s, s1, s2, s3⟩ := h.rsinh hord (by omega)
  obtain ⟨c, c1, c2, c3⟩ := h.rcosh hord (by omega)
  unfold TM.rtanh at hr
  rw [bind_ok s1, bind_ok c1] at hr
  exact (s2.div hord hm c2 (by omega) hr).2.congr' fun x => (Real.tanh_eq_sinh_div_cosh _).symm

theorem sdiv_zero {I q : Itv ℝ} (h : sdiv I 0 = .ok q) : False := by
  unfold sdiv Itv.div Itv.inv Itv.zeroIn Itv.point at h
  simp [Bind.bind, Except.bind] at h

theorem Centred.powHalf (hord : ∀ l, (ord l).Perm l) (hm : m ≤ 62) (h : Centred m E D F t) (hr : TM.powHalf ord t = .ok r) :
    0 < F (pt E) ∧ Centred m E D (fun x => √(F x)) r ∧ r.order = t.order := by
  obtain ⟨B, B1, B2⟩ := h.prologue hord hm
  have hr' := hr
  unfold TM.powHalf at hr
  rw [bind_ok B1] at hr
  simp only at hr
  obtain ⟨_, h1, hr⟩ := bind_ok_iff.1 hr
  obtain ⟨q, h2, hr⟩ := bind_ok_iff.1 hr
  have hpos : 0 < F (pt E) := lt_of_le_of_ne (h.above hord hm h1) fun h0 => by
    rw [← h0] at h2
    exact sdiv_zero h2
  obtain ⟨den, -, hr⟩ := bind_ok_iff.1 hr
  obtain ⟨f2, -, hr⟩ := bind_ok_iff.1 hr
  obtain ⟨f1, -, hr⟩ := bind_ok_iff.1 hr
  obtain ⟨num, n1, hr⟩ := bind_ok_iff.1 hr
  obtain ⟨rem, e1, hr⟩ := bind_ok_iff.1 hr
  obtain ⟨p, p1, hr⟩ := bind_ok_iff.1 hr
  obtain ⟨p', p2, p3, p4⟩ := h.fn (f := fun d => d.powQ (1 / 2)) (g := fun x => x ^ (((1 / 2 : ℚ) : ℚ) : ℝ)) (dom := fun x => 0 < x)
    (fun d hd _ hdom => GDual.powQ_series_lift hd (by norm_num) (fun h => absurd h.1 (by decide +kernel)) fun i => Or.inl (hdom i)) hpos
  rw [p1] at p2
  injection p2 with p2
  subst p2
  have hs : p.p.syms = t.tpol.p.syms := GDual.HasSyms.powQ h.wf.valid.wf.sorted (d := t.tpol) rfl p1
  obtain ⟨ne, nd, t1, t2, -, t4⟩ := retrim h.wf p4.valid hs
  have hrem : InItv rem 0 := Itv.zero_div (Itv.zero_mul (Itv.zero_div (Itv.mul_zero (Itv.zero_pow B2 (Nat.succ_ne_zero _)) _) n1) _) e1
  obtain ⟨r', r1, r2, r3, r4, r5, r6, r7⟩ := t4 rem (hrem.1.trans hrem.2)
  rw [bind_ok t1, bind_ok t2, r1] at hr
  injection hr with hr
  subst hr
  obtain ⟨w1, w2, w3, w4, w5⟩ := powHalf_wf h.wf (by rw [← h.val]; exact hpos) hr'
  refine ⟨hpos, ⟨w1, fun e he => h.exp e (w4 e he), fun e he => h.dom e (w5 e he), ?_, by rw [r5]; exact hrem⟩, w2⟩
  rw [r4]
  refine Good.congr p4 (Eventually.of_forall fun x => ?_)
  simp only
  rw [Real.sqrt_eq_rpow]
  norm_num

theorem Centred.powMinusHalf (hord : ∀ l, (ord l).Perm l) (hm : m ≤ 62) (h : Centred m E D F t) (hr : TM.powMinusHalf ord t = .ok r) :
    0 < F (pt E) ∧ Centred m E D (fun x => F x ^ (-(1 / 2) : ℝ)) r ∧ r.order = t.order := by
  obtain ⟨B, B1, B2⟩ := h.prologue hord hm
  unfold TM.powMinusHalf at hr
  rw [bind_ok B1] at hr
  simp only at hr
  obtain ⟨_, h1, hr⟩ := bind_ok_iff.1 hr
  obtain ⟨q, h2, hr⟩ := bind_ok_iff.1 hr
  have hpos : 0 < F (pt E) := lt_of_le_of_ne (h.above hord hm h1) fun h0 => by
    rw [← h0] at h2
    exact sdiv_zero h2
  obtain ⟨den, -, hr⟩ := bind_ok_iff.1 hr
  obtain ⟨f2, -, hr⟩ := bind_ok_iff.1 hr
  obtain ⟨f1, -, hr⟩ := bind_ok_iff.1 hr
  obtain ⟨num, n1, hr⟩ := bind_ok_iff.1 hr
  obtain ⟨rem, e1, hr⟩ := bind_ok_iff.1 hr
  obtain ⟨p, p1, hr⟩ := bind_ok_iff.1 hr
  obtain ⟨p', p2, p3, p4⟩ := h.fn (f := fun d => d.powQ (-(1 / 2))) (g := fun x => x ^ ((-(1 / 2 : ℚ) : ℚ) : ℝ)) (dom := fun x => 0 < x)
    (fun d hd _ hdom => GDual.powQ_series_lift hd (by norm_num) (fun h => absurd h.1 (by decide +kernel)) fun i => Or.inl (hdom i)) hpos
  rw [p1] at p2
  injection p2 with p2
  subst p2
  have hs : p.p.syms = t.tpol.p.syms := GDual.HasSyms.powQ h.wf.valid.wf.sorted (d := t.tpol) rfl p1
  have hrem : InItv rem 0 := Itv.zero_div (Itv.zero_mul (Itv.zero_div (Itv.mul_zero (Itv.zero_pow B2 (Nat.succ_ne_zero _)) _) n1) _) e1
  obtain ⟨r', r1, r2, r3⟩ := h.remap hs p4 hrem
  obtain ⟨ne, t1, hr⟩ := bind_ok_iff.1 hr
  obtain ⟨nd, t2, hr⟩ := bind_ok_iff.1 hr
  rw [r1 ne nd t1 t2] at hr
  injection hr with hr
  subst hr
  refine ⟨hpos, r2.congr' fun x => ?_, r3.trans p3⟩
  norm_num

theorem Centred.rlog (hord : ∀ l, (ord l).Perm l) (hm : m ≤ 62) (h : Centred m E D F t) (hr : TM.rlog ord t = .ok r) :
    0 < F (pt E) ∧ Centred m E D (fun x => Real.log (F x)) r ∧ r.order = t.order := by
  obtain ⟨B, B1, B2⟩ := h.prologue hord hm
  unfold TM.rlog at hr
  obtain ⟨_, h1, hr⟩ := bind_ok_iff.1 hr
  rw [bind_ok B1] at hr
  simp only at hr
  obtain ⟨num, n1, hr⟩ := bind_ok_iff.1 hr
  obtain ⟨q, h2, hr⟩ := bind_ok_iff.1 hr
  have hpos : 0 < F (pt E) := lt_of_le_of_ne (h.above hord hm h1) fun h0 => by
    rw [← h0] at h2
    exact sdiv_zero h2
  obtain ⟨den, -, hr⟩ := bind_ok_iff.1 hr
  obtain ⟨p, p1, hr⟩ := bind_ok_iff.1 hr
  obtain ⟨p', p2, p3, p4⟩ := h.fn (f := GDual.log) (g := Real.log) (dom := fun x => 0 < x) (fun d hd _ hdom => computes_log.lift d hd hdom) hpos
  rw [p1] at p2
  injection p2 with p2
  subst p2
  obtain ⟨r', r1, r2, r3⟩ := h.make (GDual.HasSyms.log h.wf.valid.wf.sorted (d := t.tpol) rfl p1) p4 (rem := num.mul (den.pow (t.order + 1)))
    (Itv.zero_mul (Itv.zero_div (Itv.mul_zero (Itv.zero_pow B2 (Nat.succ_ne_zero _)) _) n1) _)
  rw [hr] at r1
  injection r1 with r1
  subst r1
  exact ⟨hpos, r2, r3.trans p3⟩

/-! ### Integer powers -/

theorem Centred.square (hord : ∀ l, (ord l).Perm l) (hm : m ≤ 31) (h : Centred m E D F t) (ho : 1 ≤ t.order) :
    ∃ r, TM.powInt ord t 2 = .ok r ∧ Centred m E D (fun x => F x ^ 2) r := by
  obtain ⟨p, p1, p2, p3⟩ := h.mulST 1
  obtain ⟨r, r1, r2, -⟩ := p2.mul hord hm h (by omega)
  refine ⟨r, ?_, r2.congr' fun x => by ring⟩
  unfold TM.powInt
  rw [if_neg (by decide), if_neg (by decide), if_pos (by decide), bind_ok p1]
  change (do let q ← TM.mul ord p t; .ok q) = _
  rw [bind_ok r1]

theorem Centred.powNat (hord : ∀ l, (ord l).Perm l) (hm : m ≤ 31) (h : Centred m E D F t) (ho : 1 ≤ t.order) (n : ℕ) {p : TM ℝ}
    (hp : Centred m E D G p) : ∃ r, (List.range n).foldlM (fun (p : TM ℝ) (_ : ℕ) => TM.mul ord p t) p = .ok r ∧
      Centred m E D (fun x => G x * F x ^ n) r := by
  induction n with
  | zero => exact ⟨p, rfl, hp.congr' fun x => by ring⟩
  | succ n ih =>
    obtain ⟨q, q1, q2⟩ := ih
    obtain ⟨r, r1, r2, -⟩ := q2.mul hord hm h (by omega)
    refine ⟨r, ?_, r2.congr' fun x => by ring⟩
    rw [List.range_succ, List.foldlM_append, bind_ok q1]
    change (do let q ← TM.mul ord q t; .ok q) = _
    rw [bind_ok r1]

theorem Centred.powNeg (hord : ∀ l, (ord l).Perm l) (hm : m ≤ 31) (h : Centred m E D F t) (ho : 1 ≤ t.order) (n : ℕ) {p : TM ℝ}
    (hp : Centred m E D G p) (hr : (List.range n).foldlM (fun (p : TM ℝ) (_ : ℕ) => do
      let q ← TM.mulTS p 1
      TM.div ord q t) p = .ok r) : Centred m E D (fun x => G x / F x ^ n) r := by
  induction n generalizing r with
  | zero =>
    injection hr with hr
    subst hr
    exact hp.congr' fun x => by simp
  | succ n ih =>
    rw [List.range_succ, List.foldlM_append] at hr
    obtain ⟨q, q1, hr⟩ := bind_ok_iff.1 hr
    have hq := ih q1
    obtain ⟨q', e1, e2, -⟩ := hq.mulTS 1
    change (do let p ← (do let q' ← TM.mulTS q 1; TM.div ord q' t); .ok p) = _ at hr
    rw [bind_ok e1] at hr
    obtain ⟨p', h1, hr⟩ := bind_ok_iff.1 hr
    injection hr with hr
    subst hr
    exact (e2.div hord hm h (by omega) h1).2.congr' fun x => by rw [mul_one, div_div, pow_succ]

/-- `pow(tm, n)` for `n ≠ 0`. -/
theorem Centred.powInt (hord : ∀ l, (ord l).Perm l) (hm : m ≤ 31) (h : Centred m E D F t) (ho : 1 ≤ t.order) {n : ℤ} (hn : n ≠ 0)
    (hr : TM.powInt ord t n = .ok r) : (n < 0 → F (pt E) ≠ 0) ∧ Centred m E D (fun x => F x ^ n) r := by
  unfold TM.powInt at hr
  rw [if_neg hn] at hr
  split_ifs at hr with h1 h2
  · injection hr with hr
    subst hr h1
    exact ⟨fun h => absurd h (by decide), h.congr' fun x => (zpow_one _).symm⟩
  · refine ⟨fun h => absurd h (by omega), ?_⟩
    obtain ⟨p, p1, p2, p3⟩ := h.mulST 1
    rw [bind_ok p1] at hr
    obtain ⟨r', r1, r2⟩ := h.powNat hord hm ho (n - 1).toNat p2
    rw [hr] at r1
    injection r1 with r1
    subst r1
    refine r2.congr' fun x => ?_
    rw [one_mul, ← pow_succ']
    have : n = ((n - 1).toNat + 1 : ℕ) := by omega
    conv_rhs => rw [this]
    rw [zpow_natCast]
  · obtain ⟨p, p1, hr⟩ := bind_ok_iff.1 hr
    obtain ⟨e1, e2, -⟩ := h.divST hord (by omega) 1 p1
    refine ⟨fun _ => e1, (h.powNeg hord hm ho _ e2 hr).congr' fun x => ?_⟩
    rw [div_div, ← pow_succ', one_div, ← zpow_natCast, ← zpow_neg]
    congr 1
    omega

/-! ### Composed functions -/

theorem Centred.rasinh (hord : ∀ l, (ord l).Perm l) (hm : m ≤ 31) (h : Centred m E D F t) (ho : 1 ≤ t.order) (hr : TM.rasinh ord t = .ok r) :
    Centred m E D (fun x => Real.arsinh (F x)) r := by
  unfold TM.rasinh at hr
  obtain ⟨s, s1, s2⟩ := h.square hord hm ho
  obtain ⟨u, u1, u2, -⟩ := s2.addTS 1
  rw [bind_ok s1, bind_ok u1] at hr
  obtain ⟨v, v1, hr⟩ := bind_ok_iff.1 hr
  obtain ⟨-, v2, -⟩ := u2.powHalf hord (by omega) v1
  obtain ⟨w, w1, w2, -⟩ := h.add v2
  rw [bind_ok w1] at hr
  obtain ⟨-, r2, -⟩ := w2.rlog hord (by omega) hr
  exact r2.congr' fun x => by rw [Real.arsinh, add_comm (F x ^ 2)]

theorem Centred.racosh (hord : ∀ l, (ord l).Perm l) (hm : m ≤ 31) (h : Centred m E D F t) (ho : 1 ≤ t.order) (hr : TM.racosh ord t = .ok r) :
    1 < F (pt E) ∧ Centred m E D (fun x => Real.arcosh (F x)) r := by
  unfold TM.racosh at hr
  obtain ⟨s, s1, s2⟩ := h.square hord hm ho
  rw [bind_ok s1] at hr
  obtain ⟨_, -, hr⟩ := bind_ok_iff.1 hr
  obtain ⟨u, u1, u2, -⟩ := s2.subTS 1
  rw [bind_ok u1] at hr
  obtain ⟨v, v1, hr⟩ := bind_ok_iff.1 hr
  obtain ⟨v0, v2, -⟩ := u2.powHalf hord (by omega) v1
  obtain ⟨w, w1, w2, -⟩ := h.add v2
  rw [bind_ok w1] at hr
  obtain ⟨r0, r2, -⟩ := w2.rlog hord (by omega) hr
  refine ⟨?_, r2.congr' fun x => rfl⟩
  by_contra hle
  have h1 : F (pt E) < 0 := by
    by_contra h0
    nlinarith
  have h2 : √(F (pt E) ^ 2 - 1) ≤ -F (pt E) := Real.sqrt_le_iff.2 ⟨by linarith, by nlinarith⟩
  linarith

theorem Centred.ratanh (hord : ∀ l, (ord l).Perm l) (hm : m ≤ 31) (h : Centred m E D F t) (ho : 1 ≤ t.order) (hr : TM.ratanh ord t = .ok r) :
    |F (pt E)| < 1 ∧ Centred m E D (fun x => Real.artanh (F x)) r := by
  unfold TM.ratanh at hr
  obtain ⟨n, n1, n2, n3⟩ := h.addST 1
  obtain ⟨d, d1, d2, d3⟩ := h.subST 1
  rw [bind_ok n1, bind_ok d1] at hr
  obtain ⟨q, q1, hr⟩ := bind_ok_iff.1 hr
  obtain ⟨q0, q2⟩ := n2.div hord hm d2 (by omega) q1
  obtain ⟨l, l1, hr⟩ := bind_ok_iff.1 hr
  obtain ⟨l0, l2, -⟩ := q2.rlog hord (by omega) l1
  obtain ⟨r', r1, r2, -⟩ := l2.mulST (1 / 2)
  rw [hr] at r1
  injection r1 with r1
  subst r1
  have habs : |F (pt E)| < 1 := by
    rw [abs_lt]
    rcases (div_pos_iff.1 l0) with ⟨h1, h2⟩ | ⟨h1, h2⟩
    · exact ⟨by linarith, by linarith⟩
    · linarith
  refine ⟨habs, r2.congr ?_⟩
  have := h.cont.abs.eventually (gt_mem_nhds habs)
  filter_upwards [this] with x hx
  rw [Real.artanh_eq_half_log (abs_le.1 hx.le)]

theorem Centred.ratan (hord : ∀ l, (ord l).Perm l) (hm : m ≤ 30) (h : Centred m E D F t) (ho : 1 ≤ t.order) (hr : TM.ratan ord t = .ok r) :
    Centred m E D (fun x => Real.arctan (F x)) r ∧ r.order = t.order := by
  unfold TM.ratan at hr
  obtain ⟨b, b1, b2, b3⟩ := h.subTS (F (pt E))
  obtain ⟨u, u1, u2, u3⟩ := h.mulST (F (pt E))
  obtain ⟨d, d1, d2, d3⟩ := u2.addST 1
  rw [bind_ok h.constantCf, bind_ok b1, bind_ok u1, bind_ok d1] at hr
  obtain ⟨q, q1, hr⟩ := bind_ok_iff.1 hr
  obtain ⟨-, q2⟩ := b2.div hord (by omega) d2 (by omega) q1
  obtain ⟨B, B1, B2⟩ := q2.bounds_ok hord (by omega)
  rw [sub_self, zero_div] at B2
  rw [bind_ok (show getBounds ord q.tpol q.exp q.dom = .ok B from B1)] at hr
  obtain ⟨p, p1, hr⟩ := bind_ok_iff.1 hr
  obtain ⟨p', p2, p3, p4⟩ := h.fn (f := GDual.atan) (g := Real.arctan) (dom := fun _ => True)
    (fun d hd hle _ => C29_atan_partial hd (hle.trans hm)) trivial
  rw [p1] at p2
  injection p2 with p2
  subst p2
  have hG : InItv (B.add q.rem) 0 := Itv.zero_add B2 q2.zero
  obtain ⟨r', r1, r2, r3⟩ := h.make (GDual.HasSyms.atanWith h.wf.valid.wf.sorted (d := t.tpol) rfl (by rw [← h.wf.order]; exact ho) p1) p4
    (rem := atanRem (B.add q.rem) t.tpol.getOrder)
    (Itv.zero_mul (Itv.zero_mul (Itv.mul_zero (Itv.zero_pow hG (Nat.succ_ne_zero _)) _) _) _)
  rw [hr] at r1
  injection r1 with r1
  subst r1
  exact ⟨r2, r3.trans p3⟩

theorem Centred.rasin (hord : ∀ l, (ord l).Perm l) (hm : m ≤ 30) (h : Centred m E D F t) (ho : 1 ≤ t.order) (hr : TM.rasin ord t = .ok r) :
    |F (pt E)| < 1 ∧ Centred m E D (fun x => Real.arcsin (F x)) r ∧ r.order = t.order := by
  unfold TM.rasin at hr
  obtain ⟨b, b1, -⟩ := h.bounds_ok hord (by omega)
  rw [bind_ok b1] at hr
  split_ifs at hr
  obtain ⟨l, l1, l2, -⟩ := h.mulTS (√(1 - F (pt E) ^ 2))
  obtain ⟨s, s1, s2⟩ := h.square hord (by omega) ho
  obtain ⟨u, u1, u2, -⟩ := s2.subST 1
  rw [bind_ok h.constantCf, bind_ok l1, bind_ok s1, bind_ok u1] at hr
  obtain ⟨v, v1, hr⟩ := bind_ok_iff.1 hr
  obtain ⟨v0, v2, -⟩ := u2.powHalf hord (by omega) v1
  obtain ⟨w, w1, w2, -⟩ := v2.mulST (F (pt E))
  obtain ⟨a, a1, a2, -⟩ := l2.sub w2
  obtain ⟨B, B1, B2⟩ := a2.bounds_ok hord (by omega)
  rw [sub_self] at B2
  rw [bind_ok w1, bind_ok a1, bind_ok (show getBounds ord a.tpol a.exp a.dom = .ok B from B1)] at hr
  obtain ⟨dv, -, hr⟩ := bind_ok_iff.1 hr
  obtain ⟨f1, -, hr⟩ := bind_ok_iff.1 hr
  obtain ⟨p, p1, hr⟩ := bind_ok_iff.1 hr
  have habs : |F (pt E)| < 1 := by
    rw [← sq_lt_one_iff_abs_lt_one]
    simpa using v0
  obtain ⟨p', p2, p3, p4⟩ := h.fn (f := GDual.asin) (g := Real.arcsin) (dom := fun x => |x| < 1)
    (fun d hd hle hdom => GDual.asinWith_lift hd (fun _ _ hk => binomialU32_eq (hk.trans (hle.trans hm))) hdom) habs
  rw [p1] at p2
  injection p2 with p2
  subst p2
  have hG : InItv (B.add a.rem) 0 := Itv.zero_add B2 a2.zero
  obtain ⟨r', r1, r2, r3⟩ := h.make (GDual.HasSyms.asinWith h.wf.valid.wf.sorted (d := t.tpol) rfl (by rw [← h.wf.order]; exact ho) p1) p4
    (rem := ((Itv.point (1 / f1)).mul ((B.add a.rem).pow (t.tpol.getOrder + 1))).mul dv)
    (Itv.zero_mul (Itv.mul_zero (Itv.zero_pow hG (Nat.succ_ne_zero _)) _) _)
  rw [hr] at r1
  injection r1 with r1
  subst r1
  exact ⟨habs, r2, r3.trans p3⟩

theorem Centred.racos (hord : ∀ l, (ord l).Perm l) (hm : m ≤ 30) (h : Centred m E D F t) (ho : 1 ≤ t.order) (hr : TM.racos ord t = .ok r) :
    |F (pt E)| < 1 ∧ Centred m E D (fun x => Real.arccos (F x)) r ∧ r.order = t.order := by
  unfold TM.racos at hr
  obtain ⟨s, s1, hr⟩ := bind_ok_iff.1 hr
  obtain ⟨h1, s2, s3⟩ := h.rasin hord hm ho s1
  obtain ⟨r', r1, r2, r3⟩ := s2.subST (Real.pi / 2)
  rw [hr] at r1
  injection r1 with r1
  subst r1
  exact ⟨h1, r2.congr' fun x => rfl, r3.trans s3⟩

end TM
end Audi
