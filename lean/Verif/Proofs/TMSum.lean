import Verif.Proofs.TMBasic
import Verif.Proofs.Interval

/-!
# Proofs: sums and differences of Taylor models
-/

namespace Audi

open MvPolynomial

namespace TM
variable {K : Type} [Field K] [LinearOrder K] [IsStrictOrderedRing K] {a b : TM K}

theorem defaultTol_pos : (0 : K) < ((defaultTol : ℚ) : K) := by
  unfold defaultTol
  push_cast
  positivity

theorem numEqual_self (x : K) : numEqual none x x = true := by
  unfold numEqual
  rw [sub_self, abs_zero]
  exact decide_eq_true defaultTol_pos

theorem itvEqual_self (I : Itv K) : itvEqual none I I = true := by
  unfold itvEqual
  rw [numEqual_self, numEqual_self]
  rfl

theorem Compatible.commonExp (h : Compatible a b) : commonExp a.exp b.exp = .ok (unionMap a.exp b.exp) := by
  refine commonMap_ok fun k x y h1 h2 => ?_
  have := h.1 _ (VMap.mem_of_lookup h1) _ (VMap.mem_of_lookup h2) rfl
  simp only at this
  rw [this, numEqual_self]

theorem Compatible.commonDom (h : Compatible a b) : commonDom a.dom b.dom = .ok (unionMap a.dom b.dom) := by
  refine commonMap_ok fun k x y h1 h2 => ?_
  have := h.2 _ (VMap.mem_of_lookup h1) _ (VMap.mem_of_lookup h2) rfl
  simp only at this
  rw [this, itvEqual_self]

omit [IsStrictOrderedRing K] in
theorem lookup_exp_left (ha : a.WF) {v : String} (hv : v ∈ a.tpol.p.syms.map varName) :
    (unionMap a.exp b.exp).lookup v = a.exp.lookup v := by
  obtain ⟨I, x, h1, h2, -⟩ := ha.lookup hv
  rw [lookup_unionMap, h2]
  rfl

omit [IsStrictOrderedRing K] in
theorem lookup_dom_left (ha : a.WF) {v : String} (hv : v ∈ a.tpol.p.syms.map varName) :
    (unionMap a.dom b.dom).lookup v = a.dom.lookup v := by
  obtain ⟨I, x, h1, h2, -⟩ := ha.lookup hv
  rw [lookup_unionMap, h1]
  rfl

omit [IsStrictOrderedRing K] in
theorem lookup_exp_right (hc : Compatible a b) (hb : b.WF) {v : String} (hv : v ∈ b.tpol.p.syms.map varName) :
    (unionMap a.exp b.exp).lookup v = b.exp.lookup v := by
  obtain ⟨I, x, h1, h2, -⟩ := hb.lookup hv
  rw [lookup_unionMap]
  cases h : a.exp.lookup v with
  | none => rfl
  | some y =>
    have := hc.1 _ (VMap.mem_of_lookup h) _ (VMap.mem_of_lookup h2) rfl
    simp only at this
    rw [h2, this]
    rfl

omit [IsStrictOrderedRing K] in
theorem lookup_dom_right (hc : Compatible a b) (hb : b.WF) {v : String} (hv : v ∈ b.tpol.p.syms.map varName) :
    (unionMap a.dom b.dom).lookup v = b.dom.lookup v := by
  obtain ⟨I, x, h1, h2, -⟩ := hb.lookup hv
  rw [lookup_unionMap]
  cases h : a.dom.lookup v with
  | none => rfl
  | some y =>
    have := hc.2 _ (VMap.mem_of_lookup h) _ (VMap.mem_of_lookup h1) rfl
    simp only at this
    rw [h1, this]
    rfl

omit [IsStrictOrderedRing K] in
/-- The displacement with respect to the merged expansion point. -/
theorem eval_left (ha : a.WF) (x : String → K) : eval (displacement (unionMap a.exp b.exp) x) (a.tpol.toMv ()) = a.polyAt x := by
  refine eval_congr ha.valid fun s hs => ?_
  unfold displacement
  rw [lookup_exp_left ha (List.mem_map_of_mem hs)]

omit [IsStrictOrderedRing K] in
theorem eval_right (hc : Compatible a b) (hb : b.WF) (x : String → K) :
    eval (displacement (unionMap a.exp b.exp) x) (b.tpol.toMv ()) = b.polyAt x := by
  refine eval_congr hb.valid fun s hs => ?_
  unfold displacement
  rw [lookup_exp_right hc hb (List.mem_map_of_mem hs)]

omit [IsStrictOrderedRing K] in
/-- Every variable of one of the models has an entry in the merged maps. -/
theorem lookup_union (ha : a.WF) (hb : b.WF) (hc : Compatible a b) {v : String}
    (hv : v ∈ a.tpol.p.syms.map varName ∨ v ∈ b.tpol.p.syms.map varName) :
    ∃ I x, (unionMap a.dom b.dom).lookup v = some I ∧ (unionMap a.exp b.exp).lookup v = some x ∧ Spec.InItv I x := by
  rcases hv with h | h
  · rw [lookup_dom_left ha h, lookup_exp_left ha h]
    exact ha.lookup h
  · rw [lookup_dom_right hc hb h, lookup_exp_right hc hb h]
    exact hb.lookup h

omit [IsStrictOrderedRing K] in
theorem mem_keys_of_lookup {α : Type} {m : VMap α} {k : String} {x : α} (h : m.lookup k = some x) : k ∈ m.keys :=
  List.mem_map.2 ⟨_, VMap.mem_of_lookup h, rfl⟩

omit [IsStrictOrderedRing K] in
/-- A polynomial in the variables of the two models, with the trimmed maps, is well formed. -/
theorem merged (ha : a.WF) (hb : b.WF) (hc : Compatible a b) {p : GDual K} (hp : p.Valid)
    (hs : ∀ s ∈ p.p.syms, s ∈ a.tpol.p.syms ∨ s ∈ b.tpol.p.syms) {rem : Itv K} (hr : rem.lo ≤ rem.hi) :
    ∃ ne nd, trimMap p.symbolSet (unionMap a.exp b.exp) = .ok ne ∧ trimMap p.symbolSet (unionMap a.dom b.dom) = .ok nd ∧
      Parts p rem ne nd ∧ (∀ v ∈ p.p.syms.map varName, nd.lookup v = (unionMap a.dom b.dom).lookup v) ∧
      ∀ x, eval (displacement ne x) (p.toMv ()) = eval (displacement (unionMap a.exp b.exp) x) (p.toMv ()) := by
  have hn : ∀ s ∈ p.p.syms, ∃ v, s = "d" ++ v := fun s h => (hs s h).elim (ha.names s) (hb.names s)
  have hv : ∀ v ∈ p.p.syms.map varName, v ∈ a.tpol.p.syms.map varName ∨ v ∈ b.tpol.p.syms.map varName := by
    intro v h
    obtain ⟨s, h1, rfl⟩ := List.mem_map.1 h
    exact (hs s h1).imp List.mem_map_of_mem List.mem_map_of_mem
  have hnd := nodup_varNames hp.wf.ndsyms hn
  have he : ∀ v ∈ p.p.syms.map varName, v ∈ (unionMap a.exp b.exp).keys := fun v h => by
    obtain ⟨I, x, h1, h2, -⟩ := lookup_union ha hb hc (hv v h)
    exact mem_keys_of_lookup h2
  have hd : ∀ v ∈ p.p.syms.map varName, v ∈ (unionMap a.dom b.dom).keys := fun v h => by
    obtain ⟨I, x, h1, h2, -⟩ := lookup_union ha hb hc (hv v h)
    exact mem_keys_of_lookup h1
  refine ⟨_, _, trimMap_ok hnd he, trimMap_ok hnd hd, ⟨hp, hn, ?_, ?_, ?_, hr⟩, fun v h => VMap.lookup_pick h, fun x => ?_⟩
  · rw [symbolSet_eq, VMap.keys_pick he]
  · rw [symbolSet_eq, VMap.keys_pick hd]
  · rintro ⟨v, I⟩ hm
    obtain ⟨h1, h2⟩ := VMap.mem_pick.1 hm
    obtain ⟨J, x, h3, h4, h5⟩ := lookup_union ha hb hc (hv v h1)
    rw [h2] at h3
    obtain rfl := Option.some.inj h3
    exact ⟨x, VMap.mem_pick.2 ⟨h1, h4⟩, h5⟩
  · refine eval_congr hp fun s h => ?_
    unfold displacement
    rw [VMap.lookup_pick (show varName s ∈ p.symbolSet from List.mem_map_of_mem h)]

omit [IsStrictOrderedRing K] in
theorem inDom_make {p : GDual K} {rem : Itv K} {exp : VMap K} {dom : VMap (Itv K)} (h : Parts p rem exp dom) (x : String → K) :
    (⟨p, p.order, p.symbolSetSize, rem, exp, dom⟩ : TM K).InDom x ↔
      ∀ v ∈ p.p.syms.map varName, ∀ I, dom.lookup v = some I → Spec.InItv I (x v) := inDom_iff (make_wf h).2 x

omit [IsStrictOrderedRing K] in
/-- A polynomial with the symbols of both models has the joint domain. -/
theorem joint (ha : a.WF) (hb : b.WF) (hc : Compatible a b) {ss : List String}
    (hs : ∀ s, s ∈ ss ↔ s ∈ a.tpol.p.syms ∨ s ∈ b.tpol.p.syms) {nd : VMap (Itv K)}
    (hnd : ∀ v ∈ ss.map varName, nd.lookup v = (unionMap a.dom b.dom).lookup v) (x : String → K) :
    (∀ v ∈ ss.map varName, ∀ I, nd.lookup v = some I → Spec.InItv I (x v)) ↔ a.InDom x ∧ b.InDom x := by
  rw [inDom_iff ha, inDom_iff hb]
  have hm : ∀ v, v ∈ ss.map varName ↔ v ∈ a.tpol.p.syms.map varName ∨ v ∈ b.tpol.p.syms.map varName := by
    intro v
    simp only [List.mem_map]
    constructor
    · rintro ⟨s, h1, rfl⟩
      exact ((hs s).1 h1).imp (fun h => ⟨s, h, rfl⟩) fun h => ⟨s, h, rfl⟩
    · rintro (⟨s, h1, rfl⟩ | ⟨s, h1, rfl⟩)
      · exact ⟨s, (hs s).2 (.inl h1), rfl⟩
      · exact ⟨s, (hs s).2 (.inr h1), rfl⟩
  constructor
  · intro h
    refine ⟨fun v hv I hI => h v ((hm v).2 (.inl hv)) I ?_, fun v hv I hI => h v ((hm v).2 (.inr hv)) I ?_⟩
    · rw [hnd v ((hm v).2 (.inl hv)), lookup_dom_left ha hv, hI]
    · rw [hnd v ((hm v).2 (.inr hv)), lookup_dom_right hc hb hv, hI]
  · rintro ⟨h1, h2⟩ v hv I hI
    rw [hnd v hv] at hI
    rcases (hm v).1 hv with h | h
    · rw [lookup_dom_left ha h] at hI
      exact h1 v h I hI
    · rw [lookup_dom_right hc hb h] at hI
      exact h2 v h I hI

theorem add_sound (ha : a.WF) (hb : b.WF) (hc : Compatible a b) : ∃ r, a.add b = .ok r ∧ r.WF ∧ r.order = max a.order b.order ∧
    (∀ x, r.InDom x ↔ a.InDom x ∧ b.InDom x) ∧ (∀ x, r.polyAt x = a.polyAt x + b.polyAt x) ∧
    ∀ x y z, a.Allows x y → b.Allows x z → r.Allows x (y + z) := by
  have hs : ∀ s, s ∈ (a.tpol.add b.tpol).p.syms ↔ s ∈ a.tpol.p.syms ∨ s ∈ b.tpol.p.syms := fun s => mem_mergeSyms
  have hv := ha.valid.add hb.valid
  obtain ⟨ne, nd, h1, h2, h3, h4, h5⟩ := merged ha hb hc hv (fun s h => (hs s).1 h) (Itv.lo_le_hi_add ha.rem hb.rem)
  obtain ⟨m1, m2⟩ := make_wf h3
  have hpoly : ∀ x, eval (displacement ne x) ((a.tpol.add b.tpol).toMv ()) = a.polyAt x + b.polyAt x := fun x => by
    rw [h5 x, GDual.toMv_add ha.valid hb.valid, map_add, eval_left ha, eval_right hc hb]
  refine ⟨_, ?_, m2, ?_, fun x => ?_, hpoly, fun x y z hy hz => ?_⟩
  · unfold add
    rw [bind_ok hc.commonExp, bind_ok hc.commonDom]
    simp only
    rw [bind_ok h1, bind_ok h2, m1]
  · rw [ha.order, hb.order]; rfl
  · rw [inDom_make h3]
    exact joint ha hb hc hs h4 x
  · show Spec.InItv _ (y + z - eval (displacement ne x) ((a.tpol.add b.tpol).toMv ()))
    rw [hpoly, show y + z - (a.polyAt x + b.polyAt x) = (y - a.polyAt x) + (z - b.polyAt x) by ring]
    exact Itv.mem_add hy hz

theorem sub_sound (ha : a.WF) (hb : b.WF) (hc : Compatible a b) : ∃ r, a.sub b = .ok r ∧ r.WF ∧ r.order = max a.order b.order ∧
    (∀ x, r.InDom x ↔ a.InDom x ∧ b.InDom x) ∧ (∀ x, r.polyAt x = a.polyAt x - b.polyAt x) ∧
    ∀ x y z, a.Allows x y → b.Allows x z → r.Allows x (y - z) := by
  have hs : ∀ s, s ∈ (a.tpol.sub b.tpol).p.syms ↔ s ∈ a.tpol.p.syms ∨ s ∈ b.tpol.p.syms := fun s => mem_mergeSyms
  have hv := GDual.Valid.sub (ι := Unit) (K := K) ha.valid hb.valid
  obtain ⟨ne, nd, h1, h2, h3, h4, h5⟩ := merged ha hb hc hv (fun s h => (hs s).1 h) (Itv.lo_le_hi_sub ha.rem hb.rem)
  obtain ⟨m1, m2⟩ := make_wf h3
  have hpoly : ∀ x, eval (displacement ne x) ((a.tpol.sub b.tpol).toMv ()) = a.polyAt x - b.polyAt x := fun x => by
    rw [h5 x, GDual.toMv_sub ha.valid hb.valid, map_sub, eval_left ha, eval_right hc hb]
  refine ⟨_, ?_, m2, ?_, fun x => ?_, hpoly, fun x y z hy hz => ?_⟩
  · unfold sub
    rw [bind_ok hc.commonExp, bind_ok hc.commonDom]
    simp only
    rw [bind_ok h1, bind_ok h2, m1]
  · rw [ha.order, hb.order]; rfl
  · rw [inDom_make h3]
    exact joint ha hb hc hs h4 x
  · show Spec.InItv _ (y - z - eval (displacement ne x) ((a.tpol.sub b.tpol).toMv ()))
    rw [hpoly, show y - z - (a.polyAt x - b.polyAt x) = (y - a.polyAt x) - (z - b.polyAt x) by ring]
    exact Itv.mem_sub hy hz

omit [IsStrictOrderedRing K] in
/-- A new polynomial over the same symbols and a new remainder, with the maps of a well formed model. -/
theorem remake (ha : a.WF) {p : GDual K} (hp : p.Valid) (hs : p.p.syms = a.tpol.p.syms) {rem : Itv K} (hr : rem.lo ≤ rem.hi) :
    ∃ r : TM K, make p rem a.exp a.dom = .ok r ∧ r.WF ∧ r.order = p.order ∧ r.tpol = p ∧ r.rem = rem ∧ r.exp = a.exp ∧ r.dom = a.dom := by
  have h : Parts p rem a.exp a.dom := ⟨hp, by rw [hs]; exact ha.names, by rw [hs]; exact ha.expKeys, by rw [hs]; exact ha.domKeys, ha.inside, hr⟩
  exact ⟨_, (make_wf h).1, (make_wf h).2, rfl, rfl, rfl, rfl, rfl⟩

omit [IsStrictOrderedRing K] [Field K] in
theorem inDom_congr {r : TM K} (h : r.dom = a.dom) (x : String → K) : r.InDom x ↔ a.InDom x := by
  unfold InDom
  rw [h]

omit [IsStrictOrderedRing K] [Field K] [LinearOrder K] in
theorem syms_const_add {p : Poly K} (hp : p.syms.Pairwise (· < ·)) : mergeSyms [] p.syms = p.syms := by
  rw [mergeSyms_comm List.Pairwise.nil hp]
  rfl

omit [IsStrictOrderedRing K] in
theorem sound₁ (ha : a.WF) {p : GDual K} (hp : p.Valid) (hs : p.p.syms = a.tpol.p.syms) (ho : p.order = a.order) {rem : Itv K}
    (hr : rem.lo ≤ rem.hi) {R : K → K → Prop}
    (h : ∀ x y z, Spec.InItv a.rem (y - a.polyAt x) → R y z → Spec.InItv rem (z - eval (displacement a.exp x) (p.toMv ()))) :
    Sound₁ a (make p rem a.exp a.dom) R := by
  obtain ⟨r, h1, h2, h3, h4, h5, h6, h7⟩ := remake ha hp hs hr
  refine ⟨r, h1, h2, by rw [h3, ho], inDom_congr h7, fun x _ y z hy hz => ?_⟩
  unfold Allows polyAt
  rw [h4, h5, h6]
  exact h x y z hy hz

omit [IsStrictOrderedRing K] in
theorem addST_sound (ha : a.WF) (s : K) : Sound₁ a (addST s a) fun y z => z = s + y := by
  refine sound₁ ha (GDual.Valid.addSG s ha.valid) (syms_const_add ha.valid.wf.sorted) ha.order.symm ha.rem ?_
  rintro x y z hy rfl
  rw [GDual.toMv_addSG s ha.valid, map_add, eval_C]
  change Spec.InItv a.rem (s + y - (s + a.polyAt x))
  rwa [add_sub_add_left_eq_sub]

omit [IsStrictOrderedRing K] in
theorem addTS_sound (ha : a.WF) (s : K) : Sound₁ a (addTS a s) fun y z => z = y + s := by
  refine sound₁ ha (GDual.Valid.addGS s ha.valid) (syms_const_add ha.valid.wf.sorted) ha.order.symm ha.rem ?_
  rintro x y z hy rfl
  rw [GDual.toMv_addGS s ha.valid, map_add, eval_C]
  change Spec.InItv a.rem (y + s - (a.polyAt x + s))
  rwa [add_sub_add_right_eq_sub]

omit [IsStrictOrderedRing K] in
theorem subTS_sound (ha : a.WF) (s : K) : Sound₁ a (subTS a s) fun y z => z = y - s := by
  refine sound₁ ha (GDual.Valid.subGS (ι := Unit) (K := K) s ha.valid) rfl ha.order.symm ha.rem ?_
  rintro x y z hy rfl
  rw [GDual.toMv_subGS s ha.valid, map_sub, eval_C]
  change Spec.InItv a.rem (y - s - (a.polyAt x - s))
  rwa [sub_sub_sub_cancel_right]

theorem addIT_sound (ha : a.WF) {J : Itv K} (hJ : J.lo ≤ J.hi) : Sound₁ a (addIT J a) fun y z => ∃ c, Spec.InItv J c ∧ z = c + y := by
  refine sound₁ ha ha.valid rfl ha.order.symm (Itv.lo_le_hi_add hJ ha.rem) ?_
  rintro x y z hy ⟨c, hc, rfl⟩
  change Spec.InItv _ (c + y - a.polyAt x)
  rw [add_sub_assoc]
  exact Itv.mem_add hc hy

theorem addTI_sound (ha : a.WF) {J : Itv K} (hJ : J.lo ≤ J.hi) : Sound₁ a (addTI a J) fun y z => ∃ c, Spec.InItv J c ∧ z = y + c := by
  refine sound₁ ha ha.valid rfl ha.order.symm (Itv.lo_le_hi_add ha.rem hJ) ?_
  rintro x y z hy ⟨c, hc, rfl⟩
  change Spec.InItv _ (y + c - a.polyAt x)
  rw [add_sub_right_comm]
  exact Itv.mem_add hy hc

theorem subTI_sound (ha : a.WF) {J : Itv K} (hJ : J.lo ≤ J.hi) : Sound₁ a (subTI a J) fun y z => ∃ c, Spec.InItv J c ∧ z = y - c := by
  refine sound₁ ha ha.valid rfl ha.order.symm (Itv.lo_le_hi_sub ha.rem hJ) ?_
  rintro x y z hy ⟨c, hc, rfl⟩
  change Spec.InItv _ (y - c - a.polyAt x)
  rw [sub_right_comm]
  exact Itv.mem_sub hy hc

/-- `s - tm`: sound when the remainder is symmetric. -/
theorem subST_sound (ha : a.WF) (s : K) (hsym : a.rem.lo = -a.rem.hi) : Sound₁ a (subST s a) fun y z => z = s - y := by
  refine sound₁ ha (GDual.Valid.subSG (ι := Unit) (K := K) s ha.valid) (syms_const_add (p := a.tpol.p.neg) ha.valid.wf.sorted) ha.order.symm ha.rem ?_
  rintro x y z hy rfl
  rw [GDual.toMv_subSG s ha.valid, map_sub, eval_C]
  change Spec.InItv a.rem (s - y - (s - a.polyAt x))
  rw [sub_sub_sub_cancel_left, ← neg_sub]
  refine ⟨?_, ?_⟩
  · rw [hsym]; exact neg_le_neg hy.2
  · rw [neg_le, ← hsym]; exact hy.1

theorem mulST_sound (ha : a.WF) (s : K) : Sound₁ a (mulST s a) fun y z => z = s * y := by
  refine sound₁ ha (GDual.Valid.mulSG s ha.valid) (syms_const_add ha.valid.wf.sorted)
    ((GDual.order_mulSG s _).trans ha.order.symm) (Itv.lo_le_hi_mul _ _) ?_
  rintro x y z hy rfl
  rw [GDual.toMv_mulSG s ha.valid, map_mul, eval_C]
  change Spec.InItv _ (s * y - s * a.polyAt x)
  rw [← mul_sub]
  exact Itv.mem_mul (Itv.mem_point s) hy

theorem mulTS_sound (ha : a.WF) (s : K) : Sound₁ a (mulTS a s) fun y z => z = y * s := by
  refine sound₁ ha (GDual.Valid.mulGS s ha.valid) rfl ((GDual.order_mulGS s _).trans ha.order.symm) (Itv.lo_le_hi_mul _ _) ?_
  rintro x y z hy rfl
  rw [GDual.toMv_mulGS s ha.valid, map_mul, eval_C]
  change Spec.InItv _ (y * s - a.polyAt x * s)
  rw [← sub_mul]
  exact Itv.mem_mul hy (Itv.mem_point s)

theorem divTS_sound (ha : a.WF) {s : K} (hs : s ≠ 0) : Sound₁ a (divTS a s) fun y z => z = y / s := by
  have hu : Cf.isUnit s = true := by simpa [Cf.isUnit] using hs
  have hz : (Itv.point s).zeroIn = false := by
    rw [Itv.zeroIn_false_iff]
    exact (lt_or_gt_of_ne hs).symm
  have e2 : sdiv a.rem s = .ok (a.rem.mul ⟨s⁻¹, s⁻¹⟩) := by
    unfold sdiv Itv.div
    rw [Itv.inv_ok hz]
    rfl
  unfold divTS
  rw [bind_ok (GDual.divGS_eq hu), bind_ok e2]
  refine sound₁ ha (GDual.Valid.mulGS _ ha.valid) rfl ((GDual.order_mulGS _ _).trans ha.order.symm) (Itv.lo_le_hi_mul _ _) ?_
  rintro x y z hy rfl
  rw [GDual.toMv_mulGS_div s ha.valid, map_mul, eval_C]
  change Spec.InItv _ (y / s - a.polyAt x * s⁻¹)
  rw [div_eq_mul_inv, ← sub_mul]
  exact Itv.mem_mul hy ⟨le_rfl, le_rfl⟩

end TM
end Audi
