import Verif.Proofs.TMSum
import Verif.Proofs.PolyOps

/-!
# Proofs: product of Taylor models
-/

namespace Audi

open MvPolynomial

namespace TM
variable {K : Type} [Field K] [LinearOrder K]

omit [LinearOrder K] in
theorem degLE_mul {P Q : MvPolynomial String K} {m n : ℕ} (hP : Spec.DegLE m P) (hQ : Spec.DegLE n Q) : Spec.DegLE (m + n) (P * Q) := by
  classical
  intro e he
  rw [coeff_mul]
  refine Finset.sum_eq_zero fun x hx => ?_
  have h := congrArg Finsupp.degree (Finset.mem_antidiagonal.1 hx)
  rw [map_add] at h
  rcases lt_or_ge m x.1.degree with h1 | h1
  · rw [hP _ h1, zero_mul]
  · rw [hQ _ (by omega), mul_zero]

/-- A symbol that is left by `trim` occurs in the polynomial. -/
theorem occurs_of_trimmed {p : Poly K} (hp : p.WF) {s : String} (hs : s ∈ p.trimSyms.syms) :
    ∃ m : String →₀ ℕ, coeff m (p.toMv () : MvPolynomial String K) ≠ 0 ∧ m s ≠ 0 := by
  obtain ⟨-, t, ht, h⟩ := (Poly.mem_trimSyms p s).1 hs
  refine ⟨toExp p.syms t.1, ?_, ?_⟩
  · have h1 := Poly.coeff_toMv_of_mem (K := K) hp (e := t.1) (c := t.2) ht ()
    rw [h1]
    have := hp.nz t ht
    intro hc
    have h0 : t.2 = 0 := hc
    simp [Cf.isZero, h0] at this
  · rw [toExp_apply hp.ndsyms]
    exact h

theorem mem_syms_of_occurs {p : Poly K} (hp : p.WF) {s : String} {m : String →₀ ℕ}
    (h1 : coeff m (p.toMv () : MvPolynomial String K) ≠ 0) (h2 : m s ≠ 0) : s ∈ p.syms := by
  obtain ⟨t, -, rfl⟩ := Poly.exists_mem_of_coeff_ne h1
  rw [toExp_apply hp.ndsyms] at h2
  exact mem_of_expOf_ne h2

/-- `get_increased_order` gives the same polynomial with the new order, when the new order is at least 1. -/
theorem increasedOrder_spec {p : GDual K} (hp : p.Valid) {n : ℕ} (h1 : 1 ≤ n) (hpn : p.order ≤ n) (hn : n < UINT_MAX - 10) :
    ∃ h, increasedOrder p n = .ok h ∧ h.Valid ∧ h.order = n ∧ (h.toMv () : MvPolynomial String K) = p.toMv () ∧
      ∀ s ∈ h.p.syms, s ∈ p.p.syms := by
  obtain ⟨t, ht⟩ : ∃ t, GDual.mk3 (0 : K) "temp" n = .ok t := ⟨_, GDual.mk3_ok.2 ⟨hn, ⟨'t', by decide, by decide⟩, rfl⟩⟩
  have hto : t.order = n := GDual.order_mk3 ht
  have htv : t.Valid := GDual.valid_mk3 (ι := Unit) (K := K) ht
  have hval := GDual.Valid.subs (ι := Unit) (K := K) htv hp "dtemp"
  have hmv : ((t.subs "dtemp" p).toMv () : MvPolynomial String K) = p.toMv () := by
    ext m
    have hm3 := GDual.toMv_mk3 (K := K) ht ()
    rw [if_neg (by omega)] at hm3
    rw [GDual.coeff_subs htv hp, hm3, hto]
    have h0 : (Lanes.lane () (0 : K) : K) = 0 := rfl
    have h2 : Poly.substMap "dtemp" (p.toMv ()) (X ("d" ++ "temp") : MvPolynomial String K) = p.toMv () := by
      unfold Poly.substMap
      rw [aeval_X]
      exact if_pos (by decide)
    rw [h0, MvPolynomial.C_0, zero_add, h2]
    by_cases hm : m.degree ≤ n
    · rw [if_pos hm]
    · rw [if_neg hm, GDual.Valid.degLE (ι := Unit) (K := K) hp () m (by omega)]
  refine ⟨t.subs "dtemp" p, ?_, hval, hto, hmv, fun s hs => ?_⟩
  · unfold increasedOrder
    rw [bind_ok ht]
  · have hw := (htv.wf.subsPoly hp.wf "dtemp").truncate t.order
    obtain ⟨m, h2, h3⟩ := occurs_of_trimmed hw hs
    have h4 : Poly.toMv () (t.subs "dtemp" p).p = _ := (hw.trimSyms (ι := Unit) (K := K)).2 ()
    rw [← h4] at h2
    refine mem_syms_of_occurs hp.wf (m := m) ?_ h3
    change coeff m (p.toMv ()) ≠ 0
    rw [← hmv]
    exact h2

omit [Field K] [LinearOrder K] in
theorem extractTerms_ok {d : GDual K} {k : ℕ} (h : k ≤ d.order) :
    d.extractTerms k = .ok ⟨d.p.filter fun t => Poly.keyDegree t.1 = k, k⟩ := by
  unfold GDual.extractTerms
  rw [if_neg (by omega)]

/-- The first `n` steps of the loop. -/
theorem agreeable_aux {q : GDual K} (hq : q.Valid) (n : ℕ) (hn : n ≤ q.order + 1) :
    ∃ r, (List.range n).foldlM (fun (a : GDual K) (i : ℕ) => do
        let t ← q.extractTerms i
        (.ok (a.add t) : Res (GDual K))) (GDual.ofCf (0 : K)) = .ok r ∧ r.Valid ∧ r.order = n - 1 ∧
      (r.p.syms = if n = 0 then [] else q.p.syms) ∧
      ∀ m, coeff m (r.toMv () : MvPolynomial String K) = if m.degree < n then coeff m (q.toMv ()) else 0 := by
  induction n with
  | zero =>
    refine ⟨_, rfl, GDual.valid_ofCf _, rfl, rfl, fun m => ?_⟩
    rw [GDual.toMv_ofCf]
    have h0 : (Lanes.lane () (0 : K) : K) = 0 := rfl
    rw [h0, map_zero]
    simp
  | succ n ih =>
    obtain ⟨r, h1, h2, h3, h4, h5⟩ := ih (by omega)
    have ht := extractTerms_ok (d := q) (k := n) (by omega)
    have htv := GDual.Valid.extractTerms hq ht
    refine ⟨r.add ⟨q.p.filter fun t => Poly.keyDegree t.1 = n, n⟩, ?_, h2.add htv, ?_, ?_, fun m => ?_⟩
    · rw [List.range_succ, List.foldlM_append, bind_ok h1, List.foldlM_cons, bind_ok ht]
      rfl
    · change max r.order n = _
      rw [h3]
      omega
    · rw [if_neg (by omega)]
      change mergeSyms r.p.syms q.p.syms = _
      rw [h4]
      split_ifs
      · exact syms_const_add hq.wf.sorted
      · exact mergeSyms_eq_left hq.wf.sorted fun s hs => hs
    · rw [GDual.toMv_add h2 htv, coeff_add, h5, GDual.coeff_extractTerms hq ht]
      rcases lt_trichotomy m.degree n with h | h | h
      · rw [if_pos h, if_neg (by omega), if_pos (by omega), add_zero]
      · rw [if_neg (by omega), if_pos h, if_pos (by omega), zero_add]
      · rw [if_neg (by omega), if_neg (by omega), if_neg (by omega), zero_add]

theorem agreeable_spec {q : GDual K} (hq : q.Valid) {n : ℕ} (hn : n ≤ q.order) :
    ∃ r, agreeable q n = .ok r ∧ r.Valid ∧ r.order = n ∧ r.p.syms = q.p.syms ∧
      ∀ m, coeff m (r.toMv () : MvPolynomial String K) = if m.degree ≤ n then coeff m (q.toMv ()) else 0 := by
  obtain ⟨r, h1, h2, h3, h4, h5⟩ := agreeable_aux hq (n + 1) (by omega)
  refine ⟨r, h1, h2, by rw [h3]; rfl, by rw [h4, if_neg (by omega)], fun m => ?_⟩
  rw [h5]
  exact if_congr Nat.lt_succ_iff rfl rfl

variable [IsStrictOrderedRing K] {a b : TM K} {ord : List String → List String}

/-- Bounds of the polynomial of a well formed Taylor model. -/
theorem bounds_encloses (ha : a.WF) (h62 : a.order ≤ 62)
    (ho : ord (a.tpol.p.syms.map varName) = a.tpol.p.syms.map varName) :
    ∃ B, a.bounds ord = .ok B ∧ B.lo ≤ B.hi ∧ ∀ x, a.InDom x → Spec.InItv B (a.polyAt x) := by
  obtain ⟨B, h1, h2, h3⟩ := getBounds_encloses ha.valid ha.names (by rw [← ha.order]; exact h62) (exp := a.exp) (dom := a.dom)
    (fun v hv => by
      obtain ⟨I, x, e1, e2, e3⟩ := ha.lookup hv
      exact ⟨I, x, e1, e2, e3.1.trans e3.2⟩) ho
  exact ⟨B, h1, h2, fun x hx => h3 x ((inDom_iff ha x).1 hx)⟩

omit [IsStrictOrderedRing K] in
theorem eq_zero_iff {p z : GDual K} (hp : p.Valid) (hz : GDual.mk3 (0 : K) "irrelevant" 0 = .ok z) :
    p.eq z = true ↔ (p.toMv () : MvPolynomial String K) = 0 := by
  have h1 := GDual.toMv_mk3 (K := K) hz ()
  have h0 : (Lanes.lane () (0 : K) : K) = 0 := rfl
  rw [if_pos rfl, add_zero, h0, MvPolynomial.C_0] at h1
  unfold GDual.eq
  rw [Poly.eq_iff (ι := Unit) (K := K) hp.wf (GDual.valid_mk3 (ι := Unit) (K := K) hz).wf]
  constructor
  · intro h
    exact (h ()).trans h1
  · intro h i
    exact h.trans h1.symm

theorem isZeroTol_false {p : GDual K} {m : String →₀ ℕ} (ht : ((tiny : ℚ) : K) < |coeff m (p.toMv () : MvPolynomial String K)|)
    (hp : p.Valid) (h0 : (0 : K) ≤ ((tiny : ℚ) : K)) : p.isZeroTol tiny = false := by
  have hne : coeff m (p.toMv () : MvPolynomial String K) ≠ 0 := by
    intro h
    rw [h, abs_zero] at ht
    exact absurd ht (not_lt.2 h0)
  obtain ⟨t, ht1, ht2⟩ := Poly.exists_mem_of_coeff_ne hne
  have h1 := Poly.coeff_toMv_of_mem (K := K) hp.wf (e := t.1) (c := t.2) ht1 ()
  rw [ht2] at h1
  unfold GDual.isZeroTol
  rw [List.all_eq_false]
  refine ⟨t, ht1, ?_⟩
  have h2 : coeff m (p.toMv () : MvPolynomial String K) = t.2 := h1
  rw [h2] at ht
  simp [CfOrd.absGt, ht]

theorem tiny_nonneg : (0 : K) ≤ ((tiny : ℚ) : K) := by
  unfold tiny
  push_cast
  positivity

/-- The bounds of the truncated part. -/
theorem truncationBounds_encloses (ha : a.WF) (hb : b.WF) (hc : Compatible a b) {q : GDual K} (hq : q.Valid) (h62 : q.order ≤ 62)
    (hs : ∀ s ∈ q.p.syms, s ∈ a.tpol.p.syms ∨ s ∈ b.tpol.p.syms)
    (hord : Faithful ord (a.tpol.p.syms.map varName ++ b.tpol.p.syms.map varName))
    (ht : (∃ m, ((tiny : ℚ) : K) < |coeff m (q.toMv () : MvPolynomial String K)|) ∨ (q.toMv () : MvPolynomial String K) = 0) :
    ∃ B, truncationBounds ord q (unionMap a.exp b.exp) (unionMap a.dom b.dom) = .ok B ∧ B.lo ≤ B.hi ∧
      ∀ x, a.InDom x → b.InDom x → Spec.InItv B (eval (displacement (unionMap a.exp b.exp) x) (q.toMv ())) := by
  unfold truncationBounds
  by_cases hz : q.isZeroTol tiny = true
  · rw [if_pos hz]
    have h0 : (q.toMv () : MvPolynomial String K) = 0 := by
      refine ht.resolve_left ?_
      rintro ⟨m, hm⟩
      rw [isZeroTol_false hm hq tiny_nonneg] at hz
      simp at hz
    refine ⟨_, rfl, le_rfl, fun x _ _ => ?_⟩
    rw [h0, map_zero]
    exact ⟨le_rfl, le_rfl⟩
  · rw [if_neg hz]
    have hn : ∀ s ∈ q.p.syms, ∃ v, s = "d" ++ v := fun s h => (hs s h).elim (ha.names s) (hb.names s)
    have hv : ∀ v ∈ q.p.syms.map varName, v ∈ a.tpol.p.syms.map varName ∨ v ∈ b.tpol.p.syms.map varName := by
      intro v h
      obtain ⟨s, h1, rfl⟩ := List.mem_map.1 h
      exact (hs s h1).imp List.mem_map_of_mem List.mem_map_of_mem
    have hnd := nodup_varNames hq.wf.ndsyms hn
    have hl : ∀ {α : Type} (m : VMap α) (z : α) (v : String), v ∈ q.p.syms.map varName → v ∈ m.keys →
        (q.symbolSet.map fun v => (v, (m.lookup v).getD z)).lookup v = m.lookup v := by
      intro α m z v h1 h2
      obtain ⟨x, hx⟩ := VMap.lookup_isSome h2
      rw [hx]
      refine VMap.lookup_of_mem ?_ (List.mem_map.2 ⟨v, h1, by rw [hx]; rfl⟩)
      rw [List.map_map]
      simpa [Function.comp_def, symbolSet_eq] using hnd
    have hle : ∀ v ∈ q.p.syms.map varName, (q.symbolSet.map fun v => (v, ((unionMap a.exp b.exp).lookup v).getD 0)).lookup v =
        (unionMap a.exp b.exp).lookup v := fun v h => by
      obtain ⟨I, x, h1, h2, -⟩ := lookup_union ha hb hc (hv v h)
      exact hl _ _ v h (mem_keys_of_lookup h2)
    have hld : ∀ v ∈ q.p.syms.map varName, (q.symbolSet.map fun v => (v, ((unionMap a.dom b.dom).lookup v).getD ⟨0, 0⟩)).lookup v =
        (unionMap a.dom b.dom).lookup v := fun v h => by
      obtain ⟨I, x, h1, h2, -⟩ := lookup_union ha hb hc (hv v h)
      exact hl _ _ v h (mem_keys_of_lookup h1)
    obtain ⟨B, h1, h2, h3⟩ := getBounds_encloses (ord := ord) hq hn h62
      (exp := q.symbolSet.map fun v => (v, ((unionMap a.exp b.exp).lookup v).getD 0))
      (dom := q.symbolSet.map fun v => (v, ((unionMap a.dom b.dom).lookup v).getD ⟨0, 0⟩))
      (fun v h => by
        obtain ⟨I, x, e1, e2, e3⟩ := lookup_union ha hb hc (hv v h)
        exact ⟨I, x, by rw [hld v h, e1], by rw [hle v h, e2], e3.1.trans e3.2⟩)
      (hord _ hnd fun v h => List.mem_append.2 (hv v h))
    refine ⟨B, h1, h2, fun x hxa hxb => ?_⟩
    have h4 := h3 x fun v h I hI => by
      rw [hld v h] at hI
      rcases hv v h with h' | h'
      · rw [lookup_dom_left ha h'] at hI
        exact (inDom_iff ha x).1 hxa v h' I hI
      · rw [lookup_dom_right hc hb h'] at hI
        exact (inDom_iff hb x).1 hxb v h' I hI
    rwa [eval_congr hq (δ' := displacement (unionMap a.exp b.exp) x)] at h4
    intro s h
    unfold displacement
    rw [hle _ (List.mem_map_of_mem h)]

omit [Field K] [LinearOrder K] [IsStrictOrderedRing K] in
/-- The entries of a trimmed union come from one of the maps. -/
theorem mem_trimmed {α : Type} {m n r : VMap α} {vars : List String} (h : trimMap vars (unionMap m n) = .ok r) : ∀ e ∈ r, e ∈ m ∨ e ∈ n := by
  have key : ∀ (l : List String) (q r : VMap α), (∀ e ∈ q, e ∈ m ∨ e ∈ n) → l.foldlM (fun (r : VMap α) (v : String) =>
      match (unionMap m n).lookup v with
      | none => logicError
      | some x => .ok (r.insertNew v x)) q = .ok r → ∀ e ∈ r, e ∈ m ∨ e ∈ n := by
    intro l
    induction l with
    | nil =>
      intro q r hq h
      injection h with h
      subst h
      exact hq
    | cons v l ih =>
      intro q r hq h
      rw [List.foldlM_cons] at h
      cases hv : (unionMap m n).lookup v with
      | none =>
        rw [hv] at h
        simp [logicError, Bind.bind, Except.bind] at h
      | some x =>
        rw [hv] at h
        refine ih _ r (fun e he => ?_) h
        by_cases hk : v ∈ q.keys
        · rw [VMap.insertNew_of_mem hk] at he
          exact hq e he
        · rw [VMap.keys_insertNew hk, List.mem_append, List.mem_singleton] at he
          rcases he with he | rfl
          · exact hq e he
          · rw [lookup_unionMap] at hv
            cases hm : m.lookup v with
            | none =>
              rw [hm, Option.none_or] at hv
              exact .inr (VMap.mem_of_lookup hv)
            | some y =>
              rw [hm, Option.some_or] at hv
              obtain rfl := Option.some.inj hv
              exact .inl (VMap.mem_of_lookup hm)
  exact key vars [] r (fun e he => absurd he List.not_mem_nil) h

/-- The product of two Taylor models in detail. -/
theorem mul_parts (ha : a.WF) (hb : b.WF) (hc : Compatible a b) (hpa : (a.tpol.toMv () : MvPolynomial String K) ≠ 0)
    (hpb : (b.tpol.toMv () : MvPolynomial String K) ≠ 0) (ho1 : 1 ≤ a.order + b.order) (ho2 : a.order + b.order ≤ 62)
    (hord : Faithful ord (a.tpol.p.syms.map varName ++ b.tpol.p.syms.map varName))
    (ht : (∃ m : String →₀ ℕ, max a.order b.order < m.degree ∧
        ((tiny : ℚ) : K) < |coeff m (a.tpol.toMv () * b.tpol.toMv () : MvPolynomial String K)|) ∨
      ∀ m : String →₀ ℕ, max a.order b.order < m.degree → coeff m (a.tpol.toMv () * b.tpol.toMv () : MvPolynomial String K) = 0) :
    ∃ r, mul ord a b = .ok r ∧ r.WF ∧ r.order = max a.order b.order ∧ (∀ x, a.InDom x → b.InDom x → r.InDom x) ∧
      (∀ x, a.InDom x → b.InDom x → ∀ y z, a.Allows x y → b.Allows x z → r.Allows x (y * z)) ∧
      (∀ m, coeff m (r.tpol.toMv () : MvPolynomial String K) =
        if m.degree ≤ max a.order b.order then coeff m (a.tpol.toMv () * b.tpol.toMv () : MvPolynomial String K) else 0) ∧
      (∀ s ∈ r.tpol.p.syms, s ∈ a.tpol.p.syms ∨ s ∈ b.tpol.p.syms) ∧ (∀ e ∈ r.exp, e ∈ a.exp ∨ e ∈ b.exp) ∧
      ∀ e ∈ r.dom, e ∈ a.dom ∨ e ∈ b.dom := by
  have hu : (73 : ℕ) < UINT_MAX - 10 := by decide
  obtain ⟨z, hz⟩ : ∃ t, GDual.mk3 (0 : K) "irrelevant" 0 = .ok t :=
    ⟨_, GDual.mk3_ok.2 ⟨by omega, ⟨'i', by decide, by decide⟩, rfl⟩⟩
  have hao := ha.order
  have hbo := hb.order
  obtain ⟨h1, e1, v1, o1, p1, s1⟩ := increasedOrder_spec ha.valid (n := a.tpol.order + b.tpol.order) (by omega) (by omega) (by omega)
  obtain ⟨h2, e2, v2, o2, p2, s2⟩ := increasedOrder_spec hb.valid (n := a.tpol.order + b.tpol.order) (by omega) (by omega) (by omega)
  have vq := v1.mul v2
  have oq : (h1.mul h2).order = a.tpol.order + b.tpol.order := by
    change max h1.order h2.order = _
    rw [o1, o2, max_self]
  have pq : ((h1.mul h2).toMv () : MvPolynomial String K) = a.tpol.toMv () * b.tpol.toMv () := by
    refine Spec.EqUpTo.eq_of_degLE (m := a.tpol.order + b.tpol.order) ?_ ?_ ?_
    · have := GDual.toMv_mul (K := K) v1 v2 ()
      rw [o1, o2, max_self, p1, p2] at this
      exact this
    · have := GDual.Valid.degLE (ι := Unit) (K := K) vq ()
      rwa [oq] at this
    · exact degLE_mul (GDual.Valid.degLE (ι := Unit) (K := K) ha.valid ()) (GDual.Valid.degLE (ι := Unit) (K := K) hb.valid ())
  have sq : ∀ s ∈ (h1.mul h2).p.syms, s ∈ a.tpol.p.syms ∨ s ∈ b.tpol.p.syms := fun s hs =>
    (mem_mergeSyms.1 (show s ∈ mergeSyms h1.p.syms h2.p.syms from hs)).imp (s1 s) (s2 s)
  obtain ⟨g, eg, vg, og, sg, cg⟩ := agreeable_spec vq (n := max a.tpol.order b.tpol.order) (by rw [oq]; omega)
  have ve := GDual.Valid.sub (ι := Unit) (K := K) vq vg
  have pe : (((h1.mul h2).sub g).toMv () : MvPolynomial String K) = a.tpol.toMv () * b.tpol.toMv () - g.toMv () := by
    rw [GDual.toMv_sub vq vg, pq]
  have ce : ∀ m, coeff m (((h1.mul h2).sub g).toMv () : MvPolynomial String K) =
      if m.degree ≤ max a.tpol.order b.tpol.order then 0 else coeff m (a.tpol.toMv () * b.tpol.toMv () : MvPolynomial String K) := by
    intro m
    rw [pe, coeff_sub, cg, pq]
    split_ifs <;> simp
  have se : ∀ s ∈ ((h1.mul h2).sub g).p.syms, s ∈ a.tpol.p.syms ∨ s ∈ b.tpol.p.syms := fun s hs => by
    rcases mem_mergeSyms.1 (show s ∈ mergeSyms (h1.mul h2).p.syms g.p.syms from hs) with h | h
    · exact sq s h
    · rw [sg] at h
      exact sq s h
  obtain ⟨E, E1, E2, E3⟩ := truncationBounds_encloses ha hb hc ve (ord := ord)
    (by
      change max (h1.mul h2).order g.order ≤ 62
      rw [oq, og]
      omega) se hord (by
      rw [hao, hbo] at ht
      rcases ht with ⟨m, hm1, hm2⟩ | h
      · refine .inl ⟨m, ?_⟩
        rw [ce, if_neg (by omega)]
        exact hm2
      · refine .inr ?_
        ext m
        rw [ce, coeff_zero]
        split_ifs with hm
        · rfl
        · exact h m (by omega))
  obtain ⟨B1, F1, F2, F3⟩ := bounds_encloses (ord := ord) ha (by omega) (hord _ ha.nodup fun v h => List.mem_append.2 (.inl h))
  obtain ⟨B2, G1, G2, G3⟩ := bounds_encloses (ord := ord) hb (by omega) (hord _ hb.nodup fun v h => List.mem_append.2 (.inr h))
  have hrem : ((((E.add (B1.mul b.rem)).add (a.rem.mul B2)).add (a.rem.mul b.rem)) : Itv K).lo ≤
      (((E.add (B1.mul b.rem)).add (a.rem.mul B2)).add (a.rem.mul b.rem)).hi :=
    Itv.lo_le_hi_add (Itv.lo_le_hi_add (Itv.lo_le_hi_add E2 (Itv.lo_le_hi_mul _ _)) (Itv.lo_le_hi_mul _ _)) (Itv.lo_le_hi_mul _ _)
  obtain ⟨ne, nd, T1, T2, T3, T4, T5⟩ := merged ha hb hc vg (fun s hs => sq s (by rw [← sg]; exact hs)) hrem
  obtain ⟨m1, m2⟩ := make_wf T3
  refine ⟨_, ?_, m2, ?_, fun x hxa hxb => ?_, fun x hxa hxb y z hy hz => ?_, fun m => ?_, fun s hs => sq s (by rw [← sg]; exact hs),
    mem_trimmed T1, mem_trimmed T2⟩
  · unfold mul
    rw [bind_ok hz]
    have hcond : (a.tpol.eq z || b.tpol.eq z) = false := by
      rw [Bool.or_eq_false_iff, Bool.eq_false_iff, Bool.eq_false_iff, Ne, Ne, eq_zero_iff ha.valid hz, eq_zero_iff hb.valid hz]
      exact ⟨hpa, hpb⟩
    rw [hcond, if_neg (by simp), bind_ok hc.commonExp, bind_ok hc.commonDom]
    simp only [GDual.getOrder]
    rw [bind_ok e1, bind_ok e2, bind_ok eg, bind_ok T1, bind_ok T2, bind_ok E1, bind_ok F1, bind_ok G1, m1]
  · rw [hao, hbo]
    exact og
  · rw [inDom_make T3]
    intro v hv I hI
    rw [T4 v hv] at hI
    obtain ⟨s, hs, rfl⟩ := List.mem_map.1 hv
    rw [sg] at hs
    rcases sq s hs with h | h
    · rw [lookup_dom_left ha (List.mem_map_of_mem h)] at hI
      exact (inDom_iff ha x).1 hxa _ (List.mem_map_of_mem h) I hI
    · rw [lookup_dom_right hc hb (List.mem_map_of_mem h)] at hI
      exact (inDom_iff hb x).1 hxb _ (List.mem_map_of_mem h) I hI
  · show Spec.InItv _ (y * z - eval (displacement ne x) (g.toMv ()))
    rw [T5]
    have hE := E3 x hxa hxb
    rw [pe, map_sub, map_mul, eval_left ha, eval_right hc hb] at hE
    have key : y * z - eval (displacement (unionMap a.exp b.exp) x) (g.toMv () : MvPolynomial String K) =
        (a.polyAt x * b.polyAt x - eval (displacement (unionMap a.exp b.exp) x) (g.toMv ())) + a.polyAt x * (z - b.polyAt x) +
          (y - a.polyAt x) * b.polyAt x + (y - a.polyAt x) * (z - b.polyAt x) := by ring
    rw [key]
    exact Itv.mem_add (Itv.mem_add (Itv.mem_add hE (Itv.mem_mul (F3 x hxa) hz)) (Itv.mem_mul hy (G3 x hxb))) (Itv.mem_mul hy hz)
  · rw [hao, hbo, ← pq]
    exact cg m

theorem mul_sound (ha : a.WF) (hb : b.WF) (hc : Compatible a b) (hpa : (a.tpol.toMv () : MvPolynomial String K) ≠ 0)
    (hpb : (b.tpol.toMv () : MvPolynomial String K) ≠ 0) (ho1 : 1 ≤ a.order + b.order) (ho2 : a.order + b.order ≤ 62)
    (hord : Faithful ord (a.tpol.p.syms.map varName ++ b.tpol.p.syms.map varName))
    (ht : (∃ m : String →₀ ℕ, max a.order b.order < m.degree ∧
        ((tiny : ℚ) : K) < |coeff m (a.tpol.toMv () * b.tpol.toMv () : MvPolynomial String K)|) ∨
      ∀ m : String →₀ ℕ, max a.order b.order < m.degree → coeff m (a.tpol.toMv () * b.tpol.toMv () : MvPolynomial String K) = 0) :
    Sound₂ a b (mul ord a b) fun y z => y * z := by
  obtain ⟨r, h1, h2, h3, h4, h5, -⟩ := mul_parts ha hb hc hpa hpb ho1 ho2 hord ht
  exact ⟨r, h1, h2, h3, h4, h5⟩

end TM
end Audi
