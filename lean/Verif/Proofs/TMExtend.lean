import Verif.Proofs.TMSum

/-!
# Proofs: extension of the symbol set of a Taylor model, comparison
-/

namespace Audi

open MvPolynomial

namespace VMap
variable {α : Type}

theorem lookup_insertNew (m : VMap α) (k : String) (x : α) (j : String) :
    (m.insertNew k x).lookup j = (m.lookup j).or (if j = k then some x else none) := by
  by_cases h : k ∈ m.keys
  · rw [insertNew_of_mem h]
    split_ifs with hj
    · subst hj
      obtain ⟨y, hy⟩ := lookup_isSome h
      rw [hy]
      rfl
    · simp
  · rw [keys_insertNew h, TM.lookup_append]
    congr 1
    rw [List.lookup_cons]
    by_cases hj : j = k
    · simp [hj]
    · have : (j == k) = false := by simpa using hj
      rw [this, if_neg hj]
      rfl

theorem nodup_insertNew {m : VMap α} (h : m.keys.Nodup) (k : String) (x : α) : (m.insertNew k x).keys.Nodup := by
  by_cases hk : k ∈ m.keys
  · rw [insertNew_of_mem hk]
    exact h
  · rw [keys_insertNew hk]
    unfold keys at h hk ⊢
    rw [List.map_append, List.nodup_append]
    refine ⟨h, by simp, ?_⟩
    rintro a ha b hb rfl
    simp at hb
    exact hk (hb ▸ ha)

end VMap

namespace TM
variable {K : Type} [Field K] [LinearOrder K]

omit [Field K] [LinearOrder K] in
theorem extendLoop_spec {e : VMap K} {d : VMap (Itv K)} {vs : List String} (h : ∀ v ∈ vs, ∃ x I, e.lookup v = some x ∧ d.lookup v = some I)
    (s1 : VMap K) (s2 : VMap (Itv K)) (h1 : s1.keys.Nodup) (h2 : s2.keys.Nodup) :
    ∃ r1 r2, extendLoop e d vs (s1, s2) = ((r1, r2), true) ∧ r1.keys.Nodup ∧ r2.keys.Nodup ∧
      (∀ k, r1.lookup k = (s1.lookup k).or (if k ∈ vs then e.lookup k else none)) ∧
      ∀ k, r2.lookup k = (s2.lookup k).or (if k ∈ vs then d.lookup k else none) := by
  induction vs generalizing s1 s2 with
  | nil => exact ⟨s1, s2, rfl, h1, h2, fun k => by simp, fun k => by simp⟩
  | cons v vs ih =>
    obtain ⟨x, I, hx, hI⟩ := h v List.mem_cons_self
    obtain ⟨r1, r2, e1, e2, e3, e4, e5⟩ := ih (fun w hw => h w (List.mem_cons_of_mem _ hw)) (s1.insertNew v x) (s2.insertNew v I)
      (VMap.nodup_insertNew h1 v x) (VMap.nodup_insertNew h2 v I)
    refine ⟨r1, r2, ?_, e2, e3, fun k => ?_, fun k => ?_⟩
    · unfold extendLoop
      rw [hx]
      simp only
      rw [hI]
      exact e1
    · rw [e4, VMap.lookup_insertNew, Option.or_assoc]
      congr 1
      by_cases hk : k = v
      · subst hk
        simp [hx]
      · simp [hk]
    · rw [e5, VMap.lookup_insertNew, Option.or_assoc]
      congr 1
      by_cases hk : k = v
      · subst hk
        simp [hI]
      · simp [hk]

omit [Field K] [LinearOrder K] in
theorem extendLoop_fails {e : VMap K} {d : VMap (Itv K)} {vs : List String} (h : ¬ ∀ v ∈ vs, ∃ x I, e.lookup v = some x ∧ d.lookup v = some I)
    (s : VMap K × VMap (Itv K)) : (extendLoop e d vs s).2 = false := by
  induction vs generalizing s with
  | nil => simp at h
  | cons v vs ih =>
    unfold extendLoop
    cases hx : e.lookup v with
    | none => rfl
    | some x =>
      simp only
      cases hI : d.lookup v with
      | none => rfl
      | some I =>
        refine ih (fun hc => h fun w hw => ?_) _
        rcases List.mem_cons.1 hw with rfl | hw
        · exact ⟨x, I, hx, hI⟩
        · exact hc w hw

theorem extend_ok {tm : TM K} (ht : tm.WF) {vs : List String} {e : VMap K} {d : VMap (Itv K)}
    (h : ∀ v ∈ vs, ∃ x I, e.lookup v = some x ∧ d.lookup v = some I ∧ (v ∉ tm.dom.keys → Spec.InItv I x)) :
    ∃ r, tm.extendSymbolSet vs e d = (r, .ok ()) ∧ r.WF ∧ r.order = tm.order ∧ r.rem = tm.rem ∧
      (∀ s, s ∈ r.tpol.p.syms ↔ s ∈ tm.tpol.p.syms ∨ ∃ v ∈ vs, s = "d" ++ v) ∧ (∀ x, r.polyAt x = tm.polyAt x) ∧
      (∀ k, r.exp.lookup k = (tm.exp.lookup k).or (if k ∈ vs then e.lookup k else none)) ∧
      ∀ k, r.dom.lookup k = (tm.dom.lookup k).or (if k ∈ vs then d.lookup k else none) := by
  obtain ⟨r1, r2, e1, n1, n2, l1, l2⟩ := extendLoop_spec
    (fun v hv => by obtain ⟨x, I, h1, h2, -⟩ := h v hv; exact ⟨x, I, h1, h2⟩) tm.exp tm.dom ht.nodupExp ht.nodupDom
  have hg : tm.tpol.extendSymbolSet (vs.map fun v => "d" ++ v) =
      .ok ⟨tm.tpol.p.addSymbols (mergeSyms [] (vs.map fun v => "d" ++ v)), tm.tpol.order⟩ := by
    refine GDual.extendSymbolSet_ok.2 ⟨fun s hs => ?_, rfl⟩
    obtain ⟨v, -, rfl⟩ := List.mem_map.1 hs
    simp
  have hv := GDual.Valid.extendSymbolSet ht.valid hg
  have hmv := fun x : String → K => congrArg (eval (displacement r1 x)) (GDual.toMv_extendSymbolSet (K := K) ht.valid hg ())
  set p : GDual K := ⟨tm.tpol.p.addSymbols (mergeSyms [] (vs.map fun v => "d" ++ v)), tm.tpol.order⟩ with hp
  have hs : ∀ s, s ∈ p.p.syms ↔ s ∈ tm.tpol.p.syms ∨ ∃ v ∈ vs, s = "d" ++ v := by
    intro s
    have : s ∈ p.p.syms ↔ s ∈ mergeSyms tm.tpol.p.syms (mergeSyms [] (vs.map fun v => "d" ++ v)) := Iff.rfl
    rw [this, mem_mergeSyms, mem_mergeSyms]
    simp [eq_comm]
  have hn : ∀ s ∈ p.p.syms, ∃ v, s = "d" ++ v := fun s h =>
    ((hs s).1 h).elim (ht.names s) fun ⟨v, _, hv⟩ => ⟨v, hv⟩
  have hnd := nodup_varNames hv.wf.ndsyms hn
  have hm : ∀ v, v ∈ p.p.syms.map varName ↔ v ∈ tm.tpol.p.syms.map varName ∨ v ∈ vs := by
    intro v
    rw [List.mem_map, List.mem_map]
    constructor
    · rintro ⟨s, h1, rfl⟩
      rcases (hs s).1 h1 with h2 | ⟨w, hw, rfl⟩
      · exact .inl ⟨s, h2, rfl⟩
      · right
        rwa [varName_d]
    · rintro (⟨s, h1, rfl⟩ | hv)
      · exact ⟨s, (hs s).2 (.inl h1), rfl⟩
      · exact ⟨"d" ++ v, (hs _).2 (.inr ⟨v, hv, rfl⟩), varName_d v⟩
  have key : ∀ {α : Type} {m r f : VMap α}, (∀ k, k ∈ m.map Prod.fst ↔ k ∈ tm.tpol.p.syms.map varName) →
      (∀ v ∈ vs, ∃ x, f.lookup v = some x) → (∀ k, r.lookup k = (m.lookup k).or (if k ∈ vs then f.lookup k else none)) →
      ∀ k, k ∈ r.map Prod.fst ↔ k ∈ p.p.syms.map varName := by
    intro α m r f hm' hf hr k
    rw [hm, ← hm' k]
    have h1 : k ∈ r.map Prod.fst ↔ r.lookup k ≠ none := by rw [Ne, VMap.lookup_eq_none, not_not]
    have h2 : k ∈ m.map Prod.fst ↔ m.lookup k ≠ none := by rw [Ne, VMap.lookup_eq_none, not_not]
    rw [h1, h2, hr]
    by_cases hk : k ∈ vs
    · obtain ⟨x, hx⟩ := hf k hk
      simp [hk, hx]
    · simp [hk]
  have hke := key (fun k => ht.expKeys.mem_iff) (fun v hv => by obtain ⟨x, I, h1, h2, -⟩ := h v hv; exact ⟨x, h1⟩) l1
  have hkd := key (fun k => ht.domKeys.mem_iff) (fun v hv => by obtain ⟨x, I, h1, h2, -⟩ := h v hv; exact ⟨I, h2⟩) l2
  have parts : Parts p tm.rem r1 r2 := by
    refine ⟨hv, hn, (List.perm_ext_iff_of_nodup n1 hnd).2 hke, (List.perm_ext_iff_of_nodup n2 hnd).2 hkd, ?_, ht.rem⟩
    rintro ⟨k, I⟩ hkI
    have h1 := VMap.lookup_of_mem n2 hkI
    rw [l2] at h1
    cases hd : tm.dom.lookup k with
    | some J =>
      rw [hd] at h1
      simp at h1
      subst h1
      obtain ⟨x, hx, hx2⟩ := ht.inside _ (VMap.mem_of_lookup hd)
      have h3 := VMap.lookup_of_mem ht.nodupExp hx
      refine ⟨x, VMap.mem_of_lookup ?_, hx2⟩
      rw [l1]
      simp only at h3
      rw [h3]
      rfl
    | none =>
      rw [hd] at h1
      by_cases hk : k ∈ vs
      · obtain ⟨x, J, a1, a2, a3⟩ := h k hk
        rw [if_pos hk, a2] at h1
        simp at h1
        subst h1
        have hkn := VMap.lookup_eq_none.1 hd
        refine ⟨x, VMap.mem_of_lookup ?_, a3 hkn⟩
        rw [l1, VMap.lookup_eq_none.2, if_pos hk, a1]
        · rfl
        · rw [ht.expKeys.mem_iff, ← ht.domKeys.mem_iff]
          exact hkn
      · rw [if_neg hk] at h1
        simp at h1
  obtain ⟨m1, m2⟩ := make_wf parts
  refine ⟨⟨p, p.order, p.symbolSetSize, tm.rem, r1, r2⟩, ?_, m2, ht.order.symm, rfl, hs, fun x => ?_, l1, l2⟩
  · unfold extendSymbolSet
    rw [e1]
    simp only [if_true]
    rw [hg]
    simp only
    have hmk : checkInput p.symbolSetSize r1 r2 = .ok () := by
      unfold make at m1
      by_contra hc
      rw [checkInput_error hc] at m1
      simp [bind, Except.bind] at m1
    rw [hmk, ht.order]
  · change eval (displacement r1 x) (p.toMv ()) = _
    rw [hmv x]
    refine eval_congr ht.valid fun s hs' => ?_
    unfold displacement
    obtain ⟨I, x0, -, hx0, -⟩ := ht.lookup (List.mem_map_of_mem hs')
    rw [l1, hx0]
    rfl

/-! ### Comparison -/

theorem mapEqual_iff {tol : Option ℚ} {a b : VMap K} : mapEqual tol a b = true ↔ a.length = b.length ∧
    ∀ e ∈ a, ∃ y, b.lookup e.1 = some y ∧ match tol with | none => e.2 = y | some t => |e.2 - y| < (t : K) := by
  unfold mapEqual
  rw [Bool.and_eq_true, decide_eq_true_eq, List.all_eq_true]
  refine and_congr_right fun _ => forall₂_congr fun e _ => ?_
  cases b.lookup e.1 with
  | none => simp
  | some y => cases tol <;> simp

theorem mapItvEqual_iff {tol : Option ℚ} {a b : VMap (Itv K)} : mapItvEqual tol a b = true ↔ a.length = b.length ∧
    ∀ e ∈ a, ∃ y, b.lookup e.1 = some y ∧ itvEqual tol e.2 y = true := by
  unfold mapItvEqual
  rw [Bool.and_eq_true, decide_eq_true_eq, List.all_eq_true]
  refine and_congr_right fun _ => forall₂_congr fun e _ => ?_
  cases b.lookup e.1 with
  | none => simp
  | some y => simp

omit [Field K] [LinearOrder K] in
/-- Two maps of the same size, the keys of the first among those of the second, have the same keys. -/
theorem keys_symm {α : Type} {a b : VMap α} (ha : a.keys.Nodup) (hl : a.length = b.length)
    (h : ∀ e ∈ a, ∃ y, b.lookup e.1 = some y) : ∀ f ∈ b, ∃ x, a.lookup f.1 = some x ∧ (f.1, x) ∈ a := by
  have hsub : a.keys ⊆ b.keys := fun k hk => by
    obtain ⟨e, he, rfl⟩ := List.mem_map.1 hk
    obtain ⟨y, hy⟩ := h e he
    exact mem_keys_of_lookup hy
  have hperm : a.keys.Perm b.keys := (List.subperm_of_subset ha hsub).perm_of_length_le (by simp [VMap.keys, hl])
  intro f hf
  obtain ⟨x, hx⟩ := VMap.lookup_isSome (hperm.mem_iff.2 (List.mem_map_of_mem hf))
  exact ⟨x, hx, VMap.mem_of_lookup hx⟩

theorem numEqual_symm (tol : Option ℚ) (a b : K) : numEqual tol a b = numEqual tol b a := by
  unfold numEqual
  rw [abs_sub_comm]

theorem itvEqual_symm (tol : Option ℚ) (a b : Itv K) : itvEqual tol a b = itvEqual tol b a := by
  unfold itvEqual
  rw [numEqual_symm, numEqual_symm tol a.hi]

theorem mapEqual_symm_of {tol : Option ℚ} {a b : VMap K} (ha : a.keys.Nodup) (hb : b.keys.Nodup) (h : mapEqual tol a b = true) :
    mapEqual tol b a = true := by
  rw [mapEqual_iff] at h ⊢
  refine ⟨h.1.symm, fun f hf => ?_⟩
  obtain ⟨x, hx, hxa⟩ := keys_symm ha h.1 (fun e he => by obtain ⟨y, hy, -⟩ := h.2 e he; exact ⟨y, hy⟩) f hf
  obtain ⟨y, hy, hh⟩ := h.2 _ hxa
  have hy' := VMap.lookup_of_mem hb (k := f.1) (x := f.2) hf
  simp only at hy
  rw [hy'] at hy
  obtain rfl := Option.some.inj hy
  refine ⟨x, hx, ?_⟩
  cases tol with
  | none => exact hh.symm
  | some t =>
    simp only at hh ⊢
    rwa [abs_sub_comm]

theorem mapItvEqual_symm_of {tol : Option ℚ} {a b : VMap (Itv K)} (ha : a.keys.Nodup) (hb : b.keys.Nodup)
    (h : mapItvEqual tol a b = true) : mapItvEqual tol b a = true := by
  rw [mapItvEqual_iff] at h ⊢
  refine ⟨h.1.symm, fun f hf => ?_⟩
  obtain ⟨x, hx, hxa⟩ := keys_symm ha h.1 (fun e he => by obtain ⟨y, hy, -⟩ := h.2 e he; exact ⟨y, hy⟩) f hf
  obtain ⟨y, hy, hh⟩ := h.2 _ hxa
  have hy' := VMap.lookup_of_mem hb (k := f.1) (x := f.2) hf
  simp only at hy
  rw [hy'] at hy
  obtain rfl := Option.some.inj hy
  exact ⟨x, hx, by rw [itvEqual_symm]; exact hh⟩

end TM
end Audi
