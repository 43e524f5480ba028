import Verif.Proofs.GetBounds
import Verif.Proofs.GDualOps
import Mathlib.Tactic.Linarith
import Mathlib.Tactic.NormNum

/-!
# Proofs: construction of Taylor models, merging of maps
-/

namespace Audi

open MvPolynomial

namespace VMap
variable {α : Type}

theorem keys_insertNew {m : VMap α} {k : String} {x : α} (h : k ∉ m.keys) : m.insertNew k x = m ++ [(k, x)] := by
  unfold insertNew
  rw [lookup_eq_none.2 h]

theorem insertNew_of_mem {m : VMap α} {k : String} {x : α} (h : k ∈ m.keys) : m.insertNew k x = m := by
  unfold insertNew
  obtain ⟨y, hy⟩ := lookup_isSome h
  rw [hy]

/-- The entries of `a` with keys in `vars`. -/
def pick (vars : List String) (a : VMap α) : VMap α := vars.filterMap fun v => (a.lookup v).map fun x => (v, x)

theorem keys_pick {vars : List String} {a : VMap α} (h : ∀ v ∈ vars, v ∈ a.keys) : (pick vars a).map Prod.fst = vars := by
  induction vars with
  | nil => rfl
  | cons v vars ih =>
    obtain ⟨x, hx⟩ := lookup_isSome (h v List.mem_cons_self)
    unfold pick at ih ⊢
    simp only [List.filterMap_cons, hx, Option.map_some, List.map_cons]
    rw [ih fun w hw => h w (List.mem_cons_of_mem _ hw)]

theorem mem_pick {vars : List String} {a : VMap α} {k : String} {x : α} : (k, x) ∈ pick vars a ↔ k ∈ vars ∧ a.lookup k = some x := by
  unfold pick
  rw [List.mem_filterMap]
  constructor
  · rintro ⟨v, hv, h⟩
    cases hx : a.lookup v with
    | none => rw [hx] at h; simp at h
    | some y =>
      rw [hx] at h
      simp only [Option.map_some, Option.some.injEq, Prod.mk.injEq] at h
      obtain ⟨rfl, rfl⟩ := h
      exact ⟨hv, hx⟩
  · rintro ⟨h1, h2⟩
    exact ⟨k, h1, by rw [h2]; rfl⟩

theorem lookup_pick {vars : List String} {a : VMap α} {k : String} (hk : k ∈ vars) : (pick vars a).lookup k = a.lookup k := by
  cases hx : a.lookup k with
  | none =>
    rw [lookup_eq_none]
    intro hc
    obtain ⟨e, he, rfl⟩ := List.mem_map.1 hc
    have := (mem_pick (k := e.1) (x := e.2)).1 he
    rw [hx] at this
    simp at this
  | some x =>
    induction vars with
    | nil => simp at hk
    | cons v vars ih =>
      unfold pick
      rw [List.filterMap_cons]
      by_cases hv : k = v
      · subst hv
        simp [hx]
      · have h1 := ih (List.mem_of_ne_of_mem hv hk)
        cases hy : a.lookup v with
        | none => exact h1
        | some y =>
          simp only [Option.map_some]
          rw [List.lookup_cons]
          have : (k == v) = false := by simpa using hv
          rw [this]
          exact h1

end VMap

namespace TM

/-! ### Merging -/

theorem trimMap_aux {α : Type} (a : VMap α) (vars : List String) (r : VMap α) (hnd : (r.keys ++ vars).Nodup)
    (h : ∀ v ∈ vars, v ∈ a.keys) :
    vars.foldlM (fun (r : VMap α) (v : String) =>
      match a.lookup v with
      | none => logicError
      | some x => (.ok (r.insertNew v x) : Res (VMap α))) r = .ok (r ++ VMap.pick vars a) := by
  induction vars generalizing r with
  | nil => simp [VMap.pick]; rfl
  | cons v vars ih =>
    obtain ⟨x, hx⟩ := VMap.lookup_isSome (h v List.mem_cons_self)
    have hv : v ∉ r.keys := fun hc => (List.nodup_append.1 hnd).2.2 v hc v List.mem_cons_self rfl
    rw [List.foldlM_cons]
    have e1 : (match a.lookup v with
      | none => logicError
      | some x => (.ok (r.insertNew v x) : Res (VMap α))) = .ok (r ++ [(v, x)]) := by
      rw [hx, ← VMap.keys_insertNew hv]
    rw [bind_ok e1, ih (r ++ [(v, x)])]
    · unfold VMap.pick
      simp [hx]
    · unfold VMap.keys at hnd ⊢
      simpa using hnd
    · exact fun w hw => h w (List.mem_cons_of_mem _ hw)

theorem trimMap_ok {α : Type} {a : VMap α} {vars : List String} (hnd : vars.Nodup) (h : ∀ v ∈ vars, v ∈ a.keys) :
    trimMap vars a = .ok (VMap.pick vars a) := by
  exact trimMap_aux a vars [] (by simpa [VMap.keys] using hnd) h

theorem trimMap_error_aux {α : Type} (a : VMap α) (vars : List String) (r : VMap α) (h : ¬ ∀ v ∈ vars, v ∈ a.keys) :
    vars.foldlM (fun (r : VMap α) (v : String) =>
      match a.lookup v with
      | none => logicError
      | some x => (.ok (r.insertNew v x) : Res (VMap α))) r = .error .invalidArgument := by
  induction vars generalizing r with
  | nil => simp at h
  | cons v vars ih =>
    rw [List.foldlM_cons]
    cases hx : a.lookup v with
    | none => rfl
    | some x =>
      have hv : v ∈ a.keys := by
        have := VMap.mem_of_lookup hx
        exact List.mem_map.2 ⟨_, this, rfl⟩
      have h' : ¬ ∀ w ∈ vars, w ∈ a.keys := fun hc => h fun w hw => (List.mem_cons.1 hw).elim (fun e => e ▸ hv) (hc w)
      exact ih _ h'

theorem trimMap_error {α : Type} {a : VMap α} {vars : List String} (h : ¬ ∀ v ∈ vars, v ∈ a.keys) :
    trimMap vars a = .error .invalidArgument := trimMap_error_aux a vars [] h

theorem mem_allKeys {α : Type} {a b : VMap α} {k : String} : k ∈ allKeys a b ↔ k ∈ a.keys ∨ k ∈ b.keys := by
  unfold allKeys
  rw [List.mem_append, List.mem_filter]
  by_cases h : k ∈ a.keys <;> simp [h]

theorem nodup_allKeys {α : Type} {a b : VMap α} (ha : a.keys.Nodup) (hb : b.keys.Nodup) : (allKeys a b).Nodup := by
  unfold allKeys
  rw [List.nodup_append]
  refine ⟨ha, hb.filter _, ?_⟩
  rintro x hx y hy rfl
  rw [List.mem_filter] at hy
  simp [hx] at hy

/-- The union of two maps; entries of `a` come first. -/
def unionMap {α : Type} (a b : VMap α) : VMap α := VMap.pick (allKeys a b) (a ++ b)

theorem lookup_append {α : Type} (a b : VMap α) (k : String) : (a ++ b).lookup k = (a.lookup k).or (b.lookup k) := by
  induction a with
  | nil => simp
  | cons e a ih =>
    obtain ⟨v, x⟩ := e
    rw [List.cons_append, List.lookup_cons, List.lookup_cons]
    cases k == v with
    | true => simp
    | false => exact ih

theorem keys_unionMap {α : Type} (a b : VMap α) : (unionMap a b).map Prod.fst = allKeys a b := by
  unfold unionMap
  refine VMap.keys_pick fun v hv => ?_
  unfold VMap.keys
  rw [List.map_append, List.mem_append]
  exact mem_allKeys.1 hv

theorem lookup_unionMap {α : Type} (a b : VMap α) (k : String) : (unionMap a b).lookup k = (a.lookup k).or (b.lookup k) := by
  by_cases hk : k ∈ allKeys a b
  · unfold unionMap
    rw [VMap.lookup_pick hk, lookup_append]
  · have h1 : (unionMap a b).lookup k = none := VMap.lookup_eq_none.2 (by rw [keys_unionMap]; exact hk)
    rw [mem_allKeys, not_or] at hk
    rw [h1, VMap.lookup_eq_none.2 hk.1, VMap.lookup_eq_none.2 hk.2]
    rfl

theorem mapM_error_of {α β : Type} {f : α → Res β} {l : List α} {x : Exn} (h1 : ∀ a ∈ l, (∃ b, f a = .ok b) ∨ f a = .error x)
    (h2 : ∃ a ∈ l, f a = .error x) : l.mapM f = .error x := by
  induction l with
  | nil => simp at h2
  | cons a l ih =>
    rw [List.mapM_cons]
    rcases h1 a List.mem_cons_self with ⟨b, hb⟩ | he
    · obtain ⟨c, hc, hce⟩ := h2
      have hca : c ∈ l := by
        rcases List.mem_cons.1 hc with rfl | h
        · rw [hb] at hce; simp at hce
        · exact h
      rw [bind_ok hb, bind_error (ih (fun a ha => h1 a (List.mem_cons_of_mem _ ha)) ⟨c, hca, hce⟩)]
    · rw [bind_error he]

theorem mapM_pick {α : Type} {f : String → Res (String × α)} {m : VMap α} {l : List String}
    (h : ∀ k ∈ l, ∃ x, f k = .ok (k, x) ∧ m.lookup k = some x) : l.mapM f = .ok (VMap.pick l m) := by
  induction l with
  | nil => rfl
  | cons k l ih =>
    obtain ⟨x, h1, h2⟩ := h k List.mem_cons_self
    rw [List.mapM_cons, bind_ok h1, bind_ok (ih fun b hb => h b (List.mem_cons_of_mem _ hb))]
    unfold VMap.pick
    rw [List.filterMap_cons, h2]
    rfl

theorem commonMap_ok {α : Type} {same : α → α → Bool} {a b : VMap α}
    (h : ∀ k x y, a.lookup k = some x → b.lookup k = some y → same x y = true) : commonMap same a b = .ok (unionMap a b) := by
  unfold commonMap
  refine mapM_pick fun k hk => ?_
  rw [lookup_append]
  rw [mem_allKeys] at hk
  cases hx : a.lookup k with
  | none =>
    cases hy : b.lookup k with
    | none => exact absurd hk (not_or.2 ⟨VMap.lookup_eq_none.1 hx, VMap.lookup_eq_none.1 hy⟩)
    | some y => exact ⟨y, rfl, rfl⟩
  | some x =>
    cases hy : b.lookup k with
    | none => exact ⟨x, rfl, rfl⟩
    | some y => exact ⟨x, if_pos (h k x y hx hy), rfl⟩

theorem commonMap_error {α : Type} {same : α → α → Bool} {a b : VMap α}
    (h : ∃ k x y, a.lookup k = some x ∧ b.lookup k = some y ∧ same x y = false) : commonMap same a b = .error .runtimeError := by
  unfold commonMap
  refine mapM_error_of (fun k hk => ?_) ?_
  · rw [mem_allKeys] at hk
    cases hx : a.lookup k with
    | none =>
      cases hy : b.lookup k with
      | none => exact absurd hk (not_or.2 ⟨VMap.lookup_eq_none.1 hx, VMap.lookup_eq_none.1 hy⟩)
      | some y => exact .inl ⟨_, rfl⟩
    | some x =>
      cases hy : b.lookup k with
      | none => exact .inl ⟨_, rfl⟩
      | some y =>
        simp only
        by_cases hs : same x y = true
        · exact .inl ⟨_, if_pos hs⟩
        · exact .inr (if_neg hs)
  · obtain ⟨k, x, y, h1, h2, h3⟩ := h
    refine ⟨k, mem_allKeys.2 (.inl ?_), ?_⟩
    · exact List.mem_map.2 ⟨_, VMap.mem_of_lookup h1, rfl⟩
    · rw [h1, h2]
      simp [h3]

/-! ### Construction -/

section
variable {K : Type} [Field K] [LinearOrder K]

theorem checkInput_ok {n : ℕ} {exp : VMap K} {dom : VMap (Itv K)} : checkInput n exp dom = .ok () ↔
    (∀ v, v ∈ exp.keys ↔ v ∈ dom.keys) ∧ (∀ e ∈ dom, ∃ x, exp.lookup e.1 = some x ∧ Spec.InItv e.2 x) ∧ dom.length = n := by
  unfold checkInput
  have h2 : dom.all (pointInside exp) = true ↔ ∀ e ∈ dom, ∃ x, exp.lookup e.1 = some x ∧ Spec.InItv e.2 x := by
    rw [List.all_eq_true]
    refine forall₂_congr fun e _ => ?_
    unfold pointInside
    cases exp.lookup e.1 with
    | none => simp
    | some x => simp [Spec.InItv]
  have h1 : (exp.keys ⊆ dom.keys ∧ dom.keys ⊆ exp.keys) ↔ ∀ v, v ∈ exp.keys ↔ v ∈ dom.keys :=
    ⟨fun h v => ⟨fun hv => h.1 hv, fun hv => h.2 hv⟩, fun h => ⟨fun v hv => (h v).1 hv, fun v hv => (h v).2 hv⟩⟩
  rw [← h1, ← h2]
  by_cases a : exp.keys ⊆ dom.keys ∧ dom.keys ⊆ exp.keys
  · rw [if_neg (not_not.2 a)]
    by_cases b : dom.all (pointInside exp) = true
    · rw [if_neg (not_not.2 b)]
      by_cases c : dom.length = n
      · rw [if_neg (not_not.2 c)]
        exact ⟨fun _ => ⟨a, b, c⟩, fun _ => rfl⟩
      · rw [if_pos c]
        exact ⟨fun h => by simp at h, fun h => absurd h.2.2 c⟩
    · rw [if_pos b]
      exact ⟨fun h => by simp at h, fun h => absurd h.2.1 b⟩
  · rw [if_pos a]
    exact ⟨fun h => by simp at h, fun h => absurd h.1 a⟩

omit [Field K] in
theorem checkInput_error {n : ℕ} {exp : VMap K} {dom : VMap (Itv K)} (h : checkInput n exp dom ≠ .ok ()) :
    checkInput n exp dom = .error .invalidArgument := by
  unfold checkInput at h ⊢
  split_ifs at h ⊢ <;> simp_all

theorem WF.nodup {tm : TM K} (h : tm.WF) : (tm.tpol.p.syms.map varName).Nodup := nodup_varNames h.valid.wf.ndsyms h.names

theorem WF.nodupExp {tm : TM K} (h : tm.WF) : (tm.exp.map Prod.fst).Nodup := h.expKeys.nodup_iff.2 h.nodup

theorem WF.nodupDom {tm : TM K} (h : tm.WF) : (tm.dom.map Prod.fst).Nodup := h.domKeys.nodup_iff.2 h.nodup

theorem WF.lookup {tm : TM K} (h : tm.WF) {v : String} (hv : v ∈ tm.tpol.p.syms.map varName) :
    ∃ I x, tm.dom.lookup v = some I ∧ tm.exp.lookup v = some x ∧ Spec.InItv I x := by
  obtain ⟨I, hI⟩ := VMap.lookup_isSome (h.domKeys.mem_iff.2 hv)
  obtain ⟨x, hx, hxI⟩ := h.inside _ (VMap.mem_of_lookup hI)
  exact ⟨I, x, hI, VMap.lookup_of_mem h.nodupExp hx, hxI⟩

/-- The parts of a Taylor model fit. -/
structure Parts (p : GDual K) (rem : Itv K) (exp : VMap K) (dom : VMap (Itv K)) : Prop where
  valid : p.Valid
  names : ∀ s ∈ p.p.syms, ∃ v, s = "d" ++ v
  expKeys : (exp.map Prod.fst).Perm (p.p.syms.map varName)
  domKeys : (dom.map Prod.fst).Perm (p.p.syms.map varName)
  inside : ∀ e ∈ dom, ∃ x, (e.1, x) ∈ exp ∧ Spec.InItv e.2 x
  rem : rem.lo ≤ rem.hi

theorem WF.parts {tm : TM K} (h : tm.WF) : Parts tm.tpol tm.rem tm.exp tm.dom :=
  ⟨h.valid, h.names, h.expKeys, h.domKeys, h.inside, h.rem⟩

theorem make_wf {p : GDual K} {rem : Itv K} {exp : VMap K} {dom : VMap (Itv K)} (h : Parts p rem exp dom) :
    make p rem exp dom = .ok ⟨p, p.order, p.symbolSetSize, rem, exp, dom⟩ ∧
      (⟨p, p.order, p.symbolSetSize, rem, exp, dom⟩ : TM K).WF := by
  have hw : (⟨p, p.order, p.symbolSetSize, rem, exp, dom⟩ : TM K).WF :=
    ⟨h.valid, h.names, rfl, rfl, h.expKeys, h.domKeys, h.inside, h.rem⟩
  refine ⟨?_, hw⟩
  unfold make
  have : checkInput p.symbolSetSize exp dom = .ok () := by
    refine checkInput_ok.2 ⟨fun v => ?_, fun e he => ?_, ?_⟩
    · unfold VMap.keys
      rw [h.expKeys.mem_iff, h.domKeys.mem_iff]
    · obtain ⟨x, hx, hx2⟩ := h.inside e he
      exact ⟨x, VMap.lookup_of_mem hw.nodupExp hx, hx2⟩
    · have := h.domKeys.length_eq
      rw [List.length_map, List.length_map] at this
      exact this
  rw [bind_ok this]
  rfl

/-! ### The domain and values -/

theorem eval_congr {d : GDual K} (hd : d.Valid) {δ δ' : String → K} (h : ∀ s ∈ d.p.syms, δ s = δ' s) :
    eval δ (d.toMv ()) = eval δ' (d.toMv ()) := by
  rw [eval_toMv hd, eval_toMv hd, List.map_congr_left h]

theorem inDom_iff {tm : TM K} (h : tm.WF) (x : String → K) : tm.InDom x ↔
    ∀ v ∈ tm.tpol.p.syms.map varName, ∀ I, tm.dom.lookup v = some I → Spec.InItv I (x v) := by
  constructor
  · intro hx v _ I hI
    exact hx _ (VMap.mem_of_lookup hI)
  · intro hx e he
    exact hx e.1 (h.domKeys.mem_iff.1 (List.mem_map_of_mem he)) _ (VMap.lookup_of_mem h.nodupDom he)

end
end TM
end Audi
