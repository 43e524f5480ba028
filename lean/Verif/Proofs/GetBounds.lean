import Verif.Spec.TaylorModel
import Verif.Proofs.Bernstein
import Verif.Proofs.GetPoly
import Verif.Proofs.InvertMap

/-!
# Proofs: bounds of the polynomial of a Taylor model
-/

namespace Audi

open MvPolynomial

theorem varName_d (v : String) : varName ("d" ++ v) = v := strip_d v

theorem symbolSet_eq {C : Type} (d : GDual C) : d.symbolSet = d.p.syms.map varName := rfl

theorem nodup_varNames {ss : List String} (hnd : ss.Nodup) (hn : ∀ s ∈ ss, ∃ v, s = "d" ++ v) : (ss.map varName).Nodup := by
  refine List.Nodup.map_on ?_ hnd
  intro a ha b hb hab
  obtain ⟨v, rfl⟩ := hn a ha
  obtain ⟨w, rfl⟩ := hn b hb
  rw [varName_d, varName_d] at hab
  rw [hab]

namespace VMap
variable {α : Type}

theorem lookup_of_mem {m : VMap α} (hnd : (m.map Prod.fst).Nodup) {k : String} {x : α} (h : (k, x) ∈ m) : m.lookup k = some x := by
  induction m with
  | nil => simp at h
  | cons a m ih =>
    rw [List.map_cons, List.nodup_cons] at hnd
    rcases List.mem_cons.1 h with h | h1
    · subst h
      simp [List.lookup]
    · have hne : k ≠ a.1 := fun hh => hnd.1 (hh ▸ List.mem_map.2 ⟨(k, x), h1, rfl⟩)
      obtain ⟨ak, ax⟩ := a
      rw [List.lookup_cons]
      have : (k == ak) = false := by simpa using hne
      rw [this]
      exact ih hnd.2 h1

theorem mem_of_lookup {m : VMap α} {k : String} {x : α} (h : m.lookup k = some x) : (k, x) ∈ m := by
  induction m with
  | nil => simp at h
  | cons a m ih =>
    obtain ⟨ak, ax⟩ := a
    rw [List.lookup_cons] at h
    by_cases hk : k = ak
    · subst hk
      simp at h
      subst h
      exact List.mem_cons_self
    · have : (k == ak) = false := by simpa using hk
      rw [this] at h
      exact List.mem_cons_of_mem _ (ih h)

theorem lookup_eq_none {m : VMap α} {k : String} : m.lookup k = none ↔ k ∉ m.map Prod.fst := by
  rw [List.lookup_eq_none_iff]
  constructor
  · intro h hk
    obtain ⟨e, he, rfl⟩ := List.mem_map.1 hk
    have := h e he
    simp at this
  · intro h e he
    by_contra hc
    have : k = e.1 := by simpa using hc
    exact h (List.mem_map.2 ⟨e, he, this.symm⟩)

theorem lookup_isSome {m : VMap α} {k : String} (h : k ∈ m.map Prod.fst) : ∃ x, m.lookup k = some x := by
  cases hx : m.lookup k with
  | none => exact absurd h (lookup_eq_none.1 hx)
  | some x => exact ⟨x, rfl⟩

end VMap

namespace TM
variable {K : Type} [Field K] [LinearOrder K]

/-! ### Values of polynomials -/

omit [LinearOrder K] in
theorem eval_monomial_toExp (δ : String → K) (ss : List String) (e : List ℕ) (he : e.length = ss.length) (c : K) :
    eval δ (monomial (toExp ss e) c) = c * (List.zipWith (fun (xi : K) (k : ℕ) => xi ^ k) (ss.map δ) e).prod := by
  induction ss generalizing e c with
  | nil =>
    cases e with
    | nil => simp [toExp]
    | cons k e => simp at he
  | cons s ss ih =>
    cases e with
    | nil => simp at he
    | cons k e =>
      have h1 : monomial (toExp (s :: ss) (k :: e)) c = monomial (Finsupp.single s k) (1 : K) * monomial (toExp ss e) c := by
        rw [monomial_mul, one_mul]
        rfl
      rw [h1, map_mul, ih e (by simpa using he), eval_monomial]
      simp only [one_mul, List.map_cons, List.zipWith_cons_cons, List.prod_cons]
      rw [Finsupp.prod_single_index (by simp)]
      ring

theorem eval_toMv {d : GDual K} (hd : d.Valid) (δ : String → K) :
    eval δ (d.toMv ()) = (d.p.terms.map fun t => t.2 * (List.zipWith (fun (xi : K) (k : ℕ) => xi ^ k) (d.p.syms.map δ) t.1).prod).sum := by
  unfold GDual.toMv Poly.toMv den
  rw [map_list_sum, List.map_map]
  refine congrArg List.sum (List.map_congr_left fun t ht => ?_)
  exact eval_monomial_toExp δ _ _ (hd.wf.len t ht) _

theorem polyVal_eq {d : GDual K} (hd : d.Valid) {coeffs : List K} {exps : List (List ℕ)}
    (hp : (exps.zip coeffs).Perm d.p.terms) (δ : String → K) : Spec.polyVal coeffs exps (d.p.syms.map δ) = eval δ (d.toMv ()) := by
  rw [eval_toMv hd, ← (hp.map _).sum_eq]
  unfold Spec.polyVal
  congr 1
  rw [List.zip, List.map_zipWith, List.zipWith_comm]

/-! ### The shifted domain -/

omit [Field K] in
theorem make_ok {l u : K} (h : l ≤ u) : Itv.make l u = .ok ⟨l, u⟩ := by
  unfold Itv.make
  rw [if_pos h]

omit [LinearOrder K] in
theorem mapM_ok {α β : Type} {f : α → Res β} {g : α → β} {l : List α} (h : ∀ a ∈ l, f a = .ok (g a)) : l.mapM f = .ok (l.map g) := by
  induction l with
  | nil => rfl
  | cons a l ih =>
    rw [List.mapM_cons, bind_ok (h a List.mem_cons_self), bind_ok (ih fun b hb => h b (List.mem_cons_of_mem _ hb))]
    rfl

/-- The interval of the displacement of the variable `v`. -/
def shiftItv {K : Type} [Zero K] [Sub K] (exp : VMap K) (dom : VMap (Itv K)) (v : String) : Itv K :=
  ⟨((dom.lookup v).getD ⟨0, 0⟩).lo - (exp.lookup v).getD 0, ((dom.lookup v).getD ⟨0, 0⟩).hi - (exp.lookup v).getD 0⟩

variable [IsStrictOrderedRing K]

theorem shiftedDomain_ok {vars : List String} {exp : VMap K} {dom : VMap (Itv K)}
    (h : ∀ v ∈ vars, ∃ I x, dom.lookup v = some I ∧ exp.lookup v = some x ∧ I.lo ≤ I.hi) :
    shiftedDomain vars exp dom = .ok (vars.map fun v => (v, shiftItv exp dom v)) := by
  unfold shiftedDomain
  refine mapM_ok fun v hv => ?_
  obtain ⟨I, x, h1, h2, h3⟩ := h v hv
  have e1 : dom.at' v = .ok I := by unfold VMap.at'; rw [h1]
  have e2 : exp.at' v = .ok x := by unfold VMap.at'; rw [h2]
  rw [bind_ok e1, bind_ok e2, bind_ok (make_ok (sub_le_sub_right h3 x))]
  simp [shiftItv, h1, h2]

omit [IsStrictOrderedRing K] [Field K] [LinearOrder K] in
theorem iterate_faithful {ord : List String → List String} {α : Type} {m : VMap α} (hnd : (m.map Prod.fst).Nodup)
    (ho : ord (m.map Prod.fst) = m.map Prod.fst) : iterate ord m = m := by
  unfold iterate VMap.keys
  rw [ho, List.filterMap_map]
  have : ∀ e ∈ m, ((fun v => (m.lookup v).map fun I => (v, I)) ∘ Prod.fst) e = some e := by
    intro e he
    have := VMap.lookup_of_mem hnd (k := e.1) (x := e.2) he
    simp [this]
  rw [List.filterMap_congr this]
  simp

omit [IsStrictOrderedRing K] [Field K] in
theorem foldl_min_le (x : K) (l : List K) : ∀ v ∈ x :: l, l.foldl min x ≤ v := by
  induction l generalizing x with
  | nil => simp
  | cons a l ih =>
    intro v hv
    rw [List.foldl_cons]
    have h := ih (min x a)
    have h0 : l.foldl min (min x a) ≤ min x a := h _ List.mem_cons_self
    rcases List.mem_cons.1 hv with rfl | hv
    · exact h0.trans (min_le_left _ _)
    · rcases List.mem_cons.1 hv with rfl | hv
      · exact h0.trans (min_le_right _ _)
      · exact h v (List.mem_cons_of_mem _ hv)

omit [IsStrictOrderedRing K] [Field K] in
theorem le_foldl_max' (x : K) (l : List K) : ∀ v ∈ x :: l, v ≤ l.foldl max x := by
  induction l generalizing x with
  | nil => simp
  | cons a l ih =>
    intro v hv
    rw [List.foldl_cons]
    have h := ih (max x a)
    have h0 : max x a ≤ l.foldl max (max x a) := h _ List.mem_cons_self
    rcases List.mem_cons.1 hv with rfl | hv
    · exact (le_max_left _ _).trans h0
    · rcases List.mem_cons.1 hv with rfl | hv
      · exact (le_max_right _ _).trans h0
      · exact h v (List.mem_cons_of_mem _ hv)

omit [IsStrictOrderedRing K] [Field K] in
theorem minmax_ok {l : List K} (h : l ≠ []) : ∃ I, minmax l = .ok I ∧ ∀ v ∈ l, I.lo ≤ v ∧ v ≤ I.hi := by
  cases l with
  | nil => exact absurd rfl h
  | cons x xs =>
    refine ⟨⟨xs.foldl min x, xs.foldl max x⟩, ?_, fun v hv => ⟨foldl_min_le x xs v hv, le_foldl_max' x xs v hv⟩⟩
    unfold minmax
    exact make_ok ((foldl_min_le x xs x List.mem_cons_self).trans (le_foldl_max' x xs x List.mem_cons_self))

/-- Bounds of a polynomial over a domain. -/
theorem getBounds_encloses' {ord : List String → List String} {p : GDual K} {exp : VMap K} {dom : VMap (Itv K)} (hp : p.Valid)
    (hn : ∀ s ∈ p.p.syms, ∃ v, s = "d" ++ v) (hdeg : ∀ t ∈ p.p.terms, ∀ k ∈ t.1, k ≤ 62)
    (hm : ∀ v ∈ p.p.syms.map varName, ∃ I x, dom.lookup v = some I ∧ exp.lookup v = some x ∧ I.lo ≤ I.hi)
    (ho : ord (p.p.syms.map varName) = p.p.syms.map varName) :
    ∃ B, getBounds ord p exp dom = .ok B ∧ B.lo ≤ B.hi ∧
      ∀ x : String → K, (∀ v ∈ p.p.syms.map varName, ∀ I, dom.lookup v = some I → Spec.InItv I (x v)) →
        Spec.InItv B (eval (displacement exp x) (p.toMv ())) := by
  have hpt : ∀ c : K, Spec.InItv (⟨c, c⟩ : Itv K) c := fun c => ⟨le_rfl, le_rfl⟩
  have hzero : ∀ {coeffs : List K} {exps : List (List ℕ)}, Bounding.getPoly p = .ok (coeffs, exps) → exps = [] →
      (∀ δ, eval δ (p.toMv ()) = coeff 0 (p.toMv () : MvPolynomial String K)) →
      ∃ B, getBounds ord p exp dom = .ok B ∧ B.lo ≤ B.hi ∧
      ∀ x : String → K, (∀ v ∈ p.p.syms.map varName, ∀ I, dom.lookup v = some I → Spec.InItv I (x v)) →
        Spec.InItv B (eval (displacement exp x) (p.toMv ())) := by
    intro coeffs exps h1 h2 h3
    subst h2
    have hnd : Bounding.getNdim coeffs ([] : List (List ℕ)) = .ok 0 := by cases coeffs <;> rfl
    obtain ⟨c, hc1, hc2⟩ : ∃ c, p.constantCf = .ok c ∧ c = coeff 0 (p.toMv () : MvPolynomial String K) := by
      obtain ⟨c, hc⟩ := GDual.constantCf_isOk p
      exact ⟨c, hc, GDual.lane_constantCf (ι := Unit) (K := K) hp hc ()⟩
    refine ⟨⟨c, c⟩, ?_, le_rfl, fun x _ => ?_⟩
    · unfold getBounds
      rw [bind_ok h1, bind_ok hnd, if_neg (by omega), bind_ok hc1]
    · rw [h3, ← hc2]
      exact hpt c
  by_cases hs : p.symbolSetSize = 0
  · refine hzero (Bounding.getPoly_no_symbols hs) rfl fun δ => ?_
    have hs' : p.p.syms = [] := List.length_eq_zero_iff.1 hs
    have : eval δ (p.toMv ()) = eval 0 (p.toMv ()) := by
      rw [eval_toMv hp, eval_toMv hp, hs']
      rfl
    rw [this, eval_zero]
    rfl
  · obtain ⟨coeffs, exps, h1, h2, h3, h4⟩ := Bounding.getPoly_spec (ι := Unit) (K := K) hp (Nat.one_le_iff_ne_zero.2 hs)
    by_cases he : exps = []
    · refine hzero h1 he fun δ => ?_
      subst he
      have ht : p.p.terms = [] := by simpa using h3
      have : p.toMv () = (0 : MvPolynomial String K) := by
        unfold GDual.toMv Poly.toMv
        rw [ht]
        rfl
      rw [this]
      simp
    · have hexps : ∀ e ∈ exps, ∃ c, (e, c) ∈ p.p.terms := by
        intro e hee
        have hm : exps = (exps.zip coeffs).map Prod.fst := (List.map_fst_zip (by rw [h2])).symm
        rw [hm] at hee
        obtain ⟨⟨e', c⟩, hx, rfl⟩ := List.mem_map.1 hee
        exact ⟨c, h3.mem_iff.1 hx⟩
      have hw : ∀ e ∈ exps, e.length = p.p.syms.length := fun e hee => by
        obtain ⟨c, hc⟩ := hexps e hee
        exact hp.wf.len _ hc
      have hd62 : ∀ e ∈ exps, ∀ k ∈ e, k ≤ 62 := fun e hee k hk => by
        obtain ⟨c, hc⟩ := hexps e hee
        exact hdeg _ hc k hk
      set vars := p.p.syms.map varName with hvars
      have hvnd : vars.Nodup := nodup_varNames hp.wf.ndsyms hn
      set sh : VMap (Itv K) := vars.map fun v => (v, shiftItv exp dom v) with hsh
      have hkeys : sh.map Prod.fst = vars := by rw [hsh, List.map_map]; simp [Function.comp_def]
      have hit : iterate ord sh = sh := iterate_faithful (by rw [hkeys]; exact hvnd) (by rw [hkeys]; exact ho)
      obtain ⟨patch, e1, e2, e3⟩ := Bounding.patch_encloses (Nat.one_le_iff_ne_zero.2 hs) h2 he hw (h4.imp fun h => ne_of_lt h) hd62
        (domain := sh) (by simp [hsh, hvars, GDual.symbolSetSize])
      obtain ⟨B, b1, b2⟩ := minmax_ok e2
      refine ⟨B, ?_, ?_, fun x hx => ?_⟩
      · unfold getBounds
        rw [bind_ok h1]
        simp only
        rw [bind_ok (Bounding.getNdim_ok h2 he hw), if_pos (show 1 ≤ p.p.syms.length from Nat.one_le_iff_ne_zero.2 hs), symbolSet_eq, bind_ok (shiftedDomain_ok hm), hit, bind_ok e1]
        exact b1
      · obtain ⟨v, hv⟩ := List.exists_mem_of_ne_nil _ e2
        exact (b2 v hv).1.trans (b2 v hv).2
      · have hbox : Spec.InBox (sh.map Prod.snd) (p.p.syms.map (displacement exp x)) := by
          rw [hsh, hvars, List.map_map, List.map_map]
          unfold Spec.InBox
          rw [List.forall₂_map_left_iff, List.forall₂_map_right_iff, List.forall₂_same]
          intro s hsm
          obtain ⟨I, x0, a1, a2, -⟩ := hm (varName s) (List.mem_map_of_mem hsm)
          have := hx (varName s) (List.mem_map_of_mem hsm) I a1
          simp only [Function.comp_apply, shiftItv, displacement, a1, a2, Option.getD_some]
          exact ⟨sub_le_sub_right this.1 _, sub_le_sub_right this.2 _⟩
        obtain ⟨⟨v, hv, hv'⟩, w, hw1, hw2⟩ := e3 _ hbox
        rw [polyVal_eq hp h3] at hv' hw2
        exact ⟨(b2 v hv).1.trans hv', hw2.trans (b2 w hw1).2⟩

theorem getBounds_encloses {ord : List String → List String} {p : GDual K} {exp : VMap K} {dom : VMap (Itv K)} (hp : p.Valid)
    (hn : ∀ s ∈ p.p.syms, ∃ v, s = "d" ++ v) (hdeg : p.order ≤ 62)
    (hm : ∀ v ∈ p.p.syms.map varName, ∃ I x, dom.lookup v = some I ∧ exp.lookup v = some x ∧ I.lo ≤ I.hi)
    (ho : ord (p.p.syms.map varName) = p.p.syms.map varName) :
    ∃ B, getBounds ord p exp dom = .ok B ∧ B.lo ≤ B.hi ∧
      ∀ x : String → K, (∀ v ∈ p.p.syms.map varName, ∀ I, dom.lookup v = some I → Spec.InItv I (x v)) →
        Spec.InItv B (eval (displacement exp x) (p.toMv ())) :=
  getBounds_encloses' hp hn (fun t ht _ hk => ((List.single_le_sum (by simp) _ hk).trans (hp.deg t ht)).trans hdeg) hm ho

end TM
end Audi
