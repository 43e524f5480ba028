import Verif.Proofs.XF

/-! Coefficients of sums, and constant coefficients of products, for coefficients with rounding and special values. -/

namespace Audi
open Poly

/-- There is one zero, and it is neutral. -/
class CfZero (C : Type) [Cf C] : Prop where
  eq_zero : ∀ c : C, Cf.isZero c = true → c = Cf.zero
  zero : Cf.isZero (Cf.zero : C) = true
  add_zero : ∀ c : C, Cf.add c Cf.zero = c
  zero_add : ∀ c : C, Cf.add Cf.zero c = c

instance {F : XFormat} : CfZero (XF F) where
  eq_zero c h := XF.ext (by rw [(XF.isZero_iff c).mp h, XF.zero_v])
  zero := XF.isZero_zero
  add_zero c := by
    rcases hc : c.v with _ | s | q
    · exact XF.ext (by rw [XF.add_def]; unfold XF.add; rw [hc, XF.zero_v]; rfl)
    · exact XF.ext (by rw [XF.add_def]; unfold XF.add; rw [hc, XF.zero_v]; rfl)
    · exact XF.ext (by rw [XF.add_fin hc XF.zero_v, _root_.add_zero, c.repr q hc, hc])
  zero_add c := by
    rcases hc : c.v with _ | s | q
    · exact XF.ext (by rw [XF.add_def]; unfold XF.add; rw [hc, XF.zero_v]; rfl)
    · exact XF.ext (by rw [XF.add_def]; unfold XF.add; rw [hc, XF.zero_v]; rfl)
    · exact XF.ext (by rw [XF.add_fin XF.zero_v hc, _root_.zero_add, c.repr q hc, hc])

section
variable {C : Type} [Cf C]

/-- The entry of a table. -/
def tAt (t : List (List ℕ × C)) (k : List ℕ) : C := ((t.find? fun x => x.1 = k).map (·.2)).getD Cf.zero

theorem tAt_nil (k : List ℕ) : tAt ([] : List (List ℕ × C)) k = Cf.zero := rfl

theorem tAt_cons (x : List ℕ × C) (t : List (List ℕ × C)) (k : List ℕ) : tAt (x :: t) k = if k = x.1 then x.2 else tAt t k := by
  unfold tAt
  by_cases h : k = x.1
  · rw [List.find?_cons_of_pos (by simp [h]), if_pos h]; rfl
  · rw [List.find?_cons_of_neg (by simpa using fun h1 => h h1.symm), if_neg h]

theorem tAt_of_notMem {t : List (List ℕ × C)} {k : List ℕ} (h : k ∉ t.map (·.1)) : tAt t k = Cf.zero := by
  induction t with
  | nil => rfl
  | cons x t ih =>
    simp only [List.map_cons, List.mem_cons, not_or] at h
    rw [tAt_cons, if_neg h.1, ih h.2]

theorem tAt_of_mem {t : List (List ℕ × C)} (hn : (t.map (·.1)).Nodup) {x : List ℕ × C} (h : x ∈ t) : tAt t x.1 = x.2 := by
  induction t with
  | nil => simp at h
  | cons y t ih =>
    simp only [List.map_cons, List.nodup_cons] at hn
    rw [tAt_cons]
    rcases List.mem_cons.mp h with rfl | h
    · simp
    · rw [if_neg, ih hn.2 h]
      intro h1
      exact hn.1 (h1 ▸ List.mem_map_of_mem h)

theorem filter_keys {t : List (List ℕ × C)} (hn : (t.map (·.1)).Nodup) {x : List ℕ × C} (h : x ∈ t) :
    t.filter (fun y => y.1 = x.1) = [x] := by
  induction t with
  | nil => simp at h
  | cons y t ih =>
    simp only [List.map_cons, List.nodup_cons] at hn
    rcases List.mem_cons.mp h with rfl | h
    · have h1 : t.filter (fun y => y.1 = x.1) = [] := by
        rw [List.filter_eq_nil_iff]
        intro z hz hzx
        exact hn.1 (List.mem_map.mpr ⟨z, hz, by simpa using hzx⟩)
      simp [h1]
    · have h1 : y.1 ≠ x.1 := fun h1 => hn.1 (h1 ▸ List.mem_map_of_mem h)
      rw [List.filter_cons_of_neg (by simpa using h1), ih hn.2 h]

theorem filter_keys_nil {t : List (List ℕ × C)} {k : List ℕ} (h : k ∉ t.map (·.1)) : t.filter (fun y => y.1 = k) = [] := by
  rw [List.filter_eq_nil_iff]
  intro z hz hzx
  exact h (List.mem_map.mpr ⟨z, hz, by simpa using hzx⟩)

variable [CfZero C]

theorem tAt_insertTerm {t : List (List ℕ × C)} (hn : (t.map (·.1)).Nodup) (e k : List ℕ) (c : C) :
    tAt (Poly.insertTerm e c t) k = if k = e then Cf.add (tAt t e) c else tAt t k := by
  induction t with
  | nil =>
    unfold Poly.insertTerm
    by_cases hz : Cf.isZero c = true
    · rw [if_pos hz, CfZero.eq_zero c hz, tAt_nil, tAt_nil, CfZero.add_zero]; simp
    · rw [if_neg hz, tAt_cons, tAt_nil, tAt_nil, CfZero.zero_add]
  | cons x t ih =>
    obtain ⟨e₁, c₁⟩ := x
    simp only [List.map_cons, List.nodup_cons] at hn
    unfold Poly.insertTerm
    by_cases h1 : e = e₁
    · subst h1
      rw [if_pos rfl]
      by_cases hz : Cf.isZero (Cf.add c₁ c) = true
      · rw [if_pos hz, tAt_cons, if_pos rfl]
        by_cases h2 : k = e
        · subst h2
          rw [if_pos rfl, tAt_of_notMem hn.1, CfZero.eq_zero _ hz]
        · rw [if_neg h2, tAt_cons, if_neg h2]
      · rw [if_neg hz, tAt_cons, tAt_cons, tAt_cons]
        by_cases h2 : k = e
        · subst h2; simp
        · simp [h2]
    · rw [if_neg h1, tAt_cons, tAt_cons, tAt_cons, ih hn.2, if_neg h1]
      by_cases h2 : k = e₁
      · subst h2; simp [Ne.symm h1]
      · simp [h2]

theorem tAt_insertTerms {t : List (List ℕ × C)} (hn : (t.map (·.1)).Nodup) (new : List (List ℕ × C)) (k : List ℕ) :
    tAt (Poly.insertTerms t new) k = ((new.filter fun x => x.1 = k).map (·.2)).foldl Cf.add (tAt t k) := by
  unfold Poly.insertTerms
  induction new generalizing t with
  | nil => rfl
  | cons x new ih =>
    rw [List.foldl_cons, ih (nodup_insertTerm hn), tAt_insertTerm hn]
    by_cases h : x.1 = k
    · subst h; simp
    · simp [h, Ne.symm h]

variable {p q : Poly C} {E : String →₀ ℕ}

open Classical in
/-- The coefficient of a monomial, given by names; zero if it is not in the table. -/
noncomputable def cfAt (p : Poly C) (E : String →₀ ℕ) : C := ((p.terms.find? fun t => toExp p.syms t.1 = E).map (·.2)).getD Cf.zero

omit [CfZero C] in
theorem cfAt_toExp (hp : p.WF) {k : List ℕ} (hk : k.length = p.syms.length) : cfAt p (toExp p.syms k) = tAt p.terms k := by
  unfold cfAt tAt
  congr 2
  refine List.find?_congr fun t ht => ?_
  by_cases h : t.1 = k
  · simp [h]
  · have : toExp p.syms t.1 ≠ toExp p.syms k := fun h1 => h (toExp_inj hp.ndsyms (hp.len t ht) hk h1)
    simp [h, this]

omit [CfZero C] in
theorem cfAt_of_not (h : ¬ ∃ t ∈ p.terms, toExp p.syms t.1 = E) : cfAt p E = Cf.zero := by
  unfold cfAt
  rw [List.find?_eq_none.mpr]
  · rfl
  · intro t ht
    simpa using fun h1 => h ⟨t, ht, h1⟩

omit [CfZero C] in
theorem cfAt_of_mem (hp : p.WF) {t : List ℕ × C} (ht : t ∈ p.terms) : cfAt p (toExp p.syms t.1) = t.2 := by
  rw [cfAt_toExp hp (hp.len t ht), tAt_of_mem hp.nodup ht]

omit [CfZero C] in
theorem cfAt_addSymbols (hp : p.WF) (ss : List String) : cfAt (p.addSymbols ss) E = cfAt p E := by
  by_cases h : ∃ t ∈ p.terms, toExp p.syms t.1 = E
  · obtain ⟨t, ht, rfl⟩ := h
    rw [cfAt_of_mem hp ht, ← toExp_addSymbols hp ss]
    exact cfAt_of_mem (hp.addSymbols ss) (t := (reindex p.syms (mergeSyms p.syms ss) t.1, t.2)) (List.mem_map_of_mem (f := fun t : List ℕ × C => (reindex p.syms (mergeSyms p.syms ss) t.1, t.2)) ht)
  · rw [cfAt_of_not h, cfAt_of_not]
    rintro ⟨t, ht, h2⟩
    obtain ⟨u, hu, rfl⟩ := List.mem_map.mp ht
    exact h ⟨u, hu, by rw [← h2]; exact (toExp_addSymbols hp ss).symm⟩

/-- The coefficients of a sum are the sums of the coefficients. -/
theorem cfAt_add (hp : p.WF) (hq : q.WF) (E : String →₀ ℕ) : cfAt (p.add q) E = Cf.add (cfAt p E) (cfAt q E) := by
  have hp' := hp.addSymbols q.syms
  have hq' := hq.addSymbols p.syms
  have hs := syms_swap hp hq
  rw [← cfAt_addSymbols hp q.syms, ← cfAt_addSymbols hq p.syms]
  by_cases hE : ∃ e : List ℕ, e.length = (p.add q).syms.length ∧ toExp (p.add q).syms e = E
  · obtain ⟨e, he, rfl⟩ := hE
    rw [cfAt_toExp (hp.add hq) he]
    have h1 : cfAt (p.addSymbols q.syms) (toExp (p.add q).syms e) = tAt (p.addSymbols q.syms).terms e := cfAt_toExp hp' he
    have h2 : cfAt (q.addSymbols p.syms) (toExp (p.add q).syms e) = tAt (q.addSymbols p.syms).terms e := by
      have h3 : (p.add q).syms = (q.addSymbols p.syms).syms := hs
      rw [h3]
      exact cfAt_toExp hq' (h3 ▸ he)
    rw [h1, h2]
    change tAt (insertTerms (p.addSymbols q.syms).terms (q.addSymbols p.syms).terms) e = _
    rw [tAt_insertTerms hp'.nodup]
    by_cases hmem : e ∈ (q.addSymbols p.syms).terms.map (·.1)
    · obtain ⟨x, hx, rfl⟩ := List.mem_map.mp hmem
      rw [filter_keys hq'.nodup hx, tAt_of_mem hq'.nodup hx]
      rfl
    · rw [filter_keys_nil hmem, tAt_of_notMem hmem, CfZero.add_zero]
      rfl
  · have h0 : ∀ r : Poly C, r.WF → r.syms = (p.add q).syms → cfAt r E = Cf.zero := fun r hr hrs =>
      cfAt_of_not fun ⟨t, ht, hte⟩ => hE ⟨t.1, by rw [← hrs]; exact hr.len t ht, by rw [← hrs]; exact hte⟩
    rw [h0 _ (hp.add hq) rfl, h0 _ hp' rfl, h0 _ hq' hs.symm, CfZero.add_zero]

theorem cfAt_const (c : C) : cfAt (Poly.const c) 0 = c := by
  have h := cfAt_toExp (wf_const c) (k := []) rfl
  have h0 : toExp (Poly.const c).syms [] = 0 := by simp [Poly.const, toExp]
  rw [h0] at h
  rw [h]
  change tAt (insertTerm [] c []) [] = c
  rw [tAt_insertTerm (by simp), if_pos rfl, tAt_nil, CfZero.zero_add]

omit [CfZero C] in
theorem cfAt_const_ne (c : C) (hE : E ≠ 0) : cfAt (Poly.const c) E = Cf.zero :=
  cfAt_of_not fun ⟨t, ht, h⟩ => hE (by rw [← h]; simp [Poly.const, toExp])

theorem cfAt_neg (hp : p.WF) (hw : p.neg.WF) (h0 : Cf.neg (Cf.zero : C) = Cf.zero) (E : String →₀ ℕ) : cfAt p.neg E = Cf.neg (cfAt p E) := by
  by_cases h : ∃ t ∈ p.terms, toExp p.syms t.1 = E
  · obtain ⟨t, ht, rfl⟩ := h
    rw [cfAt_of_mem hp ht]
    exact cfAt_of_mem hw (t := (t.1, Cf.neg t.2)) (List.mem_map_of_mem (f := fun t : List ℕ × C => (t.1, Cf.neg t.2)) ht)
  · rw [cfAt_of_not h, h0, cfAt_of_not]
    rintro ⟨t, ht, h2⟩
    obtain ⟨u, hu, rfl⟩ := List.mem_map.mp ht
    exact h ⟨u, hu, h2⟩

omit [CfZero C] in
theorem cfAt_isZero_iff (hp : p.WF) (h0 : Cf.isZero (Cf.zero : C) = true) : Cf.isZero (cfAt p E) = true ↔ ¬ Occurs p E := by
  by_cases h : ∃ t ∈ p.terms, toExp p.syms t.1 = E
  · obtain ⟨t, ht, rfl⟩ := h
    rw [cfAt_of_mem hp ht, hp.nz t ht]
    simp only [Bool.false_eq_true, false_iff, not_not]
    exact ⟨t, ht, trivial, rfl⟩
  · rw [cfAt_of_not h, h0]
    simp only [true_iff]
    rintro ⟨t, ht, -, h1⟩
    exact h ⟨t, ht, h1⟩

omit [CfZero C] in
theorem phas_cfAt (hp : p.WF) (h : PHas N p E) : N (cfAt p E) := by
  obtain ⟨t, ht, h1, rfl⟩ := h
  rw [cfAt_of_mem hp ht]
  exact h1

omit [CfZero C] in
theorem phas_of_cfAt {N : C → Prop} (h0 : Cf.isZero (Cf.zero : C) = true) (hN : N (cfAt p E)) (hz : Cf.isZero (cfAt p E) = false) (hp : p.WF) : PHas N p E := by
  by_cases h : ∃ t ∈ p.terms, toExp p.syms t.1 = E
  · obtain ⟨t, ht, rfl⟩ := h
    rw [cfAt_of_mem hp ht] at hN
    exact ⟨t, ht, hN, rfl⟩
  · rw [cfAt_of_not h, h0] at hz
    exact absurd hz (by decide)

theorem filter_products (keep : List ℕ → Bool) (n : ℕ) (hk : keep (List.replicate n 0) = true) (T U : List (List ℕ × C)) (hT : ∀ t ∈ T, t.1.length = n) (hU : ∀ u ∈ U, u.1.length = n) :
    (T.flatMap fun t => (U.map fun u => (List.zipWith (· + ·) t.1 u.1, Cf.mul t.2 u.2)).filter fun v => keep v.1).filter (fun x => x.1 = List.replicate n 0) =
    (T.filter fun t => t.1 = List.replicate n 0).flatMap fun t => (U.filter fun u => u.1 = List.replicate n 0).map fun u => (List.zipWith (· + ·) t.1 u.1, Cf.mul t.2 u.2) := by
  have hz : ∀ (m : ℕ) (a b : List ℕ), a.length = m → b.length = m → (List.zipWith (· + ·) a b = List.replicate m 0 ↔ a = List.replicate m 0 ∧ b = List.replicate m 0) := by
    intro m
    induction m with
    | zero => intro a b ha hb; simp [List.length_eq_zero_iff.mp ha, List.length_eq_zero_iff.mp hb]
    | succ m ih =>
      intro a b ha hb
      cases a with
      | nil => simp at ha
      | cons x a =>
        cases b with
        | nil => simp at hb
        | cons y b =>
          simp only [List.length_cons, Nat.add_right_cancel_iff] at ha hb
          simp only [List.zipWith_cons_cons, List.replicate_succ, List.cons.injEq, ih a b ha hb, Nat.add_eq_zero_iff]
          tauto
  induction T with
  | nil => rfl
  | cons t T ih =>
    rw [List.flatMap_cons, List.filter_append, ih fun x hx => hT x (List.mem_cons_of_mem _ hx)]
    have ht := hT t (by simp)
    have key : (List.filter (fun v : List ℕ × C => keep v.1) (U.map fun u => (List.zipWith (· + ·) t.1 u.1, Cf.mul t.2 u.2))).filter (fun x => x.1 = List.replicate n 0) =
        if t.1 = List.replicate n 0 then (U.filter fun u => u.1 = List.replicate n 0).map fun u => (List.zipWith (· + ·) t.1 u.1, Cf.mul t.2 u.2) else [] := by
      clear ih
      induction U with
      | nil => simp
      | cons u U ih =>
        have hu := hU u (by simp)
        have ih' := ih fun x hx => hU x (List.mem_cons_of_mem _ hx)
        rw [List.map_cons]
        by_cases h : List.zipWith (· + ·) t.1 u.1 = List.replicate n 0
        · obtain ⟨h1, h2⟩ := (hz n t.1 u.1 ht hu).mp h
          rw [List.filter_cons_of_pos (by simp [h, hk]), List.filter_cons_of_pos (by simp [h]), ih', if_pos h1, if_pos h1, List.filter_cons_of_pos (by simp [h2]), List.map_cons]
        · have h3 : ∀ l : List (List ℕ × C), (List.filter (fun v : List ℕ × C => keep v.1) ((List.zipWith (· + ·) t.1 u.1, Cf.mul t.2 u.2) :: l)).filter (fun x => x.1 = List.replicate n 0) =
              (List.filter (fun v : List ℕ × C => keep v.1) l).filter (fun x => x.1 = List.replicate n 0) := by
            intro l
            by_cases h2 : keep (List.zipWith (· + ·) t.1 u.1) = true
            · rw [List.filter_cons_of_pos (by simpa using h2), List.filter_cons_of_neg (by simpa using h)]
            · rw [List.filter_cons_of_neg (by simpa using h2)]
          rw [h3, ih']
          by_cases h1 : t.1 = List.replicate n 0
          · have h2 : ¬ u.1 = List.replicate n 0 := fun h2 => h ((hz n t.1 u.1 ht hu).mpr ⟨h1, h2⟩)
            rw [if_pos h1, if_pos h1, List.filter_cons_of_neg (by simpa using h2)]
          · rw [if_neg h1, if_neg h1]
    rw [key]
    by_cases h1 : t.1 = List.replicate n 0
    · rw [if_pos h1, List.filter_cons_of_pos (by simp [h1]), List.flatMap_cons]
    · rw [if_neg h1, List.filter_cons_of_neg (by simpa using h1), List.nil_append]

/-- The constant coefficient of a product: the product, if both factors have one; otherwise zero. -/
theorem cfAt_mul_zero (hp : p.WF) (hq : q.WF) (n : ℕ) :
    cfAt (truncMul p q n) 0 = if Cf.isZero (cfAt p 0) = true ∨ Cf.isZero (cfAt q 0) = true then Cf.zero else Cf.mul (cfAt p 0) (cfAt q 0) := by
  have hp' := hp.addSymbols q.syms
  have hq' := hq.addSymbols p.syms
  have hs := syms_swap hp hq
  have hw : (truncMul p q n).WF := WF.mulBy hp hq _
  rw [← cfAt_addSymbols hp q.syms, ← cfAt_addSymbols hq p.syms]
  set m := (p.addSymbols q.syms).syms.length with hm
  have e1 := cfAt_toExp hp' (k := List.replicate m 0) (by simp [hm])
  have e2 := cfAt_toExp hq' (k := List.replicate m 0) (by simp [hm, hs])
  have e3 := cfAt_toExp hw (k := List.replicate m 0) (by rw [hm]; simp; rfl)
  rw [toExp_replicate_zero] at e1 e2 e3
  rw [e1, e2, e3]
  unfold truncMul mulBy
  simp only
  rw [tAt_insertTerms (by simp), filter_products (fun e => keyDegree e ≤ n) m (by simp [keyDegree]) _ _ hp'.len (fun u hu => (hq'.len u hu).trans (by rw [hm, hs])), tAt_nil]
  by_cases h1 : List.replicate m 0 ∈ (p.addSymbols q.syms).terms.map (·.1)
  · obtain ⟨x, hx, hx1⟩ := List.mem_map.mp h1
    by_cases h2 : List.replicate m 0 ∈ (q.addSymbols p.syms).terms.map (·.1)
    · obtain ⟨y, hy, hy1⟩ := List.mem_map.mp h2
      have fx := filter_keys hp'.nodup hx
      have fy := filter_keys hq'.nodup hy
      have tx := tAt_of_mem hp'.nodup hx
      have ty := tAt_of_mem hq'.nodup hy
      rw [hx1] at fx tx
      rw [hy1] at fy ty
      rw [fx, fy, tx, ty, hp'.nz x hx, hq'.nz y hy]
      simp [CfZero.zero_add]
    · rw [filter_keys_nil h2, tAt_of_notMem h2, if_pos (Or.inr CfZero.zero)]
      have hh : ∀ l : List (List ℕ × C), (l.flatMap fun _ => ([] : List (List ℕ × C))) = [] := fun l => by induction l <;> simp_all
      simp only [List.map_nil, hh, List.foldl_nil]
  · rw [filter_keys_nil h1, tAt_of_notMem h1, if_pos (Or.inl CfZero.zero)]
    simp

/-- `constant_cf`. -/
theorem constantCf_cfAt {d : GDual C} (hd : d.p.WF) : d.constantCf = .ok (cfAt d.p 0) := by
  obtain ⟨c, h1, h2⟩ := GDual.constantCf_ok (d := d)
  have e1 := cfAt_toExp hd (k := List.replicate d.p.syms.length 0) (by simp)
  rw [toExp_replicate_zero] at e1
  rw [h1, e1, ← h2]
  rfl

end

end Audi
