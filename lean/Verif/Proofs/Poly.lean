import Verif.Spec.Denote
import Verif.Proofs.Trunc
import Mathlib.Tactic.LinearCombination
import Mathlib.Tactic.Ring
import Mathlib.Tactic.Linarith

/-! Lemmas on the polynomial layer: each operation refines the operation on Mathlib polynomials. -/

set_option linter.unusedSectionVars false

namespace Audi

open MvPolynomial

/-! ### Symbols -/

theorem mem_insertSym {s t : String} {l : List String} : t ∈ insertSym s l ↔ t = s ∨ t ∈ l := by
  induction l with
  | nil => simp [insertSym]
  | cons u l ih =>
    unfold insertSym
    split_ifs with h1 h2
    · subst h1; simp
    · simp
    · simp only [List.mem_cons, ih]; tauto

theorem sorted_insertSym {s : String} {l : List String} (h : l.Pairwise (· < ·)) :
    (insertSym s l).Pairwise (· < ·) := by
  induction l with
  | nil => simp [insertSym]
  | cons u l ih =>
    unfold insertSym
    rw [List.pairwise_cons] at h
    split_ifs with h1 h2
    · exact List.pairwise_cons.mpr h
    · refine List.pairwise_cons.mpr ⟨fun x hx => ?_, List.pairwise_cons.mpr h⟩
      rcases List.mem_cons.mp hx with rfl | hx
      · exact h2
      · exact lt_trans h2 (h.1 x hx)
    · refine List.pairwise_cons.mpr ⟨fun x hx => ?_, ih h.2⟩
      rcases mem_insertSym.mp hx with rfl | hx
      · exact lt_of_le_of_ne (not_lt.mp h2) (Ne.symm h1)
      · exact h.1 x hx

theorem mem_mergeSyms {t : String} {a b : List String} : t ∈ mergeSyms a b ↔ t ∈ a ∨ t ∈ b := by
  unfold mergeSyms
  induction b generalizing a with
  | nil => simp
  | cons s b ih => rw [List.foldl_cons, ih, mem_insertSym, List.mem_cons]; tauto

theorem sorted_mergeSyms {a b : List String} (h : a.Pairwise (· < ·)) :
    (mergeSyms a b).Pairwise (· < ·) := by
  unfold mergeSyms
  induction b generalizing a with
  | nil => exact h
  | cons s b ih => exact ih (sorted_insertSym h)

theorem sorted_ext {a b : List String} (ha : a.Pairwise (· < ·)) (hb : b.Pairwise (· < ·))
    (h : ∀ t, t ∈ a ↔ t ∈ b) : a = b :=
  List.Perm.eq_of_pairwise (fun _ _ _ _ h1 h2 => absurd h1 (lt_asymm h2)) ha hb
    ((List.perm_ext_iff_of_nodup (ha.imp ne_of_lt) (hb.imp ne_of_lt)).mpr h)

theorem mergeSyms_comm {a b : List String} (ha : a.Pairwise (· < ·)) (hb : b.Pairwise (· < ·)) :
    mergeSyms a b = mergeSyms b a :=
  sorted_ext (sorted_mergeSyms ha) (sorted_mergeSyms hb) fun t => by
    rw [mem_mergeSyms, mem_mergeSyms, or_comm]

theorem mergeSyms_eq_left {a b : List String} (ha : a.Pairwise (· < ·)) (h : ∀ s ∈ b, s ∈ a) :
    mergeSyms a b = a :=
  sorted_ext (sorted_mergeSyms ha) ha fun t => by
    rw [mem_mergeSyms]; constructor
    · rintro (h1 | h1)
      · exact h1
      · exact h t h1
    · exact Or.inl

/-! ### Exponents -/

theorem expOf_of_notMem {ss : List String} {e : List ℕ} {s : String} (h : s ∉ ss) : expOf ss e s = 0 := by
  induction ss generalizing e with
  | nil => simp [expOf]
  | cons t ss ih =>
    cases e with
    | nil => simp [expOf]
    | cons k ks =>
      simp only [List.mem_cons, not_or] at h
      simp [expOf, h.1, ih h.2]

theorem toExp_apply {ss : List String} (h : ss.Nodup) (e : List ℕ) (s : String) :
    toExp ss e s = expOf ss e s := by
  induction ss generalizing e with
  | nil => simp [toExp, expOf]
  | cons t ss ih =>
    cases e with
    | nil => simp [toExp, expOf]
    | cons k ks =>
      rw [List.nodup_cons] at h
      simp only [toExp, expOf, Finsupp.add_apply, ih h.2]
      by_cases hs : s = t
      · subst hs
        simp [expOf_of_notMem h.1]
      · simp [hs]

theorem toExp_map {ss : List String} (h : ss.Nodup) (f : String → ℕ) (s : String) :
    toExp ss (ss.map f) s = if s ∈ ss then f s else 0 := by
  rw [toExp_apply h]
  induction ss with
  | nil => simp [expOf]
  | cons t ss ih =>
    rw [List.nodup_cons] at h
    simp only [List.map_cons, expOf]
    by_cases hs : s = t
    · subst hs; simp
    · simp [hs, ih h.2]

theorem toExp_reindex {old new : List String} (ho : old.Nodup) (hn : new.Nodup)
    {e : List ℕ} (h : ∀ s ∈ old, expOf old e s ≠ 0 → s ∈ new) :
    toExp new (reindex old new e) = toExp old e := by
  ext s
  rw [reindex, toExp_map hn, toExp_apply ho]
  split_ifs with h1
  · rfl
  · by_contra hc
    by_cases hs : s ∈ old
    · exact h1 (h s hs (Ne.symm hc))
    · rw [expOf_of_notMem hs] at hc; exact hc rfl

theorem toExp_inj {ss : List String} (h : ss.Nodup) {e e' : List ℕ} (h1 : e.length = ss.length)
    (h2 : e'.length = ss.length) (hee : toExp ss e = toExp ss e') : e = e' := by
  induction ss generalizing e e' with
  | nil =>
    rw [List.length_nil, List.length_eq_zero_iff] at h1 h2
    rw [h1, h2]
  | cons t ss ih =>
    cases e with
    | nil => simp at h1
    | cons k ks =>
      cases e' with
      | nil => simp at h2
      | cons k' ks' =>
        have hk := DFunLike.congr_fun hee t
        rw [toExp_apply h, toExp_apply h] at hk
        simp only [expOf, if_true] at hk
        subst hk
        rw [List.nodup_cons] at h
        simp only [toExp, add_right_inj] at hee
        simp only [List.length_cons, add_left_inj] at h1 h2
        rw [ih h.2 h1 h2 hee]

theorem toExp_replicate_zero (ss : List String) (n : ℕ) : toExp ss (List.replicate n 0) = 0 := by
  induction ss generalizing n with
  | nil => simp [toExp]
  | cons t ss ih => cases n <;> simp [List.replicate_succ, toExp, ih]

theorem toExp_zipWith_add {ss : List String} {a b : List ℕ} (ha : a.length = ss.length)
    (hb : b.length = ss.length) : toExp ss (List.zipWith (· + ·) a b) = toExp ss a + toExp ss b := by
  induction ss generalizing a b with
  | nil => simp [toExp]
  | cons t ss ih =>
    cases a with
    | nil => simp at ha
    | cons x xs =>
      cases b with
      | nil => simp at hb
      | cons y ys =>
        simp only [List.zipWith_cons_cons, toExp, Finsupp.single_add]
        rw [ih (by simpa using ha) (by simpa using hb)]
        abel

theorem degree_toExp {ss : List String} {e : List ℕ} (h : e.length = ss.length) :
    (toExp ss e).degree = e.sum := by
  induction ss generalizing e with
  | nil => rw [List.length_nil, List.length_eq_zero_iff] at h; simp [h, toExp]
  | cons t ss ih =>
    cases e with
    | nil => simp at h
    | cons k ks =>
      simp only [toExp, map_add, Finsupp.degree_single, List.sum_cons]
      rw [ih (by simpa using h)]

theorem length_reindex (old new : List String) (e : List ℕ) :
    (reindex old new e).length = new.length := by simp [reindex]

theorem length_setExp (ss : List String) (e : List ℕ) (s : String) (n : ℕ) :
    (Poly.setExp ss e s n).length = e.length := by
  induction ss generalizing e with
  | nil => simp [Poly.setExp]
  | cons t ss ih =>
    cases e with
    | nil => simp [Poly.setExp]
    | cons k ks =>
      unfold Poly.setExp
      split_ifs <;> simp [ih]

theorem expOf_setExp {ss : List String} (h : ss.Nodup) {e : List ℕ} (hl : e.length = ss.length)
    (s u : String) (n : ℕ) :
    expOf ss (Poly.setExp ss e s n) u = if u = s ∧ s ∈ ss then n else expOf ss e u := by
  induction ss generalizing e with
  | nil => simp [expOf]
  | cons t ss ih =>
    cases e with
    | nil => simp at hl
    | cons k ks =>
      rw [List.nodup_cons] at h
      have hl' : ks.length = ss.length := by simpa using hl
      by_cases hst : s = t
      · subst hst
        by_cases hu : u = s
        · subst hu; simp [Poly.setExp, expOf]
        · simp [Poly.setExp, expOf, hu]
      · by_cases hut : u = t
        · subst hut
          simp [Poly.setExp, expOf, hst, Ne.symm hst]
        · simp [Poly.setExp, expOf, hst, hut, ih h.2 hl']

/-! ### Tables -/

section tables
variable {C : Type} [Cf C] {ι : Type} {K : Type} [Field K] [Lanes C ι K]

theorem lane_isZero {c : C} (h : Cf.isZero c = true) (i : ι) : (Lanes.lane i c : K) = 0 :=
  (Lanes.isZero_iff c).mp h i

theorem den_nil (i : ι) (ss : List String) : den i ss ([] : List (List ℕ × C)) = 0 := rfl

theorem den_cons (i : ι) (ss : List String) (x : List ℕ × C) (t : List (List ℕ × C)) :
    den i ss (x :: t) = monomial (toExp ss x.1) (Lanes.lane i x.2) + den i ss t := by
  simp [den]

theorem den_insertTerm (i : ι) (ss : List String) (e : List ℕ) (c : C) (t : List (List ℕ × C)) :
    den i ss (Poly.insertTerm e c t) = den i ss t + monomial (toExp ss e) (Lanes.lane i c) := by
  induction t with
  | nil =>
    unfold Poly.insertTerm
    split_ifs with h
    · rw [lane_isZero h]; simp
    · simp [den_cons, den_nil]
  | cons x t ih =>
    obtain ⟨e', c'⟩ := x
    unfold Poly.insertTerm
    split_ifs with h1 h2
    · subst h1
      have := lane_isZero (K := K) h2 i
      rw [Lanes.lane_add] at this
      rw [den_cons]
      have h3 : monomial (toExp ss e) (Lanes.lane i c' : K) + monomial (toExp ss e) (Lanes.lane i c) = 0 := by
        rw [← map_add, this, map_zero]
      linear_combination -h3
    · subst h1
      rw [den_cons, den_cons, Lanes.lane_add, map_add]
      ring
    · rw [den_cons, den_cons, ih]; ring

theorem den_insertTerms (i : ι) (ss : List String) (t new : List (List ℕ × C)) :
    den i ss (Poly.insertTerms t new) = den i ss t + den i ss new := by
  unfold Poly.insertTerms
  induction new generalizing t with
  | nil => simp [den_nil]
  | cons x new ih => rw [List.foldl_cons, ih, den_insertTerm, den_cons]; ring

theorem mem_insertTerm_keys {e : List ℕ} {c : C} {t : List (List ℕ × C)} {k : List ℕ}
    (h : k ∈ (Poly.insertTerm e c t).map (·.1)) : k = e ∨ k ∈ t.map (·.1) := by
  induction t with
  | nil =>
    unfold Poly.insertTerm at h
    split_ifs at h <;> simp_all
  | cons x t ih =>
    obtain ⟨e', c'⟩ := x
    unfold Poly.insertTerm at h
    split_ifs at h with h1 h2
    · right; simp only [List.map_cons, List.mem_cons]; right; exact h
    · right; simpa using h
    · simp only [List.map_cons, List.mem_cons] at h ⊢
      rcases h with h | h
      · right; left; exact h
      · rcases ih h with h | h
        · left; exact h
        · right; right; exact h

theorem nodup_insertTerm {e : List ℕ} {c : C} {t : List (List ℕ × C)} (h : (t.map (·.1)).Nodup) :
    ((Poly.insertTerm e c t).map (·.1)).Nodup := by
  induction t with
  | nil => unfold Poly.insertTerm; split_ifs <;> simp
  | cons x t ih =>
    obtain ⟨e', c'⟩ := x
    simp only [List.map_cons, List.nodup_cons] at h
    unfold Poly.insertTerm
    split_ifs with h1 h2
    · exact h.2
    · simp only [List.map_cons, List.nodup_cons]; exact h
    · simp only [List.map_cons, List.nodup_cons]
      refine ⟨fun hc => ?_, ih h.2⟩
      rcases mem_insertTerm_keys hc with hc | hc
      · exact h1 hc.symm
      · exact h.1 hc

theorem nz_insertTerm {e : List ℕ} {c : C} {t : List (List ℕ × C)} (h : ∀ x ∈ t, Cf.isZero x.2 = false) :
    ∀ x ∈ Poly.insertTerm e c t, Cf.isZero x.2 = false := by
  induction t with
  | nil =>
    unfold Poly.insertTerm; split_ifs with h1
    · simp
    · simpa using h1
  | cons y t ih =>
    obtain ⟨e', c'⟩ := y
    simp only [List.forall_mem_cons] at h
    unfold Poly.insertTerm
    split_ifs with h1 h2
    · exact h.2
    · simp only [List.forall_mem_cons]; exact ⟨by simpa using h2, h.2⟩
    · simp only [List.forall_mem_cons]; exact ⟨h.1, ih h.2⟩

theorem mem_insertTerms_keys {t new : List (List ℕ × C)} {k : List ℕ}
    (h : k ∈ (Poly.insertTerms t new).map (·.1)) : k ∈ new.map (·.1) ∨ k ∈ t.map (·.1) := by
  unfold Poly.insertTerms at h
  induction new generalizing t with
  | nil => right; exact h
  | cons x new ih =>
    rcases ih h with h | h
    · left; simp only [List.map_cons, List.mem_cons]; right; exact h
    · rcases mem_insertTerm_keys h with h | h
      · left; simp [h]
      · right; exact h

theorem nodup_insertTerms {t new : List (List ℕ × C)} (h : (t.map (·.1)).Nodup) :
    ((Poly.insertTerms t new).map (·.1)).Nodup := by
  unfold Poly.insertTerms
  induction new generalizing t with
  | nil => exact h
  | cons x new ih => exact ih (nodup_insertTerm h)

theorem nz_insertTerms {t new : List (List ℕ × C)} (h : ∀ x ∈ t, Cf.isZero x.2 = false) :
    ∀ x ∈ Poly.insertTerms t new, Cf.isZero x.2 = false := by
  unfold Poly.insertTerms
  induction new generalizing t with
  | nil => exact h
  | cons x new ih => exact ih (nz_insertTerm h)

/-- A table obtained by accumulating terms is well formed. -/
theorem wf_insertTerms {ss : List String} (hs : ss.Pairwise (· < ·)) {t new : List (List ℕ × C)}
    (hl : ∀ x ∈ t, x.1.length = ss.length) (hl' : ∀ x ∈ new, x.1.length = ss.length)
    (hn : (t.map (·.1)).Nodup) (hz : ∀ x ∈ t, Cf.isZero x.2 = false) :
    (⟨ss, Poly.insertTerms t new⟩ : Poly C).WF where
  sorted := hs
  len := by
    intro x hx
    have h1 : x.1 ∈ (Poly.insertTerms t new).map (·.1) := List.mem_map_of_mem hx
    rcases mem_insertTerms_keys h1 with h | h
    · obtain ⟨y, hy, hyx⟩ := List.mem_map.mp h; rw [← hyx]; exact hl' y hy
    · obtain ⟨y, hy, hyx⟩ := List.mem_map.mp h; rw [← hyx]; exact hl y hy
  nodup := nodup_insertTerms hn
  nz := nz_insertTerms hz

/-- Degree bound of a table obtained by accumulating terms. -/
theorem deg_insertTerms {n : ℕ} {t new : List (List ℕ × C)}
    (hl : ∀ x ∈ t, x.1.sum ≤ n) (hl' : ∀ x ∈ new, x.1.sum ≤ n) :
    ∀ x ∈ Poly.insertTerms t new, x.1.sum ≤ n := by
  intro x hx
  have h1 : x.1 ∈ (Poly.insertTerms t new).map (·.1) := List.mem_map_of_mem hx
  rcases mem_insertTerms_keys h1 with h | h
  · obtain ⟨y, hy, hyx⟩ := List.mem_map.mp h; rw [← hyx]; exact hl' y hy
  · obtain ⟨y, hy, hyx⟩ := List.mem_map.mp h; rw [← hyx]; exact hl y hy

end tables

/-! ### Operations -/

namespace Poly
variable {C : Type} [Cf C] {ι : Type} {K : Type} [Field K] [Lanes C ι K]
variable {p q : Poly C}

theorem WF.ndsyms (h : p.WF) : p.syms.Nodup := h.sorted.imp ne_of_lt

theorem den_map_neg (i : ι) (ss : List String) (t : List (List ℕ × C)) :
    den i ss (t.map fun t => (t.1, Cf.neg t.2)) = -den i ss t := by
  induction t with
  | nil => simp [den_nil]
  | cons x t ih =>
    rw [List.map_cons, den_cons, den_cons, ih, Lanes.lane_neg, map_neg]; ring

theorem toExp_addSymbols (h : p.WF) (ss : List String) {e : List ℕ} :
    toExp (mergeSyms p.syms ss) (reindex p.syms (mergeSyms p.syms ss) e) = toExp p.syms e :=
  toExp_reindex h.ndsyms ((sorted_mergeSyms h.sorted).imp ne_of_lt)
    fun _ hs _ => mem_mergeSyms.mpr (Or.inl hs)

theorem toMv_addSymbols (h : p.WF) (ss : List String) (i : ι) :
    (p.addSymbols ss).toMv i = p.toMv i := by
  unfold toMv den addSymbols
  rw [List.map_map]
  congr 1
  refine List.map_congr_left fun t _ => ?_
  simp only [Function.comp]
  rw [toExp_addSymbols h]

theorem WF.addSymbols (h : p.WF) (ss : List String) : (p.addSymbols ss).WF where
  sorted := sorted_mergeSyms h.sorted
  len := by
    intro t ht
    obtain ⟨u, _, rfl⟩ := List.mem_map.mp ht
    simp [Poly.addSymbols, length_reindex]
  nodup := by
    simp only [Poly.addSymbols, List.map_map]
    have := h.nodup
    rw [List.nodup_map_iff_inj_on (List.Nodup.of_map _ this)] at *
    intro x hx y hy hxy
    refine this x hx y hy (toExp_inj h.ndsyms (h.len x hx) (h.len y hy) ?_)
    rw [← toExp_addSymbols h ss, ← toExp_addSymbols h ss (e := y.1)]
    simp only [Function.comp] at hxy
    rw [hxy]
  nz := by
    intro t ht
    obtain ⟨u, hu, rfl⟩ := List.mem_map.mp ht
    exact h.nz u hu

theorem sum_reindex (h : p.WF) (ss : List String) {e : List ℕ} (he : e.length = p.syms.length) :
    (reindex p.syms (mergeSyms p.syms ss) e).sum = e.sum := by
  rw [← degree_toExp (length_reindex _ _ _), toExp_addSymbols h, degree_toExp he]

theorem deg_addSymbols {n : ℕ} (h : p.WF) (ss : List String) (hd : ∀ t ∈ p.terms, t.1.sum ≤ n) :
    ∀ t ∈ (p.addSymbols ss).terms, t.1.sum ≤ n := by
  intro t ht
  obtain ⟨u, hu, rfl⟩ := List.mem_map.mp ht
  simp only
  rw [sum_reindex h ss (h.len u hu)]
  exact hd u hu

theorem syms_swap (hp : p.WF) (hq : q.WF) : (p.addSymbols q.syms).syms = (q.addSymbols p.syms).syms :=
  mergeSyms_comm hp.sorted hq.sorted

theorem toMv_add (hp : p.WF) (hq : q.WF) (i : ι) : (p.add q).toMv i = p.toMv i + q.toMv i := by
  rw [← toMv_addSymbols hp q.syms, ← toMv_addSymbols hq p.syms]
  unfold toMv add
  simp only
  rw [den_insertTerms, syms_swap hp hq]

theorem WF.add (hp : p.WF) (hq : q.WF) : (p.add q).WF :=
  wf_insertTerms (hp.addSymbols q.syms).sorted (hp.addSymbols q.syms).len
    (by rw [syms_swap hp hq]; exact (hq.addSymbols p.syms).len) (hp.addSymbols q.syms).nodup
    (hp.addSymbols q.syms).nz

theorem deg_add {n : ℕ} (hp : p.WF) (hq : q.WF) (dp : ∀ t ∈ p.terms, t.1.sum ≤ n)
    (dq : ∀ t ∈ q.terms, t.1.sum ≤ n) : ∀ t ∈ (p.add q).terms, t.1.sum ≤ n :=
  deg_insertTerms (deg_addSymbols hp _ dp) (deg_addSymbols hq _ dq)

theorem syms_add (p q : Poly C) : (p.add q).syms = mergeSyms p.syms q.syms := rfl

theorem toMv_neg (p : Poly C) (i : ι) : p.neg.toMv i = -p.toMv i := den_map_neg i _ _

include ι K in
theorem isZero_neg (c : C) : Cf.isZero (Cf.neg c) = Cf.isZero c := by
  rw [Bool.eq_iff_iff, Lanes.isZero_iff, Lanes.isZero_iff]
  simp [Lanes.lane_neg]

include ι K in
theorem WF.neg (hp : p.WF) : p.neg.WF where
  sorted := hp.sorted
  len := by
    intro t ht
    obtain ⟨u, hu, rfl⟩ := List.mem_map.mp ht
    exact hp.len u hu
  nodup := by
    simp only [Poly.neg, List.map_map]
    exact hp.nodup
  nz := by
    intro t ht
    obtain ⟨u, hu, rfl⟩ := List.mem_map.mp ht
    rw [isZero_neg (ι := ι) (K := K)]; exact hp.nz u hu

theorem deg_neg {n : ℕ} (dp : ∀ t ∈ p.terms, t.1.sum ≤ n) : ∀ t ∈ p.neg.terms, t.1.sum ≤ n := by
  intro t ht
  obtain ⟨u, hu, rfl⟩ := List.mem_map.mp ht
  exact dp u hu

theorem toMv_sub (hp : p.WF) (hq : q.WF) (i : ι) : (p.sub q).toMv i = p.toMv i - q.toMv i := by
  unfold sub
  rw [toMv_add hp (WF.neg (ι := ι) (K := K) hq), toMv_neg]; ring

include ι K in
theorem WF.sub (hp : p.WF) (hq : q.WF) : (p.sub q).WF := hp.add (WF.neg (ι := ι) (K := K) hq)

include ι K in
theorem deg_sub {n : ℕ} (hp : p.WF) (hq : q.WF) (dp : ∀ t ∈ p.terms, t.1.sum ≤ n)
    (dq : ∀ t ∈ q.terms, t.1.sum ≤ n) : ∀ t ∈ (p.sub q).terms, t.1.sum ≤ n :=
  deg_add hp (WF.neg (ι := ι) (K := K) hq) dp (deg_neg dq)

/-! Constants and variables -/

theorem wf_zero : (Poly.zero : Poly C).WF := ⟨by simp [zero], by simp [zero], by simp [zero], by simp [zero]⟩

theorem toMv_zero (i : ι) : (Poly.zero : Poly C).toMv i = 0 := rfl

theorem wf_const (c : C) : (Poly.const c).WF where
  sorted := by simp [const]
  len := by
    intro t ht
    unfold const insertTerm at ht
    split_ifs at ht
    · simp at ht
    · simp only [List.mem_singleton] at ht; subst ht; rfl
  nodup := nodup_insertTerm (by simp)
  nz := nz_insertTerm (by simp)

theorem deg_const (c : C) (n : ℕ) : ∀ t ∈ (Poly.const c).terms, t.1.sum ≤ n := by
  intro t ht
  have := (wf_const c).len t ht
  simp only [const, List.length_nil, List.length_eq_zero_iff] at this
  simp [this]

theorem toMv_const (c : C) (i : ι) : (Poly.const c).toMv i = MvPolynomial.C (Lanes.lane i c) := by
  unfold toMv const
  simp only
  rw [den_insertTerm, den_nil, zero_add]
  rfl

theorem lane_zero (i : ι) : (Lanes.lane i (Cf.zero : C) : K) = 0 := by
  simp [Cf.zero, Lanes.lane_ofRat]

theorem lane_one (i : ι) : (Lanes.lane i (Cf.one : C) : K) = 1 := by
  simp [Cf.one, Lanes.lane_ofRat]

include ι K in
theorem isZero_one : Cf.isZero (Cf.one : C) = false := by
  rw [Bool.eq_false_iff, Ne, Lanes.isZero_iff (ι := ι) (K := K)]
  obtain ⟨i⟩ := Lanes.nonempty C (ι := ι) (K := K)
  intro h
  have := h i
  rw [lane_one] at this
  exact one_ne_zero this

include ι K in
theorem wf_var (s : String) : (Poly.var s : Poly C).WF where
  sorted := by simp [var]
  len := by simp [var]
  nodup := by simp [var]
  nz := by simp [var, isZero_one (ι := ι) (K := K)]

theorem toMv_var (s : String) (i : ι) : (Poly.var s : Poly C).toMv i = X s := by
  simp [toMv, var, den, toExp, lane_one, X]

theorem lane_npow (i : ι) (c : C) (n : ℕ) : (Lanes.lane i (Cf.npow c n) : K) = Lanes.lane i c ^ n := by
  induction n with
  | zero => simp [Cf.npow, lane_one]
  | succ n ih => rw [Cf.npow, Lanes.lane_mul, ih, pow_succ]

/-! Filters -/

theorem coeff_den_filter (i : ι) (ss : List String) (L : List (List ℕ × C)) (keep : List ℕ × C → Bool)
    (keep' : (String →₀ ℕ) → Prop) [DecidablePred keep']
    (h : ∀ x ∈ L, (keep x = true ↔ keep' (toExp ss x.1))) (m : String →₀ ℕ) :
    coeff m (den i ss (L.filter keep)) = if keep' m then coeff m (den i ss L) else 0 := by
  induction L with
  | nil => simp [den_nil]
  | cons x L ih =>
    simp only [List.forall_mem_cons] at h
    rw [List.filter_cons, den_cons]
    split_ifs with h1 h2 h2
    · rw [den_cons, coeff_add, coeff_add, ih h.2, if_pos h2]
    · rw [den_cons, coeff_add, ih h.2, if_neg h2, add_zero, coeff_monomial, if_neg]
      rintro rfl
      exact h2 (h.1.mp h1)
    · rw [coeff_add, ih h.2, if_pos h2, coeff_monomial, if_neg, zero_add]
      rintro rfl
      exact h1 (h.1.mpr h2)
    · rw [ih h.2, if_neg h2]

theorem WF.filter (hp : p.WF) (keep : List ℕ × C → Bool) : (p.filter keep).WF where
  sorted := hp.sorted
  len t ht := hp.len t (List.mem_of_mem_filter ht)
  nodup := hp.nodup.sublist (List.Sublist.map _ List.filter_sublist)
  nz t ht := hp.nz t (List.mem_of_mem_filter ht)

theorem WF.truncate (hp : p.WF) (n : ℕ) : (p.truncate n).WF := hp.filter _

theorem coeff_truncate (hp : p.WF) (n : ℕ) (i : ι) (m : String →₀ ℕ) :
    coeff m ((p.truncate n).toMv i) = if m.degree ≤ n then coeff m (p.toMv i) else 0 := by
  unfold truncate toMv
  refine coeff_den_filter i p.syms p.terms _ (fun m => m.degree ≤ n) (fun x hx => ?_) m
  rw [degree_toExp (hp.len x hx)]
  exact decide_eq_true_iff

theorem deg_truncate (p : Poly C) (n : ℕ) : ∀ t ∈ (p.truncate n).terms, t.1.sum ≤ n := by
  intro t ht
  exact of_decide_eq_true (List.mem_filter.mp ht).2

theorem degLE_toMv {n : ℕ} (hp : p.WF) (hd : ∀ t ∈ p.terms, t.1.sum ≤ n) (i : ι) :
    Spec.DegLE n (p.toMv i) := by
  intro e he
  have h1 : p.truncate n = p := by
    unfold truncate
    have h2 : (p.terms.filter fun t => decide (keyDegree t.1 ≤ n)) = p.terms :=
      List.filter_eq_self.mpr fun t ht => decide_eq_true (hd t ht)
    rw [h2]
  rw [← h1, coeff_truncate hp, if_neg (not_le.mpr he)]

/-! Products -/

theorem den_append (i : ι) (ss : List String) (a b : List (List ℕ × C)) :
    den i ss (a ++ b) = den i ss a + den i ss b := by
  simp [den]

theorem den_products (i : ι) (ss : List String) (a b : List (List ℕ × C))
    (ha : ∀ t ∈ a, t.1.length = ss.length) (hb : ∀ t ∈ b, t.1.length = ss.length) :
    den i ss (a.flatMap fun t => b.map fun u => (List.zipWith (· + ·) t.1 u.1, Cf.mul t.2 u.2)) =
      den i ss a * den i ss b := by
  induction a with
  | nil => simp [den_nil]
  | cons x a ih =>
    simp only [List.forall_mem_cons] at ha
    rw [List.flatMap_cons, den_append, ih ha.2, den_cons, add_mul]
    congr 1
    clear ih
    induction b with
    | nil => simp [den_nil]
    | cons y b ih =>
      simp only [List.forall_mem_cons] at hb
      rw [List.map_cons, den_cons, den_cons, ih hb.2, mul_add, monomial_mul, Lanes.lane_mul,
        toExp_zipWith_add ha.1 hb.1]

theorem mulBy_terms (keep : List ℕ → Bool) (p q : Poly C) :
    (mulBy keep p q).terms = insertTerms [] (((p.addSymbols q.syms).terms.flatMap fun t =>
      (q.addSymbols p.syms).terms.map fun u =>
        (List.zipWith (· + ·) t.1 u.1, Cf.mul t.2 u.2)).filter fun v => keep v.1) := by
  unfold mulBy
  rw [List.filter_flatMap]

theorem products_len (hp : p.WF) (hq : q.WF) :
    ∀ x ∈ ((p.addSymbols q.syms).terms.flatMap fun t =>
      (q.addSymbols p.syms).terms.map fun u =>
        (List.zipWith (· + ·) t.1 u.1, Cf.mul t.2 u.2)), x.1.length = (p.addSymbols q.syms).syms.length := by
  intro x hx
  obtain ⟨t, ht, hx⟩ := List.mem_flatMap.mp hx
  obtain ⟨u, hu, rfl⟩ := List.mem_map.mp hx
  have h1 := (hp.addSymbols q.syms).len t ht
  have h2 := (hq.addSymbols p.syms).len u hu
  rw [← syms_swap hp hq] at h2
  simp [h1, h2]

theorem WF.mulBy (hp : p.WF) (hq : q.WF) (keep : List ℕ → Bool) : (Poly.mulBy keep p q).WF := by
  have h := wf_insertTerms (C := C) (hp.addSymbols q.syms).sorted (t := [])
    (new := ((p.addSymbols q.syms).terms.flatMap fun t =>
      (q.addSymbols p.syms).terms.map fun u =>
        (List.zipWith (· + ·) t.1 u.1, Cf.mul t.2 u.2)).filter fun v => keep v.1)
    (by simp) (fun x hx => products_len hp hq x (List.mem_of_mem_filter hx)) (by simp) (by simp)
  rw [← mulBy_terms] at h
  exact h

theorem coeff_mulBy (hp : p.WF) (hq : q.WF) (keep : List ℕ → Bool) (keep' : (String →₀ ℕ) → Prop)
    [DecidablePred keep'] (h : ∀ e : List ℕ, e.length = (p.addSymbols q.syms).syms.length →
      (keep e = true ↔ keep' (toExp (p.addSymbols q.syms).syms e))) (i : ι) (m : String →₀ ℕ) :
    coeff m ((Poly.mulBy keep p q).toMv i) = if keep' m then coeff m (p.toMv i * q.toMv i) else 0 := by
  have h0 : (Poly.mulBy keep p q).toMv i =
    den i (p.addSymbols q.syms).syms ((Poly.mulBy keep p q).terms) := rfl
  rw [h0, mulBy_terms, den_insertTerms, den_nil, zero_add,
    coeff_den_filter i _ _ _ keep' (fun x hx => h x.1 (products_len hp hq x hx)),
    den_products i _ _ _ (hp.addSymbols q.syms).len
      (by rw [syms_swap hp hq]; exact (hq.addSymbols p.syms).len),
    ← toMv_addSymbols hp q.syms, ← toMv_addSymbols hq p.syms]
  unfold toMv
  rw [syms_swap hp hq]

theorem toMv_mul (hp : p.WF) (hq : q.WF) (i : ι) : (p.mul q).toMv i = p.toMv i * q.toMv i := by
  ext m
  unfold mul
  rw [coeff_mulBy hp hq _ (fun _ => True) (by simp)]
  simp

theorem WF.mul (hp : p.WF) (hq : q.WF) : (p.mul q).WF := hp.mulBy hq _

theorem coeff_truncMul (hp : p.WF) (hq : q.WF) (n : ℕ) (i : ι) (m : String →₀ ℕ) :
    coeff m ((truncMul p q n).toMv i) = if m.degree ≤ n then coeff m (p.toMv i * q.toMv i) else 0 := by
  unfold truncMul
  refine coeff_mulBy hp hq _ (fun m => m.degree ≤ n) (fun e he => ?_) i m
  rw [degree_toExp he]
  exact decide_eq_true_iff

theorem deg_truncMul (p q : Poly C) (n : ℕ) : ∀ t ∈ (truncMul p q n).terms, t.1.sum ≤ n := by
  unfold truncMul
  rw [mulBy_terms]
  refine deg_insertTerms (by simp) fun x hx => ?_
  exact of_decide_eq_true (List.mem_filter.mp hx).2

theorem WF.truncMul (hp : p.WF) (hq : q.WF) (n : ℕ) : (Poly.truncMul p q n).WF := hp.mulBy hq _

theorem WF.npow (hp : p.WF) (n : ℕ) : (p.npow n).WF := by
  induction n with
  | zero => exact wf_const _
  | succ n ih => exact ih.mul hp

theorem toMv_npow (hp : p.WF) (n : ℕ) (i : ι) : (p.npow n).toMv i = p.toMv i ^ n := by
  induction n with
  | zero => rw [npow, toMv_const, lane_one, map_one, pow_zero]
  | succ n ih => rw [npow, toMv_mul (hp.npow n) hp, ih, pow_succ]

/-! Degree -/

theorem le_degree {t : List ℕ × C} (ht : t ∈ p.terms) : t.1.sum ≤ p.degree := by
  unfold degree keyDegree
  generalize p.terms = L at *
  induction L with
  | nil => simp at ht
  | cons x l ih =>
    simp only [List.map_cons, List.foldr_cons]
    rcases List.mem_cons.mp ht with rfl | ht
    · exact le_max_left _ _
    · exact le_trans (ih ht) (le_max_right _ _)

theorem degree_le {n : ℕ} (h : ∀ t ∈ p.terms, t.1.sum ≤ n) : p.degree ≤ n := by
  unfold degree keyDegree
  generalize p.terms = L at *
  induction L with
  | nil => simp
  | cons x l ih =>
    simp only [List.forall_mem_cons] at h
    simp only [List.map_cons, List.foldr_cons]
    exact max_le h.1 (ih h.2)

/-! Lookup -/

theorem coeff_den_of_notMem {i : ι} {ss : List String} (hs : ss.Nodup) {L : List (List ℕ × C)}
    (hl : ∀ x ∈ L, x.1.length = ss.length) {e : List ℕ} (he : e.length = ss.length)
    (h : e ∉ L.map (·.1)) : coeff (toExp ss e) (den i ss L) = (0 : K) := by
  induction L with
  | nil => simp [den_nil]
  | cons x L ih =>
    simp only [List.forall_mem_cons] at hl
    simp only [List.map_cons, List.mem_cons, not_or] at h
    rw [den_cons, coeff_add, ih hl.2 h.2, coeff_monomial, if_neg, add_zero]
    intro hx
    exact h.1 (toExp_inj hs hl.1 he hx).symm

theorem coeff_den_of_mem {i : ι} {ss : List String} (hs : ss.Nodup) {L : List (List ℕ × C)}
    (hl : ∀ x ∈ L, x.1.length = ss.length) (hn : (L.map (·.1)).Nodup) {e : List ℕ} {c : C}
    (h : (e, c) ∈ L) : coeff (toExp ss e) (den i ss L) = Lanes.lane i c := by
  induction L with
  | nil => simp at h
  | cons x L ih =>
    have hl0 := hl
    simp only [List.forall_mem_cons] at hl
    simp only [List.map_cons, List.nodup_cons] at hn
    rw [den_cons, coeff_add, coeff_monomial]
    rcases List.mem_cons.mp h with rfl | h
    · rw [if_pos rfl, coeff_den_of_notMem hs hl.2 hl.1 hn.1, add_zero]
    · rw [ih hl.2 hn.2 h, if_neg, zero_add]
      intro hx
      have := toExp_inj hs hl.1 (hl.2 _ h) hx
      exact hn.1 (this ▸ List.mem_map_of_mem h)

theorem coeff_toMv_find? (hp : p.WF) {e : List ℕ} (he : e.length = p.syms.length) (i : ι) :
    coeff (toExp p.syms e) (p.toMv i) =
      match p.find? e with
      | none => 0
      | some c => Lanes.lane i c := by
  unfold find?
  cases hf : p.terms.find? fun t => t.1 = e with
  | none =>
    simp only [Option.map_none]
    rw [List.find?_eq_none] at hf
    refine coeff_den_of_notMem hp.ndsyms hp.len he fun hm => ?_
    obtain ⟨t, ht, hte⟩ := List.mem_map.mp hm
    exact hf t ht (by simpa using hte)
  | some t =>
    have h1 := List.mem_of_find?_eq_some hf
    have h2 : t.1 = e := by simpa using List.find?_some hf
    subst h2
    exact coeff_den_of_mem hp.ndsyms hp.len hp.nodup h1

theorem coeff_toMv_of_mem (hp : p.WF) {e : List ℕ} {c : C} (h : (e, c) ∈ p.terms) (i : ι) :
    coeff (toExp p.syms e) (p.toMv i) = Lanes.lane i c := coeff_den_of_mem hp.ndsyms hp.len hp.nodup h

/-- A nonzero coefficient comes from a term of the table. -/
theorem exists_mem_of_coeff_ne {i : ι} {m : String →₀ ℕ} (h : coeff m (p.toMv i) ≠ (0 : K)) :
    ∃ t ∈ p.terms, toExp p.syms t.1 = m := by
  by_contra hc
  push Not at hc
  apply h
  unfold toMv
  generalize p.syms = ss at hc
  generalize p.terms = L at hc
  induction L with
  | nil => simp [den_nil]
  | cons x L ih =>
    simp only [List.forall_mem_cons] at hc
    rw [den_cons, coeff_add, ih hc.2, coeff_monomial, if_neg hc.1, add_zero]

include ι K in
theorem exists_lane_ne {c : C} (h : Cf.isZero c = false) : ∃ i : ι, (Lanes.lane i c : K) ≠ 0 := by
  by_contra hc
  push Not at hc
  rw [(Lanes.isZero_iff c).mpr hc] at h
  exact Bool.noConfusion h

/-- Terms of the table have bounded degree iff the denoted polynomials have. -/
theorem deg_iff (hp : p.WF) {n : ℕ} :
    (∀ t ∈ p.terms, t.1.sum ≤ n) ↔ ∀ i : ι, Spec.DegLE n (p.toMv i) := by
  refine ⟨fun h => degLE_toMv hp h, fun h t ht => ?_⟩
  by_contra hc
  obtain ⟨i, hi⟩ := exists_lane_ne (ι := ι) (K := K) (hp.nz t ht)
  apply hi
  rw [← coeff_toMv_of_mem hp (e := t.1) ht i]
  refine h i _ ?_
  rw [degree_toExp (hp.len t ht)]
  omega

end Poly

end Audi
