import Verif.Spec.Special
import Verif.Proofs.PolyOps

/-! Lemmas on coefficients with special values: what sums and products of polynomials do with them. -/

set_option linter.unusedSectionVars false

namespace Audi
open Poly

variable {C : Type} [Cf C] {N : C → Prop}

/-- The table has an entry for `k` satisfying `N`. -/
def TabHas (N : C → Prop) (t : List (List ℕ × C)) (k : List ℕ) : Prop := ∃ x ∈ t, N x.2 ∧ x.1 = k

theorem Absorbing.tab_keep (h : Absorbing N) {e : List ℕ} {c : C} {t : List (List ℕ × C)} {k : List ℕ} (ht : TabHas N t k) :
    TabHas N (insertTerm e c t) k := by
  induction t with
  | nil => obtain ⟨x, hx, _⟩ := ht; simp at hx
  | cons y t ih =>
    obtain ⟨x, hx, hx1, hx2⟩ := ht
    obtain ⟨e', c'⟩ := y
    unfold insertTerm
    rcases List.mem_cons.mp hx with rfl | hx
    · by_cases he : e = e'
      · have := h.add_left c' c hx1
        rw [if_pos he, h.nz _ this]
        exact ⟨(e', Cf.add c' c), by simp, this, hx2⟩
      · rw [if_neg he]
        exact ⟨_, by simp, hx1, hx2⟩
    · by_cases he : e = e'
      · rw [if_pos he]
        split_ifs
        · exact ⟨x, hx, hx1, hx2⟩
        · exact ⟨x, List.mem_cons_of_mem _ hx, hx1, hx2⟩
      · rw [if_neg he]
        obtain ⟨z, hz, hz1⟩ := ih ⟨x, hx, hx1, hx2⟩
        exact ⟨z, List.mem_cons_of_mem _ hz, hz1⟩

theorem Absorbing.tab_new (h : Absorbing N) {e : List ℕ} {c : C} {t : List (List ℕ × C)} (hc : N c) :
    TabHas N (insertTerm e c t) e := by
  induction t with
  | nil => exact ⟨(e, c), by simp [insertTerm, h.nz c hc], hc, rfl⟩
  | cons y t ih =>
    obtain ⟨e', c'⟩ := y
    unfold insertTerm
    by_cases he : e = e'
    · have := h.add_right c' c hc
      rw [if_pos he, h.nz _ this]
      exact ⟨(e', Cf.add c' c), by simp, this, he.symm⟩
    · rw [if_neg he]
      obtain ⟨z, hz, hz1⟩ := ih
      exact ⟨z, List.mem_cons_of_mem _ hz, hz1⟩

theorem Absorbing.tabs_keep (h : Absorbing N) {t new : List (List ℕ × C)} {k : List ℕ} (ht : TabHas N t k) :
    TabHas N (insertTerms t new) k := by
  unfold insertTerms
  induction new generalizing t with
  | nil => exact ht
  | cons y new ih => exact ih (h.tab_keep ht)

theorem Absorbing.tabs_new (h : Absorbing N) {t new : List (List ℕ × C)} {k : List ℕ} (ht : TabHas N new k) :
    TabHas N (insertTerms t new) k := by
  unfold insertTerms
  induction new generalizing t with
  | nil => obtain ⟨x, hx, _⟩ := ht; simp at hx
  | cons y new ih =>
    obtain ⟨x, hx, hx1, rfl⟩ := ht
    rcases List.mem_cons.mp hx with rfl | hx
    · exact h.tabs_keep (new := new) (h.tab_new hx1)
    · exact ih ⟨x, hx, hx1, rfl⟩

/-! ### Polynomials -/

/-- `HasAt` for polynomials. -/
def PHas (N : C → Prop) (p : Poly C) (E : String →₀ ℕ) : Prop := ∃ t ∈ p.terms, N t.2 ∧ toExp p.syms t.1 = E

variable {p q : Poly C} {E G : String →₀ ℕ}

theorem PHas.mono {M : C → Prop} (h : PHas N p E) (hM : ∀ c, N c → M c) : PHas M p E := by
  obtain ⟨t, ht, h1, h2⟩ := h; exact ⟨t, ht, hM _ h1, h2⟩

theorem phas_addSymbols (hp : p.WF) (ss : List String) : PHas N (p.addSymbols ss) E ↔ PHas N p E := by
  constructor
  · rintro ⟨t, ht, h1, h2⟩
    obtain ⟨u, hu, rfl⟩ := List.mem_map.mp ht
    exact ⟨u, hu, h1, by rw [← h2]; exact (toExp_addSymbols hp ss).symm⟩
  · rintro ⟨u, hu, h1, h2⟩
    exact ⟨_, List.mem_map_of_mem hu, h1, by rw [← h2]; exact toExp_addSymbols hp ss⟩

theorem TabHas.phas {ss : List String} {t : List (List ℕ × C)} {k : List ℕ} (h : TabHas N t k) :
    PHas N ⟨ss, t⟩ (toExp ss k) := by
  obtain ⟨x, hx, h1, rfl⟩ := h
  exact ⟨x, hx, h1, rfl⟩

theorem PHas.add_left (h : Absorbing N) (hp : p.WF) (q : Poly C) (hE : PHas N p E) : PHas N (p.add q) E := by
  obtain ⟨t, ht, h1, h2⟩ := (phas_addSymbols hp q.syms).mpr hE
  have : TabHas N (insertTerms (p.addSymbols q.syms).terms (q.addSymbols p.syms).terms) t.1 := h.tabs_keep ⟨t, ht, h1, rfl⟩
  rw [← h2]
  exact this.phas

theorem PHas.add_right (h : Absorbing N) (hp : p.WF) (hq : q.WF) (hE : PHas N q E) : PHas N (p.add q) E := by
  obtain ⟨t, ht, h1, h2⟩ := (phas_addSymbols hq p.syms).mpr hE
  have : TabHas N (insertTerms (p.addSymbols q.syms).terms (q.addSymbols p.syms).terms) t.1 := h.tabs_new ⟨t, ht, h1, rfl⟩
  rw [← h2, ← syms_swap hp hq]
  exact this.phas

theorem PHas.neg (h : Absorbing N) (hE : PHas N p E) : PHas N p.neg E := by
  obtain ⟨t, ht, h1, h2⟩ := hE
  exact ⟨_, List.mem_map_of_mem ht, h.neg _ h1, h2⟩

theorem wf_neg [NegZero C] (hp : p.WF) : p.neg.WF where
  sorted := hp.sorted
  len := by
    intro t ht
    obtain ⟨u, hu, rfl⟩ := List.mem_map.mp ht
    exact hp.len u hu
  nodup := by
    simp only [Poly.neg, List.map_map]
    exact hp.nodup
  nz := by
    intro t ht
    obtain ⟨u, hu, rfl⟩ := List.mem_map.mp ht
    rw [NegZero.isZero_neg]; exact hp.nz u hu

theorem wf_sub [NegZero C] (hp : p.WF) (hq : q.WF) : (p.sub q).WF := hp.add (wf_neg hq)

/-- The monomial is in the table. -/
abbrev Occurs (p : Poly C) (E : String →₀ ℕ) : Prop := PHas (fun _ => True) p E

theorem PHas.mul_left (h : Absorbing N) (hp : p.WF) (hq : q.WF) {n : ℕ} (hE : PHas N p E) (hG : Occurs q G)
    (hd : (E + G).degree ≤ n) : PHas N (truncMul p q n) (E + G) := by
  obtain ⟨t, ht, h1, h2⟩ := (phas_addSymbols hp q.syms).mpr hE
  obtain ⟨u, hu, -, h4⟩ := (phas_addSymbols hq p.syms).mpr hG
  have lt := (hp.addSymbols q.syms).len t ht
  have lu := (hq.addSymbols p.syms).len u hu
  rw [← syms_swap hp hq] at h4 lu
  have h5 : toExp (p.addSymbols q.syms).syms (List.zipWith (· + ·) t.1 u.1) = E + G := by
    rw [toExp_zipWith_add lt lu, h2, h4]
  have h6 : TabHas N (truncMul p q n).terms (List.zipWith (· + ·) t.1 u.1) := by
    unfold truncMul
    rw [mulBy_terms]
    refine h.tabs_new ⟨(List.zipWith (· + ·) t.1 u.1, Cf.mul t.2 u.2), ?_, h.mul_left _ _ h1, rfl⟩
    refine List.mem_filter.mpr ⟨List.mem_flatMap.mpr ⟨t, ht, List.mem_map_of_mem hu⟩, ?_⟩
    have h7 : (List.zipWith (· + ·) t.1 u.1).length = (p.addSymbols q.syms).syms.length := by simp [lt, lu]
    refine decide_eq_true ?_
    change (List.zipWith (· + ·) t.1 u.1).sum ≤ n
    rw [← degree_toExp h7, h5]
    exact hd
  have := h6.phas (ss := (p.addSymbols q.syms).syms)
  rwa [h5] at this

theorem PHas.mul_right (h : Absorbing N) (hp : p.WF) (hq : q.WF) {n : ℕ} (hE : Occurs p E) (hG : PHas N q G)
    (hd : (E + G).degree ≤ n) : PHas N (truncMul p q n) (E + G) := by
  obtain ⟨t, ht, -, h2⟩ := (phas_addSymbols hp q.syms).mpr hE
  obtain ⟨u, hu, h3, h4⟩ := (phas_addSymbols hq p.syms).mpr hG
  have lt := (hp.addSymbols q.syms).len t ht
  have lu := (hq.addSymbols p.syms).len u hu
  rw [← syms_swap hp hq] at h4 lu
  have h5 : toExp (p.addSymbols q.syms).syms (List.zipWith (· + ·) t.1 u.1) = E + G := by
    rw [toExp_zipWith_add lt lu, h2, h4]
  have h6 : TabHas N (truncMul p q n).terms (List.zipWith (· + ·) t.1 u.1) := by
    unfold truncMul
    rw [mulBy_terms]
    refine h.tabs_new ⟨(List.zipWith (· + ·) t.1 u.1, Cf.mul t.2 u.2), ?_, h.mul_right _ _ h3, rfl⟩
    refine List.mem_filter.mpr ⟨List.mem_flatMap.mpr ⟨t, ht, List.mem_map_of_mem hu⟩, ?_⟩
    have h7 : (List.zipWith (· + ·) t.1 u.1).length = (p.addSymbols q.syms).syms.length := by simp [lt, lu]
    refine decide_eq_true ?_
    change (List.zipWith (· + ·) t.1 u.1).sum ≤ n
    rw [← degree_toExp h7, h5]
    exact hd
  have := h6.phas (ss := (p.addSymbols q.syms).syms)
  rwa [h5] at this

theorem phas_const {c : C} (hc : N c) (hz : Cf.isZero c = false) : PHas N (Poly.const c) 0 :=
  ⟨([], c), by simp [Poly.const, insertTerm, hz], hc, by simp [toExp]⟩

/-! ### Values which are absorbed nowhere: terms that cannot vanish -/

/-- All the contributions to `k` in a list satisfy `N`. -/
def AllAt (N : C → Prop) (t : List (List ℕ × C)) (k : List ℕ) : Prop := ∀ x ∈ t, x.1 = k → N x.2

theorem Absorbing.allAt_insertTerm (h : Absorbing N) {e : List ℕ} {c : C} {t : List (List ℕ × C)} {k : List ℕ}
    (ht : AllAt N t k) (hc : e = k → N c) : AllAt N (insertTerm e c t) k := by
  induction t with
  | nil =>
    unfold insertTerm
    split_ifs
    · exact ht
    · intro x hx hk
      rw [List.mem_singleton] at hx
      subst hx
      exact hc hk
  | cons y t ih =>
    obtain ⟨e', c'⟩ := y
    have ht' : AllAt N t k := fun x hx => ht x (List.mem_cons_of_mem _ hx)
    unfold insertTerm
    by_cases he : e = e'
    · rw [if_pos he]
      split_ifs
      · exact ht'
      · intro x hx hk
        rcases List.mem_cons.mp hx with rfl | hx
        · exact h.add_right _ _ (hc (he.trans hk))
        · exact ht' x hx hk
    · rw [if_neg he]
      intro x hx hk
      rcases List.mem_cons.mp hx with rfl | hx
      · exact ht (e', c') (by simp) hk
      · exact ih ht' x hx hk

theorem Absorbing.allAt_insertTerms (h : Absorbing N) {t new : List (List ℕ × C)} {k : List ℕ}
    (ht : AllAt N t k) (hn : AllAt N new k) : AllAt N (insertTerms t new) k := by
  unfold insertTerms
  induction new generalizing t with
  | nil => exact ht
  | cons y new ih =>
    exact ih (h.allAt_insertTerm ht fun hk => hn y (by simp) hk) fun x hx => hn x (List.mem_cons_of_mem _ hx)

/-- An entry `c0` or an absorbing one stays so when only absorbing values are added to it. -/
theorem Absorbing.tab_stay (h : Absorbing N) {c0 : C} {e : List ℕ} {c : C} {t : List (List ℕ × C)} {k : List ℕ} (ht : TabHas (fun x => N x ∨ x = c0) t k)
    (hc : e = k → N c) : TabHas (fun x => N x ∨ x = c0) (insertTerm e c t) k := by
  by_cases hk : e = k
  · subst hk
    obtain ⟨x, hx, h1, h2⟩ := h.tab_new (e := e) (t := t) (hc rfl)
    exact ⟨x, hx, Or.inl h1, h2⟩
  · induction t with
    | nil => obtain ⟨x, hx, _⟩ := ht; simp at hx
    | cons y t ih =>
      obtain ⟨x, hx, hx1, hx2⟩ := ht
      obtain ⟨e', c'⟩ := y
      unfold insertTerm
      rcases List.mem_cons.mp hx with rfl | hx
      · rw [if_neg (fun he => hk (he.trans hx2))]
        exact ⟨_, by simp, hx1, hx2⟩
      · by_cases he : e = e'
        · rw [if_pos he]
          split_ifs
          · exact ⟨x, hx, hx1, hx2⟩
          · exact ⟨x, List.mem_cons_of_mem _ hx, hx1, hx2⟩
        · rw [if_neg he]
          obtain ⟨z, hz, hz1⟩ := ih ⟨x, hx, hx1, hx2⟩
          exact ⟨z, List.mem_cons_of_mem _ hz, hz1⟩

theorem Absorbing.tabs_stay (h : Absorbing N) {c0 : C} {t new : List (List ℕ × C)} {k : List ℕ} (ht : TabHas (fun x => N x ∨ x = c0) t k)
    (hn : AllAt N new k) : TabHas (fun x => N x ∨ x = c0) (insertTerms t new) k := by
  unfold insertTerms
  induction new generalizing t with
  | nil => exact ht
  | cons y new ih =>
    exact ih (h.tab_stay ht fun hk => hn y (by simp) hk) fun x hx => hn x (List.mem_cons_of_mem _ hx)

theorem Absorbing.tab_first (h : Absorbing N) {c0 : C} (hz : Cf.isZero c0 = false) {t : List (List ℕ × C)} {k : List ℕ} (ht : AllAt N t k) :
    TabHas (fun x => N x ∨ x = c0) (insertTerm k c0 t) k := by
  induction t with
  | nil => exact ⟨(k, c0), by simp [insertTerm, hz], Or.inr rfl, rfl⟩
  | cons y t ih =>
    obtain ⟨e', c'⟩ := y
    unfold insertTerm
    by_cases he : k = e'
    · have h1 := h.add_left c' c0 (ht (e', c') (by simp) he.symm)
      rw [if_pos he, h.nz _ h1]
      exact ⟨(e', Cf.add c' c0), by simp, Or.inl h1, he.symm⟩
    · rw [if_neg he]
      obtain ⟨z, hz, hz1⟩ := ih fun x hx => ht x (List.mem_cons_of_mem _ hx)
      exact ⟨z, List.mem_cons_of_mem _ hz, hz1⟩

/-- Only one contribution to `k` is not absorbing, and it is not zero: there is an entry for `k`, equal to that contribution or absorbing. -/
theorem Absorbing.tabs_single (h : Absorbing N) {c0 : C} (hz : Cf.isZero c0 = false) {l r : List (List ℕ × C)} {k : List ℕ}
    (hl : AllAt N l k) (hr : AllAt N r k) : TabHas (fun x => N x ∨ x = c0) (insertTerms [] (l ++ (k, c0) :: r)) k := by
  have h1 : insertTerms [] (l ++ (k, c0) :: r) = insertTerms (insertTerm k c0 (insertTerms [] l)) r := by
    simp [insertTerms, List.foldl_append]
  rw [h1]
  exact h.tabs_stay (h.tab_first hz (h.allAt_insertTerms (fun x hx => by simp at hx) hl)) hr

end Audi
