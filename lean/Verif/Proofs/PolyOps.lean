import Verif.Proofs.Poly
import Mathlib.Algebra.MvPolynomial.PDeriv

/-! Lemmas on the polynomial layer, continued: derivative, integral, substitution, trim, equality, evaluation. -/

set_option linter.unusedSectionVars false

namespace Audi

open MvPolynomial

theorem toExp_setExp {ss : List String} (h : ss.Nodup) {e : List ℕ} (hl : e.length = ss.length)
    {s : String} (hs : s ∈ ss) (n : ℕ) :
    toExp ss (Poly.setExp ss e s n) = (toExp ss e).update s n := by
  ext u
  rw [toExp_apply h, expOf_setExp h hl, Finsupp.coe_update, Function.update_apply, toExp_apply h]
  simp [hs]

theorem toExp_setExp_notMem {ss : List String} (h : ss.Nodup) {e : List ℕ} (hl : e.length = ss.length)
    {s : String} (hs : s ∉ ss) (n : ℕ) :
    toExp ss (Poly.setExp ss e s n) = toExp ss e := by
  ext u
  rw [toExp_apply h, expOf_setExp h hl, toExp_apply h]
  simp [hs]

theorem mem_of_expOf_ne {ss : List String} {e : List ℕ} {s : String} (h : expOf ss e s ≠ 0) : s ∈ ss := by
  by_contra hc
  exact h (expOf_of_notMem hc)

theorem toExp_setExp_pred {ss : List String} (h : ss.Nodup) {e : List ℕ} (hl : e.length = ss.length)
    {s : String} (hs : s ∈ ss) :
    toExp ss (Poly.setExp ss e s (expOf ss e s - 1)) = toExp ss e - Finsupp.single s 1 := by
  rw [toExp_setExp h hl hs]
  ext u
  rw [Finsupp.coe_update, Function.update_apply, Finsupp.tsub_apply, Finsupp.single_apply,
    toExp_apply h]
  by_cases hu : u = s
  · subst hu; simp
  · simp [hu, Ne.symm hu]

theorem toExp_setExp_succ {ss : List String} (h : ss.Nodup) {e : List ℕ} (hl : e.length = ss.length)
    {s : String} (hs : s ∈ ss) :
    toExp ss (Poly.setExp ss e s (expOf ss e s + 1)) = toExp ss e + Finsupp.single s 1 := by
  rw [toExp_setExp h hl hs]
  ext u
  rw [Finsupp.coe_update, Function.update_apply, Finsupp.add_apply, Finsupp.single_apply,
    toExp_apply h]
  by_cases hu : u = s
  · subst hu; simp
  · simp [hu, Ne.symm hu]

theorem toExp_setExp_zero {ss : List String} (h : ss.Nodup) {e : List ℕ} (hl : e.length = ss.length)
    (s : String) : toExp ss (Poly.setExp ss e s 0) = (toExp ss e).erase s := by
  ext u
  rw [toExp_apply h, expOf_setExp h hl, Finsupp.erase_apply, toExp_apply h]
  by_cases hu : u = s
  · subst hu
    by_cases hs : u ∈ ss
    · simp [hs]
    · simp [hs, expOf_of_notMem hs]
  · simp [hu]

namespace Poly
variable {C : Type} [Cf C] {ι : Type} {K : Type} [Field K] [Lanes C ι K]
variable {p q : Poly C}

/-! Derivative -/

theorem diff_len (hp : p.WF) (s : String) : ∀ x ∈ (p.terms.filterMap fun t =>
    let k := expOf p.syms t.1 s
    if k = 0 then none else some (setExp p.syms t.1 s (k - 1), Cf.mul t.2 (Cf.ofRat k))),
    x.1.length = p.syms.length := by
  intro x hx
  obtain ⟨t, ht, hx⟩ := List.mem_filterMap.mp hx
  simp only [Option.ite_none_left_eq_some, Option.some.injEq] at hx
  rw [← hx.2, length_setExp]
  exact hp.len t ht

theorem WF.diff (hp : p.WF) (s : String) : (p.diff s).WF :=
  wf_insertTerms hp.sorted (by simp) (diff_len hp s) (by simp) (by simp)

theorem toMv_diff (hp : p.WF) (s : String) (i : ι) : (p.diff s).toMv i = pderiv s (p.toMv i) := by
  unfold diff toMv
  simp only
  rw [den_insertTerms, den_nil, zero_add]
  have hl := hp.len
  have hs := hp.ndsyms
  generalize p.syms = ss at *
  generalize p.terms = L at *
  induction L with
  | nil => simp [den_nil]
  | cons x L ih =>
    simp only [List.forall_mem_cons] at hl
    rw [List.filterMap_cons, den_cons, map_add, pderiv_monomial, ← ih hl.2]
    rw [toExp_apply hs]
    by_cases h : expOf ss x.1 s = 0
    · simp [h]
    · simp only [h, if_false]
      rw [den_cons, toExp_setExp_pred hs hl.1 (mem_of_expOf_ne h), Lanes.lane_mul, Lanes.lane_ofRat]
      simp

theorem deg_diff {n : ℕ} (hp : p.WF) (s : String) (hd : ∀ t ∈ p.terms, t.1.sum ≤ n + 1) :
    ∀ t ∈ (p.diff s).terms, t.1.sum ≤ n := by
  refine deg_insertTerms (by simp) fun x hx => ?_
  have hlen := diff_len hp s x hx
  obtain ⟨t, ht, hx⟩ := List.mem_filterMap.mp hx
  simp only [Option.ite_none_left_eq_some, Option.some.injEq] at hx
  rw [← degree_toExp hlen, ← hx.2]
  have hm := mem_of_expOf_ne hx.1
  simp only
  rw [toExp_setExp_pred hp.ndsyms (hp.len t ht) hm]
  have h1 := hd t ht
  rw [← degree_toExp (hp.len t ht)] at h1
  have h2 : toExp p.syms t.1 - Finsupp.single s 1 + Finsupp.single s 1 = toExp p.syms t.1 := by
    apply tsub_add_cancel_of_le
    rw [Finsupp.single_le_iff, toExp_apply hp.ndsyms]
    exact Nat.one_le_iff_ne_zero.mpr hx.1
  rw [← h2] at h1
  simp only [map_add, Finsupp.degree_single] at h1
  omega

/-! Integral -/

theorem mem_addSymbols_syms (p : Poly C) (s : String) : s ∈ (p.addSymbols [s]).syms :=
  mem_mergeSyms.mpr (Or.inr (by simp))

theorem WF.integrate (hp : p.WF) (s : String) : (p.integrate s).WF :=
  wf_insertTerms (hp.addSymbols [s]).sorted (by simp) (by
    intro x hx
    obtain ⟨t, ht, rfl⟩ := List.mem_map.mp hx
    simp only [length_setExp]
    exact (hp.addSymbols [s]).len t ht) (by simp) (by simp)

theorem coeff_integrate [CharZero K] (hp : p.WF) (s : String) (i : ι) (m : String →₀ ℕ) :
    coeff m ((p.integrate s).toMv i) =
      if m s = 0 then 0 else coeff (m - Finsupp.single s 1) (p.toMv i) / (m s : K) := by
  rw [← toMv_addSymbols hp [s]]
  unfold integrate toMv
  simp only
  rw [den_insertTerms, den_nil, zero_add]
  have hl := (hp.addSymbols [s]).len
  have hs := (hp.addSymbols [s]).ndsyms
  have hm := mem_addSymbols_syms p s
  generalize (p.addSymbols [s]).syms = ss at *
  generalize (p.addSymbols [s]).terms = L at *
  induction L with
  | nil => simp [den_nil]
  | cons x L ih =>
    simp only [List.forall_mem_cons] at hl
    rw [List.map_cons, den_cons, den_cons, coeff_add, coeff_add, ih hl.2]
    simp only
    rw [toExp_setExp_succ hs hl.1 hm, coeff_monomial, coeff_monomial, Lanes.lane_div, Lanes.lane_ofRat]
    by_cases h0 : m s = 0
    · rw [if_neg, if_pos h0, if_pos h0, add_zero]
      rintro rfl
      simp at h0
    · rw [if_neg h0, if_neg h0, add_div]
      congr 1
      have hsub : m - Finsupp.single s 1 + Finsupp.single s 1 = m :=
        tsub_add_cancel_of_le (by rw [Finsupp.single_le_iff]; exact Nat.one_le_iff_ne_zero.mpr h0)
      by_cases h1 : toExp ss x.1 = m - Finsupp.single s 1
      · have h2 : toExp ss x.1 + Finsupp.single s 1 = m := by rw [h1, hsub]
        rw [if_pos h1, if_pos h2]
        congr 1
        rw [← h2, Finsupp.add_apply, toExp_apply hs]
        simp
      · rw [if_neg h1, if_neg, zero_div]
        intro h2
        apply h1
        rw [← h2]; simp

/-! Substitution -/

/-- The substitution map on the Mathlib side. -/
noncomputable def substMap (s : String) (Q : MvPolynomial String K) :
    MvPolynomial String K →ₐ[K] MvPolynomial String K :=
  aeval fun u => if u = s then Q else X u

theorem substMap_monomial (s : String) (Q : MvPolynomial String K) (e : String →₀ ℕ) (c : K) :
    substMap s Q (monomial e c) = monomial (e.erase s) c * Q ^ (e s) := by
  unfold substMap
  rw [aeval_monomial, algebraMap_eq, ← Finsupp.mul_prod_erase' e s _ (by simp)]
  simp only [if_true]
  have h1 : ((e.erase s).prod fun u k => (if u = s then Q else X u) ^ k) =
      (e.erase s).prod fun u k => (X u : MvPolynomial String K) ^ k := by
    refine Finsupp.prod_congr fun u hu => ?_
    rw [if_neg]
    rintro rfl
    simp at hu
  rw [h1, mul_comm (Q ^ _), ← mul_assoc, ← monomial_eq]

theorem WF.subsVal (hp : p.WF) (s : String) (v : C) : (p.subsVal s v).WF :=
  wf_insertTerms hp.sorted (by simp) (by
    intro x hx
    obtain ⟨t, ht, rfl⟩ := List.mem_map.mp hx
    simp only [length_setExp]
    exact hp.len t ht) (by simp) (by simp)

theorem toMv_subsVal (hp : p.WF) (s : String) (v : C) (i : ι) :
    (p.subsVal s v).toMv i = substMap s (MvPolynomial.C (Lanes.lane i v)) (p.toMv i) := by
  unfold subsVal toMv
  simp only
  rw [den_insertTerms, den_nil, zero_add]
  have hl := hp.len
  have hs := hp.ndsyms
  generalize p.syms = ss at *
  generalize p.terms = L at *
  induction L with
  | nil => simp [den_nil]
  | cons x L ih =>
    simp only [List.forall_mem_cons] at hl
    rw [List.map_cons, den_cons, den_cons, map_add, ← ih hl.2, substMap_monomial,
      toExp_setExp_zero hs hl.1, Lanes.lane_mul, lane_npow, toExp_apply hs, ← map_pow, mul_comm (monomial _ _),
      C_mul_monomial, mul_comm (_ ^ _)]

theorem degree_erase_le (e : String →₀ ℕ) (s : String) : (e.erase s).degree ≤ e.degree := by
  have := Finsupp.single_add_erase s e
  conv_rhs => rw [← this]
  rw [map_add]
  exact Nat.le_add_left _ _

theorem deg_subsVal {n : ℕ} (hp : p.WF) (s : String) (v : C) (hd : ∀ t ∈ p.terms, t.1.sum ≤ n) :
    ∀ t ∈ (p.subsVal s v).terms, t.1.sum ≤ n := by
  refine deg_insertTerms (by simp) fun x hx => ?_
  obtain ⟨t, ht, rfl⟩ := List.mem_map.mp hx
  simp only
  have h1 := hd t ht
  rw [← degree_toExp (hp.len t ht)] at h1
  rw [← degree_toExp (by rw [length_setExp]; exact hp.len t ht), toExp_setExp_zero hp.ndsyms (hp.len t ht)]
  exact le_trans (degree_erase_le _ _) h1

theorem foldl_add_wf {L : List (Poly C)} {z : Poly C} (hz : z.WF) (h : ∀ x ∈ L, x.WF) :
    (L.foldl Poly.add z).WF := by
  induction L generalizing z with
  | nil => exact hz
  | cons x L ih =>
    simp only [List.forall_mem_cons] at h
    exact ih (hz.add h.1) h.2

theorem foldl_add_toMv {L : List (Poly C)} {z : Poly C} (hz : z.WF) (h : ∀ x ∈ L, x.WF) (i : ι) :
    (L.foldl Poly.add z).toMv i = z.toMv i + (L.map fun x => x.toMv i).sum := by
  induction L generalizing z with
  | nil => simp
  | cons x L ih =>
    simp only [List.forall_mem_cons] at h
    rw [List.foldl_cons, ih (hz.add h.1) h.2, toMv_add hz h.1, List.map_cons, List.sum_cons, add_assoc]

theorem wf_single {ss : List String} (hs : ss.Pairwise (· < ·)) {e : List ℕ} (hl : e.length = ss.length)
    {c : C} (hc : Cf.isZero c = false) : (⟨ss, [(e, c)]⟩ : Poly C).WF :=
  ⟨hs, by simpa using hl, by simp, by simpa using hc⟩

theorem wf_empty {ss : List String} (hs : ss.Pairwise (· < ·)) : (⟨ss, []⟩ : Poly C).WF :=
  ⟨hs, by simp, by simp, by simp⟩

theorem subsPoly_terms_wf (hp : p.WF) (hq : q.WF) (s : String) :
    ∀ x ∈ (p.terms.map fun t =>
      mul ⟨p.syms, [(setExp p.syms t.1 s 0, t.2)]⟩ (npow q (expOf p.syms t.1 s))), x.WF := by
  intro x hx
  obtain ⟨t, ht, rfl⟩ := List.mem_map.mp hx
  exact (wf_single hp.sorted (by rw [length_setExp]; exact hp.len t ht) (hp.nz t ht)).mul (hq.npow _)

theorem WF.subsPoly (hp : p.WF) (hq : q.WF) (s : String) : (p.subsPoly s q).WF :=
  foldl_add_wf ((wf_empty hp.sorted).addSymbols _) (subsPoly_terms_wf hp hq s)

theorem toMv_subsPoly (hp : p.WF) (hq : q.WF) (s : String) (i : ι) :
    (p.subsPoly s q).toMv i = substMap s (q.toMv i) (p.toMv i) := by
  unfold subsPoly
  rw [foldl_add_toMv ((wf_empty hp.sorted).addSymbols _) (subsPoly_terms_wf hp hq s),
    toMv_addSymbols (wf_empty hp.sorted)]
  have h0 : (⟨p.syms, []⟩ : Poly C).toMv i = 0 := rfl
  rw [h0, zero_add, List.map_map]
  have h1 : p.toMv i = (p.terms.map fun x => monomial (toExp p.syms x.1) (Lanes.lane i x.2)).sum := rfl
  rw [h1, map_list_sum, List.map_map]
  congr 1
  refine List.map_congr_left fun t ht => ?_
  simp only [Function.comp]
  rw [toMv_mul (wf_single hp.sorted (by rw [length_setExp]; exact hp.len t ht) (hp.nz t ht)) (hq.npow _),
    toMv_npow hq, substMap_monomial, toExp_apply hp.ndsyms, ← toExp_setExp_zero hp.ndsyms (hp.len t ht)]
  congr 1
  simp [toMv, den]

/-! Trim -/

theorem WF.trimSyms (hp : p.WF) : p.trimSyms.WF ∧ ∀ i : ι, p.trimSyms.toMv i = p.toMv i := by
  have hused : ∀ t ∈ p.terms, toExp (p.syms.filter fun s => p.terms.any fun t => expOf p.syms t.1 s != 0)
      (reindex p.syms (p.syms.filter fun s => p.terms.any fun t => expOf p.syms t.1 s != 0) t.1) =
      toExp p.syms t.1 := by
    intro t ht
    refine toExp_reindex hp.ndsyms (hp.ndsyms.filter _) fun s hs hne => ?_
    rw [List.mem_filter]
    refine ⟨hs, List.any_eq_true.mpr ⟨t, ht, by simpa using hne⟩⟩
  refine ⟨⟨hp.sorted.filter _, ?_, ?_, ?_⟩, fun i => ?_⟩
  · intro t ht
    obtain ⟨u, _, rfl⟩ := List.mem_map.mp ht
    simp [Poly.trimSyms, length_reindex]
  · simp only [Poly.trimSyms, List.map_map]
    have := hp.nodup
    rw [List.nodup_map_iff_inj_on (List.Nodup.of_map _ this)] at *
    intro x hx y hy hxy
    refine this x hx y hy (toExp_inj hp.ndsyms (hp.len x hx) (hp.len y hy) ?_)
    rw [← hused x hx, ← hused y hy]
    simp only [Function.comp] at hxy
    rw [hxy]
  · intro t ht
    obtain ⟨u, hu, rfl⟩ := List.mem_map.mp ht
    exact hp.nz u hu
  · unfold toMv den Poly.trimSyms
    rw [List.map_map]
    congr 1
    refine List.map_congr_left fun t ht => ?_
    simp only [Function.comp]
    rw [hused t ht]

theorem mem_trimSyms (p : Poly C) (s : String) :
    s ∈ p.trimSyms.syms ↔ s ∈ p.syms ∧ ∃ t ∈ p.terms, expOf p.syms t.1 s ≠ 0 := by
  simp [Poly.trimSyms, List.mem_filter]

/-! Equality -/

theorem find?_eq_some_of_mem (hp : p.WF) {e : List ℕ} {c : C} (h : (e, c) ∈ p.terms) : p.find? e = some c := by
  unfold find?
  have h2 := hp.nodup
  generalize p.terms = L at *
  induction L with
  | nil => simp at h
  | cons x L ih =>
    simp only [List.map_cons, List.nodup_cons] at h2
    rcases List.mem_cons.mp h with h | h
    · simp [← h]
    · have hne : x.1 ≠ e := fun hx => h2.1 (hx ▸ List.mem_map_of_mem (f := (·.1)) h)
      rw [List.find?_cons_of_neg (by simpa using hne)]
      exact ih h h2.2

theorem mem_of_find? {e : List ℕ} {c : C} (h : p.find? e = some c) : (e, c) ∈ p.terms := by
  unfold find? at h
  rw [Option.map_eq_some_iff] at h
  obtain ⟨t, ht, rfl⟩ := h
  have h1 := List.mem_of_find?_eq_some ht
  have h2 : t.1 = e := by simpa using List.find?_some ht
  rw [← h2]; exact h1

theorem eq_iff (hp : p.WF) (hq : q.WF) : p.eq q = true ↔ ∀ i : ι, p.toMv i = q.toMv i := by
  have hp' := hp.addSymbols q.syms
  have hq' := hq.addSymbols p.syms
  have hss := syms_swap hp hq
  have e1 := fun i : ι => toMv_addSymbols hp q.syms i
  have e2 := fun i : ι => toMv_addSymbols hq p.syms i
  simp only [← e1, ← e2]
  unfold eq
  simp only
  generalize p.addSymbols q.syms = P at *
  generalize q.addSymbols p.syms = Q at *
  simp only [Bool.and_eq_true, beq_iff_eq, List.all_eq_true]
  constructor
  · rintro ⟨hlen, hall⟩ i
    have hmatch : ∀ t ∈ P.terms, ∃ c, Q.find? t.1 = some c ∧ Cf.beq t.2 c = true := by
      intro t ht
      have := hall t ht
      cases hf : Q.find? t.1 with
      | none => simp [hf] at this
      | some c => exact ⟨c, rfl, by simpa [hf] using this⟩
    have hsub : P.terms.map (·.1) ⊆ Q.terms.map (·.1) := by
      intro e he
      obtain ⟨t, ht, rfl⟩ := List.mem_map.mp he
      obtain ⟨c, hc, _⟩ := hmatch t ht
      exact List.mem_map.mpr ⟨_, mem_of_find? hc, rfl⟩
    have hperm : (P.terms.map (·.1)).Perm (Q.terms.map (·.1)) :=
      (List.subperm_of_subset hp'.nodup hsub).perm_of_length_le (by simp [hlen])
    ext m
    by_cases hm : ∃ t ∈ P.terms, toExp P.syms t.1 = m
    · obtain ⟨t, ht, rfl⟩ := hm
      obtain ⟨c, hc, hb⟩ := hmatch t ht
      rw [coeff_toMv_of_mem hp' (e := t.1) (c := t.2) ht, hss, coeff_toMv_of_mem hq' (mem_of_find? hc)]
      exact (Lanes.beq_iff _ _).mp hb i
    · have h1 : coeff m (P.toMv i) = 0 := by
        by_contra hc
        exact hm (exists_mem_of_coeff_ne hc)
      have h2 : coeff m (Q.toMv i) = 0 := by
        by_contra hc
        obtain ⟨t, ht, htm⟩ := exists_mem_of_coeff_ne hc
        have : t.1 ∈ P.terms.map (·.1) := hperm.symm.subset (List.mem_map_of_mem ht)
        obtain ⟨u, hu, hut⟩ := List.mem_map.mp this
        exact hm ⟨u, hu, by rw [hss, hut, htm]⟩
      rw [h1, h2]
  · intro h
    have key : ∀ {P Q : Poly C}, P.WF → Q.WF → P.syms = Q.syms → (∀ i : ι, P.toMv i = Q.toMv i) →
        ∀ t ∈ P.terms, ∃ c, Q.find? t.1 = some c ∧ ∀ i : ι, (Lanes.lane i t.2 : K) = Lanes.lane i c := by
      intro P Q hP hQ hs h t ht
      obtain ⟨i, hi⟩ := exists_lane_ne (ι := ι) (K := K) (hP.nz t ht)
      have hc : ∀ j : ι, coeff (toExp Q.syms t.1) (Q.toMv j) = Lanes.lane j t.2 := by
        intro j
        rw [← h j, ← hs]
        exact coeff_toMv_of_mem hP (e := t.1) (c := t.2) ht j
      have hl : t.1.length = Q.syms.length := by rw [← hs]; exact hP.len t ht
      cases hf : Q.find? t.1 with
      | none =>
        have := hc i
        rw [coeff_toMv_find? hQ hl, hf] at this
        exact absurd this.symm hi
      | some c =>
        refine ⟨c, rfl, fun j => ?_⟩
        have := hc j
        rw [coeff_toMv_find? hQ hl, hf] at this
        exact this.symm
    constructor
    · have hsub : ∀ {P Q : Poly C}, P.WF → Q.WF → P.syms = Q.syms → (∀ i : ι, P.toMv i = Q.toMv i) →
          P.terms.length ≤ Q.terms.length := by
        intro P Q hP hQ hs h
        have : P.terms.map (·.1) ⊆ Q.terms.map (·.1) := by
          intro e he
          obtain ⟨t, ht, rfl⟩ := List.mem_map.mp he
          obtain ⟨c, hc, _⟩ := key hP hQ hs h t ht
          exact List.mem_map.mpr ⟨_, mem_of_find? hc, rfl⟩
        have := (List.subperm_of_subset hP.nodup this).length_le
        simpa using this
      exact le_antisymm (hsub hp' hq' hss h) (hsub hq' hp' hss.symm fun i => (h i).symm)
    · intro t ht
      obtain ⟨c, hc, hl⟩ := key hp' hq' hss h t ht
      rw [hc]
      exact (Lanes.beq_iff _ _).mpr hl

/-! Evaluation -/

theorem lane_monoVal (vals : String → C) (ss : List String) (e : List ℕ) (i : ι) :
    (Lanes.lane i (monoVal vals ss e) : K) =
      eval (fun s => Lanes.lane i (vals s)) (monomial (toExp ss e) 1) := by
  induction ss generalizing e with
  | nil => simp [monoVal, toExp, lane_one]
  | cons s ss ih =>
    cases e with
    | nil => simp [monoVal, toExp, lane_one]
    | cons k ks =>
      have h : monomial (Finsupp.single s k + toExp ss ks) (1 : K) =
          monomial (Finsupp.single s k) 1 * monomial (toExp ss ks) 1 := by rw [monomial_mul, one_mul]
      rw [monoVal, Lanes.lane_mul, ih, lane_npow, toExp, h, map_mul]
      congr 1
      simp [eval_monomial]

theorem lane_foldl_add (L : List C) (z : C) (i : ι) :
    (Lanes.lane i (L.foldl Cf.add z) : K) = Lanes.lane i z + (L.map fun c => Lanes.lane i c).sum := by
  induction L generalizing z with
  | nil => simp
  | cons x L ih => rw [List.foldl_cons, ih, Lanes.lane_add, List.map_cons, List.sum_cons, add_assoc]

theorem lane_evaluate {dict : List (String × C)} {c : C} (h : p.evaluate dict = .ok c) (i : ι) :
    (Lanes.lane i c : K) = eval (fun s => Lanes.lane i ((dict.lookup s).getD Cf.zero)) (p.toMv i) := by
  unfold evaluate at h
  split_ifs at h with h1
  injection h with h
  subst h
  rw [lane_foldl_add, lane_zero, zero_add, List.map_map]
  unfold toMv den
  rw [map_list_sum, List.map_map]
  congr 1
  refine List.map_congr_left fun t _ => ?_
  simp only [Function.comp]
  rw [Lanes.lane_mul, lane_monoVal, eval_monomial, eval_monomial, one_mul]

end Poly
end Audi
