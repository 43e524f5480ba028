import Verif.Model.InvertMap
import Verif.Proofs.GDualOps
import Verif.Proofs.Picard

/-! Composition of maps: `operator&`. -/

namespace Audi

open MvPolynomial Spec

section gen
variable {C : Type} [Cf C] {ι : Type} {K : Type} [Field K] [Lanes C ι K]

theorem monomial_toExp_mem (ss : List String) (e : List ℕ) (c : K) {S : Set String} (hS : ∀ s ∈ ss, s ∈ S) :
    monomial (toExp ss e) c ∈ supported K S := by
  induction ss generalizing e with
  | nil =>
    cases e <;> exact Subalgebra.algebraMap_mem _ c
  | cons s ss ih =>
    cases e with
    | nil => exact Subalgebra.algebraMap_mem _ c
    | cons k ks =>
      rw [toExp, monomial_single_add]
      exact mul_mem (pow_mem (X_mem_supported.mpr (hS s (by simp))) _) (ih ks fun t ht => hS t (by simp [ht]))

theorem toMv_mem_supported (d : GDual C) (i : ι) {S : Set String} (hS : ∀ s ∈ d.p.syms, s ∈ S) : (d.toMv i : MvPolynomial String K) ∈ supported K S := by
  unfold GDual.toMv Poly.toMv den
  refine Subalgebra.list_sum_mem _ fun x hx => ?_
  obtain ⟨t, _, rfl⟩ := List.mem_map.mp hx
  exact monomial_toExp_mem _ _ _ hS

theorem supported_of_coeff {P Q : MvPolynomial String K} {S : Set String} (hP : P ∈ supported K S) (h : ∀ e, coeff e Q ≠ 0 → coeff e P ≠ 0) :
    Q ∈ supported K S := by
  rw [mem_supported] at *
  intro s hs
  obtain ⟨e, he, hse⟩ := (mem_vars_iff_mem_support s).mp hs
  exact hP ((mem_vars_iff_mem_support s).mpr ⟨e, mem_support_iff.mpr (h e (mem_support_iff.mp he)), hse⟩)

theorem substMap_supported {s : String} {P Q : MvPolynomial String K} {T S : Set String} (hP : P ∈ supported K T) (hQ : Q ∈ supported K S)
    (hTS : ∀ t ∈ T, t ≠ s → t ∈ S) : Poly.substMap s Q P ∈ supported K S := by
  unfold Poly.substMap
  refine aeval_mem_supported hP fun t ht => ?_
  split_ifs with h
  · exact hQ
  · exact X_mem_supported.mpr (hTS t ht h)

/-- The symbols of the result of a substitution. -/
theorem subs_supported {a b : GDual C} (ha : a.Valid) (hb : b.Valid) (s : String) (i : ι) {T S : Set String}
    (hT : (a.toMv i : MvPolynomial String K) ∈ supported K T) (hS : (b.toMv i : MvPolynomial String K) ∈ supported K S)
    (hTS : ∀ t ∈ T, t ≠ s → t ∈ S) : ((a.subs s b).toMv i : MvPolynomial String K) ∈ supported K S := by
  refine supported_of_coeff (substMap_supported hT hS hTS) fun e he => ?_
  rw [GDual.coeff_subs ha hb] at he
  split_ifs at he with h
  · exact he
  · exact absurd rfl he

theorem eqUpTo_subs {a b : GDual C} (ha : a.Valid) (hb : b.Valid) (s : String) (i : ι) :
    EqUpTo a.order ((a.subs s b).toMv i : MvPolynomial String K) (Poly.substMap s (b.toMv i) (a.toMv i)) := fun e he => by
  rw [GDual.coeff_subs ha hb, if_pos he]

theorem replacement_mem {l : List (String × MvPolynomial String K)} (h : ∀ x ∈ l, x.2 ∈ idealOfVars String K) (s : String) :
    replacement l s ∈ idealOfVars String K := by
  unfold replacement
  split
  · rename_i g hg
    have : (s, g) ∈ l := by
      obtain ⟨l1, l2, hl, -⟩ := List.lookup_eq_some_iff.mp hg
      rw [hl]; simp
    exact h _ this
  · exact X_mem s

theorem replacement_cons (s : String) (g : MvPolynomial String K) (l : List (String × MvPolynomial String K)) (t : String) :
    replacement ((s, g) :: l) t = if t = s then g else replacement l t := by
  unfold replacement
  rw [List.lookup_cons]
  by_cases h : t = s
  · subst h; simp
  · have : (t == s) = false := by simpa using h
    rw [this, if_neg h]

theorem replacement_of_notMem {l : List (String × MvPolynomial String K)} {s : String} (h : ∀ x ∈ l, x.1 ≠ s) : replacement l s = X s := by
  induction l with
  | nil => rfl
  | cons x l ih =>
    obtain ⟨a, g⟩ := x
    simp only [List.forall_mem_cons] at h
    rw [replacement_cons, if_neg (fun e => h.1 e.symm), ih h.2]

theorem replacement_zip {ss : List String} {v : List (MvPolynomial String K)} (hn : ss.Nodup) {j : ℕ} (hj : j < ss.length) (hv : j < v.length) :
    replacement (ss.zip v) ss[j] = v[j] := by
  induction ss generalizing v j with
  | nil => exact absurd hj (by simp)
  | cons s ss ih =>
    cases v with
    | nil => exact absurd hv (by simp)
    | cons g v =>
      rw [List.nodup_cons] at hn
      rw [List.zip_cons_cons, replacement_cons]
      cases j with
      | zero => simp
      | succ j =>
        simp only [List.getElem_cons_succ]
        rw [if_neg (fun (e : ss[j]'(by simpa using hj) = s) => hn.1 (e ▸ List.getElem_mem _))]
        exact ih hn.2 _ _

namespace TMap
variable {a : GDual C}

/-- The pairs of symbols and polynomials substituted in lane `i`. -/
noncomputable def pairs (i : ι) (l : List (String × GDual C)) : List (String × MvPolynomial String K) :=
  l.map fun x => ("d" ++ x.1, x.2.toMv i)

theorem substMap_comp {l : List (String × MvPolynomial String K)} {s : String} {g : MvPolynomial String K} {T : Set String}
    (hg : g ∈ supported K T) (hT : ∀ x ∈ l, x.1 ∉ T) (P : MvPolynomial String K) :
    substAt l (Poly.substMap s g P) = substAt ((s, g) :: l) P := by
  unfold substAt Poly.substMap
  rw [← AlgHom.comp_apply, comp_aeval]
  congr 1
  congr 1
  funext t
  rw [replacement_cons]
  split_ifs with h
  · rw [aeval_congr_supported (g := X) hg fun u hu => replacement_of_notMem fun x hx e => hT x hx (e ▸ hu), aeval_X_left_apply]
  · rw [aeval_X]

include ι K in
theorem valid_substAll (l : List (String × GDual C)) (ha : a.Valid) (hl : ∀ x ∈ l, x.2.Valid) :
    (substAll a l).Valid ∧ (substAll a l).order = a.order := by
  induction l generalizing a with
  | nil => exact ⟨ha, rfl⟩
  | cons x l ih =>
    simp only [List.forall_mem_cons] at hl
    exact ih (GDual.Valid.subs (ι := ι) (K := K) ha hl.1 _) hl.2

/-- Substituting one symbol after the other is simultaneous substitution, if the polynomials have no constant term and do
not contain the symbols substituted later. -/
theorem substAll_spec (l : List (String × GDual C)) (ha : a.Valid) (hl : ∀ x ∈ l, x.2.Valid) (i : ι)
    (h0 : ∀ x ∈ l, coeff 0 (x.2.toMv i : MvPolynomial String K) = 0)
    (hT : l.Pairwise fun x y => ∃ T : Set String, (x.2.toMv i : MvPolynomial String K) ∈ supported K T ∧ "d" ++ y.1 ∉ T) :
    EqUpTo a.order ((substAll a l).toMv i : MvPolynomial String K) (substAt (pairs i l) (a.toMv i)) := by
  induction l generalizing a with
  | nil =>
    refine EqUpTo.of_eq ?_
    change a.toMv i = aeval _ (a.toMv i)
    rw [show replacement (pairs i ([] : List (String × GDual C))) = (X : String → MvPolynomial String K) from rfl, aeval_X_left_apply]
  | cons x l ih =>
    simp only [List.forall_mem_cons] at hl h0
    rw [List.pairwise_cons] at hT
    have hv := GDual.Valid.subs (ι := ι) (K := K) ha hl.1 ("d" ++ x.1)
    have h1 := ih hv hl.2 h0.2 hT.2
    have hI : ∀ t, replacement (pairs i l : List (String × MvPolynomial String K)) t ∈ idealOfVars String K :=
      replacement_mem fun y hy => by
        obtain ⟨z, hz, rfl⟩ := List.mem_map.mp hy
        exact mem_ideal_iff.mpr (h0.2 z hz)
    have h2 : EqUpTo a.order (substAt (pairs i l) ((a.subs ("d" ++ x.1) x.2).toMv i)) (substAt (pairs i l) (Poly.substMap ("d" ++ x.1) (x.2.toMv i) (a.toMv i : MvPolynomial String K))) :=
      EqUpTo.aeval hI (eqUpTo_subs ha hl.1 _ i)
    refine EqUpTo.trans h1 (h2.trans (EqUpTo.of_eq ?_))
    refine substMap_comp (T := ((x.2.toMv i : MvPolynomial String K).vars : Set String)) (mem_supported_vars _) ?_ _
    intro y hy
    obtain ⟨z, hz, rfl⟩ := List.mem_map.mp hy
    obtain ⟨T, hT1, hT2⟩ := hT.1 z hz
    exact fun hmem => hT2 (mem_supported.mp hT1 hmem)

/-- Symbols after the substitutions. -/
theorem substAll_supported (l : List (String × GDual C)) (ha : a.Valid) (hl : ∀ x ∈ l, x.2.Valid) (i : ι) {S T : Set String}
    (hS : ∀ x ∈ l, (x.2.toMv i : MvPolynomial String K) ∈ supported K S) (hT : (a.toMv i : MvPolynomial String K) ∈ supported K T)
    (hTS : ∀ t ∈ T, t ∉ S → ∃ x ∈ l, t = "d" ++ x.1) : ((substAll a l).toMv i : MvPolynomial String K) ∈ supported K S := by
  induction l generalizing a T with
  | nil =>
    refine supported_mono ?_ hT
    intro t ht
    by_contra hc
    obtain ⟨x, hx, _⟩ := hTS t ht hc
    exact absurd hx (by simp)
  | cons x l ih =>
    simp only [List.forall_mem_cons] at hl hS
    have hv := GDual.Valid.subs (ι := ι) (K := K) ha hl.1 ("d" ++ x.1)
    refine ih (T := S ∪ {t | t ∈ T ∧ t ≠ "d" ++ x.1}) hv hl.2 hS.2 ?_ ?_
    · exact subs_supported ha hl.1 _ i hT (supported_mono Set.subset_union_left hS.1) fun t ht hne => Or.inr ⟨ht, hne⟩
    · rintro t (ht | ⟨ht, hne⟩) hn
      · exact absurd ht hn
      · obtain ⟨y, hy, rfl⟩ := hTS t ht hn
        rcases List.mem_cons.mp hy with rfl | hy
        · exact absurd rfl hne
        · exact ⟨y, hy, rfl⟩

end TMap
end gen
end Audi
