import Verif.Proofs.Naturality
import Verif.Proofs.LibSubst
import Verif.Proofs.LibOde
import Verif.Proofs.ConsistencyLibExpr

/-! Evaluation of expressions with all the functions commutes with substitutions that keep the constant terms. -/

set_option linter.unusedSectionVars false

namespace Audi

open MvPolynomial Spec GDual

variable {C : Type} [CfFun C] [AbsFn C] {ι : Type} [Lanes C ι ℝ] [LanesFun C ι] {m n : ℕ} {σ σ' : String → GDual C}

theorem goodS_poly (hσ : ∀ s, (σ s).Valid ∧ (σ s).order ≤ n ∧ ((σ s).order = n ∨ IsConst ι (σ s))) (hS : ∀ s, SymsOk (σ s)) (s : String) :
    GoodS n (fun _ : ι => 0) (fun i x => MvPolynomial.eval x ((σ s).toMv i)) (σ s) := ⟨good_poly hσ s, hS s⟩

/-- If the arguments `σ'` are obtained from the arguments `σ` by a substitution without constant terms, up to degree `m`, then the result of the evaluation too. -/
theorem LExpr.eval_natural (hmn : m ≤ n) (hσ : ∀ s, (σ s).Valid ∧ (σ s).order ≤ n ∧ ((σ s).order = n ∨ IsConst ι (σ s))) (hS : ∀ s, SymsOk (σ s)) (hS' : ∀ s, SymsOk (σ' s))
    (hσ' : ∀ s, (σ' s).Valid ∧ (σ' s).order ≤ m ∧ ((σ' s).order = m ∨ IsConst ι (σ' s))) {q : ι → String → MvPolynomial String ℝ} (hq : ∀ i s, coeff 0 (q i s) = 0)
    (h : ∀ (i : ι) s, EqUpTo m ((σ' s).toMv i) (aeval (q i) ((σ s).toMv i))) (e : LExpr C) (hA : e.NoAbs ∨ AbsLaw C ι) (he : e.FnOrder n)
    (hd : ∀ i : ι, e.Dom i fun s => coeff 0 ((σ s).toMv i : MvPolynomial String ℝ)) :
    ∃ r r', e.eval σ = .ok r ∧ e.eval σ' = .ok r' ∧ GoodS n (fun _ : ι => 0) (fun i x => e.sem i fun s => MvPolynomial.eval x ((σ s).toMv i)) r ∧
      GoodS m (fun _ : ι => 0) (fun i x => e.sem i fun s => MvPolynomial.eval x ((σ' s).toMv i)) r' ∧ ∀ i : ι, EqUpTo m (r'.toMv i) (aeval (q i) (r.toMv i)) := by
  have hq' : ∀ i s, q i s ∈ idealOfVars String ℝ := fun i s => mem_ideal_iff.2 (hq i s)
  have hc0 : ∀ (i : ι) s, coeff 0 ((σ' s).toMv i : MvPolynomial String ℝ) = coeff 0 ((σ s).toMv i) := fun i s => by
    rw [h i s 0 (by simp), coeff_zero_aeval (hq i)]
  have hev : ∀ (τ : String → GDual C) (i : ι) s, MvPolynomial.eval (0 : String → ℝ) ((τ s).toMv i) = coeff 0 ((τ s).toMv i) := fun τ i s => by
    rw [eval_zero, constantCoeff_eq]
  obtain ⟨r, hr, gr⟩ := LExpr.eval_good (goodS_poly hσ hS) e hA he fun i => by simpa only [hev] using hd i
  obtain ⟨r', hr', gr'⟩ := LExpr.eval_good (goodS_poly hσ' hS') e hA (e.fnOrder_mono he hmn) fun i => by simpa only [hev, hc0] using hd i
  refine ⟨r, r', hr, hr', gr, gr', fun i => ?_⟩
  obtain ⟨P, hP⟩ := LExpr.subst (m := n) i e (hd i)
  have h1 := (gr.taylor i).unique (hP.out (fun s => (good_poly hσ s).taylor i) fun s => hev σ i s)
  have h2 : EqUpTo m (r'.toMv i) (aeval (fun s => (σ' s).toMv i - MvPolynomial.C (coeff 0 ((σ s).toMv i))) P) := by
    have h3 : ∀ s, IsTaylor (0 : String → ℝ) n (fun x => MvPolynomial.eval x ((σ' s).toMv i)) ((σ' s).toMv i : MvPolynomial String ℝ) := fun s => by
      simpa using isTaylor_poly (0 : String → ℝ) n ((σ' s).toMv i : MvPolynomial String ℝ)
    exact (gr'.taylor i).unique ((hP.out h3 fun s => by rw [hev, hc0]).mono hmn)
  refine h2.trans (EqUpTo.trans ?_ ((h1.mono hmn).aeval (hq' i)).symm)
  have h4 : aeval (q i) (aeval (fun s => (σ s).toMv i - MvPolynomial.C (coeff 0 ((σ s).toMv i : MvPolynomial String ℝ))) P) =
      aeval (fun s => aeval (q i) ((σ s).toMv i) - MvPolynomial.C (coeff 0 ((σ s).toMv i : MvPolynomial String ℝ))) P := by
    rw [comp_aeval_apply]
    simp [algebraMap_eq]
  rw [h4]
  refine EqUpTo.aeval_congr (fun s => mem_ideal_iff.2 ?_) (fun s => mem_ideal_iff.2 ?_) (fun s => (h i s).sub (EqUpTo.refl _)) P
  · rw [coeff_sub, hc0, coeff_C, if_pos rfl, sub_self]
  · rw [coeff_sub, coeff_zero_aeval (hq i), coeff_C, if_pos rfl, sub_self]

/-- As `Nt`, with the names of the symbols. -/
structure NtS (m n : ℕ) (q : ι → String → MvPolynomial String ℝ) (v : ι → ℝ) (r r' : GDual C) : Prop extends Nt m n q v r r' where
  syms : SymsOk r
  syms' : SymsOk r'

variable {q : ι → String → MvPolynomial String ℝ}

theorem NtS.eval (hmn : m ≤ n) (hq : ∀ i s, coeff 0 (q i s) = 0) {v : String → ι → ℝ} (h : ∀ s, NtS m n q (v s) (σ s) (σ' s)) (e : LExpr C) (hA : e.NoAbs ∨ AbsLaw C ι) (he : e.FnOrder n)
    (hd : ∀ i : ι, e.Dom i fun s => v s i) : ∃ r r', e.eval σ = .ok r ∧ e.eval σ' = .ok r' ∧ NtS m n q (fun i => e.sem i fun s => v s i) r r' := by
  obtain ⟨r, r', hr, hr', g, g', h1⟩ := LExpr.eval_natural hmn (fun s => ⟨(h s).valid, (h s).le, (h s).order⟩) (fun s => (h s).syms) (fun s => (h s).syms')
    (fun s => ⟨(h s).valid', (h s).le', (h s).order'⟩) hq (fun i s => (h s).eq i) e hA he fun i => by simpa only [(h _).val] using hd i
  refine ⟨r, r', hr, hr', ⟨g.valid, g.le, g.order, g'.valid, g'.le, g'.order, fun i => ?_, h1⟩, g.syms, g'.syms⟩
  rw [← (g.taylor i).val]
  congr 1
  funext s
  rw [eval_zero, constantCoeff_eq, (h s).val]

/-- Evaluation commutes with substitutions without constant terms, at all orders. -/
theorem LExpr.natural (hmn : m ≤ n) (hq : ∀ i s, coeff 0 (q i s) = 0) {v : String → ι → ℝ} (h : ∀ s, NtS m n q (v s) (σ s) (σ' s)) (e : LExpr C) (hA : e.NoAbs ∨ AbsLaw C ι)
    (hd : ∀ i : ι, e.Dom i fun s => v s i) : ∃ r r', e.eval σ = .ok r ∧ e.eval σ' = .ok r' ∧ NtS m n q (fun i => e.sem i fun s => v s i) r r' := by
  -- one node
  have one : ∀ {v1 v2 : ι → ℝ} {a a' b b' : GDual C}, NtS m n q v1 a a' → NtS m n q v2 b b' → ∀ e : LExpr C, (e.NoAbs ∨ AbsLaw C ι) → e.FnOrder n →
      (∀ i : ι, e.Dom i fun s => if s = "a" then v1 i else v2 i) → ∃ r r', (e.eval fun s => if s = "a" then a else b) = .ok r ∧
        (e.eval fun s => if s = "a" then a' else b') = .ok r' ∧ NtS m n q (fun i => e.sem i fun s => if s = "a" then v1 i else v2 i) r r' := by
    intro v1 v2 a a' b b' ha hb e hA he hd
    obtain ⟨r, r', hr, hr', hn⟩ := NtS.eval (σ := fun s => if s = "a" then a else b) (σ' := fun s => if s = "a" then a' else b') (v := fun s i => if s = "a" then v1 i else v2 i)
      hmn hq (fun s => by by_cases hs : s = "a" <;> simp only [hs, if_true, if_false] <;> assumption) e hA he hd
    exact ⟨r, r', hr, hr', hn⟩
  induction e with
  | var s => exact ⟨_, _, rfl, rfl, h s⟩
  | const c => exact NtS.eval hmn hq h (.const c) (.inl trivial) trivial hd
  | bin op e1 e2 ih1 ih2 =>
    obtain ⟨a, a', ha, ha', h1⟩ := ih1 (hA.imp (·.1) id) fun i => (hd i).1
    obtain ⟨b, b', hb, hb', h2⟩ := ih2 (hA.imp (·.2) id) fun i => (hd i).2.1
    obtain ⟨r, r', hr, hr', hn⟩ := one h1 h2 (.bin op (.var "a") (.var "b")) (.inl ⟨trivial, trivial⟩) ⟨trivial, trivial⟩ fun i => ⟨trivial, trivial, (hd i).2.2⟩
    refine ⟨r, r', ?_, ?_, hn⟩
    · simp only [LExpr.eval, ha, hb]; exact hr
    · simp only [LExpr.eval, ha', hb']; exact hr'
  | left op c e ih =>
    obtain ⟨a, a', ha, ha', h1⟩ := ih hA fun i => (hd i).1
    obtain ⟨r, r', hr, hr', hn⟩ := one h1 h1 (.left op c (.var "a")) (.inl trivial) trivial fun i => ⟨trivial, (hd i).2⟩
    refine ⟨r, r', ?_, ?_, hn⟩
    · simp only [LExpr.eval, ha]; exact hr
    · simp only [LExpr.eval, ha']; exact hr'
  | right op e c ih =>
    obtain ⟨a, a', ha, ha', h1⟩ := ih hA fun i => (hd i).1
    obtain ⟨r, r', hr, hr', hn⟩ := one h1 h1 (.right op (.var "a") c) (.inl trivial) trivial fun i => ⟨trivial, (hd i).2⟩
    refine ⟨r, r', ?_, ?_, hn⟩
    · simp only [LExpr.eval, ha]; exact hr
    · simp only [LExpr.eval, ha']; exact hr'
  | pow e1 e2 ih1 ih2 =>
    obtain ⟨a, a', ha, ha', h1⟩ := ih1 (hA.imp (·.1) id) fun i => (hd i).1
    obtain ⟨b, b', hb, hb', h2⟩ := ih2 (hA.imp (·.2) id) fun i => (hd i).2.1
    obtain ⟨r, r', hr, hr', hn⟩ := one h1 h2 (.pow (.var "a") (.var "b")) (.inl ⟨trivial, trivial⟩) ⟨trivial, trivial⟩ fun i => ⟨trivial, trivial, (hd i).2.2⟩
    refine ⟨r, r', ?_, ?_, hn⟩
    · simp only [LExpr.eval, ha, hb]; exact hr
    · simp only [LExpr.eval, ha', hb']; exact hr'
  | fn f e ih =>
    obtain ⟨a, a', ha, ha', h1⟩ := ih (hA.imp (·.1) id) fun i => (hd i).1
    have plain : f.MaxOrder n → ∃ r r', (LExpr.fn f e).eval σ = .ok r ∧ (LExpr.fn f e).eval σ' = .ok r' ∧ NtS m n q (fun i => (LExpr.fn f e).sem i fun s => v s i) r r' := fun hf => by
      obtain ⟨r, r', hr, hr', hn⟩ := one h1 h1 (.fn f (.var "a")) (hA.imp (fun h => ⟨trivial, h.2⟩) id) ⟨trivial, hf⟩ fun i => ⟨trivial, (hd i).2⟩
      refine ⟨r, r', ?_, ?_, hn⟩
      · simp only [LExpr.eval, ha]; exact hr
      · simp only [LExpr.eval, ha']; exact hr'
    cases f with
    | base f =>
      obtain ⟨r, r', hr, hr', hn⟩ := Expr.natural (σ := fun _ => a) (σ' := fun _ => a') (v := fun _ i => e.sem i fun s => v s i) hmn hq (fun _ => h1.toNt) (.fn f (.var "a")) fun i => ⟨trivial, (hd i).2⟩
      refine ⟨r, r', ?_, ?_, hn, h1.syms.of_sub (fn_syms f h1.syms.sorted rfl hr).2, h1.syms'.of_sub (fn_syms f h1.syms'.sorted rfl hr').2⟩
      · simp only [LExpr.eval, ha]; exact hr
      · simp only [LExpr.eval, ha']; exact hr'
    | _ => exact plain trivial

/-! ### Names of the symbols after a substitution -/

omit [CfFun C] [AbsFn C] in
theorem syms_subsPoly {C : Type} [Cf C] {p q : Poly C} {s : String} (hp : p.syms.Pairwise (· < ·)) :
    (p.subsPoly s q).syms.Pairwise (· < ·) ∧ ∀ u ∈ (p.subsPoly s q).syms, u ∈ p.syms ∨ u ∈ q.syms := by
  have hn : ∀ k u, u ∈ (q.npow k).syms → u ∈ q.syms := by
    intro k
    induction k with
    | zero => exact fun u hu => absurd hu List.not_mem_nil
    | succ k ih => exact fun u hu => (mem_mergeSyms.1 hu).elim (ih u) id
  unfold Poly.subsPoly
  have key : ∀ (l : List (Poly C)) (a : Poly C), (∀ t ∈ l, ∀ u ∈ t.syms, u ∈ p.syms ∨ u ∈ q.syms) → a.syms.Pairwise (· < ·) → (∀ u ∈ a.syms, u ∈ p.syms ∨ u ∈ q.syms) →
      (l.foldl Poly.add a).syms.Pairwise (· < ·) ∧ ∀ u ∈ (l.foldl Poly.add a).syms, u ∈ p.syms ∨ u ∈ q.syms := by
    intro l
    induction l with
    | nil => exact fun a _ h1 h2 => ⟨h1, h2⟩
    | cons t l ih =>
      intro a hl h1 h2
      refine ih _ (fun t' ht' => hl t' (List.mem_cons_of_mem _ ht')) (sorted_mergeSyms h1) fun u hu => ?_
      exact (mem_mergeSyms.1 hu).elim (h2 u) (hl t List.mem_cons_self u)
  refine key _ _ ?_ (sorted_mergeSyms hp) fun u hu => mem_mergeSyms.1 hu
  intro t ht u hu
  obtain ⟨t', -, rfl⟩ := List.mem_map.1 ht
  exact (mem_mergeSyms.1 hu).imp id (hn _ u)

omit [AbsFn C] in
theorem SymsOk.subs {d g : GDual C} (hd : SymsOk d) (hg : SymsOk g) (x : String) : SymsOk (d.subs x g) := by
  have h := syms_subsPoly (s := x) (q := g.p) hd.sorted
  refine ⟨h.1.filter _, fun u hu => ?_⟩
  exact (h.2 u (List.mem_of_mem_filter hu)).elim (hd.names u) (hg.names u)

omit [AbsFn C] in
theorem SymsOk.subsVal {d : GDual C} (hd : SymsOk d) (x : String) (z : C) : SymsOk (d.subsVal x z) := hd.of_eq rfl

end Audi
