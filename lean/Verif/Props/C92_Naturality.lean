import Verif.Proofs.Naturality
import Verif.Props.C02_Ring
import Verif.Props.C09_Calculus
import Verif.Props.C21_AD

/-!
# C92, C93, C94: orders, names and substitution

Evaluation of expressions on gduals commutes with truncation (a larger order adds terms and changes none), with renaming of the symbols, and with substitution of
gduals without constant term.
-/

namespace Audi

open MvPolynomial Spec GDual

variable {C : Type} [CfFun C] {ι : Type} [Lanes C ι ℝ]

/-- The gduals of the store have order `n`, or are constants of a smaller order. -/
def SameOrder (ι : Type) [Lanes C ι ℝ] (n : ℕ) (σ : String → GDual C) : Prop :=
  ∀ s, (σ s).Valid ∧ (σ s).getOrder ≤ n ∧ ((σ s).getOrder = n ∨ ∀ i : ι, ((σ s).toMv i : MvPolynomial String ℝ) = MvPolynomial.C (coeff 0 ((σ s).toMv i)))

/-- The constant parts of the gduals of the store are in the domain of the expression. -/
def Expr.DomAt (ι : Type) [Lanes C ι ℝ] (e : Expr C) (σ : String → GDual C) : Prop :=
  ∀ i : ι, e.Dom i fun s => coeff 0 ((σ s).toMv i : MvPolynomial String ℝ)

theorem multiFact_mapDomain {f : String → String} (hf : Function.Injective f) (E : String →₀ ℕ) : multiFact (E.mapDomain f) = multiFact E := by
  unfold multiFact
  exact Finsupp.prod_mapDomain_index_inj hf

theorem countExp_map (f : String → String) (l : List String) : countExp (l.map f) = (countExp l).mapDomain f := by
  unfold countExp
  induction l with
  | nil => simp
  | cons s l ih => simp only [List.map_cons, List.sum_cons, ih, Finsupp.mapDomain_add, Finsupp.mapDomain_single]

theorem aeval_X_id (P : MvPolynomial String ℝ) : aeval (fun s => (X s : MvPolynomial String ℝ)) P = P := aeval_X_left_apply P

section
variable [LanesFun C ι]

theorem Expr.natural' {m n : ℕ} (hmn : m ≤ n) {σ σ' : String → GDual C} (hσ : SameOrder ι n σ) (hσ' : SameOrder ι m σ') {q : ι → String → MvPolynomial String ℝ}
    (hq : ∀ i s, coeff 0 (q i s) = 0) (h : ∀ (i : ι) s, EqUpTo m ((σ' s).toMv i) (aeval (q i) ((σ s).toMv i))) (e : Expr C) (hd : e.DomAt ι σ) :
    ∃ r r', e.eval σ = .ok r ∧ e.eval σ' = .ok r' ∧ Nt m n q (fun i => e.sem i fun s => coeff 0 ((σ s).toMv i : MvPolynomial String ℝ)) r r' :=
  Expr.natural hmn hq (v := fun s i => coeff 0 ((σ s).toMv i : MvPolynomial String ℝ))
    (fun s => ⟨(hσ s).1, (hσ s).2.1, (hσ s).2.2, (hσ' s).1, (hσ' s).2.1, (hσ' s).2.2, fun _ => rfl, fun i => h i s⟩) e hd

/-! ### C92 -/

/-- **C92.** Let the gduals of the store `σ` have order `n` (or be constants), and let those of `σ'` be the same truncated at the order `m ≤ n`. Then an expression
has a value on both, and the value on `σ'` has the same coefficients as the value on `σ`, for all monomials of degree at most `m`. There is no restriction of the order: also the
coefficients of `atan`, `asin`, `acos` of order above 30, which are wrong (C21), do not depend on the order. -/
theorem C92_truncation {m n : ℕ} (hmn : m ≤ n) {σ σ' : String → GDual C} (hσ : SameOrder ι n σ) (hσ' : SameOrder ι m σ')
    (h : ∀ (i : ι) s (E : String →₀ ℕ), E.degree ≤ m → coeff E ((σ' s).toMv i : MvPolynomial String ℝ) = coeff E ((σ s).toMv i)) (e : Expr C)
    (hd : e.DomAt ι σ) :
    ∃ r r', e.eval σ = .ok r ∧ e.eval σ' = .ok r' ∧ SameOrder ι n (fun _ => r) ∧ SameOrder ι m (fun _ => r') ∧
      ∀ (i : ι) (E : String →₀ ℕ), E.degree ≤ m → coeff E (r'.toMv i : MvPolynomial String ℝ) = coeff E (r.toMv i) := by
  obtain ⟨r, r', hr, hr', h1⟩ := Expr.natural' (q := fun _ s => X s) hmn hσ hσ' (fun _ s => coeff_zero_X s)
    (fun i s E hE => by rw [aeval_X_id]; exact h i s E hE) e hd
  exact ⟨r, r', hr, hr', fun _ => ⟨h1.valid, h1.le, h1.order⟩, fun _ => ⟨h1.valid', h1.le', h1.order'⟩, fun i E hE => by rw [h1.eq i E hE, aeval_X_id]⟩

/-- The variables of the store, of order `m`. -/
def varStore (v : String → C) (m : ℕ) (s : String) : GDual C :=
  match GDual.mk3 (v s) s m with
  | .ok r => r
  | .error _ => GDual.ofCf (v s)

omit [Lanes C ι ℝ] [LanesFun C ι] in
theorem varStore_legal {v : String → C} {m : ℕ} (hm : m < UINT_MAX - 10) {s : String} (hs : ∃ c, s.toList.head? = some c ∧ c ≠ 'd') :
    GDual.mk3 (v s) s m = .ok (varStore v m s) := by
  obtain ⟨r, hr⟩ : ∃ r, GDual.mk3 (v s) s m = .ok r := ⟨_, mk3_ok.mpr ⟨hm, hs, rfl⟩⟩
  unfold varStore
  rw [hr]

omit [Lanes C ι ℝ] [LanesFun C ι] in
theorem varStore_illegal {v : String → C} {m : ℕ} {s : String} (hs : ¬ ∃ c, s.toList.head? = some c ∧ c ≠ 'd') : varStore v m s = GDual.ofCf (v s) := by
  unfold varStore
  cases h : GDual.mk3 (v s) s m with
  | ok r => exact absurd (mk3_ok.mp h).2.1 hs
  | error e => rfl

omit [Lanes C ι ℝ] [LanesFun C ι] in
theorem Expr.run_eq_eval {v : String → C} {m : ℕ} (hm : m < UINT_MAX - 10) (e : Expr C) (hl : e.Legal 0) : e.run v m = e.eval (varStore v m) := by
  induction e with
  | var s => exact varStore_legal hm hl
  | const c => rfl
  | bin op a b iha ihb => simp only [Expr.run, Expr.eval, iha hl.1, ihb hl.2]
  | left op c a ih => simp only [Expr.run, Expr.eval, ih hl]
  | right op a c ih => simp only [Expr.run, Expr.eval, ih hl]
  | fn f a ih => simp only [Expr.run, Expr.eval, ih hl.1]
  | pow a b iha ihb => simp only [Expr.run, Expr.eval, iha hl.1, ihb hl.2]

omit [LanesFun C ι] in
theorem varStore_same {v : String → C} {m : ℕ} (hm : m < UINT_MAX - 10) : SameOrder ι m (varStore v m) := fun s => by
  by_cases hs : ∃ c, s.toList.head? = some c ∧ c ≠ 'd'
  · have h := varStore_legal (v := v) hm hs
    exact ⟨valid_mk3 (ι := ι) (K := ℝ) h, (order_mk3 h).le, Or.inl (order_mk3 h)⟩
  · rw [varStore_illegal hs]
    have h := Good.const (ι := ι) (m := m) (p := fun _ => 0) (v s)
    exact ⟨h.valid, h.le, h.order⟩

omit [LanesFun C ι] in
theorem varStore_coeff {v : String → C} {m n : ℕ} (hmn : m ≤ n) (hn : n < UINT_MAX - 10) (i : ι) (s : String) :
    EqUpTo m ((varStore v m s).toMv i : MvPolynomial String ℝ) ((varStore v n s).toMv i) ∧ coeff 0 ((varStore v n s).toMv i : MvPolynomial String ℝ) = Lanes.lane i (v s) := by
  by_cases hs : ∃ c, s.toList.head? = some c ∧ c ≠ 'd'
  · have h := varStore_legal (v := v) hn hs
    have h' := varStore_legal (v := v) (show m < UINT_MAX - 10 by omega) hs
    rw [toMv_mk3 h, toMv_mk3 h']
    refine ⟨?_, by split_ifs <;> simp⟩
    rcases Nat.eq_zero_or_pos m with rfl | hm
    · intro E hE
      rw [show E = 0 by rw [← Finsupp.degree_eq_zero_iff]; omega]
      split_ifs <;> simp
    · rw [if_neg (by omega), if_neg (by omega)]
      exact EqUpTo.refl _
  · rw [varStore_illegal hs, varStore_illegal hs, toMv_ofCf]
    exact ⟨EqUpTo.refl _, by simp⟩

/-- **C92.** Evaluating an expression on variables of order `n` instead of `m ≤ n` does not change the derivatives up to order `m`: the coefficients of the monomials of degree at most `m` are the same,
and for each list `l` of variables which is not longer than the orders of the results (which are `m` and `n`, if the results are not constants), the values read with
`get_derivative` are the same. `Legal 0` requires only that the names of the variables are legal. -/
theorem C92_order {v : String → C} {m n : ℕ} (hmn : m ≤ n) (hn : n < UINT_MAX - 10) (e : Expr C) (hl : e.Legal 0)
    (hd : ∀ i : ι, e.Dom i fun s => Lanes.lane i (v s)) :
    ∃ r r', e.run v n = .ok r ∧ e.run v m = .ok r' ∧ SameOrder ι n (fun _ => r) ∧ SameOrder ι m (fun _ => r') ∧
      (∀ (i : ι) (E : String →₀ ℕ), E.degree ≤ m → coeff E (r'.toMv i : MvPolynomial String ℝ) = coeff E (r.toMv i)) ∧
      ∀ l : List String, l.length ≤ r.getOrder → l.length ≤ r'.getOrder → ∀ dict : List (String × ℕ), (dict.map (·.1)).Nodup →
      (∀ p ∈ dict, 0 < p.2) → (∀ u, (dict.lookup u).getD 0 = (l.map fun s => "d" ++ s).count u) →
        ∃ c c', r.getDerivativeDict dict = .ok c ∧ r'.getDerivativeDict dict = .ok c' ∧ ∀ i : ι, (Lanes.lane i c' : ℝ) = Lanes.lane i c := by
  rw [e.run_eq_eval hn hl, e.run_eq_eval (by omega) hl]
  obtain ⟨r, r', hr, hr', h1, h2, h3⟩ := C92_truncation (ι := ι) hmn (σ := varStore v n) (σ' := varStore v m) (varStore_same hn) (varStore_same (by omega))
    (fun i s E hE => (varStore_coeff hmn hn i s).1 E hE) e fun i => by simpa only [(varStore_coeff hmn hn i _).2] using hd i
  refine ⟨r, r', hr, hr', h1, h2, h3, fun l hle hle' dict hk hpos hc => ?_⟩
  obtain ⟨c, hc1, hc2⟩ := getDerivativeDict_count (ι := ι) (K := ℝ) (h1 "").1 (l := l.map fun s => "d" ++ s) (by simpa using hle) hk hpos hc
  obtain ⟨c', hc1', hc2'⟩ := getDerivativeDict_count (ι := ι) (K := ℝ) (h2 "").1 (l := l.map fun s => "d" ++ s) (by simpa using hle') hk hpos hc
  refine ⟨c, c', hc1, hc1', fun i => ?_⟩
  rw [hc2, hc2', coeff_zero_foldl_pderiv, coeff_zero_foldl_pderiv, h3]
  rw [length_countExp, List.length_map]
  exact hle'.trans (h2 "").2.1

/-! ### C93 -/

/-- **C93.** Names do not matter: if the gduals of the store `σ'` are those of `σ` with the symbols renamed by an injective function, the value of an expression on `σ'` is its
value on `σ` with the symbols renamed in the same way. -/
theorem C93_renaming {n : ℕ} {f : String → String} (hf : Function.Injective f) {σ σ' : String → GDual C} (hσ : SameOrder ι n σ) (hσ' : SameOrder ι n σ')
    (h : ∀ (i : ι) s, ((σ' s).toMv i : MvPolynomial String ℝ) = rename f ((σ s).toMv i)) (e : Expr C) (hd : e.DomAt ι σ) :
    ∃ r r', e.eval σ = .ok r ∧ e.eval σ' = .ok r' ∧ (∀ i : ι, (r'.toMv i : MvPolynomial String ℝ) = rename f (r.toMv i)) ∧
      ∀ l : List String, l.length ≤ r.getOrder → l.length ≤ r'.getOrder → ∀ dict dict' : List (String × ℕ), (dict.map (·.1)).Nodup → (dict'.map (·.1)).Nodup →
        (∀ p ∈ dict, 0 < p.2) → (∀ p ∈ dict', 0 < p.2) → (∀ u, (dict.lookup u).getD 0 = l.count u) → (∀ u, (dict'.lookup u).getD 0 = (l.map f).count u) →
        ∃ c c', r.getDerivativeDict dict = .ok c ∧ r'.getDerivativeDict dict' = .ok c' ∧ ∀ i : ι, (Lanes.lane i c' : ℝ) = Lanes.lane i c := by
  have hr0 : ∀ P : MvPolynomial String ℝ, aeval (fun s => (X (f s) : MvPolynomial String ℝ)) P = rename f P := fun P => by
    rw [rename_eq_aeval]
    rfl
  obtain ⟨r, r', hr, hr', g⟩ := Expr.natural' (q := fun _ s => X (f s)) le_rfl hσ hσ' (fun _ s => coeff_zero_X _)
    (fun i s => by rw [hr0]; exact EqUpTo.of_eq (h i s)) e hd
  have h2 : ∀ i : ι, (r'.toMv i : MvPolynomial String ℝ) = rename f (r.toMv i) := fun i => by
    rw [← hr0]
    refine (g.eq i).eq_of_degLE (fun E hE => Valid.degLE (K := ℝ) g.valid' i E (by have := g.le'; omega)) fun E hE => ?_
    rw [hr0]
    by_contra hne
    obtain ⟨E', rfl, h3⟩ := coeff_rename_ne_zero _ _ _ hne
    refine h3 (Valid.degLE (K := ℝ) g.valid i E' ?_)
    rw [Finsupp.degree_mapDomain] at hE
    have := g.le
    omega
  refine ⟨r, r', hr, hr', h2, fun l hl hl' dict dict' hk hk' hp hp' hc hc' => ?_⟩
  obtain ⟨c, c1, c2⟩ := getDerivativeDict_count (ι := ι) (K := ℝ) g.valid hl hk hp hc
  obtain ⟨c', c1', c2'⟩ := getDerivativeDict_count (ι := ι) (K := ℝ) g.valid' (l := l.map f) (by simpa using hl') hk' hp' hc'
  refine ⟨c, c', c1, c1', fun i => ?_⟩
  rw [c2, c2', coeff_zero_foldl_pderiv, coeff_zero_foldl_pderiv, countExp_map, multiFact_mapDomain hf, h2, coeff_rename_mapDomain f hf]

/-! ### C94 -/

theorem aeval_single_C {x : String} {Q : MvPolynomial String ℝ} (c : ℝ) : aeval (fun u => if u = x then Q else X u) (MvPolynomial.C c : MvPolynomial String ℝ) = MvPolynomial.C c := by
  rw [algHom_C, algebraMap_eq]

/-- **C94.** Functions and operators commute with the substitution of a gdual without constant term: evaluating an expression and substituting `g` for the symbol `x` in the
result gives the same gdual as substituting `g` in the arguments and evaluating. For a `g` with constant term the statement is false
(`C94_counterexample`). -/
theorem C94_subs {n : ℕ} {σ : String → GDual C} (hσ : SameOrder ι n σ) {g : GDual C} (hg : g.Valid) (h0 : ∀ i : ι, coeff 0 (g.toMv i : MvPolynomial String ℝ) = 0)
    (x : String) (e : Expr C) (hd : e.DomAt ι σ) :
    ∃ r r', e.eval σ = .ok r ∧ (e.eval fun s => (σ s).subs x g) = .ok r' ∧ GDual.eq r' (r.subs x g) = true := by
  let q : ι → String → MvPolynomial String ℝ := fun i u => if u = x then g.toMv i else X u
  have hq : ∀ i s, coeff 0 (q i s) = 0 := fun i s => by
    by_cases hs : s = x
    · simp only [q, if_pos hs]; exact h0 i
    · simp only [q, if_neg hs]; exact coeff_zero_X s
  have hconst : ∀ d : GDual C, d.Valid → IsConst ι d → ∀ i : ι, ((d.subs x g).toMv i : MvPolynomial String ℝ) = MvPolynomial.C (coeff 0 (d.toMv i)) := fun d hd hc i => by
    ext E
    rw [C12_subs_gdual hd hg, hc i, aeval_single_C]
    simp only [coeff_C]
    split_ifs with h1 h2 h2 <;> first | rfl | (subst h2; simp at h1)
  have hsub : ∀ d : GDual C, d.Valid → (d.getOrder = n ∨ IsConst ι d) → ∀ i : ι, EqUpTo n ((d.subs x g).toMv i : MvPolynomial String ℝ) (aeval (q i) (d.toMv i)) := fun d hd ho i => by
    rcases ho with ho | hc
    · intro E hE
      rw [C12_subs_gdual hd hg, if_pos (by rw [ho]; exact hE)]
    · rw [hconst d hd hc, hc i, aeval_single_C]
      refine EqUpTo.of_eq ?_
      rw [coeff_C, if_pos rfl]
  have hσ' : SameOrder ι n fun s => (σ s).subs x g := fun s => by
    obtain ⟨h1, h2, h3⟩ := hσ s
    refine ⟨Valid.subs (ι := ι) (K := ℝ) h1 hg x, h2, h3.imp_right fun h3 i => ?_⟩
    rw [hconst _ h1 h3, coeff_C, if_pos rfl]
  obtain ⟨r, r', hr, hr', g1⟩ := Expr.natural' (q := q) le_rfl hσ hσ' hq (fun i s => hsub _ (hσ s).1 (hσ s).2.2 i) e hd
  refine ⟨r, r', hr, hr', (C16_eq_iff (ι := ι) (K := ℝ) g1.valid' (Valid.subs (ι := ι) (K := ℝ) g1.valid hg x)).2 fun i E => ?_⟩
  have h2 : (r'.toMv i : MvPolynomial String ℝ) = (r.subs x g).toMv i :=
    EqUpTo.eq_of_degLE ((g1.eq i).trans (hsub r g1.valid g1.order i).symm) (fun E hE => Valid.degLE (K := ℝ) g1.valid' i E (by have := g1.le'; omega))
      (fun E hE => Valid.degLE (K := ℝ) (Valid.subs (ι := ι) (K := ℝ) g1.valid hg x) i E (by have := g1.le; change r.order < _; omega))
  rw [h2]

/-- **C94.** The same for the substitution of the number 0: setting an increment to zero in the result of an evaluation is the same as setting it to zero in the arguments. -/
theorem C94_zero {n : ℕ} {σ : String → GDual C} (hσ : SameOrder ι n σ) {z : C} (hz : ∀ i : ι, (Lanes.lane i z : ℝ) = 0) (x : String) (e : Expr C) (hd : e.DomAt ι σ) :
    ∃ r r', e.eval σ = .ok r ∧ (e.eval fun s => (σ s).subsVal x z) = .ok r' ∧ GDual.eq r' (r.subsVal x z) = true := by
  let q : ι → String → MvPolynomial String ℝ := fun i u => if u = x then MvPolynomial.C (Lanes.lane i z) else X u
  have hq : ∀ i s, coeff 0 (q i s) = 0 := fun i s => by
    by_cases hs : s = x
    · simp only [q, if_pos hs, hz, map_zero, coeff_zero]
    · simp only [q, if_neg hs]; exact coeff_zero_X s
  have hsub : ∀ d : GDual C, d.Valid → ∀ i : ι, ((d.subsVal x z).toMv i : MvPolynomial String ℝ) = aeval (q i) (d.toMv i) := fun d hd i => toMv_subsVal hd x z i
  have hσ' : SameOrder ι n fun s => (σ s).subsVal x z := fun s => by
    obtain ⟨h1, h2, h3⟩ := hσ s
    refine ⟨Valid.subsVal h1 x z, h2, h3.imp_right fun h3 i => ?_⟩
    rw [hsub _ h1, h3 i, algHom_C, algebraMap_eq, coeff_C, if_pos rfl]
  obtain ⟨r, r', hr, hr', g1⟩ := Expr.natural' (q := q) le_rfl hσ hσ' hq (fun i s => EqUpTo.of_eq (hsub _ (hσ s).1 i)) e hd
  refine ⟨r, r', hr, hr', (C16_eq_iff (ι := ι) (K := ℝ) g1.valid' (Valid.subsVal g1.valid x z)).2 fun i E => ?_⟩
  have h2 : (r'.toMv i : MvPolynomial String ℝ) = (r.subsVal x z).toMv i :=
    EqUpTo.eq_of_degLE ((g1.eq i).trans (EqUpTo.of_eq (hsub r g1.valid i).symm)) (fun E hE => Valid.degLE (K := ℝ) g1.valid' i E (by have := g1.le'; omega))
      (fun E hE => Valid.degLE (K := ℝ) (Valid.subsVal g1.valid x z) i E (by have := g1.le; change r.order < _; omega))
  rw [h2]

end

/-! ### Witnesses -/

/-- **C92, outside of the domain.** Where an expression is defined and not differentiable the outcome does depend on the order: `sqrt` of a variable at 0 has the value 0 at the order 0,
and coefficients that are not finite at the order 1. The hypothesis on the domain of `C92_order` cannot be replaced by the existence of one of the values. -/
theorem C92_boundary : (∃ r, ((Expr.fn .sqrt (.var "x") : Expr ℝ).run (fun _ => 0) 0) = .ok r ∧ ∀ E : String →₀ ℕ, coeff E (r.toMv () : MvPolynomial String ℝ) = 0) ∧
    ((Expr.fn .sqrt (.var "x") : Expr ℝ).run (fun _ => 0) 1) = .error .nonFinite := by
  have hx : ∃ c, "x".toList.head? = some c ∧ c ≠ 'd' := ⟨'x', by decide, by decide⟩
  have h0 := varStore_legal (v := fun _ => (0 : ℝ)) (m := 0) (by decide) hx
  have h1 := varStore_legal (v := fun _ => (0 : ℝ)) (m := 1) (by decide) hx
  have p0 := toMv_mk3 (ι := Unit) (K := ℝ) h0 ()
  have p1 := toMv_mk3 (ι := Unit) (K := ℝ) h1 ()
  have v0 := valid_mk3 (ι := Unit) (K := ℝ) h0
  have v1 := valid_mk3 (ι := Unit) (K := ℝ) h1
  have z : (Lanes.lane () (0 : ℝ) : ℝ) = 0 := rfl
  rw [if_pos rfl, z, map_zero, add_zero] at p0
  rw [if_neg (by decide), z, map_zero, zero_add] at p1
  constructor
  · obtain ⟨r, hr, -, -, h⟩ := sqrt_const (ι := Unit) v0 (fun i => by rw [show i = () from rfl, p0]; simp) (by
      rw [degree_eq_zero_iff (ι := Unit) (K := ℝ) v0]
      intro i
      rw [show i = () from rfl, p0]
      simp)
    refine ⟨r, ?_, fun E => ?_⟩
    · change (GDual.mk3 (0 : ℝ) "x" 0 >>= fun d => d.sqrt) = _
      rw [bind_ok h0, hr]
    · rw [h, p0]
      simp
  · change (GDual.mk3 (0 : ℝ) "x" 1 >>= fun d => d.sqrt) = _
    rw [bind_ok h1]
    refine computes_sqrt.edge _ v1 (ι := Unit) (fun h => ?_) fun h => ?_
    · have := h ()
      rw [p1] at this
      simp at this
    · rw [degree_eq_zero_iff (ι := Unit) (K := ℝ) v1] at h
      have h2 := congrArg (coeff (Finsupp.single "dx" 1)) (h ())
      rw [p1] at h2
      simp [coeff_X] at h2

/-- **C94, counterexample.** For a `g` with constant term evaluation does not commute with substitution: at order 1 and `x = 1`, substituting 1 for the increment in `x * x = 1 + 2 dx` gives 3, while the
square of `1 + 1` is 4. (The expansion is a value of the function at another point only up to the terms which are cut off.) -/
theorem C94_counterexample : ¬ ∀ (σ : String → GDual ℝ), SameOrder Unit 1 σ → ∀ g : GDual ℝ, g.Valid → ∀ (x : String) (e : Expr ℝ), e.DomAt Unit σ →
    ∃ r r', e.eval σ = .ok r ∧ (e.eval fun s => (σ s).subs x g) = .ok r' ∧ GDual.eq r' (r.subs x g) = true := by
  intro H
  have hx : ∃ c, "x".toList.head? = some c ∧ c ≠ 'd' := ⟨'x', by decide, by decide⟩
  have h1 := varStore_legal (v := fun _ => (1 : ℝ)) (m := 1) (by decide) hx
  have p1 := toMv_mk3 (ι := Unit) (K := ℝ) h1 ()
  have v1 := valid_mk3 (ι := Unit) (K := ℝ) h1
  rw [if_neg (by decide), show (Lanes.lane () (1 : ℝ) : ℝ) = 1 from rfl, show "d" ++ "x" = "dx" by decide] at p1
  set d := varStore (fun _ => (1 : ℝ)) 1 "x" with hd
  have hg : (ofCf (1 : ℝ)).Valid := valid_ofCf 1
  obtain ⟨r, r', hr, hr', heq⟩ := H (fun _ => d) (fun _ => ⟨v1, (order_mk3 h1).le, Or.inl (order_mk3 h1)⟩) (ofCf 1) hg "dx" (.bin .mul (.var "x") (.var "x"))
    fun _ => ⟨trivial, trivial, trivial⟩
  change Except.ok (d.mul d) = _ at hr
  change Except.ok ((d.subs "dx" (ofCf 1)).mul (d.subs "dx" (ofCf 1))) = _ at hr'
  injection hr with hr
  injection hr' with hr'
  subst hr hr'
  have hs : (d.subs "dx" (ofCf 1)).Valid := Valid.subs (ι := Unit) (K := ℝ) v1 hg "dx"
  have h2 := (C16_eq_iff (ι := Unit) (K := ℝ) (Valid.mul hs hs) (Valid.subs (ι := Unit) (K := ℝ) (v1.mul v1) hg "dx")).1 heq () 0
  have hg1 : ((ofCf (1 : ℝ)).toMv () : MvPolynomial String ℝ) = MvPolynomial.C 1 := toMv_ofCf _ _
  have hmul : ((d.mul d).toMv () : MvPolynomial String ℝ) = MvPolynomial.C 1 + MvPolynomial.C 2 * X "dx" := by
    have ho : d.order = 1 := order_mk3 h1
    refine EqUpTo.eq_of_degLE (m := 1) ?_ ?_ ?_
    · have h3 := toMv_mul (ι := Unit) (K := ℝ) v1 v1 ()
      rw [ho, max_self, p1] at h3
      refine h3.trans fun E hE => ?_
      have e1 : (MvPolynomial.C 1 + X "dx") * (MvPolynomial.C 1 + X "dx") = MvPolynomial.C 1 + MvPolynomial.C 2 * X "dx" + (X "dx" : MvPolynomial String ℝ) ^ 2 := by
        rw [map_one, show (MvPolynomial.C 2 : MvPolynomial String ℝ) = 2 from map_ofNat _ 2]; ring
      rw [e1, coeff_add, coeff_X_pow, if_neg, add_zero]
      rintro rfl
      simp at hE
    · have h3 := Valid.degLE (K := ℝ) (v1.mul v1) ()
      rwa [show (d.mul d).order = 1 by change max d.order d.order = 1; rw [ho, max_self]] at h3
    · intro E hE
      rw [coeff_add, coeff_C, coeff_C_mul, coeff_X, if_neg, if_neg]
      · simp
      · rintro rfl
        simp at hE
      · rintro rfl
        simp at hE
  have e2 : coeff 0 ((d.subs "dx" (ofCf 1)).toMv () : MvPolynomial String ℝ) = 2 := by
    rw [C12_subs_gdual v1 hg, if_pos (by simp), p1, hg1]
    simp
    norm_num
  have e3 : coeff 0 (((d.mul d).subs "dx" (ofCf 1)).toMv () : MvPolynomial String ℝ) = 3 := by
    rw [C12_subs_gdual (v1.mul v1) hg, if_pos (by simp), hmul, hg1]
    simp
    norm_num
  have e4 := toMv_mul (ι := Unit) (K := ℝ) hs hs () 0 (by simp)
  rw [coeff_zero_mul', e2, h2, e3] at e4
  norm_num at e4

/-! ### Examples -/

/-- `asin x` at `x = 1/2`, with all variables of order 40. -/
noncomputable def exStore (m : ℕ) : String → GDual ℝ := varStore (fun _ => (1 / 2 : ℝ)) m

theorem exStore_same {m : ℕ} (hm : m ≤ 40) : SameOrder Unit m (exStore m) := varStore_same (by unfold UINT_MAX; omega)

theorem exStore_coeff (i : Unit) (s : String) : coeff 0 ((exStore 40 s).toMv i : MvPolynomial String ℝ) = 1 / 2 :=
  (varStore_coeff (v := fun _ => (1 / 2 : ℝ)) (m := 40) le_rfl (by decide) i s).2

theorem exStore_dom : (Expr.fn .asin (.var "x") : Expr ℝ).DomAt Unit (exStore 40) := fun i => by
  refine ⟨trivial, ?_⟩
  change |coeff 0 ((exStore 40 "x").toMv i : MvPolynomial String ℝ)| < 1
  rw [exStore_coeff, abs_lt]
  norm_num

/-- The hypotheses of `C92_truncation` are met. -/
example := C92_truncation (show 35 ≤ 40 by omega) (exStore_same (m := 40) le_rfl) (exStore_same (m := 35) (by omega))
  (fun i s E hE => (varStore_coeff (v := fun _ => (1 / 2 : ℝ)) (m := 35) (n := 40) (by omega) (by decide) i s).1 E hE) _ exStore_dom

/-- The hypotheses of `C92_order` are met. -/
example := C92_order (ι := Unit) (v := fun _ => (1 / 2 : ℝ)) (show 35 ≤ 40 by omega) (by decide) (.fn .asin (.var "x")) ⟨⟨'x', by decide, by decide⟩, Nat.zero_le _⟩ fun i => ⟨trivial, by
  change |(1 / 2 : ℝ)| < 1
  rw [abs_lt]
  norm_num⟩

/-- The hypotheses of `C93_renaming` are met, by the swap of two names. -/
example := C93_renaming (Equiv.swap "dx" "dy").injective (σ := fun _ => exStore 40 "x") (σ' := fun _ => exStore 40 "y") (fun _ => exStore_same le_rfl "x") (fun _ => exStore_same le_rfl "y")
  (fun i s => by
    have hx := varStore_legal (v := fun _ => (1 / 2 : ℝ)) (m := 40) (s := "x") (by decide) ⟨'x', by decide, by decide⟩
    have hy := varStore_legal (v := fun _ => (1 / 2 : ℝ)) (m := 40) (s := "y") (by decide) ⟨'y', by decide, by decide⟩
    change toMv i (varStore _ 40 "y") = rename _ (toMv i (varStore _ 40 "x"))
    rw [toMv_mk3 hx, toMv_mk3 hy, if_neg (by decide), if_neg (by decide), map_add, rename_C, rename_X, show "d" ++ "x" = "dx" by decide, show "d" ++ "y" = "dy" by decide, Equiv.swap_apply_left])
  (.fn .asin (.var "x")) exStore_dom

/-- The hypotheses of `C94_subs` are met, by the substitution of `dy` for `dx`. -/
example := C94_subs (exStore_same le_rfl) (g := varStore (fun _ => (0 : ℝ)) 40 "y") (varStore_same (ι := Unit) (by decide) "y").1
  (fun i => (varStore_coeff (v := fun _ => (0 : ℝ)) (m := 40) le_rfl (by decide) i "y").2) "dx" (.fn .asin (.var "x")) exStore_dom

/-- The hypotheses of `C94_zero` are met. -/
example := C94_zero (exStore_same le_rfl) (z := (0 : ℝ)) (fun _ => rfl) "dx" (.fn .asin (.var "x")) exStore_dom

end Audi
