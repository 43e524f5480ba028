import Verif.Proofs.LibNaturality
import Verif.Props.C92_Naturality
import Verif.Props.C79_AllFunctions

/-!
# C92, C93, C94 with all the functions

As C92_Naturality.lean, for the expressions of Spec/LibExpr.lean: with `abs` (for real coefficients), the results of `sin_and_cos` and `sinh_and_cosh`, `erf`, the functions of functions_from_d.hpp, and
the functions of the Python module. The names of the symbols of the gduals are those that the constructors make (`SymsOk`): functions_from_d.hpp uses them.
-/

set_option linter.unusedSectionVars false

namespace Audi

open MvPolynomial Spec GDual

variable {C : Type} [CfFun C] [AbsFn C] {ι : Type} [Lanes C ι ℝ] [LanesFun C ι]

/-- The constant parts of the gduals of the store are in the domain of the expression. -/
def LExpr.DomAt (ι : Type) [Lanes C ι ℝ] (e : LExpr C) (σ : String → GDual C) : Prop :=
  ∀ i : ι, e.Dom i fun s => coeff 0 ((σ s).toMv i : MvPolynomial String ℝ)

theorem LExpr.natural' {m n : ℕ} (hmn : m ≤ n) {σ σ' : String → GDual C} (hσ : SameOrder ι n σ) (hσ' : SameOrder ι m σ') {q : ι → String → MvPolynomial String ℝ}
    (hq : ∀ i s, coeff 0 (q i s) = 0) (h : ∀ (i : ι) s, EqUpTo m ((σ' s).toMv i) (aeval (q i) ((σ s).toMv i))) (e : LExpr C) (hS : ∀ s, SymsOk (σ s)) (hS' : ∀ s, SymsOk (σ' s)) (hA : e.NoAbs ∨ AbsLaw C ι) (hd : e.DomAt ι σ) :
    ∃ r r', e.eval σ = .ok r ∧ e.eval σ' = .ok r' ∧ NtS m n q (fun i => e.sem i fun s => coeff 0 ((σ s).toMv i : MvPolynomial String ℝ)) r r' :=
  LExpr.natural hmn hq (v := fun s i => coeff 0 ((σ s).toMv i : MvPolynomial String ℝ))
    (fun s => ⟨⟨(hσ s).1, (hσ s).2.1, (hσ s).2.2, (hσ' s).1, (hσ' s).2.1, (hσ' s).2.2, fun _ => rfl, fun i => h i s⟩, hS s, hS' s⟩) e hA hd

/-! ### C92 -/

/-- **C92 with all the functions.** Truncating the arguments truncates the result; no restriction of the order. -/
theorem C92_all_truncation {m n : ℕ} (hmn : m ≤ n) {σ σ' : String → GDual C} (hσ : SameOrder ι n σ) (hσ' : SameOrder ι m σ') (hS : ∀ s, SymsOk (σ s)) (hS' : ∀ s, SymsOk (σ' s))
    (h : ∀ (i : ι) s (E : String →₀ ℕ), E.degree ≤ m → coeff E ((σ' s).toMv i : MvPolynomial String ℝ) = coeff E ((σ s).toMv i)) (e : LExpr C) (hA : e.NoAbs ∨ AbsLaw C ι)
    (hd : e.DomAt ι σ) :
    ∃ r r', e.eval σ = .ok r ∧ e.eval σ' = .ok r' ∧ SameOrder ι n (fun _ => r) ∧ SameOrder ι m (fun _ => r') ∧
      ∀ (i : ι) (E : String →₀ ℕ), E.degree ≤ m → coeff E (r'.toMv i : MvPolynomial String ℝ) = coeff E (r.toMv i) := by
  obtain ⟨r, r', hr, hr', h1⟩ := LExpr.natural' (q := fun _ s => X s) hmn hσ hσ' (fun _ s => coeff_zero_X s)
    (fun i s E hE => by rw [aeval_X_id]; exact h i s E hE) e hS hS' hA hd
  exact ⟨r, r', hr, hr', fun _ => ⟨h1.valid, h1.le, h1.order⟩, fun _ => ⟨h1.valid', h1.le', h1.order'⟩, fun i E hE => by rw [h1.eq i E hE, aeval_X_id]⟩

omit [Lanes C ι ℝ] [LanesFun C ι] in
theorem LExpr.run_eq_eval {v : String → C} {m : ℕ} (hm : m < UINT_MAX - 10) (e : LExpr C) (hl : e.Legal 0) : e.run v m = e.eval (varStore v m) := by
  induction e with
  | var s => exact varStore_legal hm hl
  | const c => rfl
  | bin op a b iha ihb => simp only [LExpr.run, LExpr.eval, iha hl.1, ihb hl.2]
  | left op c a ih => simp only [LExpr.run, LExpr.eval, ih hl]
  | right op a c ih => simp only [LExpr.run, LExpr.eval, ih hl]
  | fn f a ih => simp only [LExpr.run, LExpr.eval, ih hl.1]
  | pow a b iha ihb => simp only [LExpr.run, LExpr.eval, iha hl.1, ihb hl.2]

omit [AbsFn C] [Lanes C ι ℝ] [LanesFun C ι] in
theorem varStore_syms {v : String → C} {m : ℕ} (hm : m < UINT_MAX - 10) (s : String) : SymsOk (varStore v m s) := by
  by_cases hs : ∃ c, s.toList.head? = some c ∧ c ≠ 'd'
  · exact symsOk_mk3 (varStore_legal hm hs)
  · rw [varStore_illegal hs]
    exact ⟨List.Pairwise.nil, fun _ hs => absurd hs List.not_mem_nil⟩

/-- **C92 with all the functions.** Evaluating an expression on variables of a larger order changes no derivative of the smaller order. -/
theorem C92_all_order {v : String → C} {m n : ℕ} (hmn : m ≤ n) (hn : n < UINT_MAX - 10) (e : LExpr C) (hA : e.NoAbs ∨ AbsLaw C ι) (hl : e.Legal 0)
    (hd : ∀ i : ι, e.Dom i fun s => Lanes.lane i (v s)) :
    ∃ r r', e.run v n = .ok r ∧ e.run v m = .ok r' ∧ SameOrder ι n (fun _ => r) ∧ SameOrder ι m (fun _ => r') ∧
      (∀ (i : ι) (E : String →₀ ℕ), E.degree ≤ m → coeff E (r'.toMv i : MvPolynomial String ℝ) = coeff E (r.toMv i)) ∧
      ∀ l : List String, l.length ≤ r.getOrder → l.length ≤ r'.getOrder → ∀ dict : List (String × ℕ), (dict.map (·.1)).Nodup →
      (∀ p ∈ dict, 0 < p.2) → (∀ u, (dict.lookup u).getD 0 = (l.map fun s => "d" ++ s).count u) →
        ∃ c c', r.getDerivativeDict dict = .ok c ∧ r'.getDerivativeDict dict = .ok c' ∧ ∀ i : ι, (Lanes.lane i c' : ℝ) = Lanes.lane i c := by
  rw [e.run_eq_eval hn hl, e.run_eq_eval (by omega) hl]
  obtain ⟨r, r', hr, hr', h1, h2, h3⟩ := C92_all_truncation (ι := ι) hmn (σ := varStore v n) (σ' := varStore v m) (varStore_same hn) (varStore_same (by omega)) (varStore_syms hn) (varStore_syms (by omega))
    (fun i s E hE => (varStore_coeff hmn hn i s).1 E hE) e hA fun i => by simpa only [(varStore_coeff hmn hn i _).2] using hd i
  refine ⟨r, r', hr, hr', h1, h2, h3, fun l hle hle' dict hk hpos hc => ?_⟩
  obtain ⟨c, hc1, hc2⟩ := getDerivativeDict_count (ι := ι) (K := ℝ) (h1 "").1 (l := l.map fun s => "d" ++ s) (by simpa using hle) hk hpos hc
  obtain ⟨c', hc1', hc2'⟩ := getDerivativeDict_count (ι := ι) (K := ℝ) (h2 "").1 (l := l.map fun s => "d" ++ s) (by simpa using hle') hk hpos hc
  refine ⟨c, c', hc1, hc1', fun i => ?_⟩
  rw [hc2, hc2', coeff_zero_foldl_pderiv, coeff_zero_foldl_pderiv, h3]
  rw [length_countExp, List.length_map]
  exact hle'.trans (h2 "").2.1

/-! ### C93 -/

/-- **C93 with all the functions.** Names do not matter: renaming the symbols of the arguments renames those of the result. This includes `erf` and the functions of functions_from_d.hpp, which
go through the symbols one after the other, in the order of their names. -/
theorem C93_all {n : ℕ} {f : String → String} (hf : Function.Injective f) {σ σ' : String → GDual C} (hσ : SameOrder ι n σ) (hσ' : SameOrder ι n σ') (hS : ∀ s, SymsOk (σ s)) (hS' : ∀ s, SymsOk (σ' s))
    (h : ∀ (i : ι) s, ((σ' s).toMv i : MvPolynomial String ℝ) = rename f ((σ s).toMv i)) (e : LExpr C) (hA : e.NoAbs ∨ AbsLaw C ι) (hd : e.DomAt ι σ) :
    ∃ r r', e.eval σ = .ok r ∧ e.eval σ' = .ok r' ∧ (∀ i : ι, (r'.toMv i : MvPolynomial String ℝ) = rename f (r.toMv i)) ∧
      ∀ l : List String, l.length ≤ r.getOrder → l.length ≤ r'.getOrder → ∀ dict dict' : List (String × ℕ), (dict.map (·.1)).Nodup → (dict'.map (·.1)).Nodup →
        (∀ p ∈ dict, 0 < p.2) → (∀ p ∈ dict', 0 < p.2) → (∀ u, (dict.lookup u).getD 0 = l.count u) → (∀ u, (dict'.lookup u).getD 0 = (l.map f).count u) →
        ∃ c c', r.getDerivativeDict dict = .ok c ∧ r'.getDerivativeDict dict' = .ok c' ∧ ∀ i : ι, (Lanes.lane i c' : ℝ) = Lanes.lane i c := by
  have hr0 : ∀ P : MvPolynomial String ℝ, aeval (fun s => (X (f s) : MvPolynomial String ℝ)) P = rename f P := fun P => by
    rw [rename_eq_aeval]
    rfl
  obtain ⟨r, r', hr, hr', g⟩ := LExpr.natural' (q := fun _ s => X (f s)) le_rfl hσ hσ' (fun _ s => coeff_zero_X _)
    (fun i s => by rw [hr0]; exact EqUpTo.of_eq (h i s)) e hS hS' hA hd
  have h2 : ∀ i : ι, (r'.toMv i : MvPolynomial String ℝ) = rename f (r.toMv i) := fun i => by
    rw [← hr0]
    refine (g.eq i).eq_of_degLE (fun E hE => Valid.degLE (K := ℝ) g.valid' i E (by have := g.le'; omega)) fun E hE => ?_
    rw [hr0]
    by_contra hne
    obtain ⟨E', rfl, h3⟩ := coeff_rename_ne_zero _ _ _ hne
    refine h3 (Valid.degLE (K := ℝ) g.valid i E' ?_)
    rw [Finsupp.degree_mapDomain] at hE
    have := g.le
    omega
  refine ⟨r, r', hr, hr', h2, fun l hl hl' dict dict' hk hk' hp hp' hc hc' => ?_⟩
  obtain ⟨c, c1, c2⟩ := getDerivativeDict_count (ι := ι) (K := ℝ) g.valid hl hk hp hc
  obtain ⟨c', c1', c2'⟩ := getDerivativeDict_count (ι := ι) (K := ℝ) g.valid' (l := l.map f) (by simpa using hl') hk' hp' hc'
  refine ⟨c, c', c1, c1', fun i => ?_⟩
  rw [c2, c2', coeff_zero_foldl_pderiv, coeff_zero_foldl_pderiv, countExp_map, multiFact_mapDomain hf, h2, coeff_rename_mapDomain f hf]

/-! ### C94 -/

/-- **C94 with all the functions.** Functions and operators commute with the substitution of a gdual without constant term. -/
theorem C94_all_subs {n : ℕ} {σ : String → GDual C} (hσ : SameOrder ι n σ) (hS : ∀ s, SymsOk (σ s)) {g : GDual C} (hg : g.Valid) (hgS : SymsOk g) (h0 : ∀ i : ι, coeff 0 (g.toMv i : MvPolynomial String ℝ) = 0)
    (x : String) (e : LExpr C) (hA : e.NoAbs ∨ AbsLaw C ι) (hd : e.DomAt ι σ) :
    ∃ r r', e.eval σ = .ok r ∧ (e.eval fun s => (σ s).subs x g) = .ok r' ∧ GDual.eq r' (r.subs x g) = true := by
  let q : ι → String → MvPolynomial String ℝ := fun i u => if u = x then g.toMv i else X u
  have hq : ∀ i s, coeff 0 (q i s) = 0 := fun i s => by
    by_cases hs : s = x
    · simp only [q, if_pos hs]; exact h0 i
    · simp only [q, if_neg hs]; exact coeff_zero_X s
  have hconst : ∀ d : GDual C, d.Valid → IsConst ι d → ∀ i : ι, ((d.subs x g).toMv i : MvPolynomial String ℝ) = MvPolynomial.C (coeff 0 (d.toMv i)) := fun d hd hc i => by
    ext E
    rw [C12_subs_gdual hd hg, hc i, aeval_single_C]
    simp only [coeff_C]
    split_ifs with h1 h2 h2 <;> first | rfl | (subst h2; simp at h1)
  have hsub : ∀ d : GDual C, d.Valid → (d.getOrder = n ∨ IsConst ι d) → ∀ i : ι, EqUpTo n ((d.subs x g).toMv i : MvPolynomial String ℝ) (aeval (q i) (d.toMv i)) := fun d hd ho i => by
    rcases ho with ho | hc
    · intro E hE
      rw [C12_subs_gdual hd hg, if_pos (by rw [ho]; exact hE)]
    · rw [hconst d hd hc, hc i, aeval_single_C]
      refine EqUpTo.of_eq ?_
      rw [coeff_C, if_pos rfl]
  have hσ' : SameOrder ι n fun s => (σ s).subs x g := fun s => by
    obtain ⟨h1, h2, h3⟩ := hσ s
    refine ⟨Valid.subs (ι := ι) (K := ℝ) h1 hg x, h2, h3.imp_right fun h3 i => ?_⟩
    rw [hconst _ h1 h3, coeff_C, if_pos rfl]
  obtain ⟨r, r', hr, hr', g1⟩ := LExpr.natural' (q := q) le_rfl hσ hσ' hq (fun i s => hsub _ (hσ s).1 (hσ s).2.2 i) e hS (fun s => (hS s).subs hgS x) hA hd
  refine ⟨r, r', hr, hr', (C16_eq_iff (ι := ι) (K := ℝ) g1.valid' (Valid.subs (ι := ι) (K := ℝ) g1.valid hg x)).2 fun i E => ?_⟩
  have h2 : (r'.toMv i : MvPolynomial String ℝ) = (r.subs x g).toMv i :=
    EqUpTo.eq_of_degLE ((g1.eq i).trans (hsub r g1.valid g1.order i).symm) (fun E hE => Valid.degLE (K := ℝ) g1.valid' i E (by have := g1.le'; omega))
      (fun E hE => Valid.degLE (K := ℝ) (Valid.subs (ι := ι) (K := ℝ) g1.valid hg x) i E (by have := g1.le; change r.order < _; omega))
  rw [h2]

/-- **C94 with all the functions.** The same for the substitution of the number 0. -/
theorem C94_all_zero {n : ℕ} {σ : String → GDual C} (hσ : SameOrder ι n σ) (hS : ∀ s, SymsOk (σ s)) {z : C} (hz : ∀ i : ι, (Lanes.lane i z : ℝ) = 0) (x : String) (e : LExpr C) (hA : e.NoAbs ∨ AbsLaw C ι) (hd : e.DomAt ι σ) :
    ∃ r r', e.eval σ = .ok r ∧ (e.eval fun s => (σ s).subsVal x z) = .ok r' ∧ GDual.eq r' (r.subsVal x z) = true := by
  let q : ι → String → MvPolynomial String ℝ := fun i u => if u = x then MvPolynomial.C (Lanes.lane i z) else X u
  have hq : ∀ i s, coeff 0 (q i s) = 0 := fun i s => by
    by_cases hs : s = x
    · simp only [q, if_pos hs, hz, map_zero, coeff_zero]
    · simp only [q, if_neg hs]; exact coeff_zero_X s
  have hsub : ∀ d : GDual C, d.Valid → ∀ i : ι, ((d.subsVal x z).toMv i : MvPolynomial String ℝ) = aeval (q i) (d.toMv i) := fun d hd i => toMv_subsVal hd x z i
  have hσ' : SameOrder ι n fun s => (σ s).subsVal x z := fun s => by
    obtain ⟨h1, h2, h3⟩ := hσ s
    refine ⟨Valid.subsVal h1 x z, h2, h3.imp_right fun h3 i => ?_⟩
    rw [hsub _ h1, h3 i, algHom_C, algebraMap_eq, coeff_C, if_pos rfl]
  obtain ⟨r, r', hr, hr', g1⟩ := LExpr.natural' (q := q) le_rfl hσ hσ' hq (fun i s => EqUpTo.of_eq (hsub _ (hσ s).1 i)) e hS (fun s => (hS s).subsVal x z) hA hd
  refine ⟨r, r', hr, hr', (C16_eq_iff (ι := ι) (K := ℝ) g1.valid' (Valid.subsVal g1.valid x z)).2 fun i E => ?_⟩
  have h2 : (r'.toMv i : MvPolynomial String ℝ) = (r.subsVal x z).toMv i :=
    EqUpTo.eq_of_degLE ((g1.eq i).trans (EqUpTo.of_eq (hsub r g1.valid i).symm)) (fun E hE => Valid.degLE (K := ℝ) g1.valid' i E (by have := g1.le'; omega))
      (fun E hE => Valid.degLE (K := ℝ) (Valid.subsVal g1.valid x z) i E (by have := g1.le; change r.order < _; omega))
  rw [h2]


/-! ### Examples -/

theorem exStore_domL : (LExpr.fn .erf (.fn .abs (.fn .asinD (.var "x"))) : LExpr ℝ).DomAt Unit (exStore 40) := fun i => by
  have h : coeff 0 ((exStore 40 "x").toMv i : MvPolynomial String ℝ) = 1 / 2 := exStore_coeff i "x"
  refine ⟨⟨⟨trivial, ?_⟩, ?_⟩, trivial⟩
  · change |coeff 0 ((exStore 40 "x").toMv i : MvPolynomial String ℝ)| < 1
    rw [h, abs_lt]
    norm_num
  · change Real.arcsin (coeff 0 ((exStore 40 "x").toMv i : MvPolynomial String ℝ)) ≠ 0
    rw [h]
    exact (Real.arcsin_pos.2 (by norm_num)).ne'

theorem exStore_syms {m : ℕ} (hm : m ≤ 40) (s : String) : SymsOk (exStore m s) := varStore_syms (by unfold UINT_MAX; omega) s

/-- The hypotheses of `C92_all_truncation` are met. -/
example := C92_all_truncation (show 35 ≤ 40 by omega) (exStore_same (m := 40) le_rfl) (exStore_same (m := 35) (by omega)) (exStore_syms le_rfl) (exStore_syms (by omega))
  (fun i s E hE => (varStore_coeff (v := fun _ => (1 / 2 : ℝ)) (m := 35) (n := 40) (by omega) (by decide) i s).1 E hE) _ (.inr absLaw_real) exStore_domL

/-- The hypotheses of `C92_all_order` are met. -/
example := C92_all_order (ι := Unit) (v := fun _ => (1 / 2 : ℝ)) (show 35 ≤ 40 by omega) (by decide) (.fn .erf (.fn .abs (.var "x"))) (.inr absLaw_real)
  ⟨⟨⟨'x', by decide, by decide⟩, trivial⟩, trivial⟩ fun i => ⟨⟨trivial, by change (1 / 2 : ℝ) ≠ 0; norm_num⟩, trivial⟩

/-- The hypotheses of `C93_all` are met, by the swap of two names. -/
example := C93_all (Equiv.swap "dx" "dy").injective (σ := fun _ => exStore 40 "x") (σ' := fun _ => exStore 40 "y") (fun _ => exStore_same le_rfl "x") (fun _ => exStore_same le_rfl "y")
  (fun _ => exStore_syms le_rfl "x") (fun _ => exStore_syms le_rfl "y")
  (fun i s => by
    have hx := varStore_legal (v := fun _ => (1 / 2 : ℝ)) (m := 40) (s := "x") (by decide) ⟨'x', by decide, by decide⟩
    have hy := varStore_legal (v := fun _ => (1 / 2 : ℝ)) (m := 40) (s := "y") (by decide) ⟨'y', by decide, by decide⟩
    change toMv i (varStore _ 40 "y") = rename _ (toMv i (varStore _ 40 "x"))
    rw [toMv_mk3 hx, toMv_mk3 hy, if_neg (by decide), if_neg (by decide), map_add, rename_C, rename_X, show "d" ++ "x" = "dx" by decide, show "d" ++ "y" = "dy" by decide, Equiv.swap_apply_left])
  (.fn .erf (.fn .abs (.fn .asinD (.var "x")))) (.inr absLaw_real) exStore_domL

/-- The hypotheses of `C94_all_subs` are met, by the substitution of `dy` for `dx`. -/
example := C94_all_subs (exStore_same le_rfl) (exStore_syms le_rfl) (g := varStore (fun _ => (0 : ℝ)) 40 "y") (varStore_same (ι := Unit) (by decide) "y").1 (varStore_syms (by decide) "y")
  (fun i => (varStore_coeff (v := fun _ => (0 : ℝ)) (m := 40) le_rfl (by decide) i "y").2) "dx" (.fn .erf (.fn .abs (.fn .asinD (.var "x")))) (.inr absLaw_real) exStore_domL

/-- The hypotheses of `C94_all_zero` are met. -/
example := C94_all_zero (exStore_same le_rfl) (exStore_syms le_rfl) (z := (0 : ℝ)) (fun _ => rfl) "dx" (.fn .erf (.fn .abs (.fn .asinD (.var "x")))) (.inr absLaw_real) exStore_domL

end Audi
