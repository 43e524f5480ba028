import Verif.Proofs.ConsistencyLibExpr
import Verif.Props.C85_Consistency

/-! # C85 with all the functions: derivatives with rounded coefficients tend to the exact derivatives -/

set_option linter.unusedSectionVars false

namespace Audi

open MvPolynomial Spec Filter Topology GDual Asymptotics

/-- **C85 with all the functions (partial).** As `C85_error_partial`, for expressions which may also use `abs` (away from 0), the two results of `sin_and_cos` and `sinh_and_cosh`, `erf`, the functions of functions_from_d.hpp,
and the functions of the Python module: there are `K` and `δ` such that with any arithmetic of unit roundoff `u` at most `δ`, whose functions have relative errors of at most `A` roundings, the evaluation succeeds and
every derivative read with `get_derivative` differs from the exact one by at most `K u`. The functions through the derivative allow orders above 30 for inverse trigonometric functions.

Missing: powers of a number to an expression (`BaseFree`), orders above 30 with `atan`, `asin` and `acos` (`Legal`), as before, and order 0. -/
theorem C85_all_error_partial (A : ℕ) {v : String → ℝ} {m : ℕ} (hm : m < UINT_MAX - 10) (hm1 : 1 ≤ m) (e : LExpr ℝ) (hl : e.Legal m) (hb : e.BaseFree) (hd : e.Dom () v) :
    ∃ K, 0 ≤ K ∧ ∃ δ > 0, ∀ S : Arith A, S.R.u ≤ δ → ∃ r, (e.map (Fl.round S.R)).run (fun s => Fl.round S.R (v s)) m = .ok r ∧ r.Valid ∧ r.getOrder ≤ m ∧
      (e.full = true → r.getOrder = m) ∧
      (∀ l : List String, l.length ≤ r.getOrder → (∀ s ∈ l, "d" ++ s ∈ r.p.syms) →
        ∃ c, r.getDerivative (r.p.syms.map fun u => (l.map fun s => "d" ++ s).count u) = .ok c ∧ |c.val - pds l (e.sem ()) v| ≤ K * S.R.u) ∧
      (∀ l : List String, l.length ≤ r.getOrder → ∀ dict : List (String × ℕ), (dict.map (·.1)).Nodup →
        (∀ p ∈ dict, 0 < p.2) → (∀ u, (dict.lookup u).getD 0 = (l.map fun s => "d" ++ s).count u) →
        ∃ c, r.getDerivativeDict dict = .ok c ∧ |c.val - pds l (e.sem ()) v| ≤ K * S.R.u) := by
  classical
  let p : Unit → String → ℝ := fun _ => Function.extend (fun s => "d" ++ s) v 0
  have hp : ∀ (i : Unit) (s : String), p i ("d" ++ s) = Lanes.lane i (v s) := fun i s => d_append_injective.extend_apply _ _ s
  obtain ⟨g, G, ⟨hAp, hsy⟩, hG, hev⟩ := LExpr.run_ap (A := A) hm hm1 e hl hb hd
  obtain ⟨G', hG', hg, -, hf⟩ := LExpr.run_good (ι := Unit) hm hp e (.inr absLaw_real) hl fun _ => hd
  obtain rfl : G = G' := by rw [hG] at hG'; injection hG'
  have hsub := (LExpr.run_syms (ι := Unit) hm hp e (.inr absLaw_real) hl (fun _ => hd) G hG).1
  have key : ∀ l : List String, l.length ≤ G.order → coeff (countExp (l.map fun s => "d" ++ s)) (G.toMv () : MvPolynomial String ℝ) *
      multiFact (countExp (l.map fun s => "d" ++ s)) = pds l (e.sem ()) v := fun l hle => by
    rw [← coeff_zero_foldl_pderiv, ← (hg.taylor ()).pds_eq _ (by rw [List.length_map]; exact hle.trans hg.le), pds_rename]
    congr 1
    exact funext (hp ())
  have hlim : ∀ E : String →₀ ℕ, Lin (fun S : Arith A => S.R.rnd ((g S).p.cof E * S.R.rnd (multiFact E))) (coeff E (G.toMv ()) * multiFact E) :=
    fun E => lin_rnd ((hAp.coef E).mul (lin_rnd (Lin.const _)))
  let T : Finset String := (e.vars.map fun s => "d" ++ s).toFinset
  let B : String →₀ ℕ := Finsupp.indicator T fun _ _ => m
  have hbig : (∑ E ∈ Finset.Iic B, fun S : Arith A => |S.R.rnd ((g S).p.cof E * S.R.rnd (multiFact E)) - coeff E (G.toMv ()) * multiFact E|) =O[toExact A] fun S => S.R.u :=
    IsBigO.sum fun E _ => (hlim E).abs_left
  obtain ⟨K, hK0, hK⟩ := hbig.exists_nonneg
  have hall : ∀ᶠ S in toExact A, ∀ E ∈ Finset.Iic B, |S.R.rnd ((g S).p.cof E * S.R.rnd (multiFact E)) - coeff E (G.toMv ()) * multiFact E| ≤ K * S.R.u := by
    filter_upwards [hK.bound] with S hS E hE
    rw [Finset.sum_apply, Real.norm_eq_abs, Real.norm_eq_abs, abs_of_nonneg S.R.u_nonneg] at hS
    exact ((Finset.single_le_sum (f := fun E => |S.R.rnd ((g S).p.cof E * S.R.rnd (multiFact E)) - coeff E (G.toMv ()) * multiFact E|)
      (fun _ _ => abs_nonneg _) hE).trans (le_abs_self _)).trans hS
  have hfin : ∀ᶠ S in toExact A, ∃ r, (e.map (Fl.round S.R)).run (fun s => Fl.round S.R (v s)) m = .ok r ∧ r.Valid ∧ r.order = G.order ∧
      ∀ l : List String, l.length ≤ G.order →
        |S.R.rnd (r.p.cof (countExp (l.map fun s => "d" ++ s)) * S.R.rnd (multiFact (countExp (l.map fun s => "d" ++ s)))) - pds l (e.sem ()) v| ≤ K * S.R.u := by
    filter_upwards [hev, hAp.valid, hAp.order, hall, hsy] with S h1 h2 h3 h4 h5
    refine ⟨g S, h1, h2, h3, fun l hle => ?_⟩
    rw [← key l hle]
    by_cases hvars : ∀ s ∈ l, s ∈ e.vars
    · refine h4 _ (Finset.mem_Iic.2 fun u => ?_)
      rw [countExp_apply, Finsupp.indicator_apply]
      split_ifs with hu
      · refine List.count_le_length.trans ?_
        rw [List.length_map]
        exact hle.trans hg.le
      · refine Nat.le_zero.2 (List.count_eq_zero.2 fun hc => hu ?_)
        obtain ⟨s, hs, rfl⟩ := List.mem_map.1 hc
        exact List.mem_toFinset.2 (List.mem_map.2 ⟨s, hvars s hs, rfl⟩)
    · push Not at hvars
      obtain ⟨s, hs, hns⟩ := hvars
      have hnd : "d" ++ s ∉ e.vars.map fun s => "d" ++ s := fun hc => by
        obtain ⟨t, ht, hts⟩ := List.mem_map.1 hc
        exact hns (d_append_injective hts ▸ ht)
      have hE : countExp (l.map fun s => "d" ++ s) ("d" ++ s) ≠ 0 := by
        rw [countExp_apply]
        exact (List.count_pos_iff.2 (List.mem_map.2 ⟨s, hs, rfl⟩)).ne'
      rw [cof_of_notMem h2 (fun hc => hnd (hsub _ (by rwa [h5] at hc))) hE]
      have e2 : coeff (countExp (l.map fun s => "d" ++ s)) (G.toMv () : MvPolynomial String ℝ) = 0 := by
        by_contra hne
        obtain ⟨t, -, ht⟩ := Poly.exists_mem_of_coeff_ne hne
        rw [← ht, toExp_apply hAp.limit.wf.ndsyms, expOf_of_notMem fun hc => hnd (hsub _ hc)] at hE
        exact hE rfl
      rw [e2, zero_mul, zero_mul, S.R.rnd_zero, sub_zero, abs_zero]
      exact mul_nonneg hK0 S.R.u_nonneg
  obtain ⟨δ, h0, hδ⟩ := eventually_toExact hfin
  refine ⟨K, hK0, δ, h0, fun S hS => ?_⟩
  obtain ⟨r, h1, h2, h3, h4⟩ := hδ S hS
  refine ⟨r, h1, h2, h3.trans_le hg.le, fun h => h3.trans (hf h).1, fun l hle hmem => ?_, fun l hle dict hk hpos hcount => ?_⟩
  · obtain ⟨c, hc, hval⟩ := getDerivative_fl h2 (l := l.map fun s => "d" ++ s) (by simpa using hle) (by simpa using hmem)
    exact ⟨c, hc, by rw [hval]; exact h4 l (hle.trans h3.le)⟩
  · obtain ⟨c, hc, hval⟩ := getDerivativeDict_fl h2 (l := l.map fun s => "d" ++ s) (by simpa using hle) hk hpos hcount
    exact ⟨c, hc, by rw [hval]; exact h4 l (hle.trans h3.le)⟩

/-- **C85 with all the functions (partial).** In particular all derivatives tend to the exact ones; same restrictions. -/
theorem C85_all_consistency_partial (A : ℕ) {v : String → ℝ} {m : ℕ} (hm : m < UINT_MAX - 10) (hm1 : 1 ≤ m) (e : LExpr ℝ) (hl : e.Legal m) (hb : e.BaseFree) (hd : e.Dom () v) {ε : ℝ} (hε : 0 < ε) :
    ∃ δ > 0, ∀ S : Arith A, S.R.u ≤ δ → ∃ r, (e.map (Fl.round S.R)).run (fun s => Fl.round S.R (v s)) m = .ok r ∧
      ∀ l : List String, l.length ≤ r.getOrder → ∀ dict : List (String × ℕ), (dict.map (·.1)).Nodup →
        (∀ p ∈ dict, 0 < p.2) → (∀ u, (dict.lookup u).getD 0 = (l.map fun s => "d" ++ s).count u) →
        ∃ c, r.getDerivativeDict dict = .ok c ∧ |c.val - pds l (e.sem ()) v| ≤ ε := by
  obtain ⟨K, hK, δ, h0, h⟩ := C85_all_error_partial A hm hm1 e hl hb hd
  refine ⟨min δ (ε / (K + 1)), lt_min h0 (div_pos hε (by linarith)), fun S hS => ?_⟩
  obtain ⟨r, h1, -, -, -, -, h2⟩ := h S (hS.trans (min_le_left _ _))
  refine ⟨r, h1, fun l hle dict hk hpos hcount => ?_⟩
  obtain ⟨c, hc, h3⟩ := h2 l hle dict hk hpos hcount
  refine ⟨c, hc, h3.trans ?_⟩
  have h4 := hS.trans (min_le_right _ _)
  rw [le_div_iff₀ (by linarith)] at h4
  nlinarith [S.R.u_nonneg]

/-- **C85 with all the functions (partial).** With correct rounding to `k + 1` binary digits the error of each derivative is at most a constant times `2^-(k+1)`, as soon as `k` is large enough; same restrictions. -/
theorem C85_all_precision_partial {v : String → ℝ} {m : ℕ} (hm : m < UINT_MAX - 10) (hm1 : 1 ≤ m) (e : LExpr ℝ) (hl : e.Legal m) (hb : e.BaseFree) (hf : e.full = true) (hd : e.Dom () v) :
    ∃ (K : ℝ) (N : ℕ), ∀ k ≥ N, ∃ r, (e.map (Fl.round (Arith.nearest k).R)).run (fun s => Fl.round (Arith.nearest k).R (v s)) m = .ok r ∧
      ∀ l : List String, l.length ≤ m → ∀ dict : List (String × ℕ), (dict.map (·.1)).Nodup → (∀ p ∈ dict, 0 < p.2) →
        (∀ u, (dict.lookup u).getD 0 = (l.map fun s => "d" ++ s).count u) →
        ∃ c, r.getDerivativeDict dict = .ok c ∧ |c.val - pds l (e.sem ()) v| ≤ K / 2 ^ (k + 1) := by
  obtain ⟨K, -, δ, h0, h⟩ := C85_all_error_partial 1 hm hm1 e hl hb hd
  obtain ⟨N, hN⟩ := exists_pow_lt_of_lt_one h0 (show (1 / 2 : ℝ) < 1 by norm_num)
  refine ⟨K, N, fun k hkN => ?_⟩
  obtain ⟨r, h1, -, -, h2, -, h3⟩ := h (Arith.nearest k) (by
    change ((2 : ℝ) ^ (k + 1))⁻¹ ≤ δ
    rw [← inv_pow, ← one_div]
    exact (pow_le_pow_of_le_one (by norm_num) (by norm_num) (by omega)).trans hN.le)
  refine ⟨r, h1, fun l hle dict hk hpos hcount => ?_⟩
  obtain ⟨c, h4, h5⟩ := h3 l (by rw [h2 hf]; exact hle) dict hk hpos hcount
  exact ⟨c, h4, h5⟩

/-- The expression `erf(x) * atan_d(y) + abs(x - y) / log1p(x)` at `x = 1, y = 2`, to order 50. -/
example : ∃ e : LExpr ℝ, e = .bin .add (.bin .mul (.fn .erf (.var "x")) (.fn .atanD (.var "y")))
      (.bin .div (.fn .abs (.bin .sub (.var "x") (.var "y"))) (.fn .log1p (.var "x"))) ∧
    e.Legal 50 ∧ e.full = true ∧ e.BaseFree ∧ e.Dom () fun s => (if s = "x" then 1 else 2 : ℝ) := by
  refine ⟨_, rfl, ?_, rfl, ?_, ?_⟩
  · simp [LExpr.Legal, LFn.MaxOrder]
  · simp [LExpr.BaseFree]
  · simp only [LExpr.Dom, LExpr.sem, LFn.Dom, LFn.real, Op.Dom, Op.real]
    have hyx : "y" ≠ "x" := by decide
    simp only [if_neg hyx, if_true]
    norm_num

end Audi
