import Verif.Proofs.ConsistencyFn
import Verif.Props.C67_Rounding
import Verif.Props.C81_RoundedFn
import Mathlib.Data.Finsupp.Interval

/-! # C85: derivatives with rounded coefficients tend to the exact derivatives, with errors of the size of the unit roundoff -/

set_option linter.unusedSectionVars false

namespace Audi

open MvPolynomial Spec Filter Topology GDual Asymptotics

section
variable {R : Rounding ℝ} {r : GDual (Fl R)} {l : List String}

/-- Reading derivatives from a gdual with rounded coefficients. -/
theorem getDerivative_fl (hr : r.Valid) (hl : l.length ≤ r.getOrder) (hmem : ∀ u ∈ l, u ∈ r.p.syms) :
    ∃ c, r.getDerivative (r.p.syms.map fun u => l.count u) = .ok c ∧ c.val = R.rnd (r.p.cof (countExp l) * R.rnd (multiFact (countExp l))) := by
  have hexp : toExp r.p.syms (r.p.syms.map fun u => l.count u) = countExp l := by
    ext u
    rw [toExp_map hr.wf.ndsyms, countExp_apply]
    split_ifs with h
    · rfl
    · exact (List.count_eq_zero.mpr fun hu => h (hmem u hu)).symm
  have hlen : (r.p.syms.map fun u => l.count u).length = r.p.syms.length := List.length_map _
  have hsum : (r.p.syms.map fun u => l.count u).sum ≤ r.getOrder := by
    rw [← degree_toExp hlen, hexp, length_countExp]; exact hl
  obtain ⟨c, hc⟩ := findCf_isOk (d := r) hsum hlen
  refine ⟨_, by unfold GDual.getDerivative; rw [hc]; rfl, ?_⟩
  have hF : ((((r.p.syms.map fun u => l.count u).map fun k => (Nat.factorial k : ℚ)).prod : ℚ) : ℝ) = (multiFact (countExp l) : ℝ) := by
    rw [← hexp, multiFact_toExp hr.wf.ndsyms hlen, Nat.cast_list_prod, List.map_map, Rat.cast_list_prod, List.map_map, List.map_map, List.map_map]
    congr 1
  change R.rnd (c.val * R.rnd _) = _
  rw [hF, findCf_fl hr hc, hexp]

/-- The coefficient of a monomial with a symbol which the polynomial does not have. -/
theorem cof_of_notMem (hr : r.Valid) {E : String →₀ ℕ} {u : String} (hu : u ∉ r.p.syms) (hE : E u ≠ 0) : r.p.cof E = 0 := by
  by_contra hne
  obtain ⟨t, ht, rfl⟩ := Poly.cof_ne_zero hne
  rw [toExp_apply hr.wf.ndsyms, expOf_of_notMem hu] at hE
  exact hE rfl

theorem getDerivativeDict_fl (hr : r.Valid) (hl : l.length ≤ r.getOrder) {dict : List (String × ℕ)} (hk : (dict.map (·.1)).Nodup)
    (hpos : ∀ p ∈ dict, 0 < p.2) (hcount : ∀ u, (dict.lookup u).getD 0 = l.count u) :
    ∃ c, r.getDerivativeDict dict = .ok c ∧ c.val = R.rnd (r.p.cof (countExp l) * R.rnd (multiFact (countExp l))) := by
  by_cases hall : ∀ p ∈ dict, p.1 ∈ r.p.syms
  · have hmem : ∀ u ∈ l, u ∈ r.p.syms := fun u hu => by
      have h1 : 0 < l.count u := List.count_pos_iff.mpr hu
      rw [← hcount] at h1
      cases hlk : dict.lookup u with
      | none => rw [hlk] at h1; simp at h1
      | some k => exact hall _ (mem_of_lookup hlk)
    obtain ⟨c, hc, h⟩ := getDerivative_fl hr hl hmem
    refine ⟨c, ?_, h⟩
    rw [C08_dict_form hr hk hall, ← hc]
    congr 1
    exact List.map_congr_left fun u _ => hcount u
  · have hn : dictCoeff r.p.syms dict (List.replicate r.symbolSetSize 0) = none := by
      rw [← Option.not_isSome_iff_eq_none, dictCoeff_isSome]; exact hall
    push Not at hall
    obtain ⟨q, hq, hns⟩ := hall
    refine ⟨Cf.ofRat 0, by unfold getDerivativeDict; rw [hn], ?_⟩
    rw [cof_of_notMem hr hns, zero_mul]
    · simp [Cf.ofRat, Fl.round]
    · rw [countExp_apply, ← hcount, lookup_of_mem hk hq]
      exact (hpos q hq).ne'

end

theorem Expr.vars_map {C D : Type} (f : C → D) (e : Expr C) : (e.map f).vars = e.vars := by
  induction e with
  | bin _ _ _ h1 h2 => simp only [Expr.map, Expr.vars, h1, h2]
  | pow _ _ h1 h2 => simp only [Expr.map, Expr.vars, h1, h2]
  | left _ _ _ h => exact h
  | right _ _ _ h => exact h
  | fn _ _ h => exact h
  | _ => rfl

/-- **C85 (partial).** Let `e` be an expression of variables, numbers, the four operations, elementary functions and powers, and let the point `v` be in its domain. Evaluate it on the gduals `gdual(v s, s, m)`
with a floating point arithmetic: all numbers and values of variables, all operations and all functions of the library are rounded. There are `K` and `δ` such that with any arithmetic of unit roundoff `u` at most `δ`
(the functions of the library having relative errors of at most `A` roundings), the evaluation succeeds, and every derivative up to the order of the result, read with `get_derivative` (vector or dictionary form), differs from
the exact derivative of the real function by at most `K u`.

Missing: powers of a number to an expression (`BaseFree`: `pow(double, gdual)` returns a gdual of order 0 if the exponent has degree 0, which depends on the rounding), and orders above 30 with `atan`, `asin` and
`acos` (`Legal`), for which the exact evaluation is wrong too (`C21_counterexample`). -/
theorem C85_error_partial (A : ℕ) {v : String → ℝ} {m : ℕ} (hm : m < UINT_MAX - 10) (e : Expr ℝ) (hl : e.Legal m) (hb : e.BaseFree) (hd : e.Dom () v) :
    ∃ K, 0 ≤ K ∧ ∃ δ > 0, ∀ S : Arith A, S.R.u ≤ δ → ∃ r, (e.map (Fl.round S.R)).run (fun s => Fl.round S.R (v s)) m = .ok r ∧ r.Valid ∧ r.getOrder ≤ m ∧
      (e.full = true → r.getOrder = m) ∧
      (∀ l : List String, l.length ≤ r.getOrder → (∀ s ∈ l, "d" ++ s ∈ r.p.syms) →
        ∃ c, r.getDerivative (r.p.syms.map fun u => (l.map fun s => "d" ++ s).count u) = .ok c ∧ |c.val - pds l (e.sem ()) v| ≤ K * S.R.u) ∧
      (∀ l : List String, l.length ≤ r.getOrder → ∀ dict : List (String × ℕ), (dict.map (·.1)).Nodup →
        (∀ p ∈ dict, 0 < p.2) → (∀ u, (dict.lookup u).getD 0 = (l.map fun s => "d" ++ s).count u) →
        ∃ c, r.getDerivativeDict dict = .ok c ∧ |c.val - pds l (e.sem ()) v| ≤ K * S.R.u) := by
  classical
  let p : Unit → String → ℝ := fun _ => Function.extend (fun s => "d" ++ s) v 0
  have hp : ∀ (i : Unit) (s : String), p i ("d" ++ s) = Lanes.lane i (v s) := fun i s => d_append_injective.extend_apply _ _ s
  obtain ⟨g, G, hAp, hG, hev⟩ := Expr.run_ap (A := A) hm e hl hb hd
  obtain ⟨G', hG', hg, hf⟩ := Expr.run_good (ι := Unit) hm hp e hl fun _ => hd
  obtain rfl : G = G' := by rw [hG] at hG'; injection hG'
  have key : ∀ l : List String, l.length ≤ G.order → coeff (countExp (l.map fun s => "d" ++ s)) (G.toMv () : MvPolynomial String ℝ) *
      multiFact (countExp (l.map fun s => "d" ++ s)) = pds l (e.sem ()) v := fun l hle => by
    rw [← coeff_zero_foldl_pderiv, ← (hg.taylor ()).pds_eq _ (by rw [List.length_map]; exact hle.trans hg.le), pds_rename]
    congr 1
    exact funext (hp ())
  have hlim : ∀ E : String →₀ ℕ, Lin (fun S : Arith A => S.R.rnd ((g S).p.cof E * S.R.rnd (multiFact E))) (coeff E (G.toMv ()) * multiFact E) :=
    fun E => lin_rnd ((hAp.coef E).mul (lin_rnd (Lin.const _)))
  let T : Finset String := (e.vars.map fun s => "d" ++ s).toFinset
  let B : String →₀ ℕ := Finsupp.indicator T fun _ _ => m
  have hbig : (∑ E ∈ Finset.Iic B, fun S : Arith A => |S.R.rnd ((g S).p.cof E * S.R.rnd (multiFact E)) - coeff E (G.toMv ()) * multiFact E|) =O[toExact A] fun S => S.R.u :=
    IsBigO.sum fun E _ => (hlim E).abs_left
  obtain ⟨K, hK0, hK⟩ := hbig.exists_nonneg
  have hall : ∀ᶠ S in toExact A, ∀ E ∈ Finset.Iic B, |S.R.rnd ((g S).p.cof E * S.R.rnd (multiFact E)) - coeff E (G.toMv ()) * multiFact E| ≤ K * S.R.u := by
    filter_upwards [hK.bound] with S hS E hE
    rw [Finset.sum_apply, Real.norm_eq_abs, Real.norm_eq_abs, abs_of_nonneg S.R.u_nonneg] at hS
    exact ((Finset.single_le_sum (f := fun E => |S.R.rnd ((g S).p.cof E * S.R.rnd (multiFact E)) - coeff E (G.toMv ()) * multiFact E|)
      (fun _ _ => abs_nonneg _) hE).trans (le_abs_self _)).trans hS
  have hfin : ∀ᶠ S in toExact A, ∃ r, (e.map (Fl.round S.R)).run (fun s => Fl.round S.R (v s)) m = .ok r ∧ r.Valid ∧ r.order = G.order ∧
      ∀ l : List String, l.length ≤ G.order →
        |S.R.rnd (r.p.cof (countExp (l.map fun s => "d" ++ s)) * S.R.rnd (multiFact (countExp (l.map fun s => "d" ++ s)))) - pds l (e.sem ()) v| ≤ K * S.R.u := by
    filter_upwards [hev, hAp.valid, hAp.order, hall] with S h1 h2 h3 h4
    refine ⟨g S, h1, h2, h3, fun l hle => ?_⟩
    rw [← key l hle]
    by_cases hvars : ∀ s ∈ l, s ∈ e.vars
    · refine h4 _ (Finset.mem_Iic.2 fun u => ?_)
      rw [countExp_apply, Finsupp.indicator_apply]
      split_ifs with hu
      · refine List.count_le_length.trans ?_
        rw [List.length_map]
        exact hle.trans hg.le
      · refine Nat.le_zero.2 (List.count_eq_zero.2 fun hc => hu ?_)
        obtain ⟨s, hs, rfl⟩ := List.mem_map.1 hc
        exact List.mem_toFinset.2 (List.mem_map.2 ⟨s, hvars s hs, rfl⟩)
    · push Not at hvars
      obtain ⟨s, hs, hns⟩ := hvars
      have hnd : "d" ++ s ∉ e.vars.map fun s => "d" ++ s := fun hc => by
        obtain ⟨t, ht, hts⟩ := List.mem_map.1 hc
        exact hns (d_append_injective hts ▸ ht)
      have hE : countExp (l.map fun s => "d" ++ s) ("d" ++ s) ≠ 0 := by
        rw [countExp_apply]
        exact (List.count_pos_iff.2 (List.mem_map.2 ⟨s, hs, rfl⟩)).ne'
      have e1 := (Expr.run_subSyms _ h1).sub
      rw [Expr.vars_map] at e1
      rw [cof_of_notMem h2 (fun hc => hnd (e1 _ hc)) hE]
      have e2 : coeff (countExp (l.map fun s => "d" ++ s)) (G.toMv () : MvPolynomial String ℝ) = 0 := by
        by_contra hne
        obtain ⟨t, -, ht⟩ := Poly.exists_mem_of_coeff_ne hne
        rw [← ht, toExp_apply hAp.limit.wf.ndsyms, expOf_of_notMem fun hc => hnd ((Expr.run_subSyms _ hG).sub _ hc)] at hE
        exact hE rfl
      rw [e2, zero_mul, zero_mul, S.R.rnd_zero, sub_zero, abs_zero]
      exact mul_nonneg hK0 S.R.u_nonneg
  obtain ⟨δ, h0, hδ⟩ := eventually_toExact hfin
  refine ⟨K, hK0, δ, h0, fun S hS => ?_⟩
  obtain ⟨r, h1, h2, h3, h4⟩ := hδ S hS
  refine ⟨r, h1, h2, h3.trans_le hg.le, fun h => h3.trans (hf h), fun l hle hmem => ?_, fun l hle dict hk hpos hcount => ?_⟩
  · obtain ⟨c, hc, hval⟩ := getDerivative_fl h2 (l := l.map fun s => "d" ++ s) (by simpa using hle) (by simpa using hmem)
    exact ⟨c, hc, by rw [hval]; exact h4 l (hle.trans h3.le)⟩
  · obtain ⟨c, hc, hval⟩ := getDerivativeDict_fl h2 (l := l.map fun s => "d" ++ s) (by simpa using hle) hk hpos hcount
    exact ⟨c, hc, by rw [hval]; exact h4 l (hle.trans h3.le)⟩

/-- **C85 (partial).** In particular all derivatives tend to the exact ones: for every `ε` all arithmetics that are precise enough give a result, with derivatives that differ by at most `ε`; same restrictions. -/
theorem C85_consistency_partial (A : ℕ) {v : String → ℝ} {m : ℕ} (hm : m < UINT_MAX - 10) (e : Expr ℝ) (hl : e.Legal m) (hb : e.BaseFree) (hd : e.Dom () v) {ε : ℝ} (hε : 0 < ε) :
    ∃ δ > 0, ∀ S : Arith A, S.R.u ≤ δ → ∃ r, (e.map (Fl.round S.R)).run (fun s => Fl.round S.R (v s)) m = .ok r ∧
      ∀ l : List String, l.length ≤ r.getOrder → ∀ dict : List (String × ℕ), (dict.map (·.1)).Nodup →
        (∀ p ∈ dict, 0 < p.2) → (∀ u, (dict.lookup u).getD 0 = (l.map fun s => "d" ++ s).count u) →
        ∃ c, r.getDerivativeDict dict = .ok c ∧ |c.val - pds l (e.sem ()) v| ≤ ε := by
  obtain ⟨K, hK, δ, h0, h⟩ := C85_error_partial A hm e hl hb hd
  refine ⟨min δ (ε / (K + 1)), lt_min h0 (div_pos hε (by linarith)), fun S hS => ?_⟩
  obtain ⟨r, h1, -, -, -, -, h2⟩ := h S (hS.trans (min_le_left _ _))
  refine ⟨r, h1, fun l hle dict hk hpos hcount => ?_⟩
  obtain ⟨c, hc, h3⟩ := h2 l hle dict hk hpos hcount
  refine ⟨c, hc, h3.trans ?_⟩
  have h4 := hS.trans (min_le_right _ _)
  rw [le_div_iff₀ (by linarith)] at h4
  nlinarith [S.R.u_nonneg]

theorem Arith.err_one {R : Rounding ℝ} (x : ℝ) : |R.rnd x - x| ≤ ((1 + R.u) ^ 1 - 1) * |x| := by
  rw [pow_one, add_sub_cancel_left]; exact R.err x

/-- Correctly rounded arithmetic and functions with `k + 1` binary digits. -/
noncomputable def Arith.nearest (k : ℕ) : Arith 1 where
  R := Rounding.nearest k
  libm := Libm.correct _
  acc_le := le_rfl
  tan_err x _ := Arith.err_one (R := Rounding.nearest k) (Real.tan x.val)
  tanh_err x := Arith.err_one (R := Rounding.nearest k) (Real.tanh x.val)
  atan_err x := Arith.err_one (R := Rounding.nearest k) (Real.arctan x.val)
  atanh_err x _ := Arith.err_one (R := Rounding.nearest k) (Real.artanh x.val)
  pow_err x q _ := Arith.err_one (R := Rounding.nearest k) (x.val ^ (q : ℝ))
  pi_err := Arith.err_one (R := Rounding.nearest k) Real.pi
  asin_err x _ := Arith.err_one (R := Rounding.nearest k) (Real.arcsin x.val)
  acos_err x _ := Arith.err_one (R := Rounding.nearest k) (Real.arccos x.val)
  asinh_err x := Arith.err_one (R := Rounding.nearest k) (Real.arsinh x.val)
  acosh_err x _ := Arith.err_one (R := Rounding.nearest k) (Real.arcosh x.val)
  erf_err x := Arith.err_one (R := Rounding.nearest k) (Spec.erf x.val)
  twoOverSqrtPi_err := Arith.err_one (R := Rounding.nearest k) (2 / √Real.pi)

/-- **C85 (partial).** With correct rounding to `k + 1` binary digits the error of each derivative is at most a constant times `2^-(k+1)`, as soon as `k` is large enough; same restrictions. -/
theorem C85_precision_partial {v : String → ℝ} {m : ℕ} (hm : m < UINT_MAX - 10) (e : Expr ℝ) (hl : e.Legal m) (hb : e.BaseFree) (hf : e.full = true) (hd : e.Dom () v) :
    ∃ (K : ℝ) (N : ℕ), ∀ k ≥ N, ∃ r, (e.map (Fl.round (Arith.nearest k).R)).run (fun s => Fl.round (Arith.nearest k).R (v s)) m = .ok r ∧
      ∀ l : List String, l.length ≤ m → ∀ dict : List (String × ℕ), (dict.map (·.1)).Nodup → (∀ p ∈ dict, 0 < p.2) →
        (∀ u, (dict.lookup u).getD 0 = (l.map fun s => "d" ++ s).count u) →
        ∃ c, r.getDerivativeDict dict = .ok c ∧ |c.val - pds l (e.sem ()) v| ≤ K / 2 ^ (k + 1) := by
  obtain ⟨K, -, δ, h0, h⟩ := C85_error_partial 1 hm e hl hb hd
  obtain ⟨N, hN⟩ := exists_pow_lt_of_lt_one h0 (show (1 / 2 : ℝ) < 1 by norm_num)
  refine ⟨K, N, fun k hkN => ?_⟩
  obtain ⟨r, h1, -, -, h2, -, h3⟩ := h (Arith.nearest k) (by
    change ((2 : ℝ) ^ (k + 1))⁻¹ ≤ δ
    rw [← inv_pow, ← one_div]
    exact (pow_le_pow_of_le_one (by norm_num) (by norm_num) (by omega)).trans hN.le)
  refine ⟨r, h1, fun l hle dict hk hpos hcount => ?_⟩
  obtain ⟨c, h4, h5⟩ := h3 l (by rw [h2 hf]; exact hle) dict hk hpos hcount
  exact ⟨c, h4, h5⟩

/-- The expression `log(x * y) + sqrt(x) / (2 - sin(y))` at `x = 1, y = 2`, and arithmetics of any precision. -/
example : (∃ e : Expr ℝ, e = .bin .add (.fn .log (.bin .mul (.var "x") (.var "y")))
      (.bin .div (.fn .sqrt (.var "x")) (.left .sub 2 (.fn .sin (.var "y")))) ∧
    e.Legal 50 ∧ e.full = true ∧ e.BaseFree ∧ e.Dom () fun s => (if s = "x" then 1 else 2 : ℝ)) ∧ ∀ δ > 0, ∃ S : Arith 1, S.R.u ≤ δ := by
  refine ⟨⟨_, rfl, ?_, rfl, ?_, ?_⟩, fun δ h0 => ?_⟩
  · simp [Expr.Legal, Fn.MaxOrder]
  · simp [Expr.BaseFree]
  · have h := Real.sin_le_one 2
    simp only [Expr.Dom, Expr.sem, Fn.Dom, Fn.real, Op.Dom, Op.real, Lanes.lane]
    have hyx : "y" ≠ "x" := by decide
    simp only [if_neg hyx, if_true]
    norm_num
    intro h2
    linarith
  · obtain ⟨N, hN⟩ := exists_pow_lt_of_lt_one h0 (show (1 / 2 : ℝ) < 1 by norm_num)
    refine ⟨Arith.nearest N, ?_⟩
    change ((2 : ℝ) ^ (N + 1))⁻¹ ≤ δ
    rw [← inv_pow, ← one_div]
    exact (pow_le_pow_of_le_one (by norm_num) (by norm_num) (by omega)).trans hN.le

/-- The second mixed derivative `[("dx", 1), ("dy", 1)]`. -/
example : ([("dx", 1), ("dy", 1)].map (·.1)).Nodup ∧ (∀ p ∈ [("dx", 1), ("dy", 1)], 0 < p.2) ∧
    ∀ u, (List.lookup u [("dx", 1), ("dy", 1)]).getD 0 = (["x", "y"].map fun s => "d" ++ s).count u := by
  refine ⟨by decide, by decide, fun u => ?_⟩
  have h1 : "d" ++ "x" = "dx" := by decide
  have h2 : "d" ++ "y" = "dy" := by decide
  simp only [List.map_cons, List.map_nil, h1, h2, List.count_cons, List.count_nil, List.lookup_cons]
  by_cases hx : u = "dx"
  · subst hx; decide
  · by_cases hy : u = "dy"
    · subst hy; decide
    · have e1 : (u == "dx") = false := by simpa using hx
      have e2 : (u == "dy") = false := by simpa using hy
      have e3 : ("dx" == u) = false := by simpa using Ne.symm hx
      have e4 : ("dy" == u) = false := by simpa using Ne.symm hy
      simp [e1, e2, e3, e4]

end Audi
