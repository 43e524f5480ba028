import Verif.Proofs.LibOde
import Verif.Proofs.LibOdeExists
import Verif.Props.C79_Ode

/-!
# C79: differential equations with all the functions

As Props/C79_Ode.lean, for the expressions of Spec/LibExpr.lean.
-/

namespace Audi

open MvPolynomial Spec GDual Filter Topology

variable {C : Type} [CfFun C] [AbsFn C]

omit [AbsFn C] in
theorem symsOk_ofCf (c : C) : SymsOk (ofCf c) := ⟨List.Pairwise.nil, fun _ hs => absurd hs List.not_mem_nil⟩

omit [AbsFn C] in
theorem symsOk_mk3 {c : C} {s : String} {m : ℕ} {r : GDual C} (h : GDual.mk3 c s m = .ok r) : SymsOk r :=
  ⟨by rw [syms_mk3 h]; exact List.pairwise_singleton _ _, goodNames_mk3 h⟩

theorem LPicard.unique {ys : List String} {rhs : String → LExpr C} {t : String} {σ0 σ τ : String → GDual C} {k : ℕ} (h : LPicard ys rhs t σ0 k σ)
    (h' : LPicard ys rhs t σ0 k τ) : τ = σ := by
  induction h generalizing τ with
  | zero => cases h'; rfl
  | succ h1 h2 ih =>
    cases h' with
    | succ g1 g2 =>
      obtain rfl := ih g1
      funext y
      by_cases hy : y ∈ ys
      · obtain ⟨r, s, e1, e2, e3⟩ := h2.1 y hy
        obtain ⟨r', s', e1', e2', e3'⟩ := g2.1 y hy
        rw [e1] at e1'; injection e1' with e1'; subst e1'
        rw [e2] at e2'; injection e2' with e2'; subst e2'
        rw [e3, e3']
      · rw [h2.2 y hy, g2.2 y hy]

variable {ι : Type} [Lanes C ι ℝ] [LanesFun C ι] {m k : ℕ} {ys : List String} {rhs : String → LExpr C} {t : String} {σ0 : String → GDual C}

/-- **C79 (flow, partial).** The equations `y' = rhs y`, `y ∈ ys`. The variables in `I` (among them the time `t`, and usually the initial values of the `y` and
parameters) are `gdual(v s, s, m)`, the others are `gdual(v s)`. Let `ψ y` be the solution, as a function of time, initial values and parameters,
having an expansion to order `m` at the point `v`. Then the iteration `y := y0 + integrate(rhs y, t)` does not throw, and after `k` rounds the derivatives of degree at
most `min(k, m)`, in all the variables, are those of `ψ y`.

Coefficients may be vectorized. `AbsLaw` holds for scalar coefficients (`absLaw_real`); for vectorized ones `abs` must not occur.

Restrictions: the order is at most 30 if `atan`, `asin` or `acos` occurs (finding 1); each right hand side uses a variable whose initial gdual has order `m`, otherwise
the claim is false (`C79_constant_counterexample`). -/
theorem C79_all_flow_partial {I : List String} {v : String → C} (ht : t ∈ I) (hty : t ∉ ys) (hm : 0 < m) (hI : ∀ s ∈ I, GDual.mk3 (v s) s m = .ok (σ0 s))
    (hI' : ∀ s ∉ I, σ0 s = GDual.ofCf (v s)) (hA : ∀ y ∈ ys, (rhs y).NoAbs ∨ AbsLaw C ι) (hf : ∀ y ∈ ys, (rhs y).FnOrder m) (hfull : ∀ y ∈ ys, (rhs y).FullIn (· ∈ I))
    (hd : ∀ y ∈ ys, ∀ i : ι, (rhs y).Dom i fun s => Lanes.lane i (v s)) (ψ : ι → String → (String → ℝ) → ℝ)
    (hψ : ∀ y ∈ ys, ∀ i : ι, ∃ P, IsTaylor (fun s => Lanes.lane i (v s)) m (ψ i y) P)
    (hinit : ∀ y ∈ ys, ∀ i : ι, ∀ᶠ x in 𝓝 fun s => Lanes.lane i (v s), x t = Lanes.lane i (v t) → ψ i y x = if y ∈ I then x y else Lanes.lane i (v y))
    (hode : ∀ y ∈ ys, ∀ i : ι, ∀ᶠ x in 𝓝 fun s => Lanes.lane i (v s),
      HasPartialAt (ψ i y) ((rhs y).sem i fun s => if s ∈ ys then ψ i s x else if s ∈ I then x s else Lanes.lane i (v s)) t x) (k : ℕ) :
    ∃ σ, LPicard ys rhs t σ0 k σ ∧ (∀ τ, LPicard ys rhs t σ0 k τ → τ = σ) ∧ ∀ y ∈ ys, (0 < k → (σ y).getOrder = m) ∧
      ∀ l : List String, l.length ≤ min k m → ∀ dict : List (String × ℕ), (dict.map (·.1)).Nodup → (∀ p ∈ dict, 0 < p.2) →
        (∀ u, (dict.lookup u).getD 0 = (l.map fun s => "d" ++ s).count u) →
        ∃ c, (σ y).getDerivativeDict dict = .ok c ∧ ∀ i : ι, Lanes.lane i c = pds l (ψ i y) fun s => Lanes.lane i (v s) := by
  classical
  let a : ι → String → ℝ := fun i s => Lanes.lane i (v s)
  let sh : ι → (String → ℝ) → String → ℝ := fun i z s => a i s + z ("d" ++ s)
  have hsh0 : ∀ i, sh i 0 = a i := fun i => funext fun s => by simp [sh]
  have hsh : ∀ i, Tendsto (sh i) (𝓝 0) (𝓝 (a i)) := fun i => by
    have h1 : Continuous (sh i) := by fun_prop
    have h2 := h1.tendsto 0
    rwa [hsh0] at h2
  have hX : ∀ s ∈ I, ∀ i : ι, (σ0 s).toMv i = MvPolynomial.C (a i s) + X ("d" ++ s) := fun s hs i => by
    rw [toMv_mk3 (hI s hs), if_neg hm.ne']
  have hC : ∀ s ∉ I, ∀ i : ι, (σ0 s).toMv i = MvPolynomial.C (a i s) := fun s hs i => by
    rw [hI' s hs, toMv_ofCf]
  have hord : ∀ s ∈ I, (σ0 s).order = m := fun s hs => order_mk3 (hI s hs)
  let φ : ι → String → (String → ℝ) → ℝ := fun i s z => if s ∈ ys then ψ i s (sh i z) else MvPolynomial.eval z ((σ0 s).toMv i)
  have hφ : ∀ i s, s ∈ ys → φ i s = fun z => ψ i s (sh i z) := fun i s hs => funext fun z => if_pos hs
  have hφ' : ∀ i s, s ∉ ys → ∀ z, φ i s z = if s ∈ I then sh i z s else a i s := fun i s hs z => by
    change (if s ∈ ys then ψ i s (sh i z) else _) = _
    rw [if_neg hs]
    split_ifs with h
    · rw [hX s h]; simp [sh]
    · rw [hC s h]; simp
  have hval : ∀ (i : ι) s, φ i s 0 = a i s := fun i s => by
    by_cases hs : s ∈ ys
    · rw [hφ i s hs]
      have := (hinit s hs i).self_of_nhds rfl
      simp only [hsh0]
      refine this.trans ?_
      split_ifs <;> rfl
    · rw [hφ' i s hs, hsh0, ite_self]
  have hs : LSolves ys rhs t m σ0 φ := by
    refine ⟨fun s => ?_, fun s => ?_, fun s ho => ?_, hA, hf, fun y hy => ?_, fun y hy i => ?_, fun s hs i x => if_neg hs, fun y hy i => ?_, fun y hy i e he => ?_, fun y hy i => ?_⟩
    · by_cases h : s ∈ I
      · exact ⟨valid_mk3 (ι := ι) (K := ℝ) (hI s h), (hord s h).le, Or.inl (hord s h)⟩
      · rw [hI' s h]
        refine ⟨valid_ofCf _, Nat.zero_le _, Or.inr fun i => ?_⟩
        rw [toMv_ofCf]; simp
    · by_cases h : s ∈ I
      · exact symsOk_mk3 (hI s h)
      · rw [hI' s h]; exact symsOk_ofCf _
    · by_cases h : s ∈ I
      · rw [syms_mk3 (hI s h)]; exact fun h => absurd h (by simp)
      · rw [hI' s h] at ho
        exact absurd ho hm.ne
    · refine LExpr.FullIn.mono (fun s h => hord s h) (rhs y) (hfull y hy)
    · have : (fun s => φ i s 0) = a i := funext (hval i)
      rw [this]; exact hd y hy i
    · rw [hφ i y hy]
      filter_upwards [(hsh i).eventually (hinit y hy i)] with z hz h0
      have h1 : sh i z t = Lanes.lane i (v t) := by simp [sh, h0, a]
      refine (hz h1).trans ?_
      split_ifs with h
      · rw [hX y h]; simp [sh]
      · rw [hC y h]; simp [a]
    · have hyt : y ≠ t := fun h => hty (h ▸ hy)
      have he0 : (0 : String →₀ ℕ) ≠ e := fun h => he (by rw [← h]; rfl)
      by_cases h : y ∈ I
      · rw [hX y h, coeff_add, coeff_C, if_neg he0, coeff_X, if_neg, zero_add]
        intro h1
        apply he
        rw [← h1]
        exact Finsupp.single_eq_of_ne fun h => hyt (d_append_injective h).symm
      · rw [hC y h, coeff_C, if_neg he0]
    · rw [hφ i y hy]
      filter_upwards [(hsh i).eventually (hode y hy i)] with z hz
      have h1 : (fun s => φ i s z) = fun s => if s ∈ ys then ψ i s (sh i z) else if s ∈ I then sh i z s else a i s := funext fun s => by
        by_cases h : s ∈ ys
        · rw [hφ i s h, if_pos h]
        · rw [hφ' i s h, if_neg h]
      rw [h1]
      unfold HasPartialAt at hz ⊢
      have h3 : ∀ w : ℝ, sh i (Function.update z ("d" ++ t) w) = Function.update (sh i z) t (a i t + w) := fun w => by
        funext s
        by_cases h : s = t
        · subst h; simp [sh]
        · simp only [sh]
          rw [Function.update_of_ne h, Function.update_of_ne (d_append_injective.ne h)]
      simp only [h3]
      exact hz.comp_const_add (a i t) (z ("d" ++ t))
  have hname := (mk3_ok.1 (hI t ht)).2.1
  have hsm : ∀ y ∈ ys, ∀ i : ι, ∃ P, IsTaylor 0 m (φ i y) P := fun y hy i => by
    obtain ⟨P, hP⟩ := hψ y hy i
    rw [hφ i y hy]
    exact ⟨_, isTaylor_shift d_append_injective hP⟩
  obtain ⟨σ, h1, inv, h2⟩ := lpicard_smooth hs hname hsm k
  refine ⟨σ, h1, fun τ hτ => h1.unique hτ, fun y hy => ⟨fun h => h2 h y hy, fun l hl dict hk hpos hcount => ?_⟩⟩
  obtain ⟨c, hc, hlane⟩ := inv.derivative h2 hy (l := l.map fun s => "d" ++ s) (by rwa [List.length_map]) hk hpos hcount
  refine ⟨c, hc, fun i => ?_⟩
  rw [hlane i, hφ i y hy]
  obtain ⟨P, hP⟩ := hψ y hy i
  rw [hP.pds_eq l (hl.trans (min_le_right _ _)),
    (isTaylor_shift d_append_injective hP).pds_eq _ (by rw [List.length_map]; exact hl.trans (min_le_right _ _)), List.foldl_map]
  have h5 : ∀ (l : List String) (Q : MvPolynomial String ℝ), l.foldl (fun Q s => pderiv ("d" ++ s) Q) (rename (fun s => "d" ++ s) Q) =
      rename (fun s => "d" ++ s) (l.foldl (fun Q s => pderiv s Q) Q) := fun l => by
    induction l with
    | nil => exact fun Q => rfl
    | cons s l ih =>
      intro Q
      rw [List.foldl_cons, List.foldl_cons, ← ih, pderiv_rename d_append_injective]
  rw [h5]
  exact constantCoeff_rename _ _

/-- **C79 (solutions, partial).** The equations `y' = rhs y`, `y ∈ ys`, with the time `t = gdual(v t, t, m)`; the other variables are numbers, given as `gdual(v s)` or
as `gdual(v s) + 0 * t`. Let `ψ y` be functions which are differentiable near the initial time and satisfy the equations and the initial values. Then the iteration
`y := y0 + integrate(rhs y, t)` does not throw, and after `k` rounds the value and the derivatives up to `min(k, m)` read from `y` are those of `ψ y`.

Restrictions as for `C79_all_flow_partial`. -/
theorem C79_all_ode_partial {v : String → C} (hty : t ∉ ys) (hm : 0 < m) (ht : GDual.mk3 (v t) t m = .ok (σ0 t))
    (hσ : ∀ s, s ≠ t → σ0 s = GDual.ofCf (v s) ∨ σ0 s = (GDual.ofCf (v s)).add ((σ0 t).mulGS Cf.zero)) (hA : ∀ y ∈ ys, (rhs y).NoAbs ∨ AbsLaw C ι) (hf : ∀ y ∈ ys, (rhs y).FnOrder m)
    (hfull : ∀ y ∈ ys, (rhs y).FullIn fun s => (σ0 s).getOrder = m)
    (hd : ∀ y ∈ ys, ∀ i : ι, (rhs y).Dom i fun s => Lanes.lane i (v s)) (ψ : ι → String → ℝ → ℝ)
    (hinit : ∀ y ∈ ys, ∀ i : ι, ψ i y (Lanes.lane i (v t)) = Lanes.lane i (v y))
    (hode : ∀ y ∈ ys, ∀ i : ι, ∀ᶠ x in 𝓝 (Lanes.lane i (v t)),
      HasDerivAt (ψ i y) ((rhs y).sem i fun s => if s ∈ ys then ψ i s x else if s = t then x else Lanes.lane i (v s)) x) (k : ℕ) :
    ∃ σ, LPicard ys rhs t σ0 k σ ∧ (∀ τ, LPicard ys rhs t σ0 k τ → τ = σ) ∧ ∀ y ∈ ys, (0 < k → (σ y).getOrder = m) ∧
      (∃ c, (σ y).constantCf = .ok c ∧ ∀ i : ι, Lanes.lane i c = (Lanes.lane i (v y) : ℝ)) ∧
      ∀ l, 0 < l → l ≤ min k m →
        ∃ c, (σ y).getDerivativeDict [("d" ++ t, l)] = .ok c ∧ ∀ i : ι, Lanes.lane i c = iteratedDeriv l (ψ i y) (Lanes.lane i (v t)) := by
  classical
  let a : ι → String → ℝ := fun i s => Lanes.lane i (v s)
  have hvt : (σ0 t).Valid := valid_mk3 (ι := ι) (K := ℝ) ht
  have hot : (σ0 t).order = m := order_mk3 ht
  have hX : ∀ i : ι, (σ0 t).toMv i = MvPolynomial.C (a i t) + X ("d" ++ t) := fun i => by rw [toMv_mk3 ht, if_neg hm.ne']
  have hC : ∀ s, s ≠ t → (σ0 s).Valid ∧ (σ0 s).order ≤ m ∧ ∀ i : ι, (σ0 s).toMv i = MvPolynomial.C (a i s) := fun s hs => by
    rcases hσ s hs with h | h
    · rw [h]
      exact ⟨valid_ofCf _, Nat.zero_le _, fun i => toMv_ofCf _ _⟩
    · rw [h]
      have hz : ((σ0 t).mulGS (Cf.zero : C)).Valid := hvt.mul (valid_ofCfOrder _ _)
      refine ⟨(valid_ofCf _).add hz, ?_, fun i => ?_⟩
      · change max 0 (max (σ0 t).order (σ0 t).order) ≤ m
        rw [hot]; simp
      · rw [toMv_add (valid_ofCf _) hz, toMv_ofCf]
        have : ((σ0 t).mulGS (Cf.zero : C)).toMv i = (0 : MvPolynomial String ℝ) := by
          rw [toMv_mulGS _ hvt, Poly.lane_zero, map_zero, mul_zero]
        rw [this, add_zero]
  let φ : ι → String → (String → ℝ) → ℝ := fun i s z => if s ∈ ys then ψ i s (a i t + z ("d" ++ t)) else MvPolynomial.eval z ((σ0 s).toMv i)
  have hφ : ∀ i s, s ∈ ys → φ i s = fun z => ψ i s (a i t + z ("d" ++ t)) := fun i s hs => funext fun z => if_pos hs
  have hφ' : ∀ i s, s ∉ ys → ∀ z, φ i s z = if s = t then a i t + z ("d" ++ t) else a i s := fun i s hs z => by
    change (if s ∈ ys then _ else _) = _
    rw [if_neg hs]
    split_ifs with h
    · rw [h, hX]; simp
    · rw [(hC s h).2.2]; simp
  have hsh : ∀ i : ι, Tendsto (fun z : String → ℝ => a i t + z ("d" ++ t)) (𝓝 0) (𝓝 (a i t)) := fun i => by
    have h1 : Continuous fun z : String → ℝ => a i t + z ("d" ++ t) := by fun_prop
    simpa using h1.tendsto 0
  have hne : ∀ y ∈ ys, y ≠ t := fun y hy h => hty (h ▸ hy)
  have hs : LSolves ys rhs t m σ0 φ := by
    refine ⟨fun s => ?_, fun s => ?_, fun s ho => ?_, hA, hf, hfull, fun y hy i => ?_, fun s hs i x => if_neg hs, fun y hy i => Eventually.of_forall fun z h0 => ?_, fun y hy i e he => ?_, fun y hy i => ?_⟩
    · by_cases h : s = t
      · rw [h]; exact ⟨hvt, hot.le, Or.inl hot⟩
      · exact ⟨(hC s h).1, (hC s h).2.1, Or.inr fun i => by rw [(hC s h).2.2]; simp⟩
    · by_cases h : s = t
      · rw [h]; exact symsOk_mk3 ht
      · rcases hσ s h with h | h
        · rw [h]; exact symsOk_ofCf _
        · rw [h]
          exact (symsOk_ofCf _).merge ((symsOk_mk3 ht).of_eq (r := (σ0 t).mulGS Cf.zero) (HasSyms.mulGS (symsOk_mk3 ht).sorted rfl _)) rfl
    · by_cases h : s = t
      · rw [h, syms_mk3 ht]; exact fun h => absurd h (by simp)
      · rcases hσ s h with h | h
        · rw [h] at ho; exact absurd ho hm.ne
        · rw [h]
          intro h0
          have h1 := (mergeSyms_eq_nil h0).2
          have h2 := (mergeSyms_eq_nil (h1 : mergeSyms (σ0 t).p.syms _ = [])).1
          rw [syms_mk3 ht] at h2
          cases h2
    · have : (fun s => φ i s 0) = a i := funext fun s => by
        by_cases h : s ∈ ys
        · rw [hφ i s h]; simpa using hinit s h i
        · rw [hφ' i s h]
          split_ifs with h2
          · rw [h2]; simp
          · rfl
      rw [this]; exact hd y hy i
    · rw [hφ i y hy, (hC y (hne y hy)).2.2]
      simp only [h0, add_zero, eval_C]
      exact hinit y hy i
    · rw [(hC y (hne y hy)).2.2, coeff_C, if_neg fun h => he (by rw [← h]; rfl)]
    · rw [hφ i y hy]
      filter_upwards [(hsh i).eventually (hode y hy i)] with z hz
      have h1 : (fun s => φ i s z) = fun s => if s ∈ ys then ψ i s (a i t + z ("d" ++ t)) else if s = t then a i t + z ("d" ++ t) else a i s :=
        funext fun s => by
          by_cases h : s ∈ ys
          · rw [hφ i s h, if_pos h]
          · rw [hφ' i s h, if_neg h]
      rw [h1]
      unfold HasPartialAt
      simp only [Function.update_self]
      exact hz.comp_const_add (a i t) (z ("d" ++ t))
  have hcst : ∀ y ∈ ys, ∀ (i : ι) (e : String →₀ ℕ), e ≠ 0 → coeff e ((σ0 y).toMv i : MvPolynomial String ℝ) = 0 := fun y hy i e he => by
    rw [(hC y (hne y hy)).2.2, coeff_C, if_neg he.symm]
  have hdep : ∀ (s : String) (i : ι) x x', x ("d" ++ t) = x' ("d" ++ t) → φ i s x = φ i s x' := fun s i x x' h => by
    by_cases hs : s ∈ ys
    · rw [hφ i s hs]; simp only [h]
    · rw [hφ' i s hs, hφ' i s hs, h]
  have hcont : ∀ y ∈ ys, ∀ i : ι, ContinuousAt (φ i y) 0 := fun y hy i => by
    rw [hφ i y hy]
    have h1 : ContinuousAt (ψ i y) (a i t + (0 : String → ℝ) ("d" ++ t)) := by
      have := (hode y hy i).self_of_nhds.continuousAt
      simpa using this
    exact h1.comp (f := fun z : String → ℝ => a i t + z ("d" ++ t)) (continuous_const.add (continuous_apply _)).continuousAt
  obtain ⟨σ, h1, inv, h2⟩ := lpicard_ode hs (mk3_ok.1 ht).2.1 hcst hdep hcont k
  refine ⟨σ, h1, fun τ hτ => h1.unique hτ, fun y hy => ⟨fun h => h2 h y hy, ?_, fun l hl hle => ?_⟩⟩
  · obtain ⟨c, hc⟩ := constantCf_isOk (σ y)
    refine ⟨c, hc, fun i => ?_⟩
    rw [lane_constantCf (ι := ι) (K := ℝ) (inv.base y).1 hc i, ← (inv.taylor i y).val, hφ i y hy]
    simpa using hinit y hy i
  · obtain ⟨c, hc, hlane⟩ := inv.derivative h2 hy (l := List.replicate l ("d" ++ t)) (by rwa [List.length_replicate])
      (dict := [("d" ++ t, l)]) (by simp) (by simpa using hl) fun u => by
        rw [List.count_replicate, List.lookup_cons]
        by_cases h : u = "d" ++ t
        · subst h; simp
        · have h' : (u == "d" ++ t) = false := by simpa using h
          have h'' : ("d" ++ t == u) = false := by simpa using Ne.symm h
          simp [h', h'']
    refine ⟨c, hc, fun i => ?_⟩
    rw [hlane i, hφ i y hy]
    refine (pds_replicate ("d" ++ t) (fun x => ψ i y (a i t + x)) l 0).trans ?_
    rw [iteratedDeriv_comp_const_add]
    simp [a]

/-- **C79 (existence).** Solutions as in `C79_all_ode_partial` exist whenever the initial point is in the domain of the right hand sides. -/
theorem C79_all_solution_exists {v : String → C} (hty : t ∉ ys) (hd : ∀ y ∈ ys, ∀ i : ι, (rhs y).Dom i fun s => Lanes.lane i (v s)) :
    ∃ ψ : ι → String → ℝ → ℝ, (∀ y ∈ ys, ∀ i : ι, ψ i y (Lanes.lane i (v t)) = Lanes.lane i (v y)) ∧
      ∀ y ∈ ys, ∀ i : ι, ∀ᶠ x in 𝓝 (Lanes.lane i (v t)),
        HasDerivAt (ψ i y) ((rhs y).sem i fun s => if s ∈ ys then ψ i s x else if s = t then x else Lanes.lane i (v s)) x := by
  choose ψ h1 h2 using fun i : ι => LExpr.exists_solution i (v := fun s => Lanes.lane i (v s)) hty fun y hy => hd y hy i
  exact ⟨ψ, fun y hy i => h1 i y hy, fun y hy i => h2 i y hy⟩

/-- The right hand side `erf(y) + |t + 1|`. -/
noncomputable def exOde : LExpr ℝ := .bin .add (.fn .erf (.var "y")) (.fn .abs (.right .add (.var "t") 1))

/-- The equation `y' = erf(y) + |t + 1|` with `y(0) = 1` meets the hypotheses of `C79_all_ode_partial`, at order 50: after 50 rounds all the derivatives are those of a solution. -/
example : ∃ (σ0 σ : String → GDual ℝ) (ψ : ℝ → ℝ), GDual.mk3 0 "t" 50 = .ok (σ0 "t") ∧ σ0 "y" = GDual.ofCf 1 ∧ ψ 0 = 1 ∧ (∀ᶠ x in 𝓝 0, HasDerivAt ψ (Spec.erf (ψ x) + |x + 1|) x) ∧
    LPicard ["y"] (fun _ => exOde) "t" σ0 50 σ ∧ ∀ l, 0 < l → l ≤ 50 → (σ "y").getDerivativeDict [("dt", l)] = .ok (iteratedDeriv l ψ 0) := by
  obtain ⟨r, hr⟩ : ∃ r : GDual ℝ, GDual.mk3 0 "t" 50 = .ok r := ⟨_, mk3_ok.mpr ⟨by decide, ⟨'t', by decide, by decide⟩, rfl⟩⟩
  let v : String → ℝ := fun s => if s = "t" then 0 else 1
  let σ0 : String → GDual ℝ := fun s => if s = "t" then r else GDual.ofCf 1
  have hyt : ("y" : String) ≠ "t" := by decide
  have hd : ∀ y ∈ ["y"], ∀ i : Unit, exOde.Dom i fun s => Lanes.lane i (v s) := fun y _ i => by
    simp [exOde, LExpr.Dom, LExpr.sem, LFn.Dom, Op.Dom, Op.real, Lanes.lane, v]
  obtain ⟨ψ, h1, h2⟩ := C79_all_solution_exists (ι := Unit) (rhs := fun _ : String => exOde) (t := "t") (v := v) (by simp [hyt.symm]) hd
  obtain ⟨σ, h3, -, h4⟩ := C79_all_ode_partial (ι := Unit) (m := 50) (rhs := fun _ : String => exOde) (t := "t") (σ0 := σ0) (v := v) (by simp [hyt.symm]) (by norm_num) (by simpa [σ0, v] using hr)
    (fun s hs => Or.inl (by simp [σ0, v, hs])) (fun _ _ => Or.inr absLaw_real) (fun _ _ => by simp [exOde, LExpr.FnOrder, LFn.MaxOrder])
    (fun _ _ => Or.inr (by change (σ0 "t").order = 50; simp only [σ0, if_true]; exact order_mk3 hr)) hd ψ h1 h2 50
  refine ⟨σ0, σ, ψ () "y", by simpa [σ0] using hr, by simp [σ0, hyt], ?_, ?_, h3, fun l hl hle => ?_⟩
  · simpa [v, Lanes.lane, hyt] using h1 "y" (by simp) ()
  · have := h2 "y" (by simp) ()
    simpa [exOde, LExpr.sem, LFn.real, Op.real, Lanes.lane, v, hyt, hyt.symm] using this
  · obtain ⟨c, e1, e2⟩ := (h4 "y" (by simp)).2.2 l hl (by simpa using hle)
    have e3 := e2 ()
    simp only [Lanes.lane, v, if_true] at e3
    rw [← e3]
    exact e1

end Audi
