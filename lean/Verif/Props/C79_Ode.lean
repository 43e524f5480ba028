import Verif.Proofs.Ode
import Verif.Proofs.OdeExists
import Verif.Props.C21_AD

/-!
# C79: differential equations

Solutions of differential equations are expanded with gduals by Picard's iteration `y := y0 + integrate(f(t, y), t)`. After `k` iterations the derivatives
of degree at most `k` are those of the solution: with respect to time, and with respect to the initial values and parameters, which are
variables of the gduals.
-/

namespace Audi

open MvPolynomial Spec GDual Filter Topology

section
variable {σ : Type*} [DecidableEq σ]

/-- The expansion of a function of the point, as a function of the displacements, which have other names. -/
theorem isTaylor_shift {τ : Type*} [DecidableEq τ] {a : σ → ℝ} {f : σ → τ} (hf : Function.Injective f) {m : ℕ} {F : (σ → ℝ) → ℝ} {P : MvPolynomial σ ℝ}
    (h : IsTaylor a m F P) : IsTaylor 0 m (fun z : τ → ℝ => F fun s => a s + z (f s)) (rename f P) := by
  have htend : Tendsto (fun z : τ → ℝ => fun s => a s + z (f s)) (𝓝 0) (𝓝 a) := by
    have h1 : Continuous fun z : τ → ℝ => fun s => a s + z (f s) := by fun_prop
    have h2 := h1.tendsto 0
    simpa using h2
  have hcoeff : ∀ Q : MvPolynomial σ ℝ, coeff 0 (rename f Q) = coeff 0 Q := fun Q => constantCoeff_rename f Q
  have hcont : ∀ G : (σ → ℝ) → ℝ, ContinuousAt G a → ContinuousAt (fun z : τ → ℝ => G fun s => a s + z (f s)) 0 := fun G hG => by
    have h3 : Tendsto G (𝓝 a) (𝓝 (G a)) := hG
    have h4 := h3.comp htend
    have h5 : (fun s => a s + (0 : τ → ℝ) (f s)) = a := funext fun s => by simp
    change Tendsto _ _ (𝓝 (G fun s => a s + (0 : τ → ℝ) (f s)))
    rw [h5]
    exact h4
  induction m generalizing F P with
  | zero => exact ⟨hcont F h.1, by rw [hcoeff, ← h.2]; simp⟩
  | succ m ih =>
    refine ⟨hcont F h.1, by rw [hcoeff, ← h.2.1]; simp, fun u => ?_⟩
    by_cases hu : ∃ s, f s = u
    · obtain ⟨s, rfl⟩ := hu
      obtain ⟨F', h1, h2⟩ := h.2.2 s
      refine ⟨_, ?_, by rw [pderiv_rename hf]; exact ih h2⟩
      filter_upwards [htend.eventually h1] with z hz
      unfold HasPartialAt at hz ⊢
      have h3 : ∀ w : ℝ, (fun s' => a s' + Function.update z (f s) w (f s')) = Function.update (fun s' => a s' + z (f s')) s (a s + w) := fun w => by
        funext s'
        by_cases hs : s' = s
        · subst hs; simp
        · rw [Function.update_of_ne hs, Function.update_of_ne (hf.ne hs)]
      simp only [h3]
      exact hz.comp_const_add (a s) (z (f s))
    · refine ⟨fun _ => 0, Eventually.of_forall fun z => ?_, ?_⟩
      · unfold HasPartialAt
        have h3 : ∀ w : ℝ, (fun s' => a s' + Function.update z u w (f s')) = fun s' => a s' + z (f s') := fun w => by
          funext s'
          rw [Function.update_of_ne fun h => hu ⟨s', h⟩]
        simp only [h3]
        exact hasDerivAt_const _ _
      · have : pderiv u (rename f P) = 0 := by
          refine pderiv_eq_zero_of_notMem_vars fun h => hu ?_
          have := vars_rename f P h
          obtain ⟨s, -, hs⟩ := Finset.mem_image.1 this
          exact ⟨s, hs⟩
        rw [this]
        have h0 := IsTaylor.const (a := (0 : τ → ℝ)) (m := m) (0 : ℝ)
        rwa [map_zero] at h0

end

variable {C : Type} [CfFun C]

omit [CfFun C] in
theorem Picard.unique [CfFun C] {ys : List String} {rhs : String → Expr C} {t : String} {σ0 σ τ : String → GDual C} {k : ℕ} (h : Picard ys rhs t σ0 k σ)
    (h' : Picard ys rhs t σ0 k τ) : τ = σ := by
  induction h generalizing τ with
  | zero => cases h'; rfl
  | succ h1 h2 ih =>
    cases h' with
    | succ g1 g2 =>
      obtain rfl := ih g1
      funext y
      by_cases hy : y ∈ ys
      · obtain ⟨r, s, e1, e2, e3⟩ := h2.1 y hy
        obtain ⟨r', s', e1', e2', e3'⟩ := g2.1 y hy
        rw [e1] at e1'; injection e1' with e1'; subst e1'
        rw [e2] at e2'; injection e2' with e2'; subst e2'
        rw [e3, e3']
      · rw [h2.2 y hy, g2.2 y hy]

variable {ι : Type} [Lanes C ι ℝ] [LanesFun C ι] {m k : ℕ} {ys : List String} {rhs : String → Expr C} {t : String} {σ0 : String → GDual C}

omit [LanesFun C ι] in
/-- Reading the derivatives. -/
theorem PicardInv.derivative {σ : String → GDual C} {φ : ι → String → (String → ℝ) → ℝ} (inv : PicardInv m (min k m) σ0 σ φ)
    (hord : 0 < k → ∀ y ∈ ys, (σ y).order = m) {y : String} (hy : y ∈ ys) {l : List String} (hl : l.length ≤ min k m) {dict : List (String × ℕ)}
    (hk : (dict.map (·.1)).Nodup) (hpos : ∀ p ∈ dict, 0 < p.2) (hcount : ∀ u, (dict.lookup u).getD 0 = l.count u) :
    ∃ c, (σ y).getDerivativeDict dict = .ok c ∧ ∀ i : ι, Lanes.lane i c = pds l (φ i y) 0 := by
  have hlo : l.length ≤ (σ y).getOrder := by
    rcases Nat.eq_zero_or_pos k with rfl | h
    · rw [Nat.zero_min] at hl; exact hl.trans (Nat.zero_le _)
    · exact (hl.trans (min_le_right _ _)).trans (hord h y hy).ge
  obtain ⟨c, hc, hlane⟩ := getDerivativeDict_count (ι := ι) (K := ℝ) (inv.base y).1 hlo hk hpos hcount
  exact ⟨c, hc, fun i => by rw [hlane i, ← (inv.taylor i y).pds_eq l hl]⟩

/-- **C79 (flow, partial).** The equations `y' = rhs y`, `y ∈ ys`. The variables in `I` (among them the time `t`, and usually the initial values of the `y` and
parameters) are `gdual(v s, s, m)`, the others are `gdual(v s)`. Let `ψ y` be the solution, as a function of time, initial values and parameters,
having an expansion to order `m` at the point `v`. Then the iteration `y := y0 + integrate(rhs y, t)` does not throw, and after `k` rounds the derivatives of degree at
most `min(k, m)`, in all the variables, are those of `ψ y`.

Restrictions: the order is at most 30 if `atan`, `asin` or `acos` occurs (finding 1); each right hand side uses a variable whose initial gdual has order `m`, otherwise
the claim is false (`C79_constant_counterexample`). -/
theorem C79_flow_partial {I : List String} {v : String → C} (ht : t ∈ I) (hty : t ∉ ys) (hm : 0 < m) (hI : ∀ s ∈ I, GDual.mk3 (v s) s m = .ok (σ0 s))
    (hI' : ∀ s ∉ I, σ0 s = GDual.ofCf (v s)) (hf : ∀ y ∈ ys, (rhs y).FnOrder m) (hfull : ∀ y ∈ ys, (rhs y).FullIn (· ∈ I))
    (hd : ∀ y ∈ ys, ∀ i : ι, (rhs y).Dom i fun s => Lanes.lane i (v s)) (ψ : ι → String → (String → ℝ) → ℝ)
    (hψ : ∀ y ∈ ys, ∀ i : ι, ∃ P, IsTaylor (fun s => Lanes.lane i (v s)) m (ψ i y) P)
    (hinit : ∀ y ∈ ys, ∀ i : ι, ∀ᶠ x in 𝓝 fun s => Lanes.lane i (v s), x t = Lanes.lane i (v t) → ψ i y x = if y ∈ I then x y else Lanes.lane i (v y))
    (hode : ∀ y ∈ ys, ∀ i : ι, ∀ᶠ x in 𝓝 fun s => Lanes.lane i (v s),
      HasPartialAt (ψ i y) ((rhs y).sem i fun s => if s ∈ ys then ψ i s x else if s ∈ I then x s else Lanes.lane i (v s)) t x) (k : ℕ) :
    ∃ σ, Picard ys rhs t σ0 k σ ∧ (∀ τ, Picard ys rhs t σ0 k τ → τ = σ) ∧ ∀ y ∈ ys, (0 < k → (σ y).getOrder = m) ∧
      ∀ l : List String, l.length ≤ min k m → ∀ dict : List (String × ℕ), (dict.map (·.1)).Nodup → (∀ p ∈ dict, 0 < p.2) →
        (∀ u, (dict.lookup u).getD 0 = (l.map fun s => "d" ++ s).count u) →
        ∃ c, (σ y).getDerivativeDict dict = .ok c ∧ ∀ i : ι, Lanes.lane i c = pds l (ψ i y) fun s => Lanes.lane i (v s) := by
  classical
  let a : ι → String → ℝ := fun i s => Lanes.lane i (v s)
  let sh : ι → (String → ℝ) → String → ℝ := fun i z s => a i s + z ("d" ++ s)
  have hsh0 : ∀ i, sh i 0 = a i := fun i => funext fun s => by simp [sh]
  have hsh : ∀ i, Tendsto (sh i) (𝓝 0) (𝓝 (a i)) := fun i => by
    have h1 : Continuous (sh i) := by fun_prop
    have h2 := h1.tendsto 0
    rwa [hsh0] at h2
  have hX : ∀ s ∈ I, ∀ i : ι, (σ0 s).toMv i = MvPolynomial.C (a i s) + X ("d" ++ s) := fun s hs i => by
    rw [toMv_mk3 (hI s hs), if_neg hm.ne']
  have hC : ∀ s ∉ I, ∀ i : ι, (σ0 s).toMv i = MvPolynomial.C (a i s) := fun s hs i => by
    rw [hI' s hs, toMv_ofCf]
  have hord : ∀ s ∈ I, (σ0 s).order = m := fun s hs => order_mk3 (hI s hs)
  let φ : ι → String → (String → ℝ) → ℝ := fun i s z => if s ∈ ys then ψ i s (sh i z) else MvPolynomial.eval z ((σ0 s).toMv i)
  have hφ : ∀ i s, s ∈ ys → φ i s = fun z => ψ i s (sh i z) := fun i s hs => funext fun z => if_pos hs
  have hφ' : ∀ i s, s ∉ ys → ∀ z, φ i s z = if s ∈ I then sh i z s else a i s := fun i s hs z => by
    change (if s ∈ ys then ψ i s (sh i z) else _) = _
    rw [if_neg hs]
    split_ifs with h
    · rw [hX s h]; simp [sh]
    · rw [hC s h]; simp
  have hval : ∀ (i : ι) s, φ i s 0 = a i s := fun i s => by
    by_cases hs : s ∈ ys
    · rw [hφ i s hs]
      have := (hinit s hs i).self_of_nhds rfl
      simp only [hsh0]
      refine this.trans ?_
      split_ifs <;> rfl
    · rw [hφ' i s hs, hsh0, ite_self]
  have hs : Solves ys rhs t m σ0 φ := by
    refine ⟨fun s => ?_, hf, fun y hy => ?_, fun y hy i => ?_, fun s hs i x => if_neg hs, fun y hy i => ?_, fun y hy i e he => ?_, fun y hy i => ?_⟩
    · by_cases h : s ∈ I
      · exact ⟨valid_mk3 (ι := ι) (K := ℝ) (hI s h), (hord s h).le, Or.inl (hord s h)⟩
      · rw [hI' s h]
        refine ⟨valid_ofCf _, Nat.zero_le _, Or.inr fun i => ?_⟩
        rw [toMv_ofCf]; simp
    · refine Expr.FullIn.mono (fun s h => hord s h) (rhs y) (hfull y hy)
    · have : (fun s => φ i s 0) = a i := funext (hval i)
      rw [this]; exact hd y hy i
    · rw [hφ i y hy]
      filter_upwards [(hsh i).eventually (hinit y hy i)] with z hz h0
      have h1 : sh i z t = Lanes.lane i (v t) := by simp [sh, h0, a]
      refine (hz h1).trans ?_
      split_ifs with h
      · rw [hX y h]; simp [sh]
      · rw [hC y h]; simp [a]
    · have hyt : y ≠ t := fun h => hty (h ▸ hy)
      have he0 : (0 : String →₀ ℕ) ≠ e := fun h => he (by rw [← h]; rfl)
      by_cases h : y ∈ I
      · rw [hX y h, coeff_add, coeff_C, if_neg he0, coeff_X, if_neg, zero_add]
        intro h1
        apply he
        rw [← h1]
        exact Finsupp.single_eq_of_ne fun h => hyt (d_append_injective h).symm
      · rw [hC y h, coeff_C, if_neg he0]
    · rw [hφ i y hy]
      filter_upwards [(hsh i).eventually (hode y hy i)] with z hz
      have h1 : (fun s => φ i s z) = fun s => if s ∈ ys then ψ i s (sh i z) else if s ∈ I then sh i z s else a i s := funext fun s => by
        by_cases h : s ∈ ys
        · rw [hφ i s h, if_pos h]
        · rw [hφ' i s h, if_neg h]
      rw [h1]
      unfold HasPartialAt at hz ⊢
      have h3 : ∀ w : ℝ, sh i (Function.update z ("d" ++ t) w) = Function.update (sh i z) t (a i t + w) := fun w => by
        funext s
        by_cases h : s = t
        · subst h; simp [sh]
        · simp only [sh]
          rw [Function.update_of_ne h, Function.update_of_ne (d_append_injective.ne h)]
      simp only [h3]
      exact hz.comp_const_add (a i t) (z ("d" ++ t))
  have hname := (mk3_ok.1 (hI t ht)).2.1
  have hsm : ∀ y ∈ ys, ∀ i : ι, ∃ P, IsTaylor 0 m (φ i y) P := fun y hy i => by
    obtain ⟨P, hP⟩ := hψ y hy i
    rw [hφ i y hy]
    exact ⟨_, isTaylor_shift d_append_injective hP⟩
  obtain ⟨σ, h1, inv, h2⟩ := picard_smooth hs hname hsm k
  refine ⟨σ, h1, fun τ hτ => h1.unique hτ, fun y hy => ⟨fun h => h2 h y hy, fun l hl dict hk hpos hcount => ?_⟩⟩
  obtain ⟨c, hc, hlane⟩ := inv.derivative h2 hy (l := l.map fun s => "d" ++ s) (by rwa [List.length_map]) hk hpos hcount
  refine ⟨c, hc, fun i => ?_⟩
  rw [hlane i, hφ i y hy]
  obtain ⟨P, hP⟩ := hψ y hy i
  rw [hP.pds_eq l (hl.trans (min_le_right _ _)),
    (isTaylor_shift d_append_injective hP).pds_eq _ (by rw [List.length_map]; exact hl.trans (min_le_right _ _)), List.foldl_map]
  have h5 : ∀ (l : List String) (Q : MvPolynomial String ℝ), l.foldl (fun Q s => pderiv ("d" ++ s) Q) (rename (fun s => "d" ++ s) Q) =
      rename (fun s => "d" ++ s) (l.foldl (fun Q s => pderiv s Q) Q) := fun l => by
    induction l with
    | nil => exact fun Q => rfl
    | cons s l ih =>
      intro Q
      rw [List.foldl_cons, List.foldl_cons, ← ih, pderiv_rename d_append_injective]
  rw [h5]
  exact constantCoeff_rename _ _

/-- Derivatives of a function of one coordinate. -/
theorem pds_replicate (u : String) (g : ℝ → ℝ) (l : ℕ) (z : String → ℝ) : pds (List.replicate l u) (fun z => g (z u)) z = iteratedDeriv l g (z u) := by
  induction l generalizing g with
  | zero => simp [pds]
  | succ l ih =>
    rw [List.replicate_succ, pds, iteratedDeriv_succ']
    have : (pd u fun z : String → ℝ => g (z u)) = fun z => deriv g (z u) := funext fun z => by simp [pd]
    rw [this, ih]

/-- **C79 (solutions, partial).** The equations `y' = rhs y`, `y ∈ ys`, with the time `t = gdual(v t, t, m)`; the other variables are numbers, given as `gdual(v s)` or
as `gdual(v s) + 0 * t`. Let `ψ y` be functions which are differentiable near the initial time and satisfy the equations and the initial values. Then the iteration
`y := y0 + integrate(rhs y, t)` does not throw, and after `k` rounds the value and the derivatives up to `min(k, m)` read from `y` are those of `ψ y`.

Restrictions as for `C79_flow_partial`. -/
theorem C79_ode_partial {v : String → C} (hty : t ∉ ys) (hm : 0 < m) (ht : GDual.mk3 (v t) t m = .ok (σ0 t))
    (hσ : ∀ s, s ≠ t → σ0 s = GDual.ofCf (v s) ∨ σ0 s = (GDual.ofCf (v s)).add ((σ0 t).mulGS Cf.zero)) (hf : ∀ y ∈ ys, (rhs y).FnOrder m)
    (hfull : ∀ y ∈ ys, (rhs y).FullIn fun s => (σ0 s).getOrder = m)
    (hd : ∀ y ∈ ys, ∀ i : ι, (rhs y).Dom i fun s => Lanes.lane i (v s)) (ψ : ι → String → ℝ → ℝ)
    (hinit : ∀ y ∈ ys, ∀ i : ι, ψ i y (Lanes.lane i (v t)) = Lanes.lane i (v y))
    (hode : ∀ y ∈ ys, ∀ i : ι, ∀ᶠ x in 𝓝 (Lanes.lane i (v t)),
      HasDerivAt (ψ i y) ((rhs y).sem i fun s => if s ∈ ys then ψ i s x else if s = t then x else Lanes.lane i (v s)) x) (k : ℕ) :
    ∃ σ, Picard ys rhs t σ0 k σ ∧ (∀ τ, Picard ys rhs t σ0 k τ → τ = σ) ∧ ∀ y ∈ ys, (0 < k → (σ y).getOrder = m) ∧
      (∃ c, (σ y).constantCf = .ok c ∧ ∀ i : ι, Lanes.lane i c = (Lanes.lane i (v y) : ℝ)) ∧
      ∀ l, 0 < l → l ≤ min k m →
        ∃ c, (σ y).getDerivativeDict [("d" ++ t, l)] = .ok c ∧ ∀ i : ι, Lanes.lane i c = iteratedDeriv l (ψ i y) (Lanes.lane i (v t)) := by
  classical
  let a : ι → String → ℝ := fun i s => Lanes.lane i (v s)
  have hvt : (σ0 t).Valid := valid_mk3 (ι := ι) (K := ℝ) ht
  have hot : (σ0 t).order = m := order_mk3 ht
  have hX : ∀ i : ι, (σ0 t).toMv i = MvPolynomial.C (a i t) + X ("d" ++ t) := fun i => by rw [toMv_mk3 ht, if_neg hm.ne']
  have hC : ∀ s, s ≠ t → (σ0 s).Valid ∧ (σ0 s).order ≤ m ∧ ∀ i : ι, (σ0 s).toMv i = MvPolynomial.C (a i s) := fun s hs => by
    rcases hσ s hs with h | h
    · rw [h]
      exact ⟨valid_ofCf _, Nat.zero_le _, fun i => toMv_ofCf _ _⟩
    · rw [h]
      have hz : ((σ0 t).mulGS (Cf.zero : C)).Valid := hvt.mul (valid_ofCfOrder _ _)
      refine ⟨(valid_ofCf _).add hz, ?_, fun i => ?_⟩
      · change max 0 (max (σ0 t).order (σ0 t).order) ≤ m
        rw [hot]; simp
      · rw [toMv_add (valid_ofCf _) hz, toMv_ofCf]
        have : ((σ0 t).mulGS (Cf.zero : C)).toMv i = (0 : MvPolynomial String ℝ) := by
          rw [toMv_mulGS _ hvt, Poly.lane_zero, map_zero, mul_zero]
        rw [this, add_zero]
  let φ : ι → String → (String → ℝ) → ℝ := fun i s z => if s ∈ ys then ψ i s (a i t + z ("d" ++ t)) else MvPolynomial.eval z ((σ0 s).toMv i)
  have hφ : ∀ i s, s ∈ ys → φ i s = fun z => ψ i s (a i t + z ("d" ++ t)) := fun i s hs => funext fun z => if_pos hs
  have hφ' : ∀ i s, s ∉ ys → ∀ z, φ i s z = if s = t then a i t + z ("d" ++ t) else a i s := fun i s hs z => by
    change (if s ∈ ys then _ else _) = _
    rw [if_neg hs]
    split_ifs with h
    · rw [h, hX]; simp
    · rw [(hC s h).2.2]; simp
  have hsh : ∀ i : ι, Tendsto (fun z : String → ℝ => a i t + z ("d" ++ t)) (𝓝 0) (𝓝 (a i t)) := fun i => by
    have h1 : Continuous fun z : String → ℝ => a i t + z ("d" ++ t) := by fun_prop
    simpa using h1.tendsto 0
  have hne : ∀ y ∈ ys, y ≠ t := fun y hy h => hty (h ▸ hy)
  have hs : Solves ys rhs t m σ0 φ := by
    refine ⟨fun s => ?_, hf, hfull, fun y hy i => ?_, fun s hs i x => if_neg hs, fun y hy i => Eventually.of_forall fun z h0 => ?_, fun y hy i e he => ?_, fun y hy i => ?_⟩
    · by_cases h : s = t
      · rw [h]; exact ⟨hvt, hot.le, Or.inl hot⟩
      · exact ⟨(hC s h).1, (hC s h).2.1, Or.inr fun i => by rw [(hC s h).2.2]; simp⟩
    · have : (fun s => φ i s 0) = a i := funext fun s => by
        by_cases h : s ∈ ys
        · rw [hφ i s h]; simpa using hinit s h i
        · rw [hφ' i s h]
          split_ifs with h2
          · rw [h2]; simp
          · rfl
      rw [this]; exact hd y hy i
    · rw [hφ i y hy, (hC y (hne y hy)).2.2]
      simp only [h0, add_zero, eval_C]
      exact hinit y hy i
    · rw [(hC y (hne y hy)).2.2, coeff_C, if_neg fun h => he (by rw [← h]; rfl)]
    · rw [hφ i y hy]
      filter_upwards [(hsh i).eventually (hode y hy i)] with z hz
      have h1 : (fun s => φ i s z) = fun s => if s ∈ ys then ψ i s (a i t + z ("d" ++ t)) else if s = t then a i t + z ("d" ++ t) else a i s :=
        funext fun s => by
          by_cases h : s ∈ ys
          · rw [hφ i s h, if_pos h]
          · rw [hφ' i s h, if_neg h]
      rw [h1]
      unfold HasPartialAt
      simp only [Function.update_self]
      exact hz.comp_const_add (a i t) (z ("d" ++ t))
  have hcst : ∀ y ∈ ys, ∀ (i : ι) (e : String →₀ ℕ), e ≠ 0 → coeff e ((σ0 y).toMv i : MvPolynomial String ℝ) = 0 := fun y hy i e he => by
    rw [(hC y (hne y hy)).2.2, coeff_C, if_neg he.symm]
  have hdep : ∀ (s : String) (i : ι) x x', x ("d" ++ t) = x' ("d" ++ t) → φ i s x = φ i s x' := fun s i x x' h => by
    by_cases hs : s ∈ ys
    · rw [hφ i s hs]; simp only [h]
    · rw [hφ' i s hs, hφ' i s hs, h]
  have hcont : ∀ y ∈ ys, ∀ i : ι, ContinuousAt (φ i y) 0 := fun y hy i => by
    rw [hφ i y hy]
    have h1 : ContinuousAt (ψ i y) (a i t + (0 : String → ℝ) ("d" ++ t)) := by
      have := (hode y hy i).self_of_nhds.continuousAt
      simpa using this
    exact h1.comp (f := fun z : String → ℝ => a i t + z ("d" ++ t)) (continuous_const.add (continuous_apply _)).continuousAt
  obtain ⟨σ, h1, inv, h2⟩ := picard_ode hs (mk3_ok.1 ht).2.1 hcst hdep hcont k
  refine ⟨σ, h1, fun τ hτ => h1.unique hτ, fun y hy => ⟨fun h => h2 h y hy, ?_, fun l hl hle => ?_⟩⟩
  · obtain ⟨c, hc⟩ := constantCf_isOk (σ y)
    refine ⟨c, hc, fun i => ?_⟩
    rw [lane_constantCf (ι := ι) (K := ℝ) (inv.base y).1 hc i, ← (inv.taylor i y).val, hφ i y hy]
    simpa using hinit y hy i
  · obtain ⟨c, hc, hlane⟩ := inv.derivative h2 hy (l := List.replicate l ("d" ++ t)) (by rwa [List.length_replicate])
      (dict := [("d" ++ t, l)]) (by simp) (by simpa using hl) fun u => by
        rw [List.count_replicate, List.lookup_cons]
        by_cases h : u = "d" ++ t
        · subst h; simp
        · have h' : (u == "d" ++ t) = false := by simpa using h
          have h'' : ("d" ++ t == u) = false := by simpa using Ne.symm h
          simp [h', h'']
    refine ⟨c, hc, fun i => ?_⟩
    rw [hlane i, hφ i y hy]
    refine (pds_replicate ("d" ++ t) (fun x => ψ i y (a i t + x)) l 0).trans ?_
    rw [iteratedDeriv_comp_const_add]
    simp [a]

/-- **C79 (existence).** Solutions as in `C79_ode_partial` exist whenever the initial point is in the domain of the right hand sides. -/
theorem C79_solution_exists {v : String → C} (hty : t ∉ ys) (hd : ∀ y ∈ ys, ∀ i : ι, (rhs y).Dom i fun s => Lanes.lane i (v s)) :
    ∃ ψ : ι → String → ℝ → ℝ, (∀ y ∈ ys, ∀ i : ι, ψ i y (Lanes.lane i (v t)) = Lanes.lane i (v y)) ∧
      ∀ y ∈ ys, ∀ i : ι, ∀ᶠ x in 𝓝 (Lanes.lane i (v t)),
        HasDerivAt (ψ i y) ((rhs y).sem i fun s => if s ∈ ys then ψ i s x else if s = t then x else Lanes.lane i (v s)) x := by
  choose ψ h1 h2 using fun i : ι => exists_solution i (v := fun s => Lanes.lane i (v s)) hty fun y hy => hd y hy i
  exact ⟨ψ, fun y hy i => h1 i y hy, fun y hy i => h2 i y hy⟩

/-- The equation `y' = y` with `y(0) = 1`, at order 50; the solution is the exponential. -/
example : ∃ σ0 : String → GDual ℝ, (GDual.mk3 0 "t" 50 = .ok (σ0 "t")) ∧
    (∀ s, s ≠ "t" → σ0 s = GDual.ofCf 1 ∨ σ0 s = (GDual.ofCf 1).add ((σ0 "t").mulGS Cf.zero)) ∧ (Expr.var (C := ℝ) "y").FnOrder 50 ∧
    (Expr.var (C := ℝ) "y").FullIn (fun s => (σ0 s).getOrder = 50) ∧
    ∀ x : ℝ, HasDerivAt Real.exp ((Expr.var (C := ℝ) "y").sem () fun s => if s ∈ ["y"] then Real.exp x else if s = "t" then x else 1) x := by
  obtain ⟨r, hr⟩ : ∃ r : GDual ℝ, GDual.mk3 0 "t" 50 = .ok r := ⟨_, mk3_ok.mpr ⟨by decide, ⟨'t', by decide, by decide⟩, rfl⟩⟩
  refine ⟨fun s => if s = "t" then r else (GDual.ofCf 1).add (r.mulGS Cf.zero), hr, fun s hs => Or.inr ?_, trivial, ?_, fun x => ?_⟩
  · simp only [if_neg hs]; rfl
  · change max 0 (max r.order r.order) = 50
    rw [order_mk3 hr]; rfl
  · simpa [Expr.sem] using Real.hasDerivAt_exp x

/-- The equation `y' = y` with the variables `t` and `y`; the flow is `y * exp(t)`. -/
example : (∃ σ0 : String → GDual ℝ, (∀ s ∈ ["t", "y"], GDual.mk3 ((fun s => if s = "y" then 1 else 0 : String → ℝ) s) s 50 = .ok (σ0 s)) ∧
      ∀ s ∉ ["t", "y"], σ0 s = GDual.ofCf 0) ∧
    (∀ a : String → ℝ, ∃ P, IsTaylor a 50 (fun x => x "y" * Real.exp (x "t")) P) ∧
    (Expr.var (C := ℝ) "y").FullIn (· ∈ ["t", "y"]) ∧ (∀ x : String → ℝ, x "t" = 0 → x "y" * Real.exp (x "t") = x "y") ∧
    ∀ x : String → ℝ, HasPartialAt (fun x => x "y" * Real.exp (x "t")) ((Expr.var (C := ℝ) "y").sem () fun s => if s ∈ ["y"] then x "y" * Real.exp (x "t") else x s) "t" x := by
  have hmk : ∀ (v : ℝ) (s : String) (c : Char), s.toList.head? = some c → c ≠ 'd' → ∃ r : GDual ℝ, GDual.mk3 v s 50 = .ok r :=
    fun v s c h1 h2 => ⟨_, mk3_ok.mpr ⟨by decide, ⟨c, h1, h2⟩, rfl⟩⟩
  obtain ⟨rt, ht⟩ := hmk 0 "t" 't' (by decide) (by decide)
  obtain ⟨ry, hy⟩ := hmk 1 "y" 'y' (by decide) (by decide)
  refine ⟨⟨fun s => if s = "t" then rt else if s = "y" then ry else ofCf 0, fun s hs => ?_, fun s hs => ?_⟩, fun a => ?_, by simp [Expr.FullIn], fun x hx => by simp [hx], fun x => ?_⟩
  · rcases List.mem_cons.1 hs with rfl | hs
    · simpa using ht
    · obtain rfl : s = "y" := by simpa using hs
      simpa using hy
  · simp only [List.mem_cons, List.not_mem_nil, or_false, not_or] at hs
    simp [hs.1, hs.2]
  · exact ⟨_, (IsTaylor.coord "y").mul ((IsTaylor.coord "t").comp (by simpa using isTaylor₁_exp))⟩
  · unfold HasPartialAt
    have h : ("y" : String) ≠ "t" := by decide
    simp only [Function.update_of_ne h, Function.update_self]
    simpa [Expr.sem] using (Real.hasDerivAt_exp (x "t")).const_mul (x "y")

/-- **C79 (counterexample, autonomous equations).** Without a variable of order `m` in the right hand side: `y' = y` with `y0 = gdual(1)`, a constant, which has the order 0. The
right hand side then has order 0 in the first round, `integrate` truncates at this order, and `y` never changes: at every order of `t` and after any number of
rounds it is the constant 1 of order 0, although the solution is the exponential. -/
theorem C79_constant_counterexample (m : ℕ) (hm : m < UINT_MAX - 10) (k : ℕ) :
    ∃ σ0 σ : String → GDual ℝ, GDual.mk3 0 "t" m = .ok (σ0 "t") ∧ (∀ s, s ≠ "t" → σ0 s = GDual.ofCf 1) ∧
      Picard ["y"] (fun _ => .var "y") "t" σ0 k σ ∧ (σ "y").getOrder = 0 ∧ (σ "y").eq (ofCf 1) = true := by
  obtain ⟨r, hr⟩ : ∃ r : GDual ℝ, GDual.mk3 0 "t" m = .ok r := ⟨_, mk3_ok.mpr ⟨hm, ⟨'t', by decide, by decide⟩, rfl⟩⟩
  let σ0 : String → GDual ℝ := fun s => if s = "t" then r else ofCf 1
  suffices h : ∃ σ, Picard ["y"] (fun _ => .var "y") "t" σ0 k σ ∧ (σ "y").Valid ∧ (σ "y").order = 0 ∧ (σ "y").toMv () = (MvPolynomial.C 1 : MvPolynomial String ℝ) by
    obtain ⟨σ, h1, h2, h3, h4⟩ := h
    refine ⟨σ0, σ, hr, fun s hs => if_neg hs, h1, h3, (Poly.eq_iff (ι := Unit) (K := ℝ) h2.wf (valid_ofCf (1 : ℝ)).wf).2 fun i => ?_⟩
    exact h4.trans (toMv_ofCf (1 : ℝ) ()).symm
  have h1 : (σ0 "y").toMv () = (MvPolynomial.C 1 : MvPolynomial String ℝ) := toMv_ofCf (1 : ℝ) ()
  induction k with
  | zero => exact ⟨σ0, .zero, valid_ofCf _, rfl, h1⟩
  | succ k ih =>
    obtain ⟨σ, hσ, hv, ho, hp⟩ := ih
    obtain ⟨s, hs⟩ : ∃ s, (σ "y").integrate "t" = .ok s := ⟨_, integrate_ok.2 ⟨⟨'t', by decide, by decide⟩, rfl⟩⟩
    have hsv := hv.integrate hs
    have hso : s.order = 0 := by
      obtain ⟨-, h⟩ := integrate_ok.1 hs
      rw [h]; exact ho
    have hs0 : s.toMv () = (0 : MvPolynomial String ℝ) := by
      ext e
      rw [coeff_integrate hv hs, ho, coeff_zero]
      split_ifs with h2 h3
      · rfl
      · rw [Nat.le_zero, Finsupp.degree_eq_zero_iff] at h2
        rw [h2] at h3; exact absurd rfl h3
      · rfl
    refine ⟨fun y => if y = "y" then (σ0 "y").add s else σ0 y, .succ hσ ⟨fun y hy => ?_, fun y hy => if_neg (by simpa using hy)⟩, ?_, ?_, ?_⟩
    · obtain rfl : y = "y" := by simpa using hy
      exact ⟨_, s, rfl, hs, rfl⟩
    · exact (valid_ofCf (1 : ℝ)).add hsv
    · change max 0 s.order = 0
      rw [hso]; rfl
    · change ((ofCf (1 : ℝ)).add s).toMv () = _
      rw [toMv_add (valid_ofCf (1 : ℝ)) hsv, toMv_ofCf, hs0, add_zero]
      rfl

end Audi
