import Verif.Proofs.CauchyEstimate
import Verif.Proofs.ExprAnalytic
import Verif.Proofs.MapCompose
import Verif.Props.C06_Coefficients
import Verif.Props.C77_Approximation

/-!
# C91: expansions of increasing order

One constant for all orders: the error of the expansion of order `m` decreases like `(ρ / r) ^ (m + 1)`. With complex coefficients the constants are
explicit: the radius of any polydisc in the domain of the expression and a bound of its values there.
-/

namespace Audi

open MvPolynomial Spec GDual Filter Topology

theorem support_of_run {C : Type} [Cf C] {𝕜 : Type} [RCLike 𝕜] {ι : Type} [Lanes C ι 𝕜] {l : List String} {r : GDual C} {m : ℕ} (hv : r.Valid) (hm : r.order ≤ m)
    (hs : SubSyms (l.map fun s => "d" ++ s) r) (i : ι) :
    ∀ e ∈ (r.toMv i : MvPolynomial String 𝕜).support, e.degree ≤ m ∧ e.support ⊆ (l.map fun s => "d" ++ s).toFinset := by
  intro e he
  refine ⟨?_, fun s hs' => ?_⟩
  · by_contra h
    exact mem_support_iff.1 he (Valid.degLE (K := 𝕜) hv i e (by omega))
  · have := mem_supported.1 (toMv_mem_supported (K := 𝕜) r i (S := {t | t ∈ r.p.syms}) fun s hs => hs) ((mem_vars_iff_mem_support s).2 ⟨e, he, hs'⟩)
    exact List.mem_toFinset.2 (hs.sub s this)

section
variable {C : Type} [CfFun C] {ι : Type} [Lanes C ι ℝ] [LanesFun C ι]

/-- **C91 (partial).** Let the point `v` be in the domain of the expression `e`. There are a radius `r` and a constant `K` such that for every order `m` the evaluation on
the gduals `gdual(v s, s, m)` succeeds, `evaluate` succeeds on every dictionary that gives a displacement to each variable of `e`, and if all displacements are at most
`ρ < r` the value differs from the function by at most `K (ρ / r) ^ (m + 1)`. Restriction (`Legal`): orders up to 30 if `atan`, `asin` or `acos` occurs; for larger orders
the statement is false (`C91_counterexample`). -/
theorem C91_series_partial {v : String → C} (e : Expr C) (hd : ∀ i : ι, e.Dom i fun s => Lanes.lane i (v s)) (i : ι) :
    ∃ r > 0, ∃ K > 0, ∀ m : ℕ, m < UINT_MAX - 10 → e.Legal m → ∃ d, e.run v m = .ok d ∧ ∀ ρ : ℝ, 0 < ρ → ρ < r →
      ∀ h : String → C, (∀ s ∈ e.vars, |(Lanes.lane i (h s) : ℝ)| ≤ ρ) →
        ∀ dict : List (String × C), (∀ s ∈ e.vars, dict.lookup ("d" ++ s) = some (h s)) →
          ∃ c, d.evaluate dict = .ok c ∧ |e.sem i (fun s => Lanes.lane i (v s) + Lanes.lane i (h s)) - Lanes.lane i c| ≤ K * (ρ / r) ^ (m + 1) := by
  classical
  let p : ι → String → ℝ := fun i => Function.extend (fun s => "d" ++ s) (fun s => Lanes.lane i (v s)) 0
  have hp : ∀ (i : ι) (s : String), p i ("d" ++ s) = Lanes.lane i (v s) := fun i s => d_append_injective.extend_apply _ _ s
  set S := (e.vars.map fun s => "d" ++ s).toFinset
  have hext : (extend S (p i) fun s => p i s) = p i := by
    funext s
    unfold extend
    split_ifs <;> rfl
  obtain ⟨r, hr, K, hK, h⟩ := analytic_taylor (a := p i) (F := fun x => e.sem i fun s => x ("d" ++ s)) S
    (Expr.analyticAt i (X := fun y s => extend S (p i) y ("d" ++ s)) (fun s => analyticAt_extend S (p i) _ _) e (by
      rw [hext]
      simpa only [hp] using hd i))
  refine ⟨r, hr, K, hK, fun m hm hl => ?_⟩
  obtain ⟨d, hrun, hg, -⟩ := Expr.run_good hm hp e hl hd
  refine ⟨d, hrun, fun ρ h0 h1 g hgρ dict hdict => ?_⟩
  exact evaluate_at i (e.run_subSyms hrun) (fun x y hxy => e.sem_congr i hxy) (hp i) h0
    (h m _ (hg.taylor i) (fun E hE => (support_of_run hg.valid hg.le (e.run_subSyms hrun) i E hE).1) ρ h0 h1) g hgρ dict hdict

/-- An expression of every order and its domain. -/
example : ∃ e : Expr ℝ, e = .bin .div (.fn .exp (.var "x")) (.left .add 1 (.var "y")) ∧ (∀ m, e.Legal m) ∧
    (∀ i : Unit, e.Dom i fun s => Lanes.lane i (if s = "x" then 1 else 2 : ℝ)) := by
  refine ⟨_, rfl, fun m => ?_, fun i => ?_⟩
  · simp [Expr.Legal, Fn.MaxOrder]
  · have hyx : "y" ≠ "x" := by decide
    simp only [Expr.Dom, Expr.sem, Fn.Dom, Op.Dom, Op.real, Lanes.lane, if_neg hyx]
    norm_num

end

/-- **C91 (counterexample).** For `atan(x)` at `x = 1` there are no radius and constant for all orders, not even for orders up to 31. -/
theorem C91_counterexample : ¬ ∃ r > (0 : ℝ), ∃ K > (0 : ℝ), ∀ m : ℕ, m ≤ 31 → ∃ d : GDual ℝ, (Expr.fn .atan (.var "x") : Expr ℝ).run (fun _ => 1) m = .ok d ∧
    ∀ ρ : ℝ, 0 < ρ → ρ < r → ∃ c, d.evaluate [("dx", ρ)] = .ok c ∧ |Real.arctan (1 + ρ) - c| ≤ K * (ρ / r) ^ (m + 1) := by
  rintro ⟨r, hr, K, hK, h⟩
  obtain ⟨d, h1, h2⟩ := h 31 le_rfl
  obtain ⟨d', h3, h4⟩ := C77_counterexample
  obtain rfl : d = d' := Except.ok.inj (h1.symm.trans h3)
  refine h4 fun ε hε => ⟨min r (ε * r ^ 32 / K), by positivity, fun ρ h0 hρ => ?_⟩
  obtain ⟨c, h5, h6⟩ := h2 ρ h0 (hρ.trans_le (min_le_left _ _))
  refine ⟨c, h5, h6.trans ?_⟩
  have h7 : ρ * K ≤ ε * r ^ 32 := (le_div_iff₀ hK).1 (hρ.le.trans (min_le_right _ _))
  rw [div_pow, mul_div_assoc', div_le_iff₀ (by positivity)]
  calc K * ρ ^ (31 + 1) = ρ * K * ρ ^ 31 := by ring
    _ ≤ ε * r ^ 32 * ρ ^ 31 := mul_le_mul_of_nonneg_right h7 (by positivity)
    _ = _ := by ring

section
variable {v : String → ℂ} {m : ℕ} {R M : ℝ}

/-- The functions with a bound on the order are not available with complex coefficients. -/
theorem Expr.legal_any {x : String → ℂ} (e : Expr ℂ) {m : ℕ} (n : ℕ) (hd : e.CDom x) (h : e.Legal m) : e.Legal n := by
  induction e with
  | var s => exact h
  | const c => trivial
  | bin op a b iha ihb => exact ⟨iha hd.1 h.1, ihb hd.2.1 h.2⟩
  | left op c a ih => exact ih hd.1 h
  | right op a c ih => exact ih hd.1 h
  | fn f a ih => exact ⟨ih hd.1 h.1, by cases f <;> first | trivial | exact hd.2.elim⟩
  | pow a b iha ihb => exact ⟨iha hd.1 h.1, ihb hd.2.1 h.2⟩

/-- The hypotheses of the estimates for holomorphic functions. -/
theorem Expr.holomorphic (e : Expr ℂ) (hl : e.Legal m) (hd : ∀ x : String → ℂ, (∀ s ∈ e.vars, ‖x s - v s‖ ≤ R) → e.CDom x) {p : String → ℂ}
    (hp : ∀ s, p ("d" ++ s) = v s) (x : String → ℂ) (hx : Near ((e.vars.map fun s => "d" ++ s).toFinset) p R x) :
    ∃ P, IsTaylor x 1 (fun x => e.csem fun s => x ("d" ++ s)) P := by
  have h1 := hd (fun s => x ("d" ++ s)) fun s _ => by rw [← hp s]; exact hx.2 _
  obtain ⟨r, -, hg, -⟩ := Expr.run_good_c (v := fun s => x ("d" ++ s)) (p := fun _ => x) (m := 1) (by decide) (fun _ _ => rfl) e (e.legal_any 1 h1 hl) h1
  exact ⟨_, hg.taylor ()⟩

/-- **C91, complex coefficients.** If all points at distance at most `R` from `v` are in the domain of the expression and `M` bounds its values there, then for every order `m` the
evaluation succeeds, and for displacements of size at most `ρ < R` the value of the expansion differs from the function by at most `M (ρ / R) ^ (m + 1) / (1 - ρ / R)`. -/
theorem C91_complex (hm : m < UINT_MAX - 10) (e : Expr ℂ) (hl : e.Legal m) (hR : 0 < R)
    (hd : ∀ x : String → ℂ, (∀ s ∈ e.vars, ‖x s - v s‖ ≤ R) → e.CDom x) (hM : ∀ x : String → ℂ, (∀ s ∈ e.vars, ‖x s - v s‖ ≤ R) → ‖e.csem x‖ ≤ M) :
    ∃ r, e.run v m = .ok r ∧ ∀ ρ : ℝ, 0 < ρ → ρ < R → ∀ h : String → ℂ, (∀ s ∈ e.vars, ‖h s‖ ≤ ρ) →
      ∀ dict : List (String × ℂ), (∀ s ∈ e.vars, dict.lookup ("d" ++ s) = some (h s)) →
        ∃ c, r.evaluate dict = .ok c ∧ ‖e.csem (fun s => v s + h s) - c‖ ≤ M * (ρ / R) ^ (m + 1) / (1 - ρ / R) := by
  classical
  let p : Unit → String → ℂ := fun _ => Function.extend (fun s => "d" ++ s) v 0
  have hp : ∀ (i : Unit) (s : String), p i ("d" ++ s) = v s := fun i s => d_append_injective.extend_apply _ _ s
  obtain ⟨r, hr, hg, -⟩ := Expr.run_good_c hm hp e hl (hd v fun s _ => by simpa using hR.le)
  refine ⟨r, hr, fun ρ h0 h1 g hgρ dict hdict => ?_⟩
  refine evaluate_at (𝕜 := ℂ) () (e.run_subSyms hr) (fun x y hxy => e.csem_congr hxy) (hp ()) h0 (fun x hx => ?_) g hgρ dict hdict
  exact holomorphic_taylor _ hR (e.holomorphic hl hd (hp ())) (fun x hx => hM _ fun s _ => by rw [← hp () s]; exact hx.2 _) (hg.taylor ())
    (fun E hE => (support_of_run hg.valid hg.le (e.run_subSyms hr) () E hE).1) h0 h1 hx

/-- **C91, Cauchy's estimates.** Under the same hypotheses, the derivative returned by `get_derivative` for the exponents `k` is at most
`M * (the product of the factorials of k) / R ^ |k|`, and the coefficient returned by `find_cf` at most `M / R ^ |k|`, for every order and all exponents within it. -/
theorem C91_cauchy (hm : m < UINT_MAX - 10) (e : Expr ℂ) (hl : e.Legal m) (hR : 0 < R)
    (hd : ∀ x : String → ℂ, (∀ s ∈ e.vars, ‖x s - v s‖ ≤ R) → e.CDom x) (hM : ∀ x : String → ℂ, (∀ s ∈ e.vars, ‖x s - v s‖ ≤ R) → ‖e.csem x‖ ≤ M) :
    ∃ r, e.run v m = .ok r ∧ ∀ k : List ℕ, k.sum ≤ r.getOrder → k.length = r.symbolSetSize →
      (∃ c, r.findCf k = .ok c ∧ ‖c‖ ≤ M / R ^ k.sum) ∧ ∃ c, r.getDerivative k = .ok c ∧ ‖c‖ ≤ M * (k.map Nat.factorial).prod / R ^ k.sum := by
  classical
  let p : Unit → String → ℂ := fun _ => Function.extend (fun s => "d" ++ s) v 0
  have hp : ∀ (i : Unit) (s : String), p i ("d" ++ s) = v s := fun i s => d_append_injective.extend_apply _ _ s
  obtain ⟨r, hr, hg, -⟩ := Expr.run_good_c hm hp e hl (hd v fun s _ => by simpa using hR.le)
  refine ⟨r, hr, fun k h1 h2 => ?_⟩
  have hco : ‖coeff (toExp r.p.syms k) (r.toMv () : MvPolynomial String ℂ)‖ ≤ M / R ^ k.sum := by
    have := holomorphic_coeff _ hR (e.holomorphic hl hd (hp ())) (fun x hx => hM _ fun s _ => by rw [← hp () s]; exact hx.2 _) (hg.taylor ())
      (support_of_run hg.valid hg.le (e.run_subSyms hr) ()) (toExp r.p.syms k)
    rwa [degree_toExp h2] at this
  obtain ⟨c, c1, c2⟩ := (C06_find_cf (ι := Unit) (K := ℂ) hg.valid k).1 ⟨h1, h2⟩
  obtain ⟨c', c3, c4⟩ := (C07_get_derivative (ι := Unit) (K := ℂ) hg.valid k).1 ⟨h1, h2⟩
  refine ⟨⟨c, c1, ?_⟩, c', c3, ?_⟩
  · rw [show c = _ from c2 ()]
    exact hco
  · rw [show c' = _ from c4 (), norm_mul, Complex.norm_natCast, mul_comm M, mul_div_assoc, mul_comm]
    exact mul_le_mul_of_nonneg_left hco (Nat.cast_nonneg _)

/-- The exponential function on the disc of radius 2 around 0 meets the hypotheses at every order. -/
example : ∃ e : Expr ℂ, e = .fn .exp (.var "x") ∧ (∀ m, e.Legal m) ∧ (∀ x : String → ℂ, (∀ s ∈ e.vars, ‖x s - 0‖ ≤ 2) → e.CDom x) ∧
    ∀ x : String → ℂ, (∀ s ∈ e.vars, ‖x s - 0‖ ≤ 2) → ‖e.csem x‖ ≤ Real.exp 2 := by
  refine ⟨_, rfl, fun m => by simp [Expr.Legal, Fn.MaxOrder], fun x _ => ⟨trivial, trivial⟩, fun x hx => ?_⟩
  change ‖Complex.exp (x "x")‖ ≤ _
  rw [Complex.norm_exp]
  refine Real.exp_le_exp.2 ((Complex.re_le_norm _).trans ?_)
  simpa [Expr.vars] using hx

end
end Audi
