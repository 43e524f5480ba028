import Verif.Proofs.Series
import Mathlib.Analysis.Calculus.MeanValue
import Mathlib.Topology.MetricSpace.Pseudo.Pi

/-! Taylor's theorem with Peano's form of the remainder, for `IsTaylor`. -/

namespace Audi.Spec

open MvPolynomial Topology Filter

variable {σ : Type*} [DecidableEq σ] {𝕜 : Type*} [RCLike 𝕜] {a : σ → 𝕜} {m : ℕ} {F R : (σ → 𝕜) → 𝕜} {P : MvPolynomial σ 𝕜}

/-- The points that differ from `a` in the variables of `S` only, by at most `r`. -/
def Near (S : Finset σ) (a : σ → 𝕜) (r : ℝ) (x : σ → 𝕜) : Prop := (∀ s, s ∉ S → x s = a s) ∧ ∀ s, ‖x s - a s‖ ≤ r

theorem near_of_eventually (S : Finset σ) {p : (σ → 𝕜) → Prop} (h : ∀ᶠ x in 𝓝 a, p x) :
    ∀ᶠ r : ℝ in 𝓝[>] 0, ∀ x, Near S a r x → p x := by
  let f : (S → 𝕜) → (σ → 𝕜) := fun y s => if hs : s ∈ S then y ⟨s, hs⟩ else a s
  have hf : Continuous f := by
    refine continuous_pi fun s => ?_
    by_cases hs : s ∈ S
    · simpa only [f, dif_pos hs] using continuous_apply (⟨s, hs⟩ : S)
    · simpa only [f, dif_neg hs] using continuous_const
  have hfa : f (fun s => a s) = a := by
    funext s
    by_cases hs : s ∈ S <;> simp [f, hs]
  have h1 : ∀ᶠ y in 𝓝 (fun s : S => a s), p (f y) := (hf.tendsto _).eventually (by rwa [hfa])
  obtain ⟨δ, hδ, hball⟩ := Metric.eventually_nhds_iff.mp h1
  filter_upwards [Ioo_mem_nhdsGT hδ] with r hr x hx
  have h2 : f (fun s => x s) = x := by
    funext s
    by_cases hs : s ∈ S
    · simp [f, hs]
    · simp [f, hs, hx.1 s hs]
  rw [← h2]
  refine hball (y := fun s : S => x s) (lt_of_le_of_lt ((dist_pi_le_iff hr.1.le).mpr fun s => ?_) hr.2)
  rw [dist_eq_norm]
  exact hx.2 s

/-- Moving one coordinate after the other. -/
theorem norm_sub_le_of_partial {S : Finset σ} {r B : ℝ} (hr : 0 ≤ r) {R' : σ → (σ → 𝕜) → 𝕜}
    (hd : ∀ s ∈ S, ∀ x, Near S a r x → HasPartialAt R (R' s x) s x) (hb : ∀ s ∈ S, ∀ x, Near S a r x → ‖R' s x‖ ≤ B) (T : Finset σ) :
    T ⊆ S → ∀ x, Near T a r x → ‖R x - R a‖ ≤ T.card * (B * r) := by
  induction T using Finset.induction_on with
  | empty =>
    intro _ x hx
    have : x = a := funext fun s => hx.1 s (Finset.notMem_empty s)
    simp [this]
  | insert s T hs ih =>
    intro hT x hx
    have hsS : s ∈ S := hT (Finset.mem_insert_self s T)
    have hTS : T ⊆ S := (Finset.subset_insert s T).trans hT
    have hup : ∀ t, t ∈ Metric.closedBall (a s) r → Near S a r (Function.update x s t) := fun t ht => by
      refine ⟨fun u hu => ?_, fun u => ?_⟩
      · have h1 : u ≠ s := fun h => hu (h ▸ hsS)
        rw [Function.update_of_ne h1]
        exact hx.1 u fun h => hu (hT h)
      · by_cases h1 : u = s
        · subst h1
          rw [Function.update_self, ← dist_eq_norm]; exact ht
        · rw [Function.update_of_ne h1]; exact hx.2 u
    have hy : Near T a r (Function.update x s (a s)) := by
      refine ⟨fun u hu => ?_, (hup (a s) (Metric.mem_closedBall_self hr)).2⟩
      by_cases h1 : u = s
      · subst h1; rw [Function.update_self]
      · rw [Function.update_of_ne h1]
        exact hx.1 u fun h => (Finset.mem_insert.mp h).elim h1 hu
    have h1 := ih hTS _ hy
    have h2 : ‖R (Function.update x s (x s)) - R (Function.update x s (a s))‖ ≤ B * ‖x s - a s‖ := by
      refine Convex.norm_image_sub_le_of_norm_hasDerivWithin_le (f := fun t => R (Function.update x s t))
        (f' := fun t => R' s (Function.update x s t)) (s := Metric.closedBall (a s) r) (fun t ht => ?_)
        (fun t ht => hb s hsS _ (hup t ht)) (convex_closedBall (a s) r) (Metric.mem_closedBall_self hr) ?_
      · have h3 := hd s hsS _ (hup t ht)
        simp only [HasPartialAt, Function.update_idem, Function.update_self] at h3
        exact h3.hasDerivWithinAt
      · rw [Metric.mem_closedBall, dist_eq_norm]; exact hx.2 s
    rw [Function.update_eq_self] at h2
    have hB : 0 ≤ B := (norm_nonneg _).trans (hb s hsS _ (hup (a s) (Metric.mem_closedBall_self hr)))
    have h3 : B * ‖x s - a s‖ ≤ B * r := mul_le_mul_of_nonneg_left (hx.2 s) hB
    rw [Finset.card_insert_of_notMem hs]
    push_cast
    calc ‖R x - R a‖ ≤ ‖R x - R (Function.update x s (a s))‖ + ‖R (Function.update x s (a s)) - R a‖ := norm_sub_le_norm_sub_add_norm_sub _ _ _
      _ ≤ B * r + T.card * (B * r) := add_le_add (h2.trans h3) h1
      _ = _ := by ring

/-- A function whose expansion to order `m` is 0 is small of order `m`. -/
theorem IsTaylor.peano_zero (h : IsTaylor a m R 0) (S : Finset σ) {ε : ℝ} (hε : 0 < ε) :
    ∀ᶠ r : ℝ in 𝓝[>] 0, ∀ x, Near S a r x → ‖R x‖ ≤ ε * r ^ m := by
  induction m generalizing R ε with
  | zero =>
    have hv : R a = 0 := by simpa using h.val
    have h1 : ∀ᶠ x in 𝓝 a, ‖R x‖ < ε := by
      have := h.cont.norm
      rw [ContinuousAt, hv, norm_zero] at this
      exact this.eventually (gt_mem_nhds hε)
    filter_upwards [near_of_eventually S h1] with r hr x hx
    rw [pow_zero, mul_one]
    exact (hr x hx).le
  | succ m ih =>
    have hv : R a = 0 := by simpa using h.val
    have hex : ∀ s, ∃ R' : (σ → 𝕜) → 𝕜, (∀ᶠ x in 𝓝 a, HasPartialAt R (R' x) s x) ∧ IsTaylor a m R' 0 := fun s => by
      obtain ⟨R', h1, h2⟩ := h.2.2 s
      exact ⟨R', h1, by simpa using h2⟩
    choose R' h1 h2 using hex
    have hε' : 0 < ε / (S.card + 1) := by positivity
    have h3 : ∀ᶠ r : ℝ in 𝓝[>] 0, ∀ s ∈ S, ∀ x, Near S a r x → HasPartialAt R (R' s x) s x :=
      (Filter.eventually_all_finset S).mpr fun s _ => near_of_eventually S (h1 s)
    have h4 : ∀ᶠ r : ℝ in 𝓝[>] 0, ∀ s ∈ S, ∀ x, Near S a r x → ‖R' s x‖ ≤ ε / (S.card + 1) * r ^ m :=
      (Filter.eventually_all_finset S).mpr fun s _ => ih (h2 s) hε'
    filter_upwards [h3, h4, self_mem_nhdsWithin] with r hr3 hr4 hr0 x hx
    have hr0' : (0 : ℝ) < r := hr0
    have h5 := norm_sub_le_of_partial hr0'.le hr3 hr4 S subset_rfl x hx
    rw [hv, sub_zero] at h5
    refine h5.trans ?_
    have h6 : (0 : ℝ) < r ^ (m + 1) := by positivity
    have h7 : (S.card : ℝ) * (ε / (S.card + 1)) ≤ ε := by
      rw [mul_div_assoc', div_le_iff₀ (by positivity)]
      nlinarith
    calc (S.card : ℝ) * (ε / (S.card + 1) * r ^ m * r) = S.card * (ε / (S.card + 1)) * r ^ (m + 1) := by ring
      _ ≤ ε * r ^ (m + 1) := mul_le_mul_of_nonneg_right h7 h6.le

/-- Taylor's theorem: the difference of `F` and its expansion of order `m` is `o(r ^ m)`. -/
theorem IsTaylor.peano (h : IsTaylor a m F P) (S : Finset σ) {ε : ℝ} (hε : 0 < ε) :
    ∀ᶠ r : ℝ in 𝓝[>] 0, ∀ x, Near S a r x → ‖F x - eval (fun s => x s - a s) P‖ ≤ ε * r ^ m := by
  have h1 := h.sub (isTaylor_poly a m P)
  rw [sub_self] at h1
  exact h1.peano_zero S hε

omit [DecidableEq σ] in
/-- A polynomial without terms of degree up to `m` is `O(r ^ (m + 1))`. -/
theorem eval_bound (hP : EqUpTo m P 0) : ∃ K : ℝ, 0 ≤ K ∧ ∀ r : ℝ, 0 < r → r ≤ 1 → ∀ y : σ → 𝕜, (∀ s, ‖y s‖ ≤ r) →
    ‖eval y P‖ ≤ K * r ^ (m + 1) := by
  refine ⟨∑ e ∈ P.support, ‖P.coeff e‖, Finset.sum_nonneg fun _ _ => norm_nonneg _, fun r hr h1 y hy => ?_⟩
  rw [eval_eq, Finset.sum_mul]
  refine (norm_sum_le _ _).trans (Finset.sum_le_sum fun e he => ?_)
  rw [norm_mul]
  refine mul_le_mul_of_nonneg_left ?_ (norm_nonneg _)
  have hd : m + 1 ≤ e.degree := by
    by_contra hlt
    have := hP e (by omega)
    rw [coeff_zero] at this
    exact (mem_support_iff.mp he) this
  rw [norm_prod]
  calc ∏ s ∈ e.support, ‖y s ^ e s‖ ≤ ∏ s ∈ e.support, r ^ e s := by
        refine Finset.prod_le_prod (fun _ _ => norm_nonneg _) fun s _ => ?_
        rw [norm_pow]
        exact pow_le_pow_left₀ (norm_nonneg _) (hy s) _
    _ = r ^ e.degree := by rw [Finset.prod_pow_eq_pow_sum]; rfl
    _ ≤ r ^ (m + 1) := pow_le_pow_of_le_one hr.le h1 hd

/-- With one more derivative, the difference of `F` and its expansion of order `m` is `O(r ^ (m + 1))`. -/
theorem IsTaylor.big_o {Q : MvPolynomial σ 𝕜} (h : IsTaylor a m F P) (h' : IsTaylor a (m + 1) F Q) (S : Finset σ) :
    ∃ K : ℝ, ∀ᶠ r : ℝ in 𝓝[>] 0, ∀ x, Near S a r x → ‖F x - eval (fun s => x s - a s) P‖ ≤ K * r ^ (m + 1) := by
  have h1 : EqUpTo m (Q - P) 0 := fun e he => by
    rw [coeff_sub, h'.of_succ.unique h e he, sub_self, coeff_zero]
  obtain ⟨K, -, hK⟩ := eval_bound h1
  refine ⟨1 + K, ?_⟩
  filter_upwards [h'.peano S one_pos, Ioo_mem_nhdsGT (one_pos : (0 : ℝ) < 1)] with r hr h01 x hx
  have h2 := hK r h01.1 h01.2.le (fun s => x s - a s) hx.2
  rw [map_sub] at h2
  have h3 := hr x hx
  calc ‖F x - eval (fun s => x s - a s) P‖ = ‖(F x - eval (fun s => x s - a s) Q) + (eval (fun s => x s - a s) Q - eval (fun s => x s - a s) P)‖ := by
        congr 1; ring
    _ ≤ 1 * r ^ (m + 1) + K * r ^ (m + 1) := (norm_add_le _ _).trans (add_le_add h3 h2)
    _ = _ := by ring

end Audi.Spec
