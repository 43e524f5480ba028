import Verif.Proofs.Peano
import Verif.Proofs.ExprSyms
import Verif.Props.C13_Terms
import Verif.Props.C22_Functions
import Verif.Props.C75_Complex
import Mathlib.Topology.Algebra.Polynomial

/-!
# C77: the value of the expansion near the point

The polynomial in the displacements computed by an expression on gduals of order `m`, evaluated with `evaluate`, differs from the function by
less than every multiple of `ρ ^ m`, and by at most a multiple of `ρ ^ (m + 1)`, for displacements of size at most `ρ`.
-/

namespace Audi

open MvPolynomial Spec GDual Filter Topology

section
variable {C : Type} [Cf C]

theorem monoVal_congr {f g : String → C} {ss : List String} {e : List ℕ} (h : ∀ s ∈ ss, f s = g s) : Poly.monoVal f ss e = Poly.monoVal g ss e := by
  induction ss generalizing e with
  | nil => rfl
  | cons s ss ih =>
    cases e with
    | nil => rfl
    | cons k e =>
      unfold Poly.monoVal
      rw [h s List.mem_cons_self, ih fun t ht => h t (List.mem_cons_of_mem _ ht)]

/-- `evaluate` looks up the symbols of the polynomial only. -/
theorem evaluate_congr {r : GDual C} {dict dict' : List (String × C)} (h : ∀ s ∈ r.p.syms, dict.lookup s = dict'.lookup s) :
    r.evaluate dict = r.evaluate dict' := by
  unfold GDual.evaluate Poly.evaluate
  have h1 : (r.p.syms.all fun s => (dict.lookup s).isSome) = r.p.syms.all fun s => (dict'.lookup s).isSome := by
    rw [Bool.eq_iff_iff, List.all_eq_true, List.all_eq_true]
    exact forall₂_congr fun s hs => by rw [h s hs]
  rw [h1]
  split_ifs with h2
  · congr 2
    refine List.map_congr_left fun t _ => ?_
    rw [monoVal_congr fun s hs => by rw [h s hs]]
  · rfl

omit [Cf C] in
theorem lookup_map_d (l : List String) (h : String → C) (u : String) :
    ((l.map fun s => ("d" ++ s, h s)).lookup u = none ∧ ∀ s ∈ l, u ≠ "d" ++ s) ∨
      ∃ s ∈ l, u = "d" ++ s ∧ (l.map fun s => ("d" ++ s, h s)).lookup u = some (h s) := by
  induction l with
  | nil => exact Or.inl ⟨rfl, fun s hs => absurd hs List.not_mem_nil⟩
  | cons t l ih =>
    rw [List.map_cons, List.lookup_cons]
    by_cases hu : u = "d" ++ t
    · subst hu
      simp
    · have : (u == "d" ++ t) = false := by simpa using hu
      simp only [this]
      rcases ih with ⟨h1, h2⟩ | ⟨s, hs, h1, h2⟩
      · refine Or.inl ⟨h1, fun s hs => ?_⟩
        rcases List.mem_cons.1 hs with rfl | hs
        · exact hu
        · exact h2 s hs
      · exact Or.inr ⟨s, List.mem_cons_of_mem _ hs, h1, h2⟩

end

section
variable {C : Type} [Cf C] {𝕜 : Type} [RCLike 𝕜] {ι : Type} [Lanes C ι 𝕜] {m k : ℕ} {F : (String → 𝕜) → 𝕜} {r : GDual C} {a : String → 𝕜}
  {l : List String} {B : ℝ}

/-- From points near the centre to dictionaries of displacements. -/
theorem evaluate_at (i : ι) (hs : SubSyms (l.map fun s => "d" ++ s) r) (hF : ∀ x y : String → 𝕜, (∀ s ∈ l, x s = y s) → F x = F y)
    {p : String → 𝕜} (hp : ∀ s, p ("d" ++ s) = a s)
    {ρ : ℝ} (h0 : 0 < ρ) (h : ∀ x, Near ((l.map fun s => "d" ++ s).toFinset) p ρ x →
      ‖(F fun s => x ("d" ++ s)) - eval (fun s => x s - p s) (r.toMv i)‖ ≤ B)
    (g : String → C) (hg : ∀ s ∈ l, ‖(Lanes.lane i (g s) : 𝕜)‖ ≤ ρ) (dict : List (String × C)) (hdict : ∀ s ∈ l, dict.lookup ("d" ++ s) = some (g s)) :
    ∃ c, r.evaluate dict = .ok c ∧ ‖(F fun s => a s + Lanes.lane i (g s)) - Lanes.lane i c‖ ≤ B := by
  classical
  have hsym : ∀ u ∈ r.p.syms, ∃ s ∈ l, u = "d" ++ s := fun u hu => by
    obtain ⟨s, hs, rfl⟩ := List.mem_map.1 (hs.sub u hu)
    exact ⟨s, hs, rfl⟩
  obtain ⟨c, hc⟩ := (C15_evaluate_throws r dict).1.2 fun u hu => by
    obtain ⟨s, hs, rfl⟩ := hsym u hu
    rw [hdict s hs]; rfl
  have hc' : r.evaluate (l.map fun s => ("d" ++ s, g s)) = .ok c := by
    rw [← hc]
    refine evaluate_congr fun u hu => ?_
    obtain ⟨s, hs, rfl⟩ := hsym u hu
    rw [hdict s hs]
    rcases lookup_map_d l g ("d" ++ s) with h2 | ⟨t, -, h2, h3⟩
    · exact absurd rfl (h2.2 s hs)
    · rw [h3, d_append_injective h2]
  refine ⟨c, hc, ?_⟩
  let y : String → 𝕜 := fun u => Lanes.lane i (((l.map fun s => ("d" ++ s, g s)).lookup u).getD Cf.zero)
  have hy : ∀ u, (u ∉ (l.map fun s => "d" ++ s).toFinset ∧ y u = 0) ∨ ∃ s ∈ l, u = "d" ++ s ∧ y u = Lanes.lane i (g s) := fun u => by
    rcases lookup_map_d l g u with ⟨h2, h3⟩ | ⟨s, hs, h2, h3⟩
    · refine Or.inl ⟨fun hu => ?_, ?_⟩
      · obtain ⟨s, hs, rfl⟩ := List.mem_map.1 (List.mem_toFinset.1 hu)
        exact h3 s hs rfl
      · simp only [y, h2, Option.getD_none, Poly.lane_zero]
    · exact Or.inr ⟨s, hs, h2, by simp only [y, h3, Option.getD_some]⟩
  have hyl : ∀ s ∈ l, y ("d" ++ s) = Lanes.lane i (g s) := fun s hs => by
    rcases lookup_map_d l g ("d" ++ s) with h2 | ⟨t, -, h2, h3⟩
    · exact absurd rfl (h2.2 s hs)
    · simp only [y, h3, Option.getD_some]
      rw [d_append_injective h2]
  have hnear : Near ((l.map fun s => "d" ++ s).toFinset) p ρ (fun u => p u + y u) := by
    refine ⟨fun u hu => ?_, fun u => ?_⟩
    · rcases hy u with h2 | ⟨s, hs, rfl, -⟩
      · change p u + y u = p u
        rw [h2.2, add_zero]
      · exact absurd (List.mem_toFinset.2 (List.mem_map.2 ⟨s, hs, rfl⟩)) hu
    · change ‖p u + y u - p u‖ ≤ ρ
      rw [add_sub_cancel_left]
      rcases hy u with h2 | ⟨s, hs, rfl, h3⟩
      · rw [h2.2, norm_zero]; exact h0.le
      · rw [h3]; exact hg s hs
  have h4 := h _ hnear
  have h5 : (Lanes.lane i c : 𝕜) = eval y (r.toMv i) := C15_evaluate_value hc' i
  simp only [add_sub_cancel_left] at h4
  rw [h5, hF _ (fun s => p ("d" ++ s) + y ("d" ++ s)) fun s hs => by rw [hp, hyl s hs]]
  exact h4

theorem evaluate_near (i : ι) (hs : SubSyms (l.map fun s => "d" ++ s) r) (hF : ∀ x y : String → 𝕜, (∀ s ∈ l, x s = y s) → F x = F y)
    {p : String → 𝕜} (hp : ∀ s, p ("d" ++ s) = a s)
    (h : ∀ᶠ ρ : ℝ in 𝓝[>] 0, ∀ x, Near ((l.map fun s => "d" ++ s).toFinset) p ρ x →
      ‖(F fun s => x ("d" ++ s)) - eval (fun s => x s - p s) (r.toMv i)‖ ≤ B * ρ ^ k) :
    ∃ δ > 0, ∀ ρ : ℝ, 0 < ρ → ρ < δ → ∀ h : String → C, (∀ s ∈ l, ‖(Lanes.lane i (h s) : 𝕜)‖ ≤ ρ) →
      ∀ dict : List (String × C), (∀ s ∈ l, dict.lookup ("d" ++ s) = some (h s)) →
        ∃ c, r.evaluate dict = .ok c ∧ ‖(F fun s => a s + Lanes.lane i (h s)) - Lanes.lane i c‖ ≤ B * ρ ^ k := by
  obtain ⟨δ, hδ, h⟩ := mem_nhdsGT_iff_exists_Ioo_subset.1 h
  exact ⟨δ, hδ, fun ρ h0 h1 g hg dict hdict => evaluate_at i hs hF hp h0 (h ⟨h0, h1⟩) g hg dict hdict⟩

end

/-- The meaning depends on the variables of the expression only. -/
theorem Expr.sem_congr {C : Type} [CfFun C] {ι : Type} [Lanes C ι ℝ] (i : ι) {x y : String → ℝ} (e : Expr C) (h : ∀ s ∈ e.vars, x s = y s) :
    e.sem i x = e.sem i y := by
  induction e with
  | var s => exact h s (List.mem_singleton_self s)
  | const c => rfl
  | bin op e1 e2 ih1 ih2 =>
    unfold Expr.sem
    rw [ih1 fun s hs => h s (List.mem_append_left _ hs), ih2 fun s hs => h s (List.mem_append_right _ hs)]
  | left op c e ih => unfold Expr.sem; rw [ih h]
  | right op e c ih => unfold Expr.sem; rw [ih h]
  | fn f e ih => unfold Expr.sem; rw [ih h]
  | pow e1 e2 ih1 ih2 =>
    unfold Expr.sem
    rw [ih1 fun s hs => h s (List.mem_append_left _ hs), ih2 fun s hs => h s (List.mem_append_right _ hs)]

theorem Expr.csem_congr {x y : String → ℂ} (e : Expr ℂ) (h : ∀ s ∈ e.vars, x s = y s) : e.csem x = e.csem y := by
  induction e with
  | var s => exact h s (List.mem_singleton_self s)
  | const c => rfl
  | bin op e1 e2 ih1 ih2 =>
    unfold Expr.csem
    rw [ih1 fun s hs => h s (List.mem_append_left _ hs), ih2 fun s hs => h s (List.mem_append_right _ hs)]
  | left op c e ih => unfold Expr.csem; rw [ih h]
  | right op e c ih => unfold Expr.csem; rw [ih h]
  | fn f e ih => unfold Expr.csem; rw [ih h]
  | pow e1 e2 ih1 ih2 =>
    unfold Expr.csem
    rw [ih1 fun s hs => h s (List.mem_append_left _ hs), ih2 fun s hs => h s (List.mem_append_right _ hs)]

variable {C : Type} [CfFun C] {ι : Type} [Lanes C ι ℝ] [LanesFun C ι]

/-- **C77 (partial).** Let the point `v` be in the domain of the expression `e`, and let `r` be its value on the gduals `gdual(v s, s, m)`. Then `evaluate`
succeeds on every dictionary that gives a displacement `h s` to each variable of `e`, and for every `ε > 0`, the value differs from the function at
`v + h` by at most `ε ρ ^ m` if all displacements are at most `ρ` and `ρ` is small enough. Restriction (`Legal`): the order is at most 30 if `atan`, `asin` or
`acos` occurs. -/
theorem C77_little_o_partial {v : String → C} {m : ℕ} (hm : m < UINT_MAX - 10) (e : Expr C) (hl : e.Legal m)
    (hd : ∀ i : ι, e.Dom i fun s => Lanes.lane i (v s)) :
    ∃ r, e.run v m = .ok r ∧ ∀ (i : ι) (ε : ℝ), 0 < ε → ∃ δ > 0, ∀ ρ : ℝ, 0 < ρ → ρ < δ →
      ∀ h : String → C, (∀ s ∈ e.vars, |(Lanes.lane i (h s) : ℝ)| ≤ ρ) →
        ∀ dict : List (String × C), (∀ s ∈ e.vars, dict.lookup ("d" ++ s) = some (h s)) →
          ∃ c, r.evaluate dict = .ok c ∧ |e.sem i (fun s => Lanes.lane i (v s) + Lanes.lane i (h s)) - Lanes.lane i c| ≤ ε * ρ ^ m := by
  classical
  let p : ι → String → ℝ := fun i => Function.extend (fun s => "d" ++ s) (fun s => Lanes.lane i (v s)) 0
  have hp : ∀ (i : ι) (s : String), p i ("d" ++ s) = Lanes.lane i (v s) := fun i s => d_append_injective.extend_apply _ _ s
  obtain ⟨r, hr, hg, -⟩ := Expr.run_good hm hp e hl hd
  exact ⟨r, hr, fun i ε hε => evaluate_near i (e.run_subSyms hr) (fun x y hxy => e.sem_congr i hxy) (hp i) ((hg.taylor i).peano _ hε)⟩

theorem Fn.maxOrder_of_succ {f : Fn} {m : ℕ} (h : f.MaxOrder (m + 1)) : f.MaxOrder m := Fn.maxOrder_mono h (Nat.le_succ m)

omit [CfFun C] in
theorem Expr.legal_of_succ {m : ℕ} (e : Expr C) (h : e.Legal (m + 1)) : e.Legal m := by
  induction e with
  | var s => exact h
  | const c => trivial
  | bin op e1 e2 ih1 ih2 => exact ⟨ih1 h.1, ih2 h.2⟩
  | left op c e ih => exact ih h
  | right op e c ih => exact ih h
  | fn f e ih => exact ⟨ih h.1, Fn.maxOrder_of_succ h.2⟩
  | pow e1 e2 ih1 ih2 => exact ⟨ih1 h.1, ih2 h.2⟩

/-- **C77 (partial).** The difference is at most a constant times `ρ ^ (m + 1)`. Restriction as above, at order `m + 1`. -/
theorem C77_big_o_partial {v : String → C} {m : ℕ} (hm : m + 1 < UINT_MAX - 10) (e : Expr C) (hl : e.Legal (m + 1))
    (hd : ∀ i : ι, e.Dom i fun s => Lanes.lane i (v s)) :
    ∃ r, e.run v m = .ok r ∧ ∀ i : ι, ∃ K : ℝ, ∃ δ > 0, ∀ ρ : ℝ, 0 < ρ → ρ < δ →
      ∀ h : String → C, (∀ s ∈ e.vars, |(Lanes.lane i (h s) : ℝ)| ≤ ρ) →
        ∀ dict : List (String × C), (∀ s ∈ e.vars, dict.lookup ("d" ++ s) = some (h s)) →
          ∃ c, r.evaluate dict = .ok c ∧ |e.sem i (fun s => Lanes.lane i (v s) + Lanes.lane i (h s)) - Lanes.lane i c| ≤ K * ρ ^ (m + 1) := by
  classical
  let p : ι → String → ℝ := fun i => Function.extend (fun s => "d" ++ s) (fun s => Lanes.lane i (v s)) 0
  have hp : ∀ (i : ι) (s : String), p i ("d" ++ s) = Lanes.lane i (v s) := fun i s => d_append_injective.extend_apply _ _ s
  obtain ⟨r, hr, hg, -⟩ := Expr.run_good (by omega) hp e (e.legal_of_succ hl) hd
  obtain ⟨r', -, hg', -⟩ := Expr.run_good hm hp e hl hd
  refine ⟨r, hr, fun i => ?_⟩
  obtain ⟨K, hK⟩ := (hg.taylor i).big_o (hg'.taylor i) (e.vars.map fun s => "d" ++ s).toFinset
  exact ⟨K, evaluate_near i (e.run_subSyms hr) (fun x y hxy => e.sem_congr i hxy) (hp i) hK⟩

/-- **C77.** With complex coefficients: the functions with complex coefficients (without the inverse functions through `atan`), every order. -/
theorem C77_complex {v : String → ℂ} {m : ℕ} (hm : m + 1 < UINT_MAX - 10) (e : Expr ℂ) (hl : e.Legal (m + 1)) (hd : e.CDom v) :
    ∃ r, e.run v m = .ok r ∧ (∀ ε : ℝ, 0 < ε → ∃ δ > 0, ∀ ρ : ℝ, 0 < ρ → ρ < δ →
        ∀ h : String → ℂ, (∀ s ∈ e.vars, ‖h s‖ ≤ ρ) → ∀ dict : List (String × ℂ), (∀ s ∈ e.vars, dict.lookup ("d" ++ s) = some (h s)) →
          ∃ c, r.evaluate dict = .ok c ∧ ‖e.csem (fun s => v s + h s) - c‖ ≤ ε * ρ ^ m) ∧
      ∃ K : ℝ, ∃ δ > 0, ∀ ρ : ℝ, 0 < ρ → ρ < δ →
        ∀ h : String → ℂ, (∀ s ∈ e.vars, ‖h s‖ ≤ ρ) → ∀ dict : List (String × ℂ), (∀ s ∈ e.vars, dict.lookup ("d" ++ s) = some (h s)) →
          ∃ c, r.evaluate dict = .ok c ∧ ‖e.csem (fun s => v s + h s) - c‖ ≤ K * ρ ^ (m + 1) := by
  classical
  let p : Unit → String → ℂ := fun _ => Function.extend (fun s => "d" ++ s) v 0
  have hp : ∀ (i : Unit) (s : String), p i ("d" ++ s) = v s := fun i s => d_append_injective.extend_apply _ _ s
  obtain ⟨r, hr, hg, -⟩ := Expr.run_good_c (by omega) hp e (e.legal_of_succ hl) hd
  obtain ⟨r', -, hg', -⟩ := Expr.run_good_c hm hp e hl hd
  refine ⟨r, hr, fun ε hε => ?_, ?_⟩
  · exact evaluate_near (𝕜 := ℂ) () (e.run_subSyms hr) (fun x y hxy => e.csem_congr hxy) (hp ()) ((hg.taylor ()).peano _ hε)
  · obtain ⟨K, hK⟩ := (hg.taylor ()).big_o (hg'.taylor ()) (e.vars.map fun s => "d" ++ s).toFinset
    exact ⟨K, evaluate_near (𝕜 := ℂ) () (e.run_subSyms hr) (fun x y hxy => e.csem_congr hxy) (hp ()) hK⟩

/-- The expression `exp(x) / (1 + y)` at `x = 1, y = 2` and the displacements `0.1, 0.2`. -/
example : ∃ e : Expr ℝ, e = .bin .div (.fn .exp (.var "x")) (.left .add 1 (.var "y")) ∧ e.Legal 41 ∧
    (∀ i : Unit, e.Dom i fun s => Lanes.lane i (if s = "x" then 1 else 2 : ℝ)) ∧
    ∀ s ∈ e.vars, [("dx", (0.1 : ℝ)), ("dy", 0.2)].lookup ("d" ++ s) = some (if s = "x" then 0.1 else 0.2) := by
  refine ⟨_, rfl, ?_, fun i => ?_, ?_⟩
  · simp [Expr.Legal, Fn.MaxOrder]
  · have hyx : "y" ≠ "x" := by decide
    simp only [Expr.Dom, Expr.sem, Fn.Dom, Op.Dom, Op.real, Lanes.lane, if_neg hyx]
    norm_num
  · have h1 : ("d" : String) ++ "x" = "dx" := by decide
    have h2 : ("d" : String) ++ "y" = "dy" := by decide
    have h3 : ("dy" == "dx") = false := by decide
    have h4 : "y" ≠ "x" := by decide
    simp [Expr.vars, h1, h2, List.lookup_cons, h3, h4]

/-- A polynomial which is smaller than every multiple of `t ^ n` near zero has no terms of degree up to `n`. -/
theorem coeff_eq_zero_of_small {P : Polynomial ℝ} {n : ℕ}
    (h : ∀ ε : ℝ, 0 < ε → ∃ δ > 0, ∀ t : ℝ, 0 < t → t < δ → |P.eval t| ≤ ε * t ^ n) : ∀ k ≤ n, P.coeff k = 0 := by
  intro k
  induction k using Nat.strong_induction_on with
  | _ k ih =>
    intro hk
    obtain ⟨Q, rfl⟩ := Polynomial.X_pow_dvd_iff.2 fun j hj => ih j hj (by omega)
    have h1 : Tendsto (fun t => Q.eval t) (𝓝[>] 0) (𝓝 (Q.eval 0)) := (Q.continuous.tendsto 0).mono_left nhdsWithin_le_nhds
    have h2 : Tendsto (fun t => Q.eval t) (𝓝[>] 0) (𝓝 0) := by
      rw [Metric.tendsto_nhds]
      intro ε hε
      obtain ⟨δ, hδ, hh⟩ := h (ε / 2) (half_pos hε)
      filter_upwards [Ioo_mem_nhdsGT (lt_min hδ one_pos)] with t ht
      have h3 := hh t ht.1 (ht.2.trans_le (min_le_left _ _))
      rw [Polynomial.eval_mul, Polynomial.eval_pow, Polynomial.eval_X, abs_mul, abs_of_pos (pow_pos ht.1 k)] at h3
      have h4 : t ^ n ≤ t ^ k := pow_le_pow_of_le_one ht.1.le (ht.2.le.trans (min_le_right _ _)) hk
      have h5 : t ^ k * |Q.eval t| ≤ t ^ k * (ε / 2) := h3.trans (by rw [mul_comm (t ^ k)]; exact mul_le_mul_of_nonneg_left h4 (half_pos hε).le)
      have h6 := le_of_mul_le_mul_left h5 (pow_pos ht.1 k)
      rw [Real.dist_eq, sub_zero]
      linarith
    have h3 := tendsto_nhds_unique h1 h2
    rw [mul_comm, Polynomial.coeff_mul_X_pow', if_pos le_rfl, Nat.sub_self, Polynomial.coeff_zero_eq_eval_zero, h3]

/-- The polynomial of one variable left when the others are zero. -/
noncomputable def onePoly (s : String) (P : MvPolynomial String ℝ) : Polynomial ℝ :=
  aeval (fun u => if u = s then Polynomial.X else 0) P

theorem eval_onePoly (s : String) (P : MvPolynomial String ℝ) (t : ℝ) : (onePoly s P).eval t = eval (fun u => if u = s then t else 0) P := by
  unfold onePoly
  induction P using MvPolynomial.induction_on with
  | C a => simp
  | add p q hp hq => rw [map_add, Polynomial.eval_add, hp, hq, map_add]
  | mul_X p u hp =>
    rw [map_mul, Polynomial.eval_mul, hp, map_mul, aeval_X, eval_X]
    split_ifs <;> simp

theorem coeff_onePoly (s : String) (P : MvPolynomial String ℝ) (k : ℕ) : (onePoly s P).coeff k = coeff (Finsupp.single s k) P := by
  unfold onePoly
  induction P using MvPolynomial.induction_on' with
  | monomial e a =>
    rw [aeval_monomial, coeff_monomial]
    have key : (e.prod fun u j => (if u = s then (Polynomial.X : Polynomial ℝ) else 0) ^ j) =
        if e = Finsupp.single s (e s) then Polynomial.X ^ (e s) else 0 := by
      split_ifs with h
      · rw [h, Finsupp.prod_single_index (by simp)]; simp
      · have : ∃ u ≠ s, e u ≠ 0 := by
          by_contra hc
          push Not at hc
          refine h (Finsupp.ext fun u => ?_)
          by_cases hu : u = s
          · subst hu; simp
          · rw [hc u hu, Finsupp.single_eq_of_ne hu]
        obtain ⟨u, hu, hu0⟩ := this
        refine Finset.prod_eq_zero (Finsupp.mem_support_iff.2 hu0) ?_
        change (if u = s then (Polynomial.X : Polynomial ℝ) else 0) ^ e u = 0
        rw [if_neg hu, zero_pow hu0]
    rw [key]
    by_cases he : e = Finsupp.single s k
    · subst he
      simp
    · rw [if_neg he]
      split_ifs with h
      · have hk : k ≠ e s := fun hk => he (by rw [hk]; exact h)
        rw [Polynomial.algebraMap_eq, Polynomial.coeff_C_mul, Polynomial.coeff_X_pow, if_neg hk, mul_zero]
      · simp
  | add p q hp hq => rw [map_add, Polynomial.coeff_add, hp, hq, coeff_add]

/-- **C77 (counterexample).** At order 31 the value computed for `atan(x)` at `x = 1` is not within every multiple of `ρ ^ 31`
of the inverse tangent. -/
theorem C77_counterexample : ∃ r : GDual ℝ, (Expr.fn .atan (.var "x") : Expr ℝ).run (fun _ => 1) 31 = .ok r ∧
    ¬ ∀ ε : ℝ, 0 < ε → ∃ δ > 0, ∀ ρ : ℝ, 0 < ρ → ρ < δ → ∃ c, r.evaluate [("dx", ρ)] = .ok c ∧ |Real.arctan (1 + ρ) - c| ≤ ε * ρ ^ 31 := by
  obtain ⟨d, r, s, hd, hv, ho, ht, hr, hs, hne⟩ := atan31 31 le_rfl (by norm_num)
  refine ⟨r, ?_, fun h => hne ?_⟩
  · change (GDual.mk3 1 "x" 31 >>= fun d => atan d) = _
    rw [bind_ok hd, hr]
  have hT := hs.taylor () (fun x => x "dx") (fun _ => 1) (by
      rw [ht]
      have := IsTaylor.coord (a := fun _ : String => (1 : ℝ)) (m := d.order) "dx"
      exact this)
  have hord : d.order = 31 := ho
  rw [hord] at hT
  have hsmall := coeff_eq_zero_of_small (P := onePoly "dx" (r.toMv () - s.toMv ())) (n := 31) fun ε hε => by
    obtain ⟨δ, hδ, h1⟩ := h (ε / 2) (half_pos hε)
    obtain ⟨δ', hδ', h2⟩ := mem_nhdsGT_iff_exists_Ioo_subset.1 (hT.peano {"dx"} (half_pos hε))
    refine ⟨min δ δ', lt_min hδ hδ', fun t h0 htt => ?_⟩
    obtain ⟨c, hc, h3⟩ := h1 t h0 (htt.trans_le (min_le_left _ _))
    have h4 := h2 ⟨h0, htt.trans_le (min_le_right _ _)⟩ (fun u => if u = "dx" then 1 + t else 1) ⟨fun u hu => by
      exact if_neg (by simpa using hu), fun u => by
        change ‖(if u = "dx" then 1 + t else 1) - (1 : ℝ)‖ ≤ t
        split_ifs
        · simp [abs_of_pos h0]
        · simp [h0.le]⟩
    have h5 : (Lanes.lane () c : ℝ) = _ := C15_evaluate_value hc ()
    have h6 : (fun s => (Lanes.lane () ((List.lookup s [("dx", t)]).getD Cf.zero) : ℝ)) = fun u => if u = "dx" then t else 0 := by
      funext u
      rw [List.lookup_cons]
      by_cases hu : u = "dx"
      · subst hu; simp [Lanes.lane]
      · have : (u == "dx") = false := by simpa using hu
        simp only [this, if_neg hu, List.lookup_nil, Option.getD_none]
        exact Poly.lane_zero ()
    have h7 : (fun s : String => (if s = "dx" then 1 + t else 1) - (1 : ℝ)) = fun u => if u = "dx" then t else 0 := by
      funext u; split_ifs <;> ring
    rw [h6] at h5
    simp only [h7, if_true] at h4
    rw [Real.norm_eq_abs] at h4
    rw [eval_onePoly, map_sub, ← h5]
    change |c - _| ≤ _
    have h8 := abs_le.1 h3
    have h9 := abs_le.1 h4
    rw [abs_le]
    constructor <;> linarith [h8.1, h8.2, h9.1, h9.2]
  have h10 := hsmall 31 le_rfl
  rw [coeff_onePoly, coeff_sub] at h10
  exact sub_eq_zero.1 h10

end Audi
