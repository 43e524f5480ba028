import Verif.Spec.Deriv
import Verif.Proofs.Program
import Verif.Proofs.FunctionsD
import Mathlib.Analysis.SpecialFunctions.Arcosh

/-! The rules of differentiation. -/

namespace Audi

open MvPolynomial Spec GDual Filter Topology

variable {C : Type} [CfFun C] {ι : Type} [Lanes C ι ℝ] {m : ℕ}

omit [Lanes C ι ℝ] in
theorem hasDerivAt_cbrt {t : ℝ} (ht : t ≠ 0) : HasDerivAt cbrt (1 / (3 * (cbrt t * cbrt t))) t := by
  rcases lt_or_gt_of_ne ht with ht | ht
  · have h1 : cbrt =ᶠ[𝓝 t] fun x => -(-x) ^ ((1 : ℝ) / 3) := by
      filter_upwards [gt_mem_nhds ht] with x hx using cbrt_of_neg hx
    refine HasDerivAt.congr_of_eventuallyEq ?_ h1
    have h2 : HasDerivAt (fun x : ℝ => -x) (-1) t := hasDerivAt_neg t
    have h3 := (h2.rpow_const (p := 1 / 3) (Or.inl (neg_ne_zero.mpr ht.ne))).neg
    refine h3.congr_deriv ?_
    have hp : 0 < -t := by linarith
    rw [cbrt_of_neg ht, neg_mul_neg, ← Real.rpow_add hp, show (1 : ℝ) / 3 - 1 = -(1 / 3 + 1 / 3) by norm_num, Real.rpow_neg hp.le]
    field_simp
  · have h1 : cbrt =ᶠ[𝓝 t] fun x => x ^ ((1 : ℝ) / 3) := by
      filter_upwards [lt_mem_nhds ht] with x hx using cbrt_of_pos hx
    refine HasDerivAt.congr_of_eventuallyEq ?_ h1
    refine (Real.hasDerivAt_rpow_const (Or.inl ht.ne')).congr_deriv ?_
    rw [cbrt_of_pos ht, ← Real.rpow_add ht, show (1 : ℝ) / 3 - 1 = -(1 / 3 + 1 / 3) by norm_num, Real.rpow_neg ht.le]
    field_simp

theorem lane_ofRat' (i : ι) (q : ℚ) : (Lanes.lane i (Cf.ofRat q : C) : ℝ) = q := Lanes.lane_ofRat i q

/-- The derivatives of the functions. -/
theorem Fn.hasDerivAt (i : ι) (e : Expr C) (x : String → ℝ) (f : Fn) (h : f.Dom (e.sem i x)) :
    HasDerivAt f.real ((f.deriv e).sem i x) (e.sem i x) := by
  generalize hy : e.sem i x = y at h
  have h1 : (Lanes.lane i (Cf.one : C) : ℝ) = 1 := Poly.lane_one i
  have h0 : (Lanes.lane i (Cf.zero : C) : ℝ) = 0 := Poly.lane_zero i
  cases f with
  | exp => exact (Real.hasDerivAt_exp y).congr_deriv (by simp [Fn.deriv, Expr.sem, Fn.real, hy])
  | log => exact (Real.hasDerivAt_log (ne_of_gt h)).congr_deriv (by simp [Fn.deriv, Expr.sem, Op.real, hy, h1])
  | sqrt =>
    exact (Real.hasDerivAt_sqrt (ne_of_gt h)).congr_deriv (by simp [Fn.deriv, Expr.sem, Op.real, Fn.real, hy, h1, lane_ofRat'])
  | cbrt => exact (hasDerivAt_cbrt h).congr_deriv (by simp [Fn.deriv, Expr.sem, Op.real, Fn.real, hy, h1, lane_ofRat'])
  | sin => exact (Real.hasDerivAt_sin y).congr_deriv (by simp [Fn.deriv, Expr.sem, Fn.real, hy])
  | cos => exact (Real.hasDerivAt_cos y).congr_deriv (by simp [Fn.deriv, Expr.sem, Fn.real, hy])
  | tan =>
    have hc : Real.cos y ≠ 0 := h
    refine (Real.hasDerivAt_tan hc).congr_deriv ?_
    simp only [Fn.deriv, Expr.sem, Op.real, Fn.real, hy, h1, Real.tan_eq_sin_div_cos]
    field_simp
    linarith [Real.sin_sq_add_cos_sq y]
  | sinh => exact (Real.hasDerivAt_sinh y).congr_deriv (by simp [Fn.deriv, Expr.sem, Fn.real, hy])
  | cosh => exact (Real.hasDerivAt_cosh y).congr_deriv (by simp [Fn.deriv, Expr.sem, Fn.real, hy])
  | tanh =>
    have hc : Real.cosh y ≠ 0 := (Real.cosh_pos y).ne'
    have he : (Fn.real .tanh) = fun t => Real.sinh t / Real.cosh t := funext fun t => Real.tanh_eq_sinh_div_cosh t
    rw [he]
    refine ((Real.hasDerivAt_sinh y).div (Real.hasDerivAt_cosh y) hc).congr_deriv ?_
    simp only [Fn.deriv, Expr.sem, Op.real, Fn.real, hy, h1, Real.tanh_eq_sinh_div_cosh]
    field_simp
  | asinh =>
    refine (Real.hasDerivAt_arsinh y).congr_deriv ?_
    simp [Fn.deriv, Expr.sem, Op.real, Fn.real, hy, h1, pow_two]
  | acosh =>
    refine (Real.hasDerivAt_arcosh (x := y) h).congr_deriv ?_
    simp [Fn.deriv, Expr.sem, Op.real, Fn.real, hy, h1, pow_two]
  | atanh => exact (Spec.hasDerivAt_artanh h).congr_deriv (by simp [Fn.deriv, Expr.sem, Op.real, hy, h1])
  | atan =>
    refine (Real.hasDerivAt_arctan y).congr_deriv ?_
    simp [Fn.deriv, Expr.sem, Op.real, hy, h1, pow_two]
  | asin =>
    obtain ⟨ha, hb⟩ := abs_lt.1 h
    refine (Real.hasDerivAt_arcsin ha.ne' hb.ne).congr_deriv ?_
    simp [Fn.deriv, Expr.sem, Op.real, Fn.real, hy, h1, pow_two]
  | acos =>
    obtain ⟨ha, hb⟩ := abs_lt.1 h
    refine (Real.hasDerivAt_arccos ha.ne' hb.ne).congr_deriv ?_
    simp [Fn.deriv, Expr.sem, Op.real, Fn.real, hy, h1, lane_ofRat', pow_two, neg_div]
  | neg =>
    refine (hasDerivAt_neg y).congr_deriv ?_
    simp [Fn.deriv, Expr.sem, lane_ofRat']
  | powQ α =>
    by_cases hα : α = 0
    · subst hα
      have he : (Fn.real (.powQ 0)) = fun _ => 1 := funext fun t => by simp [Fn.real]
      rw [he]
      simpa [Fn.deriv, Expr.sem, h0] using hasDerivAt_const y (1 : ℝ)
    · have hd : y ≠ 0 ∨ (1 : ℝ) ≤ (α : ℝ) := by
        rcases h.2.2 with h | ⟨h2, h | h⟩
        · exact Or.inl h.ne'
        · refine Or.inr ?_
          have h3 : α = (α.num : ℚ) := ((Rat.den_eq_one_iff α).1 h2).symm
          have h4 : 0 < α := lt_of_le_of_ne h (Ne.symm hα)
          have h5 : 1 ≤ α.num := Rat.num_pos.2 h4
          rw [h3]; exact_mod_cast h5
        · exact Or.inl h
      refine (Real.hasDerivAt_rpow_const hd).congr_deriv ?_
      simp [Fn.deriv, hα, Expr.sem, Op.real, Fn.real, hy, lane_ofRat']
  | powInt z =>
    by_cases hz : z = 0
    · subst hz
      have he : (Fn.real (.powInt 0)) = fun _ => 1 := funext fun t => by simp [Fn.real]
      rw [he]
      simpa [Fn.deriv, Expr.sem, h0] using hasDerivAt_const y (1 : ℝ)
    · refine (hasDerivAt_zpow z y (h.2.symm.imp id id)).congr_deriv ?_
      simp [Fn.deriv, hz, Expr.sem, Op.real, Fn.real, hy, lane_ofRat']
  | powBase q =>
    have hq : (0 : ℝ) < q := by exact_mod_cast (show 0 < q from h)
    refine ((hasDerivAt_id y).const_rpow hq).congr_deriv ?_
    simp [Fn.deriv, Expr.sem, Op.real, Fn.real, hy, lane_ofRat', mul_comm]

/-- Continuity, and the domain is open. -/
theorem Expr.continuousAt_dom (i : ι) : ∀ (e : Expr C) {x : String → ℝ}, e.Dom i x → ContinuousAt (e.sem i) x ∧ ∀ᶠ y in 𝓝 x, e.Dom i y := by
  have hne : ∀ {x : String → ℝ} {F : (String → ℝ) → ℝ} (op : Op), ContinuousAt F x → op.Dom (F x) → ∀ᶠ y in 𝓝 x, op.Dom (F y) := fun op hF h => by
    cases op with
    | div => exact hF.eventually_ne h
    | _ => exact Eventually.of_forall fun _ => trivial
  have hop : ∀ {x : String → ℝ} {F G : (String → ℝ) → ℝ} (op : Op), ContinuousAt F x → ContinuousAt G x → op.Dom (G x) →
      ContinuousAt (fun y => op.real (F y) (G y)) x := fun op hF hG h => by
    cases op with
    | add => exact hF.add hG
    | sub => exact hF.sub hG
    | mul => exact hF.mul hG
    | div => exact hF.div hG h
  intro e
  induction e with
  | var s => exact fun _ => ⟨(continuous_apply s).continuousAt, Eventually.of_forall fun _ => trivial⟩
  | const c => exact fun _ => ⟨continuousAt_const, Eventually.of_forall fun _ => trivial⟩
  | bin op e1 e2 ih1 ih2 =>
    intro x h
    obtain ⟨c1, d1⟩ := ih1 h.1
    obtain ⟨c2, d2⟩ := ih2 h.2.1
    exact ⟨hop op c1 c2 h.2.2, d1.and (d2.and (hne op c2 h.2.2))⟩
  | left op c e ih =>
    intro x h
    obtain ⟨c2, d2⟩ := ih h.1
    exact ⟨hop op continuousAt_const c2 h.2, d2.and (hne op c2 h.2)⟩
  | right op e c ih =>
    intro x h
    obtain ⟨c2, d2⟩ := ih h.1
    exact ⟨hop op c2 continuousAt_const h.2, d2.and (Eventually.of_forall fun _ => h.2)⟩
  | fn f e ih =>
    intro x h
    obtain ⟨c2, d2⟩ := ih h.1
    exact ⟨ContinuousAt.comp (g := f.real) (Fn.hasDerivAt i e x f h.2).continuousAt c2, d2.and (c2.eventually (f.isOpen_dom.mem_nhds h.2))⟩
  | pow e1 e2 ih1 ih2 =>
    intro x h
    obtain ⟨c1, d1⟩ := ih1 h.1
    obtain ⟨c2, d2⟩ := ih2 h.2.1
    exact ⟨c1.rpow c2 (Or.inl h.2.2.ne'), d1.and (d2.and (c1.eventually (lt_mem_nhds h.2.2)))⟩

/-- The value of the derived expression is the partial derivative. -/
theorem Expr.hasPartialAt (i : ι) (s : String) : ∀ (e : Expr C) {x : String → ℝ}, e.Dom i x → HasPartialAt (e.sem i) ((e.deriv s).sem i x) s x := by
  have h1 : (Lanes.lane i (Cf.one : C) : ℝ) = 1 := Poly.lane_one i
  have h0 : (Lanes.lane i (Cf.zero : C) : ℝ) = 0 := Poly.lane_zero i
  intro e
  unfold HasPartialAt
  induction e with
  | var u =>
    intro x _
    by_cases hu : u = s
    · subst hu
      simpa [Expr.sem, Expr.deriv, h1] using hasDerivAt_id' (x u)
    · simp only [Expr.sem, Expr.deriv, if_neg hu, h0, Function.update_of_ne hu]
      exact hasDerivAt_const _ _
  | const c => intro x _; simpa [Expr.sem, Expr.deriv, h0] using hasDerivAt_const (x s) (Lanes.lane i c : ℝ)
  | bin op e1 e2 ih1 ih2 =>
    intro x h
    have d1 := ih1 h.1
    have d2 := ih2 h.2.1
    cases op with
    | add => exact d1.add d2
    | sub => exact d1.sub d2
    | mul =>
      refine (d1.mul d2).congr_deriv ?_
      simp [Expr.sem, Expr.deriv, Op.real]
    | div =>
      have h2 : e2.sem i (Function.update x s (x s)) ≠ 0 := by rw [Function.update_eq_self]; exact h.2.2
      refine (d1.div d2 h2).congr_deriv ?_
      simp [Expr.sem, Expr.deriv, Op.real, pow_two]
  | left op c e ih =>
    intro x h
    have d := ih h.1
    cases op with
    | add => exact d.const_add _
    | sub => exact d.const_sub _
    | mul => exact d.const_mul _
    | div =>
      have h2 : e.sem i (Function.update x s (x s)) ≠ 0 := by rw [Function.update_eq_self]; exact h.2
      refine ((hasDerivAt_const (x s) (Lanes.lane i c : ℝ)).div d h2).congr_deriv ?_
      simp [Expr.sem, Expr.deriv, Op.real, Fn.real, pow_two, neg_div]
  | right op e c ih =>
    intro x h
    have d := ih h.1
    cases op with
    | add => exact d.add_const _
    | sub => exact d.sub_const _
    | mul => exact d.mul_const _
    | div => exact d.div_const _
  | fn f e ih =>
    intro x h
    have d := ih h.1
    have hf := Fn.hasDerivAt i e x f h.2
    have hf' : HasDerivAt f.real ((f.deriv e).sem i x) (e.sem i (Function.update x s (x s))) := by rwa [Function.update_eq_self]
    exact hf'.comp (x s) d
  | pow e1 e2 ih1 ih2 =>
    intro x h
    have d1 := ih1 h.1
    have d2 := ih2 h.2.1
    have h2 : 0 < e1.sem i (Function.update x s (x s)) := by rw [Function.update_eq_self]; exact h.2.2
    refine (d1.rpow d2 h2).congr_deriv ?_
    have h3 : 0 < e1.sem i x := h.2.2
    simp only [Expr.sem, Expr.deriv, Op.real, Fn.real, Function.update_eq_self]
    rw [Real.rpow_sub_one h3.ne']
    field_simp
    ring

/-- The derived expression is defined where the expression is. -/
theorem Expr.deriv_dom (i : ι) (s : String) : ∀ (e : Expr C) {x : String → ℝ}, e.PowOk → e.Dom i x → (e.deriv s).Dom i x := by
  have h1 : (Lanes.lane i (Cf.one : C) : ℝ) = 1 := Poly.lane_one i
  have h0 : (Lanes.lane i (Cf.zero : C) : ℝ) = 0 := Poly.lane_zero i
  intro e
  induction e with
  | var u => exact fun _ _ => trivial
  | const c => exact fun _ _ => trivial
  | bin op e1 e2 ih1 ih2 =>
    intro x hp h
    have d1 := ih1 hp.1 h.1
    have d2 := ih2 hp.2 h.2.1
    cases op with
    | add => exact ⟨d1, d2, trivial⟩
    | sub => exact ⟨d1, d2, trivial⟩
    | mul => exact ⟨⟨d1, h.2.1, trivial⟩, ⟨h.1, d2, trivial⟩, trivial⟩
    | div => exact ⟨⟨⟨d1, h.2.1, trivial⟩, ⟨h.1, d2, trivial⟩, trivial⟩, ⟨h.2.1, h.2.1, trivial⟩, mul_ne_zero h.2.2 h.2.2⟩
  | left op c e ih =>
    intro x hp h
    have d := ih hp h.1
    cases op with
    | add => exact d
    | sub => exact ⟨d, trivial⟩
    | mul => exact ⟨d, trivial⟩
    | div => exact ⟨⟨⟨d, trivial⟩, ⟨h.1, h.1, trivial⟩, mul_ne_zero h.2 h.2⟩, trivial⟩
  | right op e c ih =>
    intro x hp h
    have d := ih hp h.1
    cases op with
    | add => exact d
    | sub => exact d
    | mul => exact ⟨d, trivial⟩
    | div => exact ⟨d, h.2⟩
  | fn f e ih =>
    intro x hp h
    have hp' : e.PowOk := by cases f <;> first | exact hp.1 | exact hp
    have d := ih hp' h.1
    refine ⟨?_, d, trivial⟩
    have he := h.1
    have hf := h.2
    cases f with
    | exp => exact ⟨he, trivial⟩
    | log => exact ⟨he, ne_of_gt hf⟩
    | sqrt =>
      refine ⟨⟨h, trivial⟩, ?_⟩
      have : 0 < √(e.sem i x) := Real.sqrt_pos.2 hf
      simp [Expr.sem, Op.real, Op.Dom, Fn.real, lane_ofRat', this.ne']
    | cbrt =>
      refine ⟨⟨⟨h, h, trivial⟩, trivial⟩, ?_⟩
      have : cbrt (e.sem i x) ≠ 0 := fun h2 => by
        have h3 := Spec.cbrt_cube (e.sem i x)
        rw [h2] at h3
        exact hf (by rw [← h3]; norm_num)
      simp [Expr.sem, Op.real, Op.Dom, Fn.real, lane_ofRat', this]
    | sin => exact ⟨he, trivial⟩
    | cos => exact ⟨⟨he, trivial⟩, trivial⟩
    | tan => exact ⟨⟨h, h, trivial⟩, trivial⟩
    | sinh => exact ⟨he, trivial⟩
    | cosh => exact ⟨he, trivial⟩
    | tanh => exact ⟨⟨h, h, trivial⟩, trivial⟩
    | asinh =>
      have : 0 < 1 + e.sem i x * e.sem i x := by nlinarith [mul_self_nonneg (e.sem i x)]
      refine ⟨⟨⟨⟨he, he, trivial⟩, trivial⟩, ?_⟩, ?_⟩
      · simpa [Fn.Dom, Expr.sem, Op.real, h1] using this
      · simpa [Fn.real, Op.Dom, Expr.sem, Op.real, h1] using (Real.sqrt_pos.2 this).ne'
    | acosh =>
      have hf' : 1 < e.sem i x := hf
      have : 0 < e.sem i x * e.sem i x - 1 := by nlinarith
      refine ⟨⟨⟨⟨he, he, trivial⟩, trivial⟩, ?_⟩, ?_⟩
      · simpa [Fn.Dom, Expr.sem, Op.real, h1] using this
      · simpa only [Fn.real, Op.Dom, Expr.sem, Op.real, h1] using (Real.sqrt_pos.2 this).ne'
    | atanh =>
      have := abs_lt.1 (show |e.sem i x| < 1 from hf)
      have : 0 < 1 - e.sem i x * e.sem i x := by nlinarith
      refine ⟨⟨⟨he, he, trivial⟩, trivial⟩, ?_⟩
      simpa only [Fn.real, Op.Dom, Expr.sem, Op.real, h1] using this.ne'
    | atan =>
      have : 0 < 1 + e.sem i x * e.sem i x := by nlinarith [mul_self_nonneg (e.sem i x)]
      refine ⟨⟨⟨he, he, trivial⟩, trivial⟩, ?_⟩
      simpa only [Fn.real, Op.Dom, Expr.sem, Op.real, h1] using this.ne'
    | asin =>
      have := abs_lt.1 (show |e.sem i x| < 1 from hf)
      have : 0 < 1 - e.sem i x * e.sem i x := by nlinarith
      refine ⟨⟨⟨⟨he, he, trivial⟩, trivial⟩, ?_⟩, ?_⟩
      · simpa only [Fn.Dom, Expr.sem, Op.real, h1] using this
      · simpa only [Fn.real, Op.Dom, Expr.sem, Op.real, h1] using (Real.sqrt_pos.2 this).ne'
    | acos =>
      have := abs_lt.1 (show |e.sem i x| < 1 from hf)
      have : 0 < 1 - e.sem i x * e.sem i x := by nlinarith
      refine ⟨⟨⟨⟨he, he, trivial⟩, trivial⟩, ?_⟩, ?_⟩
      · simpa only [Fn.Dom, Expr.sem, Op.real, h1] using this
      · simpa only [Fn.real, Op.Dom, Expr.sem, Op.real, h1] using (Real.sqrt_pos.2 this).ne'
    | neg => exact trivial
    | powQ α =>
      obtain ⟨hp1, hp2⟩ : e.PowOk ∧ -2147483648 < α := hp
      obtain ⟨a1, a2, a3⟩ : -2147483649 < α ∧ α < 2147483648 ∧ (0 < e.sem i x ∨ α.den = 1 ∧ (0 ≤ α ∨ e.sem i x ≠ 0)) := hf
      unfold Fn.deriv
      dsimp only
      split_ifs with hα
      · trivial
      · refine ⟨⟨he, by linarith, by linarith, a3.imp id fun h => ⟨?_, h.2.imp (fun h2 => ?_) id⟩⟩, trivial⟩
        · have h3 : α = (α.num : ℚ) := ((Rat.den_eq_one_iff α).1 h.1).symm
          have h4 : α - 1 = ((α.num - 1 : ℤ) : ℚ) := by rw [Int.cast_sub, ← h3, Int.cast_one]
          rw [h4]; exact Rat.den_intCast _
        · have h3 : α = (α.num : ℚ) := ((Rat.den_eq_one_iff α).1 h.1).symm
          have h4 : 0 < α := lt_of_le_of_ne h2 (Ne.symm hα)
          have h5 : 1 ≤ α.num := Rat.num_pos.2 h4
          have h6 : (1 : ℚ) ≤ α := by rw [h3]; exact_mod_cast h5
          linarith
    | powInt z =>
      obtain ⟨hp1, hp2⟩ : e.PowOk ∧ -2147483647 < z := hp
      obtain ⟨a1, a2⟩ : -2147483648 < z ∧ (0 ≤ z ∨ e.sem i x ≠ 0) := hf
      unfold Fn.deriv
      dsimp only
      split_ifs with hz
      · trivial
      · exact ⟨⟨he, by omega, a2.imp (fun h => by omega) id⟩, trivial⟩
    | powBase q =>
      have hq : (0 : ℝ) < q := by exact_mod_cast (show 0 < q from hf)
      refine ⟨⟨he, hf⟩, ⟨trivial, ?_⟩, trivial⟩
      simpa only [Fn.Dom, Expr.sem, lane_ofRat'] using hq
  | pow e1 e2 ih1 ih2 =>
    intro x hp h
    have d1 := ih1 hp.1 h.1
    have d2 := ih2 hp.2 h.2.1
    exact ⟨h, ⟨⟨d2, ⟨h.1, h.2.2⟩, trivial⟩, ⟨h.2.1, ⟨d1, h.1, h.2.2.ne'⟩, trivial⟩, trivial⟩, trivial⟩

omit [CfFun C] [Lanes C ι ℝ] in
/-- The derived expression is legal. -/
theorem Expr.deriv_legal [Cf C] (s : String) : ∀ e : Expr C, e.Legal m → (e.deriv s).Legal m := by
  intro e
  induction e with
  | var u => exact fun _ => trivial
  | const c => exact fun _ => trivial
  | bin op e1 e2 ih1 ih2 =>
    intro h
    have d1 := ih1 h.1
    have d2 := ih2 h.2
    cases op with
    | add => exact ⟨d1, d2⟩
    | sub => exact ⟨d1, d2⟩
    | mul => exact ⟨⟨d1, h.2⟩, h.1, d2⟩
    | div => exact ⟨⟨⟨d1, h.2⟩, h.1, d2⟩, h.2, h.2⟩
  | left op c e ih =>
    intro h
    have d := ih h
    cases op with
    | add => exact d
    | sub => exact ⟨d, trivial⟩
    | mul => exact d
    | div => exact ⟨⟨d, h, h⟩, trivial⟩
  | right op e c ih =>
    intro h
    have d := ih h
    cases op <;> exact d
  | fn f e ih =>
    intro h
    refine ⟨?_, ih h.1⟩
    have he := h.1
    cases f <;> unfold Fn.deriv <;> dsimp only <;> (try split_ifs) <;> simp [Expr.Legal, Fn.MaxOrder, he]
  | pow e1 e2 ih1 ih2 =>
    intro h
    exact ⟨h, ⟨ih2 h.2, h.1, trivial⟩, h.2, ih1 h.1, h.1⟩

end Audi
