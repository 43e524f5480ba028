import Verif.Spec.LibDeriv
import Verif.Proofs.Deriv
import Verif.Proofs.LibSubst

/-! The rules of differentiation with all the functions. -/

set_option linter.unusedSectionVars false

namespace Audi

open MvPolynomial Spec GDual Filter Topology

variable {C : Type} [CfFun C] {ι : Type} [Lanes C ι ℝ] [LanesFun C ι] {m : ℕ}

theorem Expr.plug_sem (i : ι) (e : LExpr C) (x : String → ℝ) (t : Expr C) : (t.plug e).sem i x = t.sem i fun _ => e.sem i x := by
  induction t with
  | bin _ _ _ h1 h2 => simp only [Expr.plug, LExpr.sem, Expr.sem, h1, h2]
  | pow _ _ h1 h2 => simp only [Expr.plug, LExpr.sem, Expr.sem, h1, h2]
  | left _ _ _ h => simp only [Expr.plug, LExpr.sem, Expr.sem, h]
  | right _ _ _ h => simp only [Expr.plug, LExpr.sem, Expr.sem, h]
  | fn _ _ h => simp only [Expr.plug, LExpr.sem, Expr.sem, h, LFn.real]
  | _ => rfl

theorem Expr.plug_dom (i : ι) {e : LExpr C} {x : String → ℝ} (he : e.Dom i x) (t : Expr C) (h : t.Dom i fun _ => e.sem i x) : (t.plug e).Dom i x := by
  induction t with
  | var s => exact he
  | const c => trivial
  | bin op e1 e2 h1 h2 => exact ⟨h1 h.1, h2 h.2.1, by rw [Expr.plug_sem]; exact h.2.2⟩
  | left op c e1 h1 => exact ⟨h1 h.1, by rw [Expr.plug_sem]; exact h.2⟩
  | right op e1 c h1 => exact ⟨h1 h.1, h.2⟩
  | fn f e1 h1 => exact ⟨h1 h.1, by rw [Expr.plug_sem]; exact h.2⟩
  | pow e1 e2 h1 h2 => exact ⟨h1 h.1, h2 h.2.1, by rw [Expr.plug_sem]; exact h.2.2⟩

theorem Expr.plug_legal {e : LExpr C} (he : e.Legal m) (t : Expr C) (h : t.Legal m) : (t.plug e).Legal m := by
  induction t with
  | var s => exact he
  | const c => trivial
  | bin op e1 e2 h1 h2 => exact ⟨h1 h.1, h2 h.2⟩
  | left op c e1 h1 => exact h1 h
  | right op e1 c h1 => exact h1 h
  | fn f e1 h1 => exact ⟨h1 h.1, h.2⟩
  | pow e1 e2 h1 h2 => exact ⟨h1 h.1, h2 h.2⟩

theorem Expr.plug_noAbs {e : LExpr C} (he : e.NoAbs) (t : Expr C) : (t.plug e).NoAbs := by
  induction t with
  | var s => exact he
  | const c => trivial
  | bin op e1 e2 h1 h2 => exact ⟨h1, h2⟩
  | left op c e1 h1 => exact h1
  | right op e1 c h1 => exact h1
  | fn f e1 h1 => exact ⟨h1, by simp⟩
  | pow e1 e2 h1 h2 => exact ⟨h1, h2⟩

theorem Fn.hasDerivAt_derivAt (i : ι) (e : LExpr C) (x : String → ℝ) (f : Fn) (h : f.Dom (e.sem i x)) : HasDerivAt f.real ((f.derivAt e).sem i x) (e.sem i x) := by
  rw [Fn.derivAt, Expr.plug_sem]
  exact Fn.hasDerivAt i (.var "x" : Expr C) (fun _ => e.sem i x) f h

theorem Fn.derivAt_dom (i : ι) {e : LExpr C} {x : String → ℝ} (f : Fn) (hp : (Expr.fn f (.var "x") : Expr C).PowOk) (he : e.Dom i x) (h : f.Dom (e.sem i x)) : (f.derivAt e).Dom i x :=
  Expr.plug_dom i he _ ((Expr.fn f (.var "x") : Expr C).deriv_dom i "x" hp (x := fun _ => e.sem i x) ⟨trivial, h⟩).1

theorem Fn.derivAt_legal {e : LExpr C} (f : Fn) (he : e.Legal m) : (f.derivAt e).Legal m := by
  refine Expr.plug_legal he _ ?_
  have hx : ∃ c, "x".toList.head? = some c ∧ c ≠ 'd' := ⟨'x', by decide, by decide⟩
  cases f <;> unfold Fn.deriv <;> dsimp only <;> (try split_ifs) <;> simp [Expr.Legal, Fn.MaxOrder]

/-- The derivatives of the functions. -/
theorem LFn.hasDerivAt_sem (i : ι) (e : LExpr C) (x : String → ℝ) (f : LFn) (h : f.Dom (e.sem i x)) :
    HasDerivAt f.real ((f.deriv e).sem i x) (e.sem i x) := by
  have h1 : (Lanes.lane i (Cf.one : C) : ℝ) = 1 := Poly.lane_one i
  have hb : ∀ (f : Fn), f.Dom (e.sem i x) → HasDerivAt f.real ((f.derivAt e).sem i x) (e.sem i x) := fun f => Fn.hasDerivAt_derivAt i e x f
  have herf : HasDerivAt Spec.erf ((LFn.deriv e .erf).sem i x) (e.sem i x) := (Spec.hasDerivAt_erf _).congr_deriv (by
    simp [LFn.deriv, LExpr.sem, Op.real, LFn.real, Fn.real, LanesFun.lane_twoOverSqrtPi, pow_two])
  have hlog : ∀ q : ℚ, 0 < e.sem i x → HasDerivAt (Real.logb q) (1 / (Real.log q * e.sem i x)) (e.sem i x) := fun q hq => by
    have h2 : HasDerivAt (fun y => Real.log y / Real.log q) ((e.sem i x)⁻¹ / Real.log q) (e.sem i x) := (Real.hasDerivAt_log hq.ne').div_const _
    refine h2.congr_deriv ?_
    rw [one_div, mul_inv, div_eq_mul_inv, mul_comm]
  cases f with
  | base f => exact hb f h
  | abs =>
    have h0 : e.sem i x ≠ 0 := h
    refine (hasDerivAt_abs h0).congr_deriv ?_
    simp only [LFn.deriv, LExpr.sem, Op.real, LFn.real]
    rcases lt_or_gt_of_ne h0 with h2 | h2
    · rw [sign_neg h2, abs_of_neg h2, neg_div, div_self h0]; rfl
    · rw [sign_pos h2, abs_of_pos h2, div_self h0]; rfl
  | sinOf => exact Real.hasDerivAt_sin _
  | cosOf => exact Real.hasDerivAt_cos _
  | sinhOf => exact Real.hasDerivAt_sinh _
  | coshOf => exact Real.hasDerivAt_cosh _
  | erf => exact herf
  | atanD => exact hb .atan trivial
  | atanhD => exact hb .atanh h
  | asinD => exact hb .asin h
  | acosD => exact hb .acos h
  | asinhD => exact hb .asinh trivial
  | acoshD => exact hb .acosh h
  | log10 =>
    have := hlog 10 h
    simp only [LFn.deriv, LExpr.sem, Op.real, LFn.real, Fn.real, h1, lane_ofRat']
    exact_mod_cast this
  | log2 =>
    have := hlog 2 h
    simp only [LFn.deriv, LExpr.sem, Op.real, LFn.real, Fn.real, h1, lane_ofRat']
    exact_mod_cast this
  | log1p =>
    have h0 : -1 < e.sem i x := h
    refine (((hasDerivAt_id (e.sem i x)).const_add 1).log (by change 1 + e.sem i x ≠ 0; linarith)).congr_deriv ?_
    simp [LFn.deriv, LExpr.sem, Op.real, h1]
  | expm1 => exact (Real.hasDerivAt_exp _).sub_const _
  | erfc => exact herf.const_sub 1

theorem LExpr.powOk_arg {f : LFn} {e : LExpr C} (h : (LExpr.fn f e).PowOk) : e.PowOk := by
  cases f with
  | base f => cases f <;> first | exact h.1 | exact h
  | _ => exact h

theorem LFn.deriv_dom (i : ι) (e : LExpr C) (x : String → ℝ) (f : LFn) (hp : (LExpr.fn f e).PowOk) (he : e.Dom i x) (h : f.Dom (e.sem i x)) : (f.deriv e).Dom i x := by
  have h1 : (Lanes.lane i (Cf.one : C) : ℝ) = 1 := Poly.lane_one i
  have hlog : ∀ q : ℚ, 1 < q → 0 < e.sem i x → (LExpr.left .div Cf.one (.bin .mul (.fn (.base .log) (.const (Cf.ofRat q))) e)).Dom i x := fun q hq h0 => by
    have hq' : (1 : ℝ) < q := by exact_mod_cast hq
    refine ⟨⟨⟨trivial, ?_⟩, he, trivial⟩, ?_⟩
    · simp only [LFn.Dom, Fn.Dom, LExpr.sem, lane_ofRat']; linarith
    · simp only [Op.Dom, LExpr.sem, Op.real, LFn.real, Fn.real, lane_ofRat']
      exact mul_ne_zero (Real.log_pos hq').ne' h0.ne'
  cases f with
  | base f =>
    refine f.derivAt_dom i ?_ he h
    cases f <;> first | exact ⟨trivial, hp.2⟩ | trivial
  | abs => exact ⟨⟨he, h⟩, he, h⟩
  | sinOf => exact ⟨he, trivial⟩
  | cosOf => exact ⟨⟨he, trivial⟩, trivial⟩
  | sinhOf => exact ⟨he, trivial⟩
  | coshOf => exact ⟨he, trivial⟩
  | erf => exact ⟨⟨⟨⟨he, he, trivial⟩, trivial⟩, trivial⟩, trivial⟩
  | atanD => exact Fn.derivAt_dom i .atan trivial he trivial
  | atanhD => exact Fn.derivAt_dom i .atanh trivial he h
  | asinD => exact Fn.derivAt_dom i .asin trivial he h
  | acosD => exact Fn.derivAt_dom i .acos trivial he h
  | asinhD => exact Fn.derivAt_dom i .asinh trivial he trivial
  | acoshD => exact Fn.derivAt_dom i .acosh trivial he h
  | log10 => exact hlog 10 (by norm_num) h
  | log2 => exact hlog 2 (by norm_num) h
  | log1p =>
    have h0 : -1 < e.sem i x := h
    refine ⟨⟨he, trivial⟩, ?_⟩
    simp only [Op.Dom, LExpr.sem, Op.real, h1]
    linarith
  | expm1 => exact ⟨he, trivial⟩
  | erfc => exact ⟨⟨⟨⟨⟨he, he, trivial⟩, trivial⟩, trivial⟩, trivial⟩, trivial⟩

theorem LFn.deriv_legal (e : LExpr C) (f : LFn) (he : e.Legal m) : (f.deriv e).Legal m := by
  cases f with
  | base f => exact f.derivAt_legal he
  | atanD => exact Fn.derivAt_legal .atan he
  | atanhD => exact Fn.derivAt_legal .atanh he
  | asinD => exact Fn.derivAt_legal .asin he
  | acosD => exact Fn.derivAt_legal .acos he
  | asinhD => exact Fn.derivAt_legal .asinh he
  | acoshD => exact Fn.derivAt_legal .acosh he
  | _ => simp [LFn.deriv, LExpr.Legal, LFn.MaxOrder, Fn.MaxOrder, he]

theorem LFn.deriv_noAbs (e : LExpr C) (f : LFn) (he : e.NoAbs) (hf : f ≠ .abs) : (f.deriv e).NoAbs := by
  cases f with
  | base f => exact Expr.plug_noAbs he _
  | abs => exact absurd rfl hf
  | atanD => exact Expr.plug_noAbs he _
  | atanhD => exact Expr.plug_noAbs he _
  | asinD => exact Expr.plug_noAbs he _
  | acosD => exact Expr.plug_noAbs he _
  | asinhD => exact Expr.plug_noAbs he _
  | acoshD => exact Expr.plug_noAbs he _
  | _ => simp [LFn.deriv, LExpr.NoAbs, he]

/-- The value of the derived expression is the partial derivative. -/
theorem LExpr.hasPartialAt (i : ι) (s : String) : ∀ (e : LExpr C) {x : String → ℝ}, e.Dom i x → HasPartialAt (e.sem i) ((e.deriv s).sem i x) s x := by
  have h1 : (Lanes.lane i (Cf.one : C) : ℝ) = 1 := Poly.lane_one i
  have h0 : (Lanes.lane i (Cf.zero : C) : ℝ) = 0 := Poly.lane_zero i
  intro e
  unfold HasPartialAt
  induction e with
  | var u =>
    intro x _
    by_cases hu : u = s
    · subst hu
      simpa [LExpr.sem, LExpr.deriv, h1] using hasDerivAt_id' (x u)
    · simp only [LExpr.sem, LExpr.deriv, if_neg hu, h0, Function.update_of_ne hu]
      exact hasDerivAt_const _ _
  | const c => intro x _; simpa [LExpr.sem, LExpr.deriv, h0] using hasDerivAt_const (x s) (Lanes.lane i c : ℝ)
  | bin op e1 e2 ih1 ih2 =>
    intro x h
    have d1 := ih1 h.1
    have d2 := ih2 h.2.1
    cases op with
    | add => exact d1.add d2
    | sub => exact d1.sub d2
    | mul =>
      refine (d1.mul d2).congr_deriv ?_
      simp [LExpr.sem, LExpr.deriv, Op.real]
    | div =>
      have h2 : e2.sem i (Function.update x s (x s)) ≠ 0 := by rw [Function.update_eq_self]; exact h.2.2
      refine (d1.div d2 h2).congr_deriv ?_
      simp [LExpr.sem, LExpr.deriv, Op.real, pow_two]
  | left op c e ih =>
    intro x h
    have d := ih h.1
    cases op with
    | add => exact d.const_add _
    | sub => exact d.const_sub _
    | mul => exact d.const_mul _
    | div =>
      have h2 : e.sem i (Function.update x s (x s)) ≠ 0 := by rw [Function.update_eq_self]; exact h.2
      refine ((hasDerivAt_const (x s) (Lanes.lane i c : ℝ)).div d h2).congr_deriv ?_
      simp [LExpr.sem, LExpr.deriv, Op.real, LFn.real, Fn.real, pow_two, neg_div]
  | right op e c ih =>
    intro x h
    have d := ih h.1
    cases op with
    | add => exact d.add_const _
    | sub => exact d.sub_const _
    | mul => exact d.mul_const _
    | div => exact d.div_const _
  | fn f e ih =>
    intro x h
    have d := ih h.1
    have hf := LFn.hasDerivAt_sem i e x f h.2
    have hf' : HasDerivAt f.real ((f.deriv e).sem i x) (e.sem i (Function.update x s (x s))) := by rwa [Function.update_eq_self]
    exact hf'.comp (x s) d
  | pow e1 e2 ih1 ih2 =>
    intro x h
    have d1 := ih1 h.1
    have d2 := ih2 h.2.1
    have h2 : 0 < e1.sem i (Function.update x s (x s)) := by rw [Function.update_eq_self]; exact h.2.2
    refine (d1.rpow d2 h2).congr_deriv ?_
    have h3 : 0 < e1.sem i x := h.2.2
    simp only [LExpr.sem, LExpr.deriv, Op.real, LFn.real, Fn.real, Function.update_eq_self]
    rw [Real.rpow_sub_one h3.ne']
    field_simp
    ring

/-- The derived expression is defined where the expression is. -/
theorem LExpr.deriv_dom (i : ι) (s : String) : ∀ (e : LExpr C) {x : String → ℝ}, e.PowOk → e.Dom i x → (e.deriv s).Dom i x := by
  have h1 : (Lanes.lane i (Cf.one : C) : ℝ) = 1 := Poly.lane_one i
  have h0 : (Lanes.lane i (Cf.zero : C) : ℝ) = 0 := Poly.lane_zero i
  intro e
  induction e with
  | var u => exact fun _ _ => trivial
  | const c => exact fun _ _ => trivial
  | bin op e1 e2 ih1 ih2 =>
    intro x hp h
    have d1 := ih1 hp.1 h.1
    have d2 := ih2 hp.2 h.2.1
    cases op with
    | add => exact ⟨d1, d2, trivial⟩
    | sub => exact ⟨d1, d2, trivial⟩
    | mul => exact ⟨⟨d1, h.2.1, trivial⟩, ⟨h.1, d2, trivial⟩, trivial⟩
    | div => exact ⟨⟨⟨d1, h.2.1, trivial⟩, ⟨h.1, d2, trivial⟩, trivial⟩, ⟨h.2.1, h.2.1, trivial⟩, mul_ne_zero h.2.2 h.2.2⟩
  | left op c e ih =>
    intro x hp h
    have d := ih hp h.1
    cases op with
    | add => exact d
    | sub => exact ⟨d, trivial⟩
    | mul => exact ⟨d, trivial⟩
    | div => exact ⟨⟨⟨d, trivial⟩, ⟨h.1, h.1, trivial⟩, mul_ne_zero h.2 h.2⟩, trivial⟩
  | right op e c ih =>
    intro x hp h
    have d := ih hp h.1
    cases op with
    | add => exact d
    | sub => exact d
    | mul => exact ⟨d, trivial⟩
    | div => exact ⟨d, h.2⟩
  | fn f e ih =>
    intro x hp h
    have hp' : e.PowOk := LExpr.powOk_arg hp
    have d := ih hp' h.1
    refine ⟨?_, d, trivial⟩
    exact LFn.deriv_dom i e x f hp h.1 h.2
  | pow e1 e2 ih1 ih2 =>
    intro x hp h
    have d1 := ih1 hp.1 h.1
    have d2 := ih2 hp.2 h.2.1
    exact ⟨h, ⟨⟨d2, ⟨h.1, h.2.2⟩, trivial⟩, ⟨h.2.1, ⟨d1, h.1, h.2.2.ne'⟩, trivial⟩, trivial⟩, trivial⟩

omit [Lanes C ι ℝ] [LanesFun C ι] in
/-- The derived expression is legal. -/
theorem LExpr.deriv_legal (s : String) : ∀ e : LExpr C, e.Legal m → (e.deriv s).Legal m := by
  intro e
  induction e with
  | var u => exact fun _ => trivial
  | const c => exact fun _ => trivial
  | bin op e1 e2 ih1 ih2 =>
    intro h
    have d1 := ih1 h.1
    have d2 := ih2 h.2
    cases op with
    | add => exact ⟨d1, d2⟩
    | sub => exact ⟨d1, d2⟩
    | mul => exact ⟨⟨d1, h.2⟩, h.1, d2⟩
    | div => exact ⟨⟨⟨d1, h.2⟩, h.1, d2⟩, h.2, h.2⟩
  | left op c e ih =>
    intro h
    have d := ih h
    cases op with
    | add => exact d
    | sub => exact ⟨d, trivial⟩
    | mul => exact d
    | div => exact ⟨⟨d, h, h⟩, trivial⟩
  | right op e c ih =>
    intro h
    have d := ih h
    cases op <;> exact d
  | fn f e ih =>
    intro h
    refine ⟨?_, ih h.1⟩
    exact LFn.deriv_legal e f h.1
  | pow e1 e2 ih1 ih2 =>
    intro h
    exact ⟨h, ⟨ih2 h.2, h.1, trivial⟩, h.2, ih1 h.1, h.1⟩

theorem LExpr.deriv_noAbs (s : String) : ∀ e : LExpr C, e.NoAbs → (e.deriv s).NoAbs := by
  intro e
  induction e with
  | var u => exact fun _ => trivial
  | const c => exact fun _ => trivial
  | bin op e1 e2 ih1 ih2 =>
    intro h
    have d1 := ih1 h.1
    have d2 := ih2 h.2
    cases op with
    | add => exact ⟨d1, d2⟩
    | sub => exact ⟨d1, d2⟩
    | mul => exact ⟨⟨d1, h.2⟩, h.1, d2⟩
    | div => exact ⟨⟨⟨d1, h.2⟩, h.1, d2⟩, h.2, h.2⟩
  | left op c e ih =>
    intro h
    have d := ih h
    cases op with
    | add => exact d
    | sub => exact ⟨d, by simp⟩
    | mul => exact d
    | div => exact ⟨⟨d, h, h⟩, by simp⟩
  | right op e c ih =>
    intro h
    have d := ih h
    cases op <;> exact d
  | fn f e ih => exact fun h => ⟨LFn.deriv_noAbs e f h.1 h.2, ih h.1⟩
  | pow e1 e2 ih1 ih2 =>
    intro h
    exact ⟨h, ⟨ih2 h.2, h.1, by simp⟩, h.2, ih1 h.1, h.1⟩

end Audi
