import Verif.Spec.VecProgram
import Verif.Proofs.PyVecProg

/-! Running programs on gduals with vectorized coefficients. -/

namespace Audi

open MvPolynomial Spec GDual Topology
open Filter hiding bind

variable {n : ℕ} [NeZero n] {m : ℕ} {a : Fin n → String → ℝ}

/-- The comparison of vectorized gduals decides as the comparisons of the values, if these all decide the same. -/
theorem Cmp.run_all (c : Cmp) {F G : Fin n → (String → ℝ) → ℝ} {r1 r2 : GDual (VecN n ℝ)} (h1 : Good m a F r1) (h2 : Good m a G r2)
    (hne : ∀ i, F i (a i) ≠ G i (a i)) : ((∀ i, c.real (F i (a i)) (G i (a i))) → c.run r1 r2 = .ok true) ∧
      ((∀ i, ¬ c.real (F i (a i)) (G i (a i))) → c.run r1 r2 = .ok false) := by
  obtain ⟨y1, hy1, v1⟩ := h1.valueW
  obtain ⟨y2, hy2, v2⟩ := h2.valueW
  have i0 : Fin n := 0
  cases c with
  | lt =>
    have hlt : r1.lt r2 = .ok (Vec.lt y1.1 y2.1) := by
      unfold GDual.lt
      rw [hy1, hy2]; rfl
    change (_ → r1.lt r2 = _) ∧ (_ → r1.lt r2 = _)
    rw [hlt]
    exact ⟨fun h => by rw [vec_lt_uniform.1 fun i => by rw [v1, v2]; exact h i], fun h => by rw [vec_lt_uniform.2 fun i => by rw [v1, v2]; exact h i]⟩
  | gt =>
    have hgt : r1.gt r2 = .ok (Vec.lt y2.1 y1.1) := by
      unfold GDual.gt
      rw [hy1, hy2, C36_lt_gt]; rfl
    change (_ → r1.gt r2 = _) ∧ (_ → r1.gt r2 = _)
    rw [hgt]
    exact ⟨fun h => by rw [vec_lt_uniform.1 fun i => by rw [v1, v2]; exact h i], fun h => by rw [vec_lt_uniform.2 fun i => by rw [v1, v2]; exact h i]⟩
  | eq =>
    refine ⟨fun h => absurd (h i0) (hne i0), fun _ => ?_⟩
    have : r1.eq r2 = false := by
      rw [Bool.eq_false_iff]
      intro h
      have := (Poly.eq_iff (ι := Fin n) (K := ℝ) h1.valid.wf h2.valid.wf).1 h i0
      apply hne i0
      rw [(h1.taylor i0).val, (h2.taylor i0).val]
      exact congrArg (coeff 0) this
    exact congrArg Except.ok this

theorem goodW_update {σ : String → GDual (VecN n ℝ)} {F : String → Fin n → (String → ℝ) → ℝ} (hσ : ∀ s, Good m a (F s) (σ s))
    {x : String} {r : GDual (VecN n ℝ)} {G : Fin n → (String → ℝ) → ℝ} (hr : Good m a G r) (s : String) : Good m a (Function.update F x G s) (Function.update σ x r s) := by
  by_cases h : s = x
  · subst h; rw [Function.update_self, Function.update_self]; exact hr
  · rw [Function.update_of_ne h, Function.update_of_ne h]; exact hσ s

/-- Programs whose executions on the values take the same branches in all components run along this path. -/
theorem Prog.run_all {q : Prog (VecN n ℝ)} {s s' : Fin n → String → ℝ} (h : q.ExecAll s s') (hm : q.FnOrder m) :
    ∀ {σ : String → GDual (VecN n ℝ)} {F : String → Fin n → (String → ℝ) → ℝ}, (∀ x, Good m a (F x) (σ x)) → (s = fun i x => F x i (a i)) →
      ∃ (σ' : String → GDual (VecN n ℝ)) (F' : String → Fin n → (String → ℝ) → ℝ), q.Run σ σ' ∧ (∀ x, Good m a (F' x) (σ' x)) ∧
        (s' = fun i x => F' x i (a i)) ∧ ∀ i, ∀ᶠ y in 𝓝 (a i), q.Exec i (· ≠ ·) (fun x => F x i y) fun x => F' x i y := by
  induction h with
  | skip s => exact fun hσ hs => ⟨_, _, .skip _, hσ, hs, fun _ => Eventually.of_forall fun _ => .skip _⟩
  | assign s x e hd =>
    intro σ F hσ hs
    subst hs
    obtain ⟨r, hr, gr⟩ := Expr.eval_good (F := fun i s => F s i) hσ e hm hd
    refine ⟨_, Function.update F x fun i y => e.sem i fun s => F s i y, .assign _ _ _ _ hr, goodW_update hσ gr,
      funext fun i => (apply_updateW F x (fun i y => e.sem i fun s => F s i y) i (a i)).symm, fun i => ?_⟩
    filter_upwards [Expr.dom_near (F := fun i s => F s i) hσ e hm hd i] with y hy
    rw [apply_updateW]
    exact .assign _ _ _ hy
  | opAssign s op x e hd h0 =>
    intro σ F hσ hs
    subst hs
    obtain ⟨d, hdv, gd⟩ := Expr.eval_good (F := fun i s => F s i) hσ e hm hd
    obtain ⟨r, hr, gr⟩ := Good.op op (hσ x) gd h0
    refine ⟨_, Function.update F x fun i y => op.real (F x i y) (e.sem i fun s => F s i y), .opAssign _ _ _ _ _ _ hdv hr, goodW_update hσ gr,
      funext fun i => (apply_updateW F x (fun i y => op.real (F x i y) (e.sem i fun s => F s i y)) i (a i)).symm, fun i => ?_⟩
    filter_upwards [Expr.dom_near (F := fun i s => F s i) hσ e hm hd i, (gd.taylor i).cont.eventually (op.isOpen_dom.mem_nhds (h0 i))] with y hy hy2
    rw [apply_updateW]
    exact .opAssign _ _ _ _ hy hy2
  | seq s s' s'' p q _ _ ih1 ih2 =>
    intro σ F hσ hs
    obtain ⟨σ1, F1, r1, g1, e1, n1⟩ := ih1 hm.1 hσ hs
    obtain ⟨σ2, F2, r2, g2, e2, n2⟩ := ih2 hm.2 g1 e1
    refine ⟨σ2, F2, .seq _ _ _ _ _ r1 r2, g2, e2, fun i => ?_⟩
    filter_upwards [n1 i, n2 i] with y a b
    exact .seq _ _ _ _ _ a b
  | iteT s s' c e1 e2 p q d1 d2 o d _ ih =>
    intro σ F hσ hs
    subst hs
    obtain ⟨r1, h1, g1⟩ := Expr.eval_good (F := fun i s => F s i) hσ e1 hm.1 d1
    obtain ⟨r2, h2, g2⟩ := Expr.eval_good (F := fun i s => F s i) hσ e2 hm.2.1 d2
    have hb := (Cmp.run_all c g1 g2 o).1 d
    obtain ⟨σ1, F1, ru, gu, eu, nu⟩ := ih hm.2.2.1 hσ rfl
    refine ⟨σ1, F1, .iteT _ _ _ _ _ _ _ _ _ h1 h2 hb ru, gu, eu, fun i => ?_⟩
    filter_upwards [nu i, Expr.dom_near (F := fun i s => F s i) hσ e1 hm.1 d1 i, Expr.dom_near (F := fun i s => F s i) hσ e2 hm.2.1 d2 i,
      Cmp.real_near c (g1.taylor i).cont (g2.taylor i).cont (o i)] with y hy a1 a2 a3
    exact .iteT _ _ _ _ _ _ _ a1 a2 a3.1 (a3.2.2 (d i)) hy
  | iteF s s' c e1 e2 p q d1 d2 o d _ ih =>
    intro σ F hσ hs
    subst hs
    obtain ⟨r1, h1, g1⟩ := Expr.eval_good (F := fun i s => F s i) hσ e1 hm.1 d1
    obtain ⟨r2, h2, g2⟩ := Expr.eval_good (F := fun i s => F s i) hσ e2 hm.2.1 d2
    have hb := (Cmp.run_all c g1 g2 o).2 d
    obtain ⟨σ1, F1, ru, gu, eu, nu⟩ := ih hm.2.2.2 hσ rfl
    refine ⟨σ1, F1, .iteF _ _ _ _ _ _ _ _ _ h1 h2 hb ru, gu, eu, fun i => ?_⟩
    filter_upwards [nu i, Expr.dom_near (F := fun i s => F s i) hσ e1 hm.1 d1 i, Expr.dom_near (F := fun i s => F s i) hσ e2 hm.2.1 d2 i,
      Cmp.real_near c (g1.taylor i).cont (g2.taylor i).cont (o i)] with y hy a1 a2 a3
    exact .iteF _ _ _ _ _ _ _ a1 a2 a3.1 (fun hh => d i (a3.2.1 hh)) hy
  | loopT s s' s'' c e1 e2 p d1 d2 o d _ _ ih1 ih2 =>
    intro σ F hσ hs
    subst hs
    obtain ⟨r1, h1, g1⟩ := Expr.eval_good (F := fun i s => F s i) hσ e1 hm.1 d1
    obtain ⟨r2, h2, g2⟩ := Expr.eval_good (F := fun i s => F s i) hσ e2 hm.2.1 d2
    have hb := (Cmp.run_all c g1 g2 o).1 d
    obtain ⟨σ1, F1, ru, gu, eu, nu⟩ := ih1 hm.2.2 hσ rfl
    obtain ⟨σ2, F2, ru', gu', eu', nu'⟩ := ih2 hm gu eu
    refine ⟨σ2, F2, .loopT _ _ _ _ _ _ _ _ _ h1 h2 hb ru ru', gu', eu', fun i => ?_⟩
    filter_upwards [nu i, nu' i, Expr.dom_near (F := fun i s => F s i) hσ e1 hm.1 d1 i, Expr.dom_near (F := fun i s => F s i) hσ e2 hm.2.1 d2 i,
      Cmp.real_near c (g1.taylor i).cont (g2.taylor i).cont (o i)] with y hy hy' a1 a2 a3
    exact .loopT _ _ _ _ _ _ _ a1 a2 a3.1 (a3.2.2 (d i)) hy hy'
  | loopF s c e1 e2 p d1 d2 o d =>
    intro σ F hσ hs
    subst hs
    obtain ⟨r1, h1, g1⟩ := Expr.eval_good (F := fun i s => F s i) hσ e1 hm.1 d1
    obtain ⟨r2, h2, g2⟩ := Expr.eval_good (F := fun i s => F s i) hσ e2 hm.2.1 d2
    have hb := (Cmp.run_all c g1 g2 o).2 d
    refine ⟨σ, F, .loopF _ _ _ _ _ _ _ h1 h2 hb, hσ, rfl, fun i => ?_⟩
    filter_upwards [Expr.dom_near (F := fun i s => F s i) hσ e1 hm.1 d1 i, Expr.dom_near (F := fun i s => F s i) hσ e2 hm.2.1 d2 i,
      Cmp.real_near c (g1.taylor i).cont (g2.taylor i).cont (o i)] with y a1 a2 a3
    exact .loopF _ _ _ _ _ a1 a2 a3.1 (fun hh => d i (a3.2.1 hh))

end Audi
