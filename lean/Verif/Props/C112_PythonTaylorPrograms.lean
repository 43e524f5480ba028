import Verif.Proofs.PyTProg

/-!
# C112: Python functions with assignments, branches and loops, called with Taylor models

A Python function written for numbers (`PyTProg`, Spec/PyTProg.lean) is called with Taylor models for some of its arguments. Variables hold numbers or Taylor models, and may change from one to the other.
-/

namespace Audi

open Spec GDual TM PyT PyTExpr

theorem PyTRel.args {ord : List String → List String} {v : String → ℝ} {D R : String → Itv ℝ} {m : ℕ} {vs : List String} {σ : String → PyT} (hσ : Args ord v D R m vs σ) (s : String) :
    PyTRel ord v D R m vs (fun y => at_ vs v y s) (σ s) := by
  have h := hσ s
  by_cases hs : s ∈ vs
  · rw [if_pos hs] at h
    obtain ⟨g, t, g1, g2, g3⟩ := h
    exact .tm (.var s) t g3 (by rw [Expr.runTM, bind_ok g1, g2]) (PyExpr.name_of_mk3 g1) hs trivial (fun y => by simp [at_, hs, Expr.sem])
  · rw [if_neg hs] at h
    obtain ⟨n, g1, g2⟩ := h
    exact .num n g1 (fun y => by simp [at_, hs, g2])

/-- **C112 (partial).** Let the arguments in `vs` be Taylor models of variables and the other ones numbers, in any combination. If the program ends without an exception, every operation during the
run meets the conditions under which it is proved sound (C66), and `==` is only used between numbers, then:
the program ends in one way only. For all points `x` of the domain and all numbers `y` that the arguments allow at `x`, the same program, called with the numbers `y` instead of the Taylor models, ends
without an exception. A variable that holds a number at the end holds the same number in both cases; any other variable holds a Taylor model with a domain that contains `x`, which allows at `x`
the number that results for `y`. So all branches and loops were those for all numbers of the domain.

Missing: operations outside these conditions; `==` between Taylor models and numbers (`C112_equal_counterexample`); conditions on Taylor models (`C112_branch_counterexample`). -/
theorem C112_enclosure_partial {ord : List String → List String} {v : String → ℝ} {D R : String → Itv ℝ} {m : ℕ} {vs : List String} {σ σ' : String → PyT} (hord : ∀ l, (ord l).Perm l)
    (hf : Faithful ord vs) (h1 : 1 ≤ m) (hm : m ≤ 31) (hv : ∀ s, InItv (D s) (v s)) (hR : ∀ s, InItv (R s) 0) (hσ : Args ord v D R m vs σ) {q : PyTProg}
    (h : q.RunWith ord (fun σ e => e.Safe ord m σ) NumericEq σ σ') :
    q.Run ord σ σ' ∧ (∀ τ, q.Run ord σ τ → τ = σ') ∧
      ∀ x : String → ℝ, (∀ s ∈ vs, InItv (D s) (x s)) → ∀ y : String → ℝ, (∀ s ∈ vs, InItv (R s) (y s - x s)) →
        ∀ τ : String → PyT, (∀ s, ∃ n, τ s = .num n ∧ n.val = if s ∈ vs then y s else v s) → ∃ τ', q.Run ord τ τ' ∧
          ∀ s, ∃ z, τ' s = .num z ∧ ((∃ n, σ' s = .num n ∧ n.val = z.val) ∨ ∃ t, σ' s = .tm t ∧ t.WF ∧ t.InDom x ∧ t.Allows x z.val) := by
  obtain ⟨F, k1, k2⟩ := PyTProg.run_rel hord hf h1 hm hv hR h _ (PyTRel.args hσ)
  refine ⟨h.run, h.run.unique, fun x hx y hy τ hτ => ?_⟩
  obtain ⟨τ', r1, r2⟩ := k2 y ⟨x, hx, hy⟩ τ hτ
  refine ⟨τ', r1, fun s => ?_⟩
  obtain ⟨z, z1, z2⟩ := r2 s
  refine ⟨z, z1, ?_⟩
  rcases k1 s with ⟨n, g1, g2⟩ | ⟨t, a, g1, g2, g3, g4, g5, g6⟩
  · exact .inl ⟨n, g1, by rw [z2, g2]⟩
  · obtain ⟨-, r, e1, e2, e3⟩ := runTM_enclosesAll hord hf h1 hm hv hR t g3 g4 g5
    rw [g2] at e1; injection e1 with e1; subst e1
    refine .inr ⟨a, g1, e2, (e3 x hx).1, ?_⟩
    rw [z2, g6]
    exact (e3 x hx).2 y hy

/-- **C112 (counterexample, branches).** A program that compares a Taylor model with anything by `<` or `>` raises an exception, although all numbers of the domain may take the same branch. -/
theorem C112_branch_counterexample (ord : List String → List String) {σ : String → PyT} {x : String} {t : TM ℝ} (hx : σ x = .tm t) (e : PyTExpr) (p q : PyTProg) (c : Cmp) (hc : c ≠ .eq) :
    (¬ ∃ σ', (PyTProg.ite c (.var x) e p q).Run ord σ σ') ∧ (¬ ∃ σ', (PyTProg.ite c e (.var x) p q).Run ord σ σ') ∧
      (¬ ∃ σ', (PyTProg.loop c (.var x) e p).Run ord σ σ') ∧ ¬ ∃ σ', (PyTProg.loop c e (.var x) p).Run ord σ σ' := by
  have l : ∀ (r r' : PyT) (b : Bool), (PyTExpr.var x).eval ord σ = .ok r → c.pyT r r' ≠ .ok b ∧ c.pyT r' r ≠ .ok b := fun r r' b hr => by
    rw [eval, hx] at hr
    injection hr with hr
    subst hr
    cases c with
    | eq => exact absurd rfl hc
    | lt => constructor <;> intro h <;> cases r' <;> cases h
    | gt => constructor <;> intro h <;> cases r' <;> cases h
  refine ⟨?_, ?_, ?_, ?_⟩ <;> rintro ⟨σ', h⟩ <;> cases h <;>
    first
      | exact (l _ _ _ (by assumption) |>.1) (by assumption)
      | exact (l _ _ _ (by assumption) |>.2) (by assumption)

/-- `r = 1 if x == 0 else x` -/
noncomputable def exTEq : PyTProg := .ite .eq (.var "x") (.const (.int 0)) (.assign "r" (.const (.int 1))) (.assign "r" (.var "x"))

/-- **C112 (counterexample, equality).** `r = 1 if x == 0 else x`, called with the Taylor model of `x` around 0 with domain [-1, 1]: the comparison is `False`, the program ends without an exception, and the result is
a Taylor model that does not allow the number 1 at 0, which results for the number 0. -/
theorem C112_equal_counterexample (ord : List String → List String) : ∃ (g : GDual ℝ) (t : TM ℝ), GDual.mk3 0 "x" 1 = .ok g ∧ TM.make g ⟨0, 0⟩ [("x", 0)] [("x", ⟨-1, 1⟩)] = .ok t ∧
    ∃ σ' τ', exTEq.Run ord (fun _ => .tm t) σ' ∧ σ' "r" = .tm t ∧ exTEq.Run ord (fun _ => .num (.int 0)) τ' ∧ τ' "r" = .num (.int 1) ∧ t.InDom (fun _ => 0) ∧ ¬ t.Allows (fun _ => 0) 1 := by
  have lx : ∃ c, "x".toList.head? = some c ∧ c ≠ 'd' := ⟨'x', by decide, by decide⟩
  obtain ⟨r, r1, r2, r3⟩ := C66_enclosure_partial (ord := id) (v := fun _ => 0) (D := fun _ => ⟨-1, 1⟩) (R := fun _ => ⟨0, 0⟩) (m := 1) (vs := ["x"]) (fun _ => .refl _) (fun _ _ _ => rfl) le_rfl
    (by norm_num) (fun _ => by norm_num [InItv]) (fun _ => by norm_num [InItv]) (e := .var "x") lx (by simp [Expr.Over]) trivial
  obtain ⟨h1, h2⟩ := r3 (fun _ => 0) fun _ _ => by norm_num [InItv]
  have h3 := h2 (fun _ => 0) fun _ _ => by norm_num [InItv]
  have hrem : r.rem = ⟨0, 0⟩ := by
    obtain ⟨g', -, rfl⟩ := var_run r1
    rfl
  rw [Expr.runTM] at r1
  obtain ⟨g, g1, g2⟩ := bind_ok_iff.1 r1
  refine ⟨g, r, g1, g2, Function.update (fun _ => .tm r) "r" (.tm r), Function.update (fun _ => .num (.int 0)) "r" (.num (.int 1)),
    .iteF _ _ _ _ _ _ _ _ _ rfl rfl rfl (.assign _ _ _ _ rfl), by rw [Function.update_self],
    .iteT _ _ _ _ _ _ _ _ _ rfl rfl (by simp [Cmp.pyT, PyT.eq]) (.assign _ _ _ _ rfl), by rw [Function.update_self], h1, fun h => ?_⟩
  have e1 := allows_zero hrem h
  have e2 := allows_zero hrem h3
  rw [← e2] at e1
  exact one_ne_zero e1

/-- `while n < k: s = s + x; n = n + 1` -/
noncomputable def exTSum : PyTProg :=
  .loop .lt (.var "n") (.var "k") (.seq (.assign "s" (.bin .add (.var "s") (.var "x"))) (.assign "n" (.bin .add (.var "n") (.const (.int 1)))))

/-- The hypotheses hold for `exTSum`, with Taylor models `x` and `s` of any order from 1 to 31 around any points and the number `k` of iterations. -/
example {v : String → ℝ} {D R : String → Itv ℝ} {m : ℕ} {σ : String → PyT} (h1 : 1 ≤ m) (hm : m ≤ 31) (hv : ∀ s, InItv (D s) (v s)) (hR : ∀ s, InItv (R s) 0)
    (hσ : Args id v D R m ["x", "s"] σ) (k : ℕ) (hn : σ "n" = .num (.int 0)) (hk : σ "k" = .num (.int k)) :
    ∃ σ', exTSum.RunWith id (fun σ e => e.Safe id m σ) NumericEq σ σ' := by
  have hord : ∀ l : List String, (id l).Perm l := fun _ => .refl _
  have hf : Faithful id ["x", "s"] := fun _ _ _ => rfl
  have main : ∀ (j i : ℕ) (σ : String → PyT) (F : String → (String → ℝ) → ℝ), (∀ s, PyTRel id v D R m ["x", "s"] (F s) (σ s)) → (∃ a, σ "s" = .tm a) → (∃ b, σ "x" = .tm b) →
      σ "n" = .num (.int i) → σ "k" = .num (.int (i + j)) → ∃ σ', exTSum.RunWith id (fun σ e => e.Safe id m σ) NumericEq σ σ' := by
    intro j
    induction j with
    | zero =>
      intro i σ F _ _ _ h3 h4
      refine ⟨σ, .loopF _ _ _ _ _ (.num (.int i)) (.num (.int (i + 0))) trivial trivial (fun h => nomatch h) (by rw [eval, h3]) (by rw [eval, h4]; rfl) ?_⟩
      simp [Cmp.pyT, PyT.lt, PyNum.val]
    | succ j ih =>
      rintro i σ F hF ⟨a, h1'⟩ ⟨b, h2⟩ h3 h4
      have s1 : (PyTExpr.bin .add (.var "s") (.var "x")).Safe id m σ := ⟨trivial, trivial, fun u w hu hw => by
        rw [eval, h1'] at hu; rw [eval, h2] at hw
        injection hu with hu; injection hw with hw
        subst hu hw
        exact trivial⟩
      obtain ⟨⟨r, e1, g1⟩, -⟩ := PyTExpr.eval_rel hord hf h1 hm hv hR hF _ s1
      have hr : ∃ t, r = .tm t := by
        simp only [eval, h1', h2, bind, Except.bind, PyT.bin, PyT.method] at e1
        obtain ⟨t, -, ht⟩ := PyT.lift_tm e1
        exact ⟨t, ht⟩
      obtain ⟨t, rfl⟩ := hr
      have s2 : (PyTExpr.bin .add (.var "n") (.const (.int 1))).Safe id m (Function.update σ "s" (.tm t)) := ⟨trivial, trivial, fun u w hu hw => by
        rw [eval, Function.update_of_ne (by decide), h3] at hu; rw [eval] at hw
        injection hu with hu; injection hw with hw
        subst hu hw
        exact trivial⟩
      have e2 : (PyTExpr.bin .add (.var "n") (.const (.int 1))).eval id (Function.update σ "s" (.tm t)) = .ok (.num (.int (i + 1))) := by
        simp only [eval, Function.update_of_ne (show "n" ≠ "s" by decide), h3, bind, Except.bind, PyT.bin, PyT.method, PyNum.op, PyT.liftN]
      obtain ⟨σ', hr⟩ := ih (i + 1) (Function.update (Function.update σ "s" (.tm t)) "n" (.num (.int (i + 1))))
        (Function.update (Function.update F "s" fun y => F "s" y + F "x" y) "n" fun _ => (i + 1 : ℝ)) (fun s => by
          by_cases hs : s = "n"
          · subst hs
            rw [Function.update_self, Function.update_self]
            exact .num _ rfl fun _ => by simp [PyNum.val]
          · rw [Function.update_of_ne hs, Function.update_of_ne hs]
            by_cases hs' : s = "s"
            · subst hs'
              rw [Function.update_self, Function.update_self]
              exact g1
            · rw [Function.update_of_ne hs', Function.update_of_ne hs']
              exact hF s)
        ⟨t, by rw [Function.update_of_ne (by decide), Function.update_self]⟩ ⟨b, by rw [Function.update_of_ne (by decide), Function.update_of_ne (by decide), h2]⟩
        (by rw [Function.update_self]; push_cast; rfl)
        (by rw [Function.update_of_ne (by decide), Function.update_of_ne (by decide), h4, show ((i : ℤ) + ((j + 1 : ℕ) : ℤ)) = ((i + 1 : ℕ) : ℤ) + (j : ℤ) by push_cast; ring])
      refine ⟨σ', .loopT _ _ _ _ _ _ _ (.num (.int i)) (.num (.int (i + (j + 1 : ℕ)))) trivial trivial (fun h => nomatch h) (by rw [eval, h3]) (by rw [eval, h4]) ?_
        (.seq _ _ _ _ _ (.assign _ _ _ _ s1 e1) (.assign _ _ _ _ s2 e2)) hr⟩
      have hlt : (PyNum.int i).val < (PyNum.int (i + (j + 1 : ℕ))).val := by
        simp only [PyNum.val]
        push_cast
        linarith [show (0 : ℝ) ≤ j from Nat.cast_nonneg j]
      exact congrArg Except.ok (decide_eq_true hlt)
  have hx := hσ "x"
  have hs := hσ "s"
  rw [if_pos (by simp)] at hx hs
  obtain ⟨_, t1, -, -, hx⟩ := hx
  obtain ⟨_, t2, -, -, hs⟩ := hs
  exact main k 0 σ _ (PyTRel.args hσ) ⟨t2, hs⟩ ⟨t1, hx⟩ hn (by rw [hk]; simp)

end Audi
