import Verif.Proofs.PyProg
import Verif.Props.C70_Programs

/-!
# C111: Python functions with assignments, branches and loops

A Python function written for numbers (`PyProg`, Spec/PyProg.lean) is called with gduals for some of its arguments. The variables hold numbers or gduals, and may change from one to the other. The function
takes the branches which it takes for numbers, and the derivatives read from the gduals at the end are the derivatives of what the same function computes for numbers.
-/

namespace Audi

open MvPolynomial Spec GDual Topology PyExpr
open Filter hiding bind

/-- **C111 (partial).** Let `q` be a Python program of assignments, branches and loops with the conditions `a < b`, `a > b`, `a == b`, over expressions of numbers, variables, operators, powers and
functions of the module. Let the arguments in `G` be variables `gdual_double(v s, s, m)` and the other ones numbers, in any combination. If the execution on the values `v` ends, stays in
the domains, compares by `<` and `>` no number with a gdual, and no gdual with an equal value, then the program ends without exceptions, in one way only. For all numbers `y` near `v` instead of the
gduals, the same program ends with numbers `F x y` in the variables `x`. A variable that holds a number at the end (`κ' x = false`) holds the number that results for `v`, and `F x` does not depend on `y`. Any other variable holds a
gdual with this value, from which the derivatives of `F x` are read; if its order is not the one of the arguments, then these derivatives are zero.

Missing: comparisons with equal values (`C70_tie_counterexample`) and of numbers with gduals (`C111_kind_counterexample`, `C111_equal_counterexample`); the order is at most 30 if `atan`, `asin` or `acos` occurs
(finding 1). -/
theorem C111_programs_partial {G κ' : String → Bool} {v s' : String → ℝ} {m : ℕ} {σ : String → PyV} (hσ : Args G v m σ) (q : PyProg) (hq : q.FnOk m) (hrun : q.Exec G v κ' s') :
    ∃ σ', q.Run σ σ' ∧ (∀ τ, q.Run σ τ → τ = σ') ∧ ∃ F : String → (String → ℝ) → ℝ,
      (∀ᶠ y in 𝓝 v, q.Run (fun x => .num (mixed G v y x)) fun x => .num (F x y)) ∧
      ∀ x, F x v = s' x ∧ (κ' x = false → σ' x = .num (s' x) ∧ ∀ y, F x y = s' x) ∧
        (κ' x = true → ∃ d, σ' x = .gd d ∧ d.Valid ∧ d.constantCf = .ok (s' x) ∧
          (d.getOrder = m ∨ d.getOrder ≤ m ∧ ∀ l : List String, l ≠ [] → l.length ≤ m → pds l (F x) v = 0) ∧
          ∀ l : List String, l.length ≤ d.getOrder → ∀ dict : List (String × ℕ), (dict.map (·.1)).Nodup →
            (∀ p ∈ dict, 0 < p.2) → (∀ u, (dict.lookup u).getD 0 = (l.map fun s => "d" ++ s).count u) →
            d.getDerivativeDict dict = .ok (pds l (F x) v)) := by
  classical
  let ext : (String → ℝ) → String → ℝ := fun y => Function.extend (fun s => "d" ++ s) y 0
  have hext : ∀ y s, ext y ("d" ++ s) = y s := fun y s => d_append_injective.extend_apply _ _ s
  have hcont : Continuous ext := continuous_pi fun t => by
    by_cases ht : ∃ s, "d" ++ s = t
    · obtain ⟨s, rfl⟩ := ht
      simp only [hext]
      exact continuous_apply s
    · have : (fun y => ext y t) = fun _ => 0 := funext fun y => Function.extend_apply' _ _ _ ht
      rw [this]; exact continuous_const
  let cut : (String → ℝ) → String → ℝ := fun z s => z ("d" ++ s)
  have hcut : Continuous cut := continuous_pi fun s => continuous_apply _
  have hce : ∀ y, cut (ext y) = y := fun y => funext (hext y)
  let F0 : String → (String → ℝ) → ℝ := fun x z => mixed G v (cut z) x
  have hF0 : ∀ x, PyRel m (ext v) (G x) (F0 x) (σ x) := fun x => by
    have hx := hσ x
    cases hg : G x with
    | true =>
      rw [hg] at hx
      obtain ⟨d, hr, hd⟩ := hx
      refine ⟨d, hd, ?_⟩
      have ho := order_mk3 hr
      refine ⟨valid_mk3 (ι := Unit) (K := ℝ) hr, ho.le, Or.inl ho, fun i => ?_⟩
      have h1 := IsTaylor.coord (a := ext v) (m := m) ("d" ++ x)
      have h2 : F0 x = fun z => z ("d" ++ x) := funext fun z => if_pos hg
      change IsTaylor (ext v) m (F0 x) _
      rw [h2]
      refine h1.congr_poly ?_
      rw [toMv_mk3 hr, hext]
      change EqUpTo m (MvPolynomial.C (v x) + X ("d" ++ x)) (MvPolynomial.C (v x) + _)
      split_ifs with h0
      · subst h0
        intro e he
        have : e = 0 := by rw [← Finsupp.degree_eq_zero_iff]; omega
        rw [this]; simp
      · exact EqUpTo.of_eq rfl
    | false =>
      rw [hg] at hx
      exact ⟨v x, hx, fun z => if_neg (by simp [hg])⟩
  obtain ⟨σ', F', hr, hg, hs', hn⟩ := PyProg.run_rel hrun hq hF0 (by funext x; change _ = mixed G v (cut (ext v)) x; rw [hce, mixed_self])
  have hn' : ∀ᶠ z in 𝓝 (ext v), q.Run (fun x => .num (mixed G v (cut z) x)) fun x => .num (F' x z) := hn.mono fun z hz => hz.numbers hq
  have hv : Tendsto ext (𝓝 v) (𝓝 (ext v)) := hcont.tendsto v
  have hloc : ∀ x, F' x =ᶠ[𝓝 (ext v)] fun z => F' x (ext (cut z)) := fun x => by
    have h2 : Tendsto (fun z => ext (cut z)) (𝓝 (ext v)) (𝓝 (ext v)) := by
      have h3 : Tendsto (fun z => ext (cut z)) (𝓝 (ext v)) (𝓝 (ext (cut (ext v)))) := (hcont.comp hcut).tendsto (ext v)
      rwa [hce] at h3
    filter_upwards [hn', h2.eventually hn'] with z h3 h4
    rw [hce] at h4
    have := congrFun (h3.unique h4) x
    injection this
  refine ⟨σ', hr, fun τ hτ => hτ.unique hr, fun x y => F' x (ext y), ?_, fun x => ?_⟩
  · filter_upwards [hv.eventually hn'] with y hy
    rw [hce] at hy
    exact hy
  have hval : F' x (ext v) = s' x := (congrFun hs' x).symm
  have hx := hg x
  refine ⟨hval, fun hk => ?_, fun hk => ?_⟩
  · rw [hk] at hx
    obtain ⟨h1, h2⟩ := hx.num
    exact ⟨by rw [h1, hval], fun y => (h2 _).trans hval⟩
  rw [hk] at hx
  obtain ⟨d, hd, gd⟩ := hx
  have hT : IsTaylor (ext v) m (fun z => F' x (ext (cut z))) (d.toMv ()) := (gd.taylor ()).congr_fun (hloc x)
  have key : ∀ l : List String, l.length ≤ m →
      coeff 0 ((l.map fun s => "d" ++ s).foldl (fun Q s => pderiv s Q) (d.toMv () : MvPolynomial String ℝ)) =
        pds l (fun y => F' x (ext y)) v := fun l hle => by
    rw [← hT.pds_eq _ (by rw [List.length_map]; exact hle)]
    have := pds_rename l (fun y => F' x (ext y)) (ext v)
    refine Eq.trans this ?_
    congr 1
    exact hce v
  refine ⟨d, hd, gd.valid, ?_, ?_, fun l hle dict hk hpos hcount => ?_⟩
  · obtain ⟨u, hu⟩ := constantCf_isOk d
    rw [hu, ← hval]
    have h1 : u = coeff 0 (d.toMv () : MvPolynomial String ℝ) := lane_constantCf (ι := Unit) (K := ℝ) gd.valid hu ()
    rw [h1, ← (gd.taylor ()).val]
  · refine gd.order.imp id fun hc => ⟨gd.le, fun l hl hle => ?_⟩
    rw [← key l hle, hc ()]
    cases l with
    | nil => exact absurd rfl hl
    | cons t l =>
      rw [List.map_cons, List.foldl_cons, pderiv_C]
      clear hl hle
      induction l with
      | nil => simp
      | cons u l ih => rw [List.map_cons, List.foldl_cons, map_zero]; exact ih
  · obtain ⟨w, hw, hlane⟩ := getDerivativeDict_count (ι := Unit) (K := ℝ) gd.valid (l := l.map fun s => "d" ++ s) (by simpa using hle) hk hpos hcount
    rw [hw, ← key l (hle.trans gd.le), ← hlane ()]
    rfl

/-- A sum in a loop, `s = 0; i = 0; while i < 2: s = s + sin(x) * i; i = i + 1`, with a gdual `x` of order 50: `s` is a number at first and a gdual at the end, `i` is always a number. -/
example : ∃ q : PyProg, q = .seq (.assign "s" (.const 0)) (.seq (.assign "i" (.const 0)) (.loop .lt (.var "i") (.const 2)
      (.seq (.assign "s" (.bin .add (.var "s") (.bin .mul (.fn .sin (.var "x")) (.var "i")))) (.assign "i" (.bin .add (.var "i") (.const 1)))))) ∧
    q.FnOk 50 ∧ (∃ σ, Args (fun s => s == "x") (fun _ => 3) 50 σ) ∧ ∃ κ' s', q.Exec (fun s => s == "x") (fun _ => 3) κ' s' ∧ κ' "s" = true ∧ κ' "i" = false := by
  refine ⟨_, rfl, by simp [PyProg.FnOk, PyExpr.FnOk, Fn.InModule, Fn.MaxOrder], ?_, ?_⟩
  · obtain ⟨r, hr⟩ : ∃ r : GDual ℝ, GDual.mk3 3 "x" 50 = .ok r := ⟨_, mk3_ok.mpr ⟨by decide, ⟨'x', by decide, by decide⟩, rfl⟩⟩
    refine ⟨fun x => if x = "x" then .gd r else .num 3, fun x => ?_⟩
    by_cases hx : x = "x"
    · subst hx
      exact ⟨r, hr, rfl⟩
    · have : (x == "x") = false := by simpa using hx
      simp only [this]
      exact if_neg hx
  · have h1 : ("i" : String) ≠ "s" := by decide
    have h2 : ("s" : String) ≠ "i" := by decide
    have h3 : ("x" : String) ≠ "i" := by decide
    have h4 : ("x" : String) ≠ "s" := by decide
    refine ⟨_, _, .seq _ _ _ _ _ _ _ _ (.assign _ _ _ _ trivial) (.seq _ _ _ _ _ _ _ _ (.assign _ _ _ _ trivial) (.loopT _ _ _ _ _ _ _ _ _ _ ?_ ?_ ?_ ?_
      (.seq _ _ _ _ _ _ _ _ (.assign _ _ _ _ ?_) (.assign _ _ _ _ ?_)) (.loopT _ _ _ _ _ _ _ _ _ _ ?_ ?_ ?_ ?_
      (.seq _ _ _ _ _ _ _ _ (.assign _ _ _ _ ?_) (.assign _ _ _ _ ?_)) (.loopF _ _ _ _ _ _ ?_ ?_ ?_ ?_)))), ?_, ?_⟩ <;>
    simp [PyExpr.Dom, PyExpr.Uses, PyExpr.sem, Op.Dom, Op.real, Fn.Dom, Cmp.real, Cmp.Ok, Function.update, h1, h2, h3, h4] <;> norm_num

/-- **C111 (counterexample, comparison with a number).** The function `if x < 0: r = -x; else: r = x`, that is `|x|`, ends for every number `x` and raises a `TypeError` for every gdual: there is no comparison of gduals
with numbers. -/
theorem C111_kind_counterexample : ∃ q : PyProg, q.FnOk 30 ∧ (∀ x : ℝ, ∃ σ', q.Run (fun _ => .num x) σ' ∧ σ' "r" = .num |x|) ∧
    ∀ (d : GDual ℝ) (σ : String → PyV), σ "x" = .gd d → PyV.lt (σ "x") (.num 0) = .error .typeError ∧ ¬ ∃ σ', q.Run σ σ' := by
  refine ⟨.ite .lt (.var "x") (.const 0) (.assign "r" (.fn .neg (.var "x"))) (.assign "r" (.var "x")), by simp [PyProg.FnOk, PyExpr.FnOk, Fn.InModule, Fn.MaxOrder], fun x => ?_, fun d σ hd => ?_⟩
  · by_cases h : x < 0
    · refine ⟨_, .iteT _ _ _ _ _ _ _ _ _ rfl rfl (by simp [Cmp.py, PyV.lt, h]) (.assign _ _ _ (.num (-x)) ?_), ?_⟩
      · change PyV.fn .neg (.num x) = _
        simp [PyV.fn, Fn.InModule, Fn.Defined, Fn.real]
      · rw [Function.update_self, abs_of_neg h]
    · refine ⟨_, .iteF _ _ _ _ _ _ _ _ _ rfl rfl (by simp [Cmp.py, PyV.lt, h]) (.assign _ _ _ _ rfl), ?_⟩
      rw [Function.update_self, abs_of_nonneg (not_lt.1 h)]
  · refine ⟨by rw [hd]; rfl, ?_⟩
    rintro ⟨σ', h⟩
    have key : ∀ r1 r2 b, PyExpr.eval σ (.var "x") = .ok r1 → PyExpr.eval σ (.const 0) = .ok r2 → Cmp.lt.py r1 r2 = .ok b → False := by
      intro r1 r2 b h1 h2 h3
      simp only [PyExpr.eval, Except.ok.injEq] at h1 h2
      subst h1 h2
      rw [hd] at h3
      cases h3
    cases h with
    | iteT _ _ _ _ _ _ _ r1 r2 h1 h2 h3 _ => exact key _ _ _ h1 h2 h3
    | iteF _ _ _ _ _ _ _ r1 r2 h1 h2 h3 _ => exact key _ _ _ h1 h2 h3

/-- **C111 (counterexample, `==` with a number).** The function `if x == 1: r = 2; else: r = x` gives 2 for the number 1 and another value, 1, for every gdual `x` with the value 1, also for the constant `gdual_double(1)`:
a gdual is never equal to a number. -/
theorem C111_equal_counterexample : ∃ q : PyProg, q.FnOk 30 ∧ (∃ σ', q.Run (fun _ => .num 1) σ' ∧ σ' "r" = .num 2) ∧
    ∀ (d : GDual ℝ) (σ : String → PyV), σ "x" = .gd d → d.constantCf = .ok 1 → ∃ σ', q.Run σ σ' ∧ (∀ τ, q.Run σ τ → τ = σ') ∧ σ' "r" = .gd d := by
  refine ⟨.ite .eq (.var "x") (.const 1) (.assign "r" (.const 2)) (.assign "r" (.var "x")), by simp [PyProg.FnOk, PyExpr.FnOk], ?_, fun d σ hd _ => ?_⟩
  · exact ⟨_, .iteT _ _ _ _ _ _ _ _ _ rfl rfl (by simp [Cmp.py, PyV.eq]) (.assign _ _ _ _ rfl), by rw [Function.update_self]⟩
  · have h : PyProg.Run (.ite .eq (.var "x") (.const 1) (.assign "r" (.const 2)) (.assign "r" (.var "x"))) σ (Function.update σ "r" (σ "x")) :=
      .iteF _ _ _ _ _ _ _ _ _ rfl rfl (by rw [hd]; rfl) (.assign _ _ _ _ rfl)
    exact ⟨_, h, fun τ hτ => hτ.unique h, by rw [Function.update_self, hd]⟩

end Audi
