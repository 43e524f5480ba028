import Verif.Proofs.PyVecProg
import Verif.Props.C111_PythonPrograms

/-!
# C114: Python functions with assignments, branches and loops, called with `gdual_vdouble`

One run with objects of type `gdual_vdouble` stands for one run for each component, provided all these take the same branches.
-/

namespace Audi

open MvPolynomial Spec GDual Topology PyExpr
open Filter hiding bind

variable {n : ℕ} [NeZero n]

/-- **C114 (partial).** Let `q` be a Python program of assignments, branches and loops with the conditions `a < b`, `a > b`, `a == b`, over expressions of numbers, variables, operators, powers and
functions of the module. Let the arguments in `G` be variables `gdual_vdouble(v s, s, m)` and the other ones numbers, in any combination. If the executions on the components of `v` end, stay in the domains, compare by
`<` and `>` no number with a gdual, and no gdual with an equal value, and all take the same branches, then the program ends without exceptions, in one way only. For all numbers `y` near component `i`
of `v` instead of the gduals, the same program ends with numbers `F x i y` in the variables `x`. A variable that holds a number at the end (`κ' x = false`) holds the number that results in every component. Any other
variable holds a `gdual_vdouble`; component `i` of its value and derivatives are the value and the derivatives of `F x i`.

Missing: as in C111; executions that take different branches in different components (`C114_branch_counterexample`). -/
theorem C114_programs_partial {G κ' : String → Bool} {v : String → VecN n ℝ} {s' : Fin n → String → ℝ} {m : ℕ} {σ : String → PyW n} (hσ : ArgsW G v m σ) (q : PyProg) (hq : q.FnOk m)
    (hrun : q.ExecW G (fun i => at' v i) κ' s') :
    ∃ σ', q.RunW σ σ' ∧ (∀ τ, q.RunW σ τ → τ = σ') ∧ ∃ F : String → Fin n → (String → ℝ) → ℝ,
      (∀ i, ∀ᶠ y in 𝓝 (at' v i), q.Run (fun x => .num (mixed G (at' v i) y x)) fun x => .num (F x i y)) ∧
      ∀ x, (∀ i, F x i (at' v i) = s' i x) ∧ (κ' x = false → ∃ c, σ' x = .base (.num c) ∧ ∀ i y, F x i y = c) ∧
        (κ' x = true → ∃ d, σ' x = .gv d ∧ d.Valid ∧ (∃ c, d.constantCf = .ok c ∧ ∀ i : Fin n, (Lanes.lane i c : ℝ) = s' i x) ∧
          (d.getOrder = m ∨ d.getOrder ≤ m ∧ ∀ i, ∀ l : List String, l ≠ [] → l.length ≤ m → pds l (F x i) (at' v i) = 0) ∧
          ∀ l : List String, l.length ≤ d.getOrder → ∀ dict : List (String × ℕ), (dict.map (·.1)).Nodup →
            (∀ p ∈ dict, 0 < p.2) → (∀ u, (dict.lookup u).getD 0 = (l.map fun s => "d" ++ s).count u) →
            ∃ c, d.getDerivativeDict dict = .ok c ∧ ∀ i : Fin n, (Lanes.lane i c : ℝ) = pds l (F x i) (at' v i)) := by
  classical
  let ext : (String → ℝ) → String → ℝ := fun y => Function.extend (fun s => "d" ++ s) y 0
  have hext : ∀ y s, ext y ("d" ++ s) = y s := fun y s => d_append_injective.extend_apply _ _ s
  have hcont : Continuous ext := continuous_pi fun t => by
    by_cases ht : ∃ s, "d" ++ s = t
    · obtain ⟨s, rfl⟩ := ht
      simp only [hext]
      exact continuous_apply s
    · have : (fun y => ext y t) = fun _ => 0 := funext fun y => Function.extend_apply' _ _ _ ht
      rw [this]; exact continuous_const
  let cut : (String → ℝ) → String → ℝ := fun z s => z ("d" ++ s)
  have hcut : Continuous cut := continuous_pi fun s => continuous_apply _
  have hce : ∀ y, cut (ext y) = y := fun y => funext (hext y)
  let a : Fin n → String → ℝ := fun i => ext (at' v i)
  let F0 : String → Fin n → (String → ℝ) → ℝ := fun x i z => mixed G (at' v i) (cut z) x
  have hF0 : ∀ x, PyRelW m a (G x) (F0 x) (σ x) := fun x => by
    have hx := hσ x
    cases hg : G x with
    | true =>
      rw [hg, if_pos rfl] at hx
      obtain ⟨d, hr, hd⟩ := hx
      refine ⟨d, hd, ?_⟩
      have ho := order_mk3 hr
      refine ⟨valid_mk3 (ι := Fin n) (K := ℝ) hr, ho.le, Or.inl ho, fun i => ?_⟩
      have h1 := IsTaylor.coord (a := a i) (m := m) ("d" ++ x)
      have h2 : F0 x i = fun z => z ("d" ++ x) := funext fun z => if_pos hg
      change IsTaylor (a i) m (F0 x i) _
      rw [h2]
      refine h1.congr_poly ?_
      rw [toMv_mk3 hr]
      change EqUpTo m (MvPolynomial.C (ext (at' v i) ("d" ++ x)) + X ("d" ++ x)) (MvPolynomial.C (Lanes.lane i (v x)) + _)
      rw [hext]
      split_ifs with h0
      · subst h0
        intro e he
        have : e = 0 := by rw [← Finsupp.degree_eq_zero_iff]; omega
        rw [this]; simp [at']
      · exact EqUpTo.of_eq rfl
    | false =>
      rw [hg, if_neg Bool.false_ne_true] at hx
      obtain ⟨c, hc, hx⟩ := hx
      refine ⟨c, hx, fun i z => ?_⟩
      change mixed G (at' v i) (cut z) x = c
      simp [mixed, hg, at', hc, lane_scalar]
  obtain ⟨σ', F', hr, hg, hs', hn⟩ := PyProg.runW_rel hrun hq hF0 (by
    funext i x
    change _ = mixed G (at' v i) (cut (ext (at' v i))) x
    rw [hce, mixed_self])
  have hn' : ∀ i, ∀ᶠ z in 𝓝 (a i), q.Run (fun x => .num (mixed G (at' v i) (cut z) x)) fun x => .num (F' x i z) := fun i => (hn i).mono fun z hz => hz.numbers hq
  have hv : ∀ i, Tendsto ext (𝓝 (at' v i)) (𝓝 (a i)) := fun i => hcont.tendsto (at' v i)
  have hloc : ∀ i x, F' x i =ᶠ[𝓝 (a i)] fun z => F' x i (ext (cut z)) := fun i x => by
    have h2 : Tendsto (fun z => ext (cut z)) (𝓝 (a i)) (𝓝 (a i)) := by
      have h3 : Tendsto (fun z => ext (cut z)) (𝓝 (a i)) (𝓝 (ext (cut (a i)))) := (hcont.comp hcut).tendsto (a i)
      have h4 : ext (cut (a i)) = a i := congrArg ext (hce (at' v i))
      rwa [h4] at h3
    filter_upwards [hn' i, h2.eventually (hn' i)] with z h3 h4
    rw [hce] at h4
    have := congrFun (h3.unique h4) x
    injection this
  refine ⟨σ', hr, fun τ hτ => hτ.unique hr, fun x i y => F' x i (ext y), fun i => ?_, fun x => ?_⟩
  · filter_upwards [(hv i).eventually (hn' i)] with y hy
    rw [hce] at hy
    exact hy
  have hval : ∀ i, F' x i (ext (at' v i)) = s' i x := fun i => (congrFun (congrFun hs' i) x).symm
  have hx := hg x
  refine ⟨hval, fun hk => ?_, fun hk => ?_⟩
  · rw [hk] at hx
    obtain ⟨c, h1, h2⟩ := hx
    exact ⟨c, h1, fun i y => h2 i _⟩
  rw [hk] at hx
  obtain ⟨d, hd, gd⟩ := hx
  have hT : ∀ i, IsTaylor (a i) m (fun z => F' x i (ext (cut z))) (d.toMv i) := fun i => (gd.taylor i).congr_fun (hloc i x)
  have key : ∀ i, ∀ l : List String, l.length ≤ m →
      coeff 0 ((l.map fun s => "d" ++ s).foldl (fun Q s => pderiv s Q) (d.toMv i : MvPolynomial String ℝ)) =
        pds l (fun y => F' x i (ext y)) (at' v i) := fun i l hle => by
    rw [← (hT i).pds_eq _ (by rw [List.length_map]; exact hle)]
    have := pds_rename l (fun y => F' x i (ext y)) (a i)
    refine Eq.trans this ?_
    congr 1
    exact hce (at' v i)
  refine ⟨d, hd, gd.valid, ?_, ?_, fun l hle dict hk hpos hcount => ?_⟩
  · obtain ⟨u, hu, hv⟩ := gd.valueW
    exact ⟨u, hu, fun i => (hv i).trans (hval i)⟩
  · refine gd.order.imp id fun hc => ⟨gd.le, fun i l hl hle => ?_⟩
    rw [← key i l hle, hc i]
    cases l with
    | nil => exact absurd rfl hl
    | cons t l =>
      rw [List.map_cons, List.foldl_cons, pderiv_C]
      clear hl hle
      induction l with
      | nil => simp
      | cons u l ih => rw [List.map_cons, List.foldl_cons, map_zero]; exact ih
  · obtain ⟨w, hw, hlane⟩ := getDerivativeDict_count (ι := Fin n) (K := ℝ) gd.valid (l := l.map fun s => "d" ++ s) (by simpa using hle) hk hpos hcount
    exact ⟨w, hw, fun i => by rw [hlane i, key i l (hle.trans gd.le)]⟩

/-- `if x > y: r = x; else: r = y`, the maximum of two numbers. -/
def maxProg : PyProg := .ite .gt (.var "x") (.var "y") (.assign "r" (.var "x")) (.assign "r" (.var "y"))

/-- **C114 (counterexample, different branches).** For numbers, the program computes the maximum. For the constants `[0, 5]` and `[1, 2]` it ends with `[1, 2]`; the maxima of the components are 1 and 5. -/
theorem C114_branch_counterexample : (∀ x y : ℝ, ∃ σ', maxProg.Run (fun s => .num (if s = "x" then x else y)) σ' ∧ σ' "r" = .num (max x y)) ∧
    ∃ σ', maxProg.RunW (fun s => .gv (if s = "x" then vec2 0 5 else vec2 1 2)) σ' ∧ (∀ τ, maxProg.RunW (fun s => .gv (if s = "x" then vec2 0 5 else vec2 1 2)) τ → τ = σ') ∧
      ∃ d, σ' "r" = .gv d ∧ ∃ c, d.constantCf = .ok c ∧ VecN.laneOf 1 c = 2 ∧ max (5 : ℝ) 2 = 5 := by
  refine ⟨fun x y => ?_, ?_⟩
  · by_cases h : x > y
    · refine ⟨_, .iteT _ _ _ _ _ _ _ _ _ rfl rfl (by simpa [Cmp.py, PyV.gt] using h) (.assign _ _ _ _ rfl), ?_⟩
      simp [Function.update_self, max_eq_left h.le]
    · refine ⟨_, .iteF _ _ _ _ _ _ _ _ _ rfl rfl (by simpa [Cmp.py, PyV.gt] using h) (.assign _ _ _ _ rfl), ?_⟩
      simp [Function.update_self, max_eq_right (not_lt.1 h)]
  · obtain ⟨-, hgt, -, y, hy, h2⟩ := C113_branch_counterexample
    have h : maxProg.RunW (fun s => .gv (if s = "x" then vec2 0 5 else vec2 1 2)) _ :=
      .iteF _ _ _ _ _ _ _ _ _ rfl rfl (by simpa [Cmp.pyW] using hgt) (.assign _ _ _ _ rfl)
    refine ⟨_, h, fun τ hτ => hτ.unique h, vec2 1 2, ?_, y, hy, h2, by norm_num⟩
    rw [Function.update_self]
    simp

/-- **C114 (equality).** A `gdual_vdouble` equals no number and no `gdual_double`; `!=` is the negation of `==`. -/
theorem C114_equal (d : GDual (VecN n ℝ)) (a b : PyW n) (c : PyV) :
    PyW.eq (.gv d) (.base c) = false ∧ PyW.eq (.base c) (.gv d) = false ∧ PyW.ne a b = !PyW.eq a b := by
  refine ⟨rfl, rfl, ?_⟩
  cases a with
  | gv a => cases b <;> rfl
  | base a =>
    cases b with
    | gv b => rfl
    | base b => cases a <;> cases b <;> simp [PyW.ne, PyW.eq, PyV.ne, PyV.eq, GDual.ne]

/-- `y = x - 1; if x > y: r = x; else: r = y` with `x = gdual_vdouble([3, 4], "x", 5)`: the condition holds in both components. -/
example : ∃ (q : PyProg) (v : String → VecN 2 ℝ), q = .seq (.assign "y" (.bin .sub (.var "x") (.const 1))) maxProg ∧ v "x" = cf2 3 4 ∧ q.FnOk 5 ∧
    (∃ σ, ArgsW (fun s => s == "x") v 5 σ) ∧ ∃ κ' s', q.ExecW (fun s => s == "x") (fun i => at' v i) κ' s' ∧ κ' "r" = true := by
  refine ⟨_, fun s => if s = "x" then cf2 3 4 else VecN.ofScalar 0, rfl, if_pos rfl, by simp [maxProg, PyProg.FnOk, PyExpr.FnOk], ?_, ?_⟩
  · obtain ⟨r, hr⟩ : ∃ r : GDual (VecN 2 ℝ), GDual.mk3 (cf2 3 4) "x" 5 = .ok r := ⟨_, mk3_ok.mpr ⟨by decide, ⟨'x', by decide, by decide⟩, rfl⟩⟩
    refine ⟨fun x => if x = "x" then .gv r else .base (.num 0), fun x => ?_⟩
    by_cases hx : x = "x"
    · subst hx
      exact ⟨r, hr, rfl⟩
    · have : (x == "x") = false := by simpa using hx
      simp only [this]
      exact ⟨0, if_neg hx, if_neg hx⟩
  · have h1 : ("x" : String) ≠ "y" := by decide
    refine ⟨_, _, .seq _ _ _ _ _ _ _ _ (.assign _ _ _ _ ?_) (.iteT _ _ _ _ _ _ _ _ _ ?_ ?_ ?_ ?_ (.assign _ _ _ _ ?_)), ?_⟩ <;>
    simp [PyExpr.Dom, PyExpr.Uses, PyExpr.sem, Op.Dom, Op.real, Cmp.real, Cmp.Ok, Function.update, h1]
    constructor <;> intro h <;> linarith

end Audi
