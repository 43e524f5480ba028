import Verif.Proofs.MixedOrders
import Verif.Props.C21_AD
import Mathlib.Analysis.Calculus.Deriv.Mul
import Mathlib.Analysis.Calculus.Deriv.Pow

/-!
# C108: variables of different orders

The operators accept gduals of different orders (`gdual.hpp:164-205`: the order of the result is the larger one). What the derivatives of such a result mean is not
documented. Here: an expression (`Expr`, Spec/Expr.lean) whose variables are created with different orders (`Expr.runO`, Spec/MixedOrders.lean).
-/

namespace Audi

open MvPolynomial Spec GDual Filter Topology

section
variable {C : Type} [CfFun C] {ι : Type} [Lanes C ι ℝ] [LanesFun C ι]

/-- **C108 (partial).** Let all variables have orders between `m` and `M`, and the point `v` be in the domain of the expression, in each lane. Then the evaluation succeeds, and every derivative
of at most order `m` that is read from the result, by the vector and by the dictionary form of `get_derivative`, is the iterated partial derivative of the function. If a variable occurs in the expression
(`Expr.full`) all derivatives up to order `m` can be read.

Above order `m`, the claim is false (`C108_counterexample`), although the order of the result may be `M`. `Legal M`: the orders are at most 30 if `atan`, `asin` or `acos` occurs. -/
theorem C108_mixed_partial {v : String → C} {o : String → ℕ} {m M : ℕ} (hM : M < UINT_MAX - 10) (hmM : m ≤ M) (ho : ∀ s, m ≤ o s ∧ o s ≤ M)
    (e : Expr C) (hl : e.Legal M) (hd : ∀ i : ι, e.Dom i fun s => Lanes.lane i (v s)) :
    ∃ r, e.runO v o = .ok r ∧ r.Valid ∧ r.getOrder ≤ M ∧ (e.full = true → m ≤ r.getOrder) ∧
      (∀ l : List String, l.length ≤ m → l.length ≤ r.getOrder → (∀ s ∈ l, "d" ++ s ∈ r.p.syms) →
        ∃ c, r.getDerivative (r.p.syms.map fun u => (l.map fun s => "d" ++ s).count u) = .ok c ∧
          ∀ i : ι, (Lanes.lane i c : ℝ) = pds l (e.sem i) fun s => Lanes.lane i (v s)) ∧
      (∀ l : List String, l.length ≤ m → l.length ≤ r.getOrder → ∀ dict : List (String × ℕ), (dict.map (·.1)).Nodup →
        (∀ p ∈ dict, 0 < p.2) → (∀ u, (dict.lookup u).getD 0 = (l.map fun s => "d" ++ s).count u) →
        ∃ c, r.getDerivativeDict dict = .ok c ∧
          ∀ i : ι, (Lanes.lane i c : ℝ) = pds l (e.sem i) fun s => Lanes.lane i (v s)) := by
  classical
  let p : ι → String → ℝ := fun i => Function.extend (fun s => "d" ++ s) (fun s => Lanes.lane i (v s)) 0
  have hp : ∀ (i : ι) (s : String), p i ("d" ++ s) = Lanes.lane i (v s) := fun i s => d_append_injective.extend_apply _ _ s
  obtain ⟨r, hr, hg, hf⟩ := Expr.run_mix hM hmM ho hp e hl hd
  have key : ∀ l : List String, l.length ≤ m → ∀ i : ι,
      coeff 0 ((l.map fun s => "d" ++ s).foldl (fun Q s => pderiv s Q) (r.toMv i : MvPolynomial String ℝ)) =
        pds l (e.sem i) fun s => Lanes.lane i (v s) := fun l hle i => by
    rw [← (hg.taylor i).pds_eq _ (by rw [List.length_map]; exact hle), pds_rename]
    congr 1
    exact _root_.funext (hp i)
  refine ⟨r, hr, hg.valid, hg.le, hf, fun l hlm hle hmem => ?_, fun l hlm hle dict hk hpos hcount => ?_⟩
  · obtain ⟨c, hc, hlane⟩ := getDerivative_count (ι := ι) (K := ℝ) hg.valid (l := l.map fun s => "d" ++ s)
      (by simpa using hmem) (by simpa using hle)
    exact ⟨c, hc, fun i => by rw [hlane, key l hlm]⟩
  · obtain ⟨c, hc, hlane⟩ := getDerivativeDict_count (ι := ι) (K := ℝ) hg.valid (l := l.map fun s => "d" ++ s) (by simpa using hle) hk hpos hcount
    exact ⟨c, hc, fun i => by rw [hlane, key l hlm]⟩

end

/-- Order 1 for `x`, order 2 for the other variables. -/
def exOrders (s : String) : ℕ := if s = "x" then 1 else 2

/-- The hypotheses of `C108_mixed_partial` are met by `exp(x) / y` at `x = y = 1`, with orders 1 and 2. -/
example : ∃ e : Expr ℝ, e = .bin .div (.fn .exp (.var "x")) (.var "y") ∧ e.Legal 2 ∧ e.full = true ∧ (∀ i : Unit, e.Dom i fun _ => Lanes.lane i (1 : ℝ)) ∧
    ∀ s, 1 ≤ exOrders s ∧ exOrders s ≤ 2 := by
  refine ⟨_, rfl, ?_, rfl, fun i => ?_, fun s => ?_⟩
  · simp [Expr.Legal, Fn.MaxOrder]
  · simp [Expr.Dom, Expr.sem, Fn.Dom, Op.Dom, Lanes.lane]
  · unfold exOrders; split_ifs <;> omega

/-- **C108 (counterexample).** With `x` of order 1 and `y` of order 2, the result of `(x * x) * y` at `x = y = 1` has order 2, and `get_derivative({"dx": 2})` succeeds; it
gives 0, but the second derivative with respect to `x` is 2. -/
theorem C108_counterexample : ∃ (r : GDual ℝ) (c : ℝ),
    (Expr.bin .mul (.bin .mul (.var "x") (.var "x")) (.var "y") : Expr ℝ).runO (fun _ => 1) exOrders = .ok r ∧
    r.getOrder = 2 ∧ r.getDerivativeDict [("dx", 2)] = .ok c ∧ c = 0 ∧
    pds ["x", "x"] ((Expr.bin .mul (.bin .mul (.var "x") (.var "x")) (.var "y") : Expr ℝ).sem ()) (fun _ => 1) = 2 := by
  obtain ⟨x, hx⟩ : ∃ r, GDual.mk3 (1 : ℝ) "x" 1 = .ok r := ⟨_, mk3_ok.mpr ⟨by decide, ⟨'x', by decide, by decide⟩, rfl⟩⟩
  obtain ⟨y, hy⟩ : ∃ r, GDual.mk3 (1 : ℝ) "y" 2 = .ok r := ⟨_, mk3_ok.mpr ⟨by decide, ⟨'y', by decide, by decide⟩, rfl⟩⟩
  have vx := valid_mk3 (ι := Unit) (K := ℝ) hx
  have vy := valid_mk3 (ι := Unit) (K := ℝ) hy
  have ox : x.order = 1 := order_mk3 hx
  have oy : y.order = 2 := order_mk3 hy
  have px := toMv_mk3 (ι := Unit) (K := ℝ) hx ()
  have py := toMv_mk3 (ι := Unit) (K := ℝ) hy ()
  rw [if_neg (by decide), show (Lanes.lane () (1 : ℝ) : ℝ) = 1 from rfl, show "d" ++ "x" = "dx" by decide] at px
  rw [if_neg (by decide), show (Lanes.lane () (1 : ℝ) : ℝ) = 1 from rfl, show "d" ++ "y" = "dy" by decide] at py
  have hrun : (Expr.bin .mul (.bin .mul (.var "x") (.var "x")) (.var "y") : Expr ℝ).runO (fun _ => 1) exOrders = .ok ((x.mul x).mul y) := by
    change (do Op.mul.run (← (do Op.mul.run (← GDual.mk3 (1 : ℝ) "x" 1) (← GDual.mk3 (1 : ℝ) "x" 1))) (← GDual.mk3 (1 : ℝ) "y" 2)) = _
    rw [hx, hy]
    rfl
  have vxx := vx.mul vx
  have oxx : (x.mul x).order = 1 := by change max x.order x.order = 1; rw [ox, max_self]
  have or : ((x.mul x).mul y).order = 2 := by change max (x.mul x).order y.order = 2; rw [oxx, oy]; rfl
  have hcoe : coeff (Finsupp.single "dx" 2) (((x.mul x).mul y).toMv () : MvPolynomial String ℝ) = 0 := by
    have h1 := toMv_mul (ι := Unit) (K := ℝ) vxx vy () (Finsupp.single "dx" 2) (by rw [oxx, oy]; simp)
    rw [h1, py, mul_add, coeff_add, coeff_mul_X', if_neg (by simp), map_one, mul_one, add_zero]
    by_contra hne
    have := Valid.degLE (K := ℝ) vxx () (Finsupp.single "dx" 2) (by rw [oxx]; simp)
    exact hne this
  have hcnt : ∀ u, (List.lookup u [("dx", 2)]).getD 0 = (["dx", "dx"] : List String).count u := fun u => by
    rw [List.lookup_cons]
    by_cases hu : u = "dx"
    · subst hu; simp
    · have h1 : (u == "dx") = false := by simpa using hu
      have h2 : ("dx" == u) = false := by simpa using Ne.symm hu
      simp [h1, List.count_cons, h2]
  obtain ⟨c, hc, hlane⟩ := getDerivativeDict_count (ι := Unit) (K := ℝ) (vxx.mul vy) (l := ["dx", "dx"]) (or.ge) (dict := [("dx", 2)]) (by simp) (by simp) hcnt
  refine ⟨_, c, hrun, or, hc, ?_, ?_⟩
  · have h1 := hlane ()
    rw [coeff_zero_foldl_pderiv, show countExp ["dx", "dx"] = Finsupp.single "dx" 2 from by simp [countExp, ← Finsupp.single_add], hcoe, zero_mul] at h1
    exact h1
  · have h1 : pd "x" ((Expr.bin .mul (.bin .mul (.var "x") (.var "x")) (.var "y") : Expr ℝ).sem ()) = fun a => 2 * a "x" * a "y" := by
      funext a
      have hf : (fun t => (Expr.bin .mul (.bin .mul (.var "x") (.var "x")) (.var "y") : Expr ℝ).sem () (Function.update a "x" t)) = fun t => t ^ 2 * a "y" := by
        funext t
        change Function.update a "x" t "x" * Function.update a "x" t "x" * Function.update a "x" t "y" = _
        rw [Function.update_self, Function.update_of_ne (by decide), pow_two]
      rw [pd, hf, deriv_mul_const (by fun_prop)]
      simp
    rw [pds, h1, pds, pds, pd]
    have hf : (fun t => 2 * Function.update (fun _ => (1 : ℝ)) "x" t "x" * Function.update (fun _ => (1 : ℝ)) "x" t "y") = fun t => 2 * t := by
      funext t
      rw [Function.update_self, Function.update_of_ne (by decide), mul_one]
    rw [hf]
    simp

end Audi
