import Verif.Proofs.LibExpr
import Verif.Props.C21_AD

/-!
# C109: end-to-end automatic differentiation with all the functions

As C21 (Props/C21_AD.lean), for the expressions of Spec/LibExpr.lean: in addition to the operators and elementary functions of functions.hpp they contain `abs`,
the results of `sin_and_cos` and `sinh_and_cosh`, `erf` and the functions of functions_from_d.hpp, and `log10`, `log2`, `log1p`, `expm1`, `erfc` of the Python module.
-/

namespace Audi

open MvPolynomial Spec GDual Filter Topology

variable {C : Type} [CfFun C] [AbsFn C] {ι : Type} [Lanes C ι ℝ] [LanesFun C ι]

/-- The derivatives read from `r`, at most of its order, are those of `F` at the point `v`. -/
def Derivatives (F : ι → (String → ℝ) → ℝ) (v : String → C) (r : GDual C) : Prop :=
  (∀ l : List String, l.length ≤ r.getOrder → (∀ s ∈ l, "d" ++ s ∈ r.p.syms) →
    ∃ c, r.getDerivative (r.p.syms.map fun u => (l.map fun s => "d" ++ s).count u) = .ok c ∧
      ∀ i : ι, (Lanes.lane i c : ℝ) = pds l (F i) fun s => Lanes.lane i (v s)) ∧
  (∀ l : List String, l.length ≤ r.getOrder → ∀ dict : List (String × ℕ), (dict.map (·.1)).Nodup →
    (∀ p ∈ dict, 0 < p.2) → (∀ u, (dict.lookup u).getD 0 = (l.map fun s => "d" ++ s).count u) →
    ∃ c, r.getDerivativeDict dict = .ok c ∧ ∀ i : ι, (Lanes.lane i c : ℝ) = pds l (F i) fun s => Lanes.lane i (v s))

theorem LExpr.ad {v : String → C} {m : ℕ} (hm : m < UINT_MAX - 10) (e : LExpr C) (hA : e.NoAbs ∨ AbsLaw C ι) (hl : e.Legal m)
    (hd : ∀ i : ι, e.Dom i fun s => Lanes.lane i (v s)) :
    ∃ r, e.run v m = .ok r ∧ r.Valid ∧ r.getOrder ≤ m ∧ (e.full = true → r.getOrder = m) ∧ Derivatives e.sem v r := by
  classical
  let p : ι → String → ℝ := fun i => Function.extend (fun s => "d" ++ s) (fun s => Lanes.lane i (v s)) 0
  have hp : ∀ (i : ι) (s : String), p i ("d" ++ s) = Lanes.lane i (v s) := fun i s => d_append_injective.extend_apply _ _ s
  obtain ⟨r, hr, hg, -, hf⟩ := LExpr.run_good hm hp e hA hl hd
  have key : ∀ l : List String, l.length ≤ r.getOrder → ∀ i : ι,
      coeff 0 ((l.map fun s => "d" ++ s).foldl (fun Q s => pderiv s Q) (r.toMv i : MvPolynomial String ℝ)) =
        pds l (e.sem i) fun s => Lanes.lane i (v s) := fun l hle i => by
    rw [← (hg.taylor i).pds_eq _ (by rw [List.length_map]; exact hle.trans hg.le), pds_rename]
    congr 1
    exact _root_.funext (hp i)
  refine ⟨r, hr, hg.valid, hg.le, fun h => (hf h).1, fun l hle hmem => ?_, fun l hle dict hk hpos hcount => ?_⟩
  · obtain ⟨c, hc, hlane⟩ := getDerivative_count (ι := ι) (K := ℝ) hg.valid (l := l.map fun s => "d" ++ s)
      (by simpa using hmem) (by simpa using hle)
    exact ⟨c, hc, fun i => by rw [hlane, key l hle]⟩
  · obtain ⟨c, hc, hlane⟩ := getDerivativeDict_count (ι := ι) (K := ℝ) hg.valid (l := l.map fun s => "d" ++ s) (by simpa using hle) hk hpos hcount
    exact ⟨c, hc, fun i => by rw [hlane, key l hle]⟩

/-- **C109.** Let `e` be an expression built from named variables, constants, the four operations (with gdual or scalar operands), powers and the functions of the
library except `abs`, and let the point `v` be in its domain, in each lane. Then the evaluation of `e` on the gduals `gdual(v s, s, m)` succeeds, and the derivatives read
from the result are the iterated partial derivatives of the function. The order of the result is `m` if a variable occurs in `e` outside of the exponents of numeric bases.
`Legal`: the order is at most 30 if `atan`, `asin` or `acos` occurs (needed by `C21_counterexample`); with `atan_d`, `asin_d`, `acos_d` instead there is no restriction. -/
theorem C109_ad {v : String → C} {m : ℕ} (hm : m < UINT_MAX - 10) (e : LExpr C) (hA : e.NoAbs) (hl : e.Legal m)
    (hd : ∀ i : ι, e.Dom i fun s => Lanes.lane i (v s)) :
    ∃ r, e.run v m = .ok r ∧ r.Valid ∧ r.getOrder ≤ m ∧ (e.full = true → r.getOrder = m) ∧ Derivatives e.sem v r :=
  e.ad hm (Or.inl hA) hl hd

/-- **C109.** For scalar coefficients the same holds with `abs`, where its argument is not zero. -/
theorem C109_ad_abs {v : String → ℝ} {m : ℕ} (hm : m < UINT_MAX - 10) (e : LExpr ℝ) (hl : e.Legal m) (hd : e.Dom () v) :
    ∃ r, e.run v m = .ok r ∧ r.Valid ∧ r.getOrder ≤ m ∧ (e.full = true → r.getOrder = m) ∧ Derivatives (fun _ : Unit => e.sem ()) v r :=
  e.ad hm (Or.inr absLaw_real) hl fun _ => hd

/-- The expression `erf(atan_d(x) * |y|) + log2(x + 3) / asin_d(y)`. -/
noncomputable def exLib : LExpr ℝ := .bin .add (.fn .erf (.bin .mul (.fn .atanD (.var "x")) (.fn .abs (.var "y"))))
  (.bin .div (.fn .log2 (.right .add (.var "x") 3)) (.fn .asinD (.var "y")))

/-- At `x = 1, y = -1/2` and order 1000 it meets the hypotheses. -/
example : exLib.Legal 1000 ∧ exLib.full = true ∧ exLib.Dom () fun s => if s = "x" then 1 else -1 / 2 := by
  refine ⟨?_, rfl, ?_⟩
  · simp [exLib, LExpr.Legal, LFn.MaxOrder]
  · have hyx : "y" ≠ "x" := by decide
    simp only [exLib, LExpr.Dom, LExpr.sem, LFn.Dom, LFn.real, Op.Dom, Op.real, Lanes.lane, if_neg hyx, if_true]
    norm_num [abs_lt]

/-- The hypotheses of the theorem without `abs`. -/
example : (LExpr.fn .erfc (.fn .acosD (.var "x")) : LExpr ℝ).NoAbs ∧ (LExpr.fn .erfc (.fn .acosD (.var "x")) : LExpr ℝ).Legal 100 ∧
    ∀ i : Unit, (LExpr.fn .erfc (.fn .acosD (.var "x")) : LExpr ℝ).Dom i fun _ => (1 / 2 : ℝ) := by
  refine ⟨⟨⟨trivial, nofun⟩, nofun⟩, ?_, fun i => ?_⟩
  · simp [LExpr.Legal, LFn.MaxOrder]
  · simp only [LExpr.Dom, LExpr.sem, LFn.Dom]
    norm_num [abs_lt]

end Audi
