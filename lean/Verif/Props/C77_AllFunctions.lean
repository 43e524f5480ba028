import Verif.Proofs.LibSyms
import Verif.Props.C77_Approximation
import Verif.Props.C78_Symbols

/-!
# C77 and C78: expressions with all the functions

The theorems of Props/C77_Approximation.lean and Props/C78_Symbols.lean on expressions, for the expressions of Spec/LibExpr.lean: with `abs`, the results of `sin_and_cos` and `sinh_and_cosh`, `erf`,
the functions of functions_from_d.hpp, and `log10`, `log2`, `log1p`, `expm1`, `erfc` of the Python module.
-/

namespace Audi

open MvPolynomial Spec GDual Filter Topology

variable {C : Type} [CfFun C] [AbsFn C] {ι : Type} [Lanes C ι ℝ] [LanesFun C ι]

/-- **C77 (partial).** As `C77_little_o_partial` and `C77_big_o_partial`: the value of `evaluate` at displacements of size at most `ρ` differs from the function by `o(ρ ^ m)`, and by
`O(ρ ^ (m + 1))`. `abs` is allowed where the law `AbsLaw` holds (for real coefficients, `absLaw_real`). Restriction (`Legal`): the order is at most 29 if `atan`, `asin` or
`acos` occurs; none for `atan_d`, `asin_d` and `acos_d`. -/
theorem C77_all_partial {v : String → C} {m : ℕ} (hm : m + 1 < UINT_MAX - 10) (e : LExpr C) (hA : e.NoAbs ∨ AbsLaw C ι) (hl : e.Legal (m + 1))
    (hd : ∀ i : ι, e.Dom i fun s => Lanes.lane i (v s)) :
    ∃ r, e.run v m = .ok r ∧ (∀ (i : ι) (ε : ℝ), 0 < ε → ∃ δ > 0, ∀ ρ : ℝ, 0 < ρ → ρ < δ →
        ∀ h : String → C, (∀ s ∈ e.vars, |(Lanes.lane i (h s) : ℝ)| ≤ ρ) →
          ∀ dict : List (String × C), (∀ s ∈ e.vars, dict.lookup ("d" ++ s) = some (h s)) →
            ∃ c, r.evaluate dict = .ok c ∧ |e.sem i (fun s => Lanes.lane i (v s) + Lanes.lane i (h s)) - Lanes.lane i c| ≤ ε * ρ ^ m) ∧
      ∀ i : ι, ∃ K : ℝ, ∃ δ > 0, ∀ ρ : ℝ, 0 < ρ → ρ < δ →
        ∀ h : String → C, (∀ s ∈ e.vars, |(Lanes.lane i (h s) : ℝ)| ≤ ρ) →
          ∀ dict : List (String × C), (∀ s ∈ e.vars, dict.lookup ("d" ++ s) = some (h s)) →
            ∃ c, r.evaluate dict = .ok c ∧ |e.sem i (fun s => Lanes.lane i (v s) + Lanes.lane i (h s)) - Lanes.lane i c| ≤ K * ρ ^ (m + 1) := by
  classical
  let p : ι → String → ℝ := fun i => Function.extend (fun s => "d" ++ s) (fun s => Lanes.lane i (v s)) 0
  have hp : ∀ (i : ι) (s : String), p i ("d" ++ s) = Lanes.lane i (v s) := fun i s => d_append_injective.extend_apply _ _ s
  obtain ⟨r, hr, hg, hs, -⟩ := LExpr.run_good (by omega) hp e hA (e.legal_of_succ hl) hd
  obtain ⟨r', -, hg', -⟩ := LExpr.run_good hm hp e hA hl hd
  have hsub : SubSyms (e.vars.map fun s => "d" ++ s) r := ⟨hs.sorted, (LExpr.run_syms (by omega) hp e hA (e.legal_of_succ hl) hd r hr).1⟩
  refine ⟨r, hr, fun i ε hε => evaluate_near i hsub (fun x y hxy => e.sem_congr i hxy) (hp i) ((hg.taylor i).peano _ hε), fun i => ?_⟩
  obtain ⟨K, hK⟩ := (hg.taylor i).big_o (hg'.taylor i) (e.vars.map fun s => "d" ++ s).toFinset
  exact ⟨K, evaluate_near i hsub (fun x y hxy => e.sem_congr i hxy) (hp i) hK⟩

/-- **C78 (partial).** As `C78_expression_subset_partial` and `C78_expression_partial`: `get_symbol_set` of the value of an expression, at a point of its domain, is a sorted list of variables of the expression; of all of them
if the order is at least 1 and no power of a number to a gdual occurs (needed by `C78_order_zero_counterexample` and `C78_pow_counterexample`). -/
theorem C78_all_partial {v : String → C} {m : ℕ} (hm : m < UINT_MAX - 10) (e : LExpr C) (hA : e.NoAbs ∨ AbsLaw C ι) (hl : e.Legal m)
    (hd : ∀ i : ι, e.Dom i fun s => Lanes.lane i (v s)) :
    ∃ r, e.run v m = .ok r ∧ r.symbolSet.Pairwise (· < ·) ∧ (∀ s ∈ r.symbolSet, s ∈ e.vars) ∧
      (1 ≤ m → e.BaseFree → ∀ s ∈ e.vars, s ∈ r.symbolSet) := by
  classical
  let p : ι → String → ℝ := fun i => Function.extend (fun s => "d" ++ s) (fun s => Lanes.lane i (v s)) 0
  have hp : ∀ (i : ι) (s : String), p i ("d" ++ s) = Lanes.lane i (v s) := fun i s => d_append_injective.extend_apply _ _ s
  obtain ⟨r, hr, hg, hs, -⟩ := LExpr.run_good hm hp e hA hl hd
  have h0 := LExpr.run_syms hm hp e hA hl hd r hr
  have h1 : SubSyms (e.vars.map fun s => "d" ++ s) r := ⟨hs.sorted, h0.1⟩
  have h2 := symbolSet_of h1
  refine ⟨r, hr, h2.1, fun s hs => ?_, fun hm1 hb s hs => (h2.2 s).2 (h0.2 hm1 hb s hs)⟩
  obtain ⟨t, ht, hst⟩ := List.mem_map.1 (h1.sub _ ((h2.2 s).1 hs))
  rwa [← d_append_injective hst]

/-- The hypotheses of both theorems: `erf(|x|) * acos_d(y)` at `x = y = 1/2`, real coefficients, order 50; and a dictionary of displacements. -/
example : ∃ e : LExpr ℝ, e = .bin .mul (.fn .erf (.fn .abs (.var "x"))) (.fn .acosD (.var "y")) ∧ (e.NoAbs ∨ AbsLaw ℝ Unit) ∧ e.Legal 51 ∧ e.BaseFree ∧
    (∀ i : Unit, e.Dom i fun s => Lanes.lane i (1 / 2 : ℝ)) ∧
    ∀ s ∈ e.vars, [("dx", (0.1 : ℝ)), ("dy", 0.2)].lookup ("d" ++ s) = some (if s = "x" then 0.1 else 0.2) := by
  refine ⟨_, rfl, Or.inr absLaw_real, ?_, ?_, fun i => ?_, ?_⟩
  · simp [LExpr.Legal, LFn.MaxOrder]
  · simp [LExpr.BaseFree]
  · simp only [LExpr.Dom, LExpr.sem, LFn.Dom, LFn.real, Op.Dom, Lanes.lane]
    norm_num [abs_lt]
  · have h1 : ("d" : String) ++ "x" = "dx" := by decide
    have h2 : ("d" : String) ++ "y" = "dy" := by decide
    have h3 : ("dy" == "dx") = false := by decide
    have h4 : "y" ≠ "x" := by decide
    simp [LExpr.vars, h1, h2, List.lookup_cons, h3, h4]

end Audi
