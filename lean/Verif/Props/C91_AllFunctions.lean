import Verif.Proofs.LibAnalytic
import Verif.Proofs.LibSyms
import Verif.Props.C91_Series

/-! # C91: expansions of increasing order of expressions with all the functions -/

namespace Audi

open MvPolynomial Spec GDual Filter Topology

variable {C : Type} [CfFun C] [AbsFn C] {ι : Type} [Lanes C ι ℝ] [LanesFun C ι]

/-- **C91 with all the functions (partial).** As `C91_series_partial`, for the expressions of Spec/LibExpr.lean: one radius `r` and one constant `K` for all orders `m`, such that the value of `evaluate` at
displacements of size at most `ρ < r` differs from the function by at most `K (ρ / r) ^ (m + 1)`. `abs` is allowed where the law `AbsLaw` holds (for real coefficients, `absLaw_real`).
Restriction (`Legal`): orders up to 30 if `atan`, `asin` or `acos` occurs (`C91_counterexample`); none for `atan_d`, `asin_d` and `acos_d`. -/
theorem C91_all_partial {v : String → C} (e : LExpr C) (hA : e.NoAbs ∨ AbsLaw C ι) (hd : ∀ i : ι, e.Dom i fun s => Lanes.lane i (v s)) (i : ι) :
    ∃ r > 0, ∃ K > 0, ∀ m : ℕ, m < UINT_MAX - 10 → e.Legal m → ∃ d, e.run v m = .ok d ∧ ∀ ρ : ℝ, 0 < ρ → ρ < r →
      ∀ h : String → C, (∀ s ∈ e.vars, |(Lanes.lane i (h s) : ℝ)| ≤ ρ) →
        ∀ dict : List (String × C), (∀ s ∈ e.vars, dict.lookup ("d" ++ s) = some (h s)) →
          ∃ c, d.evaluate dict = .ok c ∧ |e.sem i (fun s => Lanes.lane i (v s) + Lanes.lane i (h s)) - Lanes.lane i c| ≤ K * (ρ / r) ^ (m + 1) := by
  classical
  let p : ι → String → ℝ := fun i => Function.extend (fun s => "d" ++ s) (fun s => Lanes.lane i (v s)) 0
  have hp : ∀ (i : ι) (s : String), p i ("d" ++ s) = Lanes.lane i (v s) := fun i s => d_append_injective.extend_apply _ _ s
  set S := (e.vars.map fun s => "d" ++ s).toFinset
  have hext : (extend S (p i) fun s => p i s) = p i := by
    funext s
    unfold extend
    split_ifs <;> rfl
  obtain ⟨r, hr, K, hK, h⟩ := analytic_taylor (a := p i) (F := fun x => e.sem i fun s => x ("d" ++ s)) S
    (LExpr.analyticAt i (X := fun y s => extend S (p i) y ("d" ++ s)) (fun s => analyticAt_extend S (p i) _ _) e (by
      rw [hext]
      simpa only [hp] using hd i))
  refine ⟨r, hr, K, hK, fun m hm hl => ?_⟩
  obtain ⟨d, hrun, hg, hs, -⟩ := LExpr.run_good hm hp e hA hl hd
  have hsub : SubSyms (e.vars.map fun s => "d" ++ s) d := ⟨hs.sorted, (LExpr.run_syms hm hp e hA hl hd d hrun).1⟩
  refine ⟨d, hrun, fun ρ h0 h1 g hgρ dict hdict => ?_⟩
  exact evaluate_at i hsub (fun x y hxy => e.sem_congr i hxy) (hp i) h0
    (h m _ (hg.taylor i) (fun E hE => (support_of_run hg.valid hg.le hsub i E hE).1) ρ h0 h1) g hgρ dict hdict

/-- `erf(|x|) * acos_d(y)` at `x = y = 1/2`, at every order. -/
example : ∃ e : LExpr ℝ, e = .bin .mul (.fn .erf (.fn .abs (.var "x"))) (.fn .acosD (.var "y")) ∧ (e.NoAbs ∨ AbsLaw ℝ Unit) ∧ (∀ m, e.Legal m) ∧
    ∀ i : Unit, e.Dom i fun s => Lanes.lane i (1 / 2 : ℝ) := by
  refine ⟨_, rfl, .inr absLaw_real, fun m => ?_, fun i => ?_⟩
  · simp [LExpr.Legal, LFn.MaxOrder]
  · simp only [LExpr.Dom, LExpr.sem, LFn.Dom, Op.Dom, Lanes.lane]
    norm_num [abs_of_pos]

end Audi
