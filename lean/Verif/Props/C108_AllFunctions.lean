import Verif.Proofs.MixedLib
import Verif.Props.C21_AD

/-!
# C108: variables of different orders, with all the functions

As `C108_mixed_partial` (Props/C108_MixedOrders.lean), for the expressions of Spec/LibExpr.lean: in addition to the operators and elementary functions of functions.hpp they contain `abs`,
the results of `sin_and_cos` and `sinh_and_cosh`, `erf` and the functions of functions_from_d.hpp, and `log10`, `log2`, `log1p`, `expm1`, `erfc` of the Python module.
-/

namespace Audi

open MvPolynomial Spec GDual Filter Topology

section
variable {C : Type} [CfFun C] [AbsFn C] {ι : Type} [Lanes C ι ℝ] [LanesFun C ι]

/-- The derivatives up to order `m` that can be read from `r` are those of `F` at the point `v`. -/
def DerivativesUpTo (m : ℕ) (F : ι → (String → ℝ) → ℝ) (v : String → C) (r : GDual C) : Prop :=
  (∀ l : List String, l.length ≤ m → l.length ≤ r.getOrder → (∀ s ∈ l, "d" ++ s ∈ r.p.syms) →
    ∃ c, r.getDerivative (r.p.syms.map fun u => (l.map fun s => "d" ++ s).count u) = .ok c ∧
      ∀ i : ι, (Lanes.lane i c : ℝ) = pds l (F i) fun s => Lanes.lane i (v s)) ∧
  (∀ l : List String, l.length ≤ m → l.length ≤ r.getOrder → ∀ dict : List (String × ℕ), (dict.map (·.1)).Nodup →
    (∀ p ∈ dict, 0 < p.2) → (∀ u, (dict.lookup u).getD 0 = (l.map fun s => "d" ++ s).count u) →
    ∃ c, r.getDerivativeDict dict = .ok c ∧ ∀ i : ι, (Lanes.lane i c : ℝ) = pds l (F i) fun s => Lanes.lane i (v s))

theorem LExpr.adO {v : String → C} {o : String → ℕ} {m M : ℕ} (hM : M < UINT_MAX - 10) (hmM : m ≤ M) (ho : ∀ s, m ≤ o s ∧ o s ≤ M)
    (e : LExpr C) (hA : e.NoAbs ∨ AbsLaw C ι) (hl : e.Legal M) (hd : ∀ i : ι, e.Dom i fun s => Lanes.lane i (v s)) :
    ∃ r, e.runO v o = .ok r ∧ r.Valid ∧ r.getOrder ≤ M ∧ (e.full = true → m ≤ r.getOrder) ∧ DerivativesUpTo m e.sem v r := by
  classical
  let p : ι → String → ℝ := fun i => Function.extend (fun s => "d" ++ s) (fun s => Lanes.lane i (v s)) 0
  have hp : ∀ (i : ι) (s : String), p i ("d" ++ s) = Lanes.lane i (v s) := fun i s => d_append_injective.extend_apply _ _ s
  obtain ⟨r, hr, hg, -, hf⟩ := LExpr.run_mix hM hmM ho hp e hA hl hd
  have key : ∀ l : List String, l.length ≤ m → ∀ i : ι,
      coeff 0 ((l.map fun s => "d" ++ s).foldl (fun Q s => pderiv s Q) (r.toMv i : MvPolynomial String ℝ)) =
        pds l (e.sem i) fun s => Lanes.lane i (v s) := fun l hle i => by
    rw [← (hg.taylor i).pds_eq _ (by rw [List.length_map]; exact hle), pds_rename]
    congr 1
    exact _root_.funext (hp i)
  refine ⟨r, hr, hg.valid, hg.le, fun h => (hf h).1, fun l hlm hle hmem => ?_, fun l hlm hle dict hk hpos hcount => ?_⟩
  · obtain ⟨c, hc, hlane⟩ := getDerivative_count (ι := ι) (K := ℝ) hg.valid (l := l.map fun s => "d" ++ s)
      (by simpa using hmem) (by simpa using hle)
    exact ⟨c, hc, fun i => by rw [hlane, key l hlm]⟩
  · obtain ⟨c, hc, hlane⟩ := getDerivativeDict_count (ι := ι) (K := ℝ) hg.valid (l := l.map fun s => "d" ++ s) (by simpa using hle) hk hpos hcount
    exact ⟨c, hc, fun i => by rw [hlane, key l hlm]⟩

/-- **C108 (partial).** As `C108_mixed_partial`, with all the functions of the library except `abs`: if the variables have orders between `m` and `M`, the derivatives up to order `m` are correct.

Above order `m`, the claim is false (`C108_counterexample`). -/
theorem C108_all_partial {v : String → C} {o : String → ℕ} {m M : ℕ} (hM : M < UINT_MAX - 10) (hmM : m ≤ M) (ho : ∀ s, m ≤ o s ∧ o s ≤ M)
    (e : LExpr C) (hA : e.NoAbs) (hl : e.Legal M) (hd : ∀ i : ι, e.Dom i fun s => Lanes.lane i (v s)) :
    ∃ r, e.runO v o = .ok r ∧ r.Valid ∧ r.getOrder ≤ M ∧ (e.full = true → m ≤ r.getOrder) ∧ DerivativesUpTo m e.sem v r :=
  e.adO hM hmM ho (Or.inl hA) hl hd

end

/-- **C108 (partial).** For scalar coefficients the same holds with `abs`, where its argument is not zero. -/
theorem C108_all_abs_partial {v : String → ℝ} {o : String → ℕ} {m M : ℕ} (hM : M < UINT_MAX - 10) (hmM : m ≤ M) (ho : ∀ s, m ≤ o s ∧ o s ≤ M)
    (e : LExpr ℝ) (hl : e.Legal M) (hd : e.Dom () v) :
    ∃ r, e.runO v o = .ok r ∧ r.Valid ∧ r.getOrder ≤ M ∧ (e.full = true → m ≤ r.getOrder) ∧ DerivativesUpTo m (fun _ : Unit => e.sem ()) v r :=
  e.adO hM hmM ho (Or.inr absLaw_real) hl fun _ => hd

/-- The hypotheses are met by `erf(|x| * y)` at `x = y = 1` with order 40 for `x` and 50 for `y`, and by `atan_d(x)` without `abs`. -/
example : ∃ (e : LExpr ℝ) (o : String → ℕ), e = .fn .erf (.bin .mul (.fn .abs (.var "x")) (.var "y")) ∧ o "x" = 40 ∧ o "y" = 50 ∧
    (∀ s, 40 ≤ o s ∧ o s ≤ 50) ∧ e.Legal 50 ∧ e.full = true ∧ e.Dom () (fun _ => 1) := by
  refine ⟨_, fun s => if s = "x" then 40 else 50, rfl, by simp, by simp, fun s => ?_, ?_, rfl, ?_⟩
  · beta_reduce; split_ifs <;> omega
  · simp [LExpr.Legal, LFn.MaxOrder]
  · simp [LExpr.Dom, LExpr.sem, LFn.Dom, LFn.real, Op.Dom]

example : (LExpr.fn .atanD (.var "x") : LExpr ℝ).NoAbs ∧ (LExpr.fn .atanD (.var "x") : LExpr ℝ).Legal 50 ∧
    ∀ i : Unit, (LExpr.fn .atanD (.var "x") : LExpr ℝ).Dom i fun _ => (1 : ℝ) := by
  refine ⟨⟨trivial, nofun⟩, ?_, fun i => ?_⟩
  · simp [LExpr.Legal, LFn.MaxOrder]
  · simp [LExpr.Dom, LFn.Dom]

end Audi
