import Verif.Proofs.TMIsotone
import Verif.Props.C64_TaylorExpressions

/-! # C88: evaluating an expression on Taylor models over a part of the domain -/

namespace Audi

open TM MvPolynomial Spec GDual

section
variable {ord : List String → List String} {v : String → ℝ} {D D' R R' : String → Itv ℝ} {m : ℕ} {e : Expr ℝ} {r : TM ℝ}

/-- **C88 (partial).** When the evaluation of an expression returns over the domains `D` with the remainders `R`, it returns over all smaller domains with all smaller
remainders; the polynomial is the same, and the new remainder lies in the old one. Missing: orders above 31 (30 if atan, asin or acos occurs), products of models of
order 0 only (`Proper`), remainders of the variables that do not contain 0. -/
theorem C88_isotone_partial (hord : ∀ l, (ord l).Perm l) (hm : m ≤ 31) (hl : e.Legal m) (hp : e.Proper ord v D R m)
    (hv : ∀ s, InItv (D' s) (v s)) (hD : ∀ s x, InItv (D' s) x → InItv (D s) x)
    (h0 : ∀ s, InItv (R' s) 0) (hR : ∀ s x, InItv (R' s) x → InItv (R s) x) (hr : e.runTM ord v D R m = .ok r) :
    ∃ r', e.runTM ord v D' R' m = .ok r' ∧ r'.tpol = r.tpol ∧ ∀ y, InItv r'.rem y → InItv r.rem y := by
  obtain ⟨r', h1, h2⟩ := runTM_finer hord hm (fun s => Itv.inside_of_forall ((hv s).1.trans (hv s).2) (hD s)) hv
    (fun s => Itv.inside_of_forall ((h0 s).1.trans (h0 s).2) (hR s)) h0 e hl hp r hr
  exact ⟨r', h1, h2.tpol, fun y hy => h2.rem.mem hy⟩

/-- **C88 (partial).** So do the bounds of the polynomial: the interval of bounds plus remainder, which a user takes for the range of the expression, never grows. Missing:
as above. -/
theorem C88_enclosure_partial (hord : ∀ l, (ord l).Perm l) (hm : m ≤ 31) (hl : e.Legal m) (hp : e.Proper ord v D R m)
    (hv : ∀ s, InItv (D' s) (v s)) (hD : ∀ s x, InItv (D' s) x → InItv (D s) x)
    (h0 : ∀ s, InItv (R' s) 0) (hR : ∀ s x, InItv (R' s) x → InItv (R s) x) (hr : e.runTM ord v D R m = .ok r) {B : Itv ℝ} (hB : r.bounds ord = .ok B) :
    ∃ r' B', e.runTM ord v D' R' m = .ok r' ∧ r'.bounds ord = .ok B' ∧ (∀ y, InItv B' y → InItv B y) ∧
      ∀ y, InItv (B'.add r'.rem) y → InItv (B.add r.rem) y := by
  have hI : ∀ s, Itv.Inside (D' s) (D s) := fun s => Itv.inside_of_forall ((hv s).1.trans (hv s).2) (hD s)
  obtain ⟨r', h1, h2⟩ := runTM_finer hord hm hI hv (fun s => Itv.inside_of_forall ((h0 s).1.trans (h0 s).2) (hR s)) h0 e hl hp r hr
  obtain ⟨B', b1, b2⟩ := h2.bounds hord hI (by omega) hB
  exact ⟨r', B', h1, b1, fun y hy => b2.mem hy, fun y hy => (b2.add h2.rem).mem hy⟩

/-- All hypotheses hold for `(x · sin x) / 2 + exp y` at order 2 on [-1, 1] and [0, 1/2], with the remainders [-1, 1] and {0}. -/
example : ∃ r, Ex.mixed.runTM id (fun _ => 0) (fun _ => ⟨-1, 1⟩) (fun _ => ⟨-1, 1⟩) 2 = .ok r ∧
    ∃ r', Ex.mixed.runTM id (fun _ => 0) (fun _ => ⟨0, 1 / 2⟩) (fun _ => ⟨0, 0⟩) 2 = .ok r' ∧ r'.tpol = r.tpol ∧ ∀ y, InItv r'.rem y → InItv r.rem y := by
  obtain ⟨h1, h2, r, h3⟩ := Ex.mixed_hyps (v := fun _ => 0) (D := fun _ => ⟨-1, 1⟩) (R := fun _ => ⟨-1, 1⟩) (m := 2)
    (fun _ => ⟨by norm_num, by norm_num⟩) (fun _ => ⟨by norm_num, by norm_num⟩) (by norm_num) (by norm_num)
  refine ⟨r, h3, C88_isotone_partial (fun _ => .refl _) (by norm_num) h1 h2 (fun _ => ⟨by norm_num, by norm_num⟩) (fun _ x h => ?_)
    (fun _ => ⟨le_rfl, le_rfl⟩) (fun _ x h => ?_) h3⟩
  · have h4 := h.1
    have h5 := h.2
    dsimp only at h4 h5
    exact ⟨by dsimp only; linarith, by dsimp only; linarith⟩
  · have h4 := h.1
    have h5 := h.2
    dsimp only at h4 h5
    exact ⟨by dsimp only; linarith, by dsimp only; linarith⟩

end
end Audi
