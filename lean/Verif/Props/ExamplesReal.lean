import Mathlib.Algebra.MvPolynomial.Funext
import Verif.Proofs.TMRoots

/-! Concrete Taylor models over `ℝ` used by the examples and counterexamples beside the theorems on functions of Taylor models. -/

namespace Audi

open TM MvPolynomial Spec

namespace Ex

/-- The constant `c` in the variable `x` over [-1, 1], with order `n`. -/
noncomputable def constR (c : ℝ) (n : ℕ) (rem : Itv ℝ) : TM ℝ :=
  ⟨⟨⟨["dx"], [([0], c)]⟩, n⟩, n, 1, rem, [("x", 0)], [("x", ⟨-1, 1⟩)]⟩

/-- `c + x`, expanded at 0, over [l, u], with order `n`. -/
noncomputable def lineR (c : ℝ) (n : ℕ) (rem : Itv ℝ) (I : Itv ℝ) : TM ℝ :=
  ⟨⟨⟨["dx"], [([0], c), ([1], 1)]⟩, n⟩, n, 1, rem, [("x", 0)], [("x", I)]⟩

theorem varName_dx : varName "dx" = "x" := by decide

theorem constR_wf {c : ℝ} (hc : c ≠ 0) (n : ℕ) {rem : Itv ℝ} (hr : rem.lo ≤ rem.hi) : (constR c n rem).WF := by
  refine ⟨⟨⟨by simp [constR], by simp [constR], by simp [constR], ?_⟩, by simp [constR]⟩, ?_, rfl, rfl, ?_, ?_, ?_, hr⟩
  · intro t ht
    simp only [constR, List.mem_singleton] at ht
    subst ht
    exact decide_eq_false hc
  · intro s hs
    simp only [constR, List.mem_singleton] at hs
    exact ⟨"x", by rw [hs]; rfl⟩
  · simp [constR, varName_dx]
  · simp [constR, varName_dx]
  · intro e he
    simp only [constR, List.mem_singleton] at he
    subst he
    exact ⟨0, by simp [constR], by norm_num [InItv]⟩

theorem lineR_wf {c : ℝ} (hc : c ≠ 0) {n : ℕ} (hn : 1 ≤ n) {rem I : Itv ℝ} (hr : rem.lo ≤ rem.hi) (hI : InItv I 0) : (lineR c n rem I).WF := by
  refine ⟨⟨⟨by simp [lineR], by simp [lineR], by simp [lineR], ?_⟩, by simpa [lineR] using hn⟩, ?_, rfl, rfl, ?_, ?_, ?_, hr⟩
  · intro t ht
    simp only [lineR, List.mem_cons, List.not_mem_nil, or_false] at ht
    rcases ht with rfl | rfl
    · exact decide_eq_false hc
    · exact decide_eq_false one_ne_zero
  · intro s hs
    simp only [lineR, List.mem_singleton] at hs
    exact ⟨"x", by rw [hs]; rfl⟩
  · simp [lineR, varName_dx]
  · simp [lineR, varName_dx]
  · intro e he
    simp only [lineR, List.mem_singleton] at he
    subst he
    exact ⟨0, by simp [lineR], hI⟩

theorem constR_toMv {c : ℝ} (hc : c ≠ 0) (n : ℕ) (rem : Itv ℝ) : ((constR c n rem).tpol.toMv () : MvPolynomial String ℝ) = C c := by
  have hv := (constR_wf hc n (rem := ⟨0, 0⟩) le_rfl).valid
  refine MvPolynomial.funext fun δ => ?_
  rw [show (constR c n rem).tpol = (constR c n ⟨0, 0⟩).tpol from rfl, eval_toMv hv, eval_C]
  simp [constR]

theorem lineR_toMv {c : ℝ} (hc : c ≠ 0) {n : ℕ} (hn : 1 ≤ n) (rem I : Itv ℝ) :
    ((lineR c n rem I).tpol.toMv () : MvPolynomial String ℝ) = C c + X "dx" := by
  have hv := (lineR_wf hc hn (rem := ⟨0, 0⟩) (I := ⟨0, 0⟩) le_rfl ⟨le_rfl, le_rfl⟩).valid
  refine MvPolynomial.funext fun δ => ?_
  rw [show (lineR c n rem I).tpol = (lineR c n ⟨0, 0⟩ ⟨0, 0⟩).tpol from rfl, eval_toMv hv, map_add, eval_C, eval_X]
  simp [lineR]

theorem constR_lin {c : ℝ} (hc : c ≠ 0) (n : ℕ) (rem : Itv ℝ) : DegLE 1 ((constR c n rem).tpol.toMv () : MvPolynomial String ℝ) := by
  rw [constR_toMv hc]
  intro e he
  rw [coeff_C, if_neg]
  rintro rfl
  simp at he

theorem lineR_lin {c : ℝ} (hc : c ≠ 0) {n : ℕ} (hn : 1 ≤ n) (rem I : Itv ℝ) :
    DegLE 1 ((lineR c n rem I).tpol.toMv () : MvPolynomial String ℝ) := by
  rw [lineR_toMv hc hn]
  intro e he
  rw [coeff_add, coeff_C, if_neg (by rintro rfl; simp at he), coeff_X, if_neg (by rintro rfl; simp at he), add_zero]

theorem constR_polyAt {c : ℝ} (hc : c ≠ 0) (n : ℕ) (rem : Itv ℝ) (x : String → ℝ) : (constR c n rem).polyAt x = c := by
  unfold polyAt
  rw [constR_toMv hc, eval_C]

theorem lineR_polyAt {c : ℝ} (hc : c ≠ 0) {n : ℕ} (hn : 1 ≤ n) (rem I : Itv ℝ) (x : String → ℝ) : (lineR c n rem I).polyAt x = c + x "x" := by
  unfold polyAt
  rw [lineR_toMv hc hn, map_add, eval_C, eval_X]
  simp [displacement, lineR, varName_dx]

theorem lineR_inDom {c : ℝ} {n : ℕ} {rem I : Itv ℝ} {x : String → ℝ} : (lineR c n rem I).InDom x ↔ InItv I (x "x") := by
  simp [InDom, lineR]

theorem constR_inDom (c : ℝ) (n : ℕ) (rem : Itv ℝ) : (constR c n rem).InDom fun _ => 0 := by
  simp [InDom, constR, InItv]

/-- The lift of a function of a constant of order 1 is the constant. -/
theorem constR_lift {c : ℝ} (hc : c ≠ 0) {rem : Itv ℝ} {g : ℝ → ℝ} {b : ℕ → ℝ} {p : GDual ℝ} (hl : IsLift (fun _ : Unit => g) (constR c 1 rem).tpol p)
    (hg : IsTaylor₁ c 1 g b) (δ : String → ℝ) : eval δ (p.toMv ()) = b 0 := by
  have h0 : coeff 0 ((constR c 1 rem).tpol.toMv () : MvPolynomial String ℝ) = c := by rw [constR_toMv hc, coeff_zero_C]
  rw [GDual.lift_linear hl (by rw [h0]; exact hg) (constR_lin hc 1 rem), h0, constR_toMv hc, sub_self,
    show (constR c 1 rem).tpol.order = 1 from rfl]
  simp [Finset.sum_range_succ]

end Ex

/-- The result of an operation on `a` does not enclose `f`: at some point `a` allows `y`, but the result does not allow `f y`. -/
def Unsound₁ (a : TM ℝ) (o : Res (TM ℝ)) (f : ℝ → ℝ) : Prop :=
  ∃ r x y, a.WF ∧ o = .ok r ∧ r.WF ∧ a.InDom x ∧ a.Allows x y ∧ ¬ r.Allows x (f y)

namespace Ex

theorem constR_unsound {c : ℝ} (hc : c ≠ 0) {rem : Itv ℝ} (hr : rem.lo ≤ rem.hi) {g : ℝ → ℝ} {b : ℕ → ℝ} {p : GDual ℝ}
    (hl : IsLift (fun _ : Unit => g) (constR c 1 rem).tpol p) (hs : p.p.syms = ["dx"])
    (hg : IsTaylor₁ c 1 g b) {J : Itv ℝ} (hJ : J.lo ≤ J.hi) {y : ℝ} (hy : InItv rem (y - c)) (hn : ¬ InItv J (g y - b 0)) :
    Unsound₁ (constR c 1 rem) (make p J (constR c 1 rem).exp (constR c 1 rem).dom) g := by
  have ha := constR_wf hc 1 hr
  obtain ⟨r, r1, r2, r3, r4, r5, r6, r7⟩ := remake ha hl.valid hs hJ
  refine ⟨r, fun _ => 0, y, ha, r1, r2, constR_inDom _ _ _, ?_, ?_⟩
  · unfold Allows
    rwa [constR_polyAt hc]
  · unfold Allows polyAt
    rw [r4, r5, constR_lift hc hl hg]
    exact hn

end Ex
end Audi
