import Verif.Props.C54_TaylorPowers
import Verif.Proofs.TMAtan
import Verif.Proofs.TMAsinOk

/-! # C55: inverse trigonometric functions and absolute value of Taylor models -/

namespace Audi

open TM MvPolynomial Spec

namespace Ex

/-- `s x`, expanded at 0, over `I`, with order `n`. -/
noncomputable def slopeR (s : ℝ) (n : ℕ) (rem I : Itv ℝ) : TM ℝ :=
  ⟨⟨⟨["dx"], [([1], s)]⟩, n⟩, n, 1, rem, [("x", 0)], [("x", I)]⟩

theorem slopeR_wf {s : ℝ} (hs : s ≠ 0) {n : ℕ} (hn : 1 ≤ n) {rem I : Itv ℝ} (hr : rem.lo ≤ rem.hi) (hI : InItv I 0) : (slopeR s n rem I).WF := by
  refine ⟨⟨⟨by simp [slopeR], by simp [slopeR], by simp [slopeR], ?_⟩, by simpa [slopeR] using hn⟩, ?_, rfl, rfl, ?_, ?_, ?_, hr⟩
  · intro t ht
    simp only [slopeR, List.mem_singleton] at ht
    subst ht
    exact decide_eq_false hs
  · intro s hs
    simp only [slopeR, List.mem_singleton] at hs
    exact ⟨"x", by rw [hs]; rfl⟩
  · simp [slopeR, varName_dx]
  · simp [slopeR, varName_dx]
  · intro e he
    simp only [slopeR, List.mem_singleton] at he
    subst he
    exact ⟨0, by simp [slopeR], hI⟩

theorem slopeR_toMv {s : ℝ} (hs : s ≠ 0) {n : ℕ} (hn : 1 ≤ n) (rem I : Itv ℝ) :
    ((slopeR s n rem I).tpol.toMv () : MvPolynomial String ℝ) = monomial (Finsupp.single "dx" 1) s := by
  have hv := (slopeR_wf hs hn (rem := ⟨0, 0⟩) (I := ⟨0, 0⟩) le_rfl ⟨le_rfl, le_rfl⟩).valid
  refine MvPolynomial.funext fun δ => ?_
  rw [show (slopeR s n rem I).tpol = (slopeR s n ⟨0, 0⟩ ⟨0, 0⟩).tpol from rfl, eval_toMv hv, eval_monomial]
  simp [slopeR]

theorem slopeR_lin {s : ℝ} (hs : s ≠ 0) {n : ℕ} (hn : 1 ≤ n) (rem I : Itv ℝ) : DegLE 1 ((slopeR s n rem I).tpol.toMv () : MvPolynomial String ℝ) := by
  rw [slopeR_toMv hs hn]
  intro e he
  rw [coeff_monomial, if_neg]
  rintro rfl
  simp at he

theorem slopeR_const {s : ℝ} (hs : s ≠ 0) {n : ℕ} (hn : 1 ≤ n) (rem I : Itv ℝ) : coeff 0 ((slopeR s n rem I).tpol.toMv () : MvPolynomial String ℝ) = 0 := by
  rw [slopeR_toMv hs hn, coeff_monomial, if_neg]
  exact fun h => by simpa using Finsupp.single_eq_zero.1 h

theorem slopeR_ne {s : ℝ} (hs : s ≠ 0) {n : ℕ} (hn : 1 ≤ n) (rem I : Itv ℝ) : ((slopeR s n rem I).tpol.toMv () : MvPolynomial String ℝ) ≠ 0 := by
  rw [slopeR_toMv hs hn]
  exact fun h => hs (monomial_eq_zero.1 h)

theorem slopeR_polyAt {s : ℝ} (hs : s ≠ 0) {n : ℕ} (hn : 1 ≤ n) (rem I : Itv ℝ) (x : String → ℝ) : (slopeR s n rem I).polyAt x = s * x "x" := by
  unfold polyAt
  rw [slopeR_toMv hs hn, eval_monomial]
  simp [displacement, slopeR, varName_dx]

theorem slopeR_inDom {s : ℝ} {n : ℕ} {rem I : Itv ℝ} {x : String → ℝ} : (slopeR s n rem I).InDom x ↔ InItv I (x "x") := by
  simp [InDom, slopeR]

/-- The square of `s x` for the order 1: its only term is above the order and large enough. -/
theorem slopeR_clear {s : ℝ} (hs : 1 / 10 ≤ s) (rem I : Itv ℝ) :
    Clear 1 ((slopeR s 1 rem I).tpol.toMv () : MvPolynomial String ℝ) ((slopeR s 1 rem I).tpol.toMv ()) := by
  have h0 : s ≠ 0 := by linarith
  refine ⟨slopeR_ne h0 le_rfl rem I, .inl ⟨Finsupp.single "dx" 2, by rw [Finsupp.degree_single]; exact one_lt_two, ?_⟩⟩
  rw [slopeR_toMv h0 le_rfl, monomial_mul, coeff_monomial, if_pos (by rw [← Finsupp.single_add]), abs_mul_self]
  have : ((1 / 10 ^ 16 : ℚ) : ℝ) = 1 / 10 ^ 16 := by norm_num
  rw [this]
  nlinarith

end Ex

section
variable {a : TM ℝ} {ord : List String → List String}

/-- **C55, inverse tangent.** `atan(tm)` encloses the inverse tangent of every function that `tm` encloses, for orders 1 to 30, when the polynomial
is not 0, has degree at most 1, vanishes at the expansion point, and the remainder is {0}. Missing: `C55_atan_remainder_counterexample`,
`C55_atan_centre_counterexample`, order 0 (`C55_order_zero`). -/
theorem C55_atan_partial (ha : a.WF) (h1 : 1 ≤ a.order) (h30 : a.order ≤ 30) (ho : Faithful ord (a.tpol.p.syms.map varName))
    (hlin : DegLE 1 (a.tpol.toMv () : MvPolynomial String ℝ)) (hrem : a.rem = ⟨0, 0⟩) (hc : a.polyAt a.expPoint = 0)
    (hnz : (a.tpol.toMv () : MvPolynomial String ℝ) ≠ 0) : Sound₁ a (ratan ord a) fun y z => z = Real.arctan y :=
  ratan_sound ha h1 h30 ho hlin hrem (by rw [← polyAt_expPoint]; exact hc) hnz

/-- **C55, inverse sine, where it returns.** Whenever `asin(tm)` returns it encloses the inverse sine of every function that `tm` encloses, for
orders 1 to 30, when the polynomial is not 0, has degree at most 1, vanishes at the expansion point, the remainder is {0}, and the square of the
polynomial is not affected by the treatment of small terms. -/
theorem C55_asin_returned_partial (ha : a.WF) (h1 : 1 ≤ a.order) (h30 : a.order ≤ 30) (ho : Faithful ord (a.tpol.p.syms.map varName))
    (hlin : DegLE 1 (a.tpol.toMv () : MvPolynomial String ℝ)) (hrem : a.rem = ⟨0, 0⟩) (hc : a.polyAt a.expPoint = 0)
    (ht : Clear a.order (a.tpol.toMv () : MvPolynomial String ℝ) (a.tpol.toMv ())) {r : TM ℝ} (h : rasin ord a = .ok r) :
    Sound₁ a (rasin ord a) fun y z => z = Real.arcsin y :=
  rasin_sound_of_ok ha h1 h30 ho hlin hrem (by rw [← polyAt_expPoint]; exact hc) ht.1 ht.2 h

/-- **C55, inverse sine.** As before, for orders 1 to 17: `asin(tm)` does return, when the sum of the absolute values of the terms over the domain is
less than 1. -/
theorem C55_asin_partial (ha : a.WF) (h1 : 1 ≤ a.order) (h17 : a.order ≤ 17) (ho : Faithful ord (a.tpol.p.syms.map varName))
    (hlin : DegLE 1 (a.tpol.toMv () : MvPolynomial String ℝ)) (hrem : a.rem = ⟨0, 0⟩) (hc : a.polyAt a.expPoint = 0)
    (ht : Clear a.order (a.tpol.toMv () : MvPolynomial String ℝ) (a.tpol.toMv ())) {R : String → ℝ} (hR0 : ∀ s, 0 ≤ R s)
    (hR : ∀ s, ∀ e ∈ a.dom, e.1 = varName s → ∀ f ∈ a.exp, f.1 = varName s → |e.2.lo - f.2| ≤ R s ∧ |e.2.hi - f.2| ≤ R s)
    (hM : absVal R (a.tpol.toMv () : MvPolynomial String ℝ) < 1) : Sound₁ a (rasin ord a) fun y z => z = Real.arcsin y := by
  have hc' : coeff 0 (a.tpol.toMv () : MvPolynomial String ℝ) = 0 := by rw [← polyAt_expPoint]; exact hc
  obtain ⟨r, -, -, h, -⟩ := rasin_ok ha h1 h17 ho hrem hc' ht.1 ht.2 hR0 hR hM
  exact rasin_sound_of_ok ha h1 (by omega) ho hlin hrem hc' ht.1 ht.2 h

end

/-- **C55, derivatives of the inverse sine.** For an interval around 0, whenever `asin_derivative(A, n)` returns, `n ≥ 1`, the interval lies in (-1, 1)
and the result contains the n-th derivative of the inverse sine at every point of the interval. Missing: intervals without 0
(`C55_asin_derivative_counterexample`). -/
theorem C55_asin_derivative_partial {A J : Itv ℝ} (h0 : InItv A 0) {n : ℕ} (hn : 1 ≤ n) (h : asinDerivative A n = .ok J) {t : ℝ} (ht : InItv A t) :
    -1 < t ∧ t < 1 ∧ InItv J (iteratedDeriv n Real.arcsin t) := by
  obtain ⟨m, rfl⟩ := Nat.exists_eq_add_of_le' hn
  obtain ⟨h1, h2⟩ := asinDerivative_sound h0 h ht
  refine ⟨h1.1, h1.2, ?_⟩
  have := Derivs.iteratedDeriv derivs_arcsin isOpen_Ioo (m + 1) t h1
  rw [show asinDv 0 = Real.arcsin from rfl] at this
  rwa [this]

section
variable {a : TM ℝ} {ord : List String → List String}

/-- **C55, domain.** If `tm` allows a value outside [-1, 1], `asin` and `acos` throw `std::runtime_error`, for every order up to 62 and every remainder. -/
theorem C55_domain (ha : a.WF) (h62 : a.order ≤ 62) (ho : ord (a.tpol.p.syms.map varName) = a.tpol.p.syms.map varName)
    (h : ∃ x y, a.InDom x ∧ a.Allows x y ∧ ¬ (-1 ≤ y ∧ y ≤ 1)) : rasin ord a = .error .runtimeError ∧ racos ord a = .error .runtimeError := by
  obtain ⟨x, y, hx, hy, hn⟩ := h
  obtain ⟨b, hb, -, hb2⟩ := bounds_encloses (ord := ord) ha h62 ho
  have key : rasin ord a = .error .runtimeError := by
    unfold rasin
    rw [bind_ok hb, if_pos]
    rintro ⟨h1, h2⟩
    refine hn ⟨h1.trans ?_, le_trans ?_ h2⟩
    · have := hy.1
      have := (hb2 x hx).1
      change b.lo + a.rem.lo ≤ y
      linarith
    · have := hy.2
      have := (hb2 x hx).2
      change y ≤ b.hi + a.rem.hi
      linarith
  refine ⟨key, ?_⟩
  unfold racos
  rw [bind_error key]

end

/-! ### Examples -/

example : Sound₁ (Ex.slopeR 1 30 ⟨0, 0⟩ ⟨-5, 7⟩) (ratan id (Ex.slopeR 1 30 ⟨0, 0⟩ ⟨-5, 7⟩)) fun y z => z = Real.arctan y :=
  C55_atan_partial (Ex.slopeR_wf one_ne_zero (by norm_num) le_rfl (by norm_num [InItv])) (by simp [Ex.slopeR]) (by simp [Ex.slopeR])
    (fun _ _ _ => rfl) (Ex.slopeR_lin one_ne_zero (by norm_num) _ _) rfl
    (by rw [polyAt_expPoint]; exact Ex.slopeR_const one_ne_zero (by norm_num) _ _) (Ex.slopeR_ne one_ne_zero (by norm_num) _ _)

namespace Ex

theorem slopeR_radius {I : Itv ℝ} (h1 : -(1 / 2) ≤ I.lo) (h2 : I.hi ≤ 1 / 2) (h3 : InItv I 0) : ∀ s, ∀ e ∈ (slopeR 1 1 ⟨0, 0⟩ I).dom, e.1 = varName s →
    ∀ f ∈ (slopeR 1 1 ⟨0, 0⟩ I).exp, f.1 = varName s → |e.2.lo - f.2| ≤ (1 / 2 : ℝ) ∧ |e.2.hi - f.2| ≤ (1 / 2 : ℝ) := by
  intro s e he _ f hf _
  simp only [slopeR, List.mem_singleton] at he hf
  subst he hf
  have h4 := h3.1
  have h5 := h3.2
  simp only
  rw [sub_zero, sub_zero, abs_le, abs_le]
  refine ⟨⟨h1, ?_⟩, ?_, h2⟩ <;> linarith

theorem slopeR_absVal (I : Itv ℝ) : absVal (fun _ => 1 / 2) ((slopeR 1 1 ⟨0, 0⟩ I).tpol.toMv () : MvPolynomial String ℝ) < 1 := by
  rw [slopeR_toMv one_ne_zero le_rfl, absVal_monomial]
  simp
  norm_num

end Ex

/-- All hypotheses of `C55_asin_partial` hold for `x` over any interval in [-1/2, 1/2]. -/
example {I : Itv ℝ} (h1 : -(1 / 2) ≤ I.lo) (h2 : I.hi ≤ 1 / 2) (h3 : InItv I 0) :
    Sound₁ (Ex.slopeR 1 1 ⟨0, 0⟩ I) (rasin id (Ex.slopeR 1 1 ⟨0, 0⟩ I)) fun y z => z = Real.arcsin y :=
  C55_asin_partial (Ex.slopeR_wf one_ne_zero le_rfl le_rfl h3) le_rfl (show 1 ≤ 17 by norm_num) (fun _ _ _ => rfl)
    (Ex.slopeR_lin one_ne_zero le_rfl _ _) rfl (by rw [polyAt_expPoint]; exact Ex.slopeR_const one_ne_zero le_rfl _ _)
    (Ex.slopeR_clear (by norm_num) _ _) (R := fun _ => 1 / 2) (by norm_num) (Ex.slopeR_radius h1 h2 h3) (Ex.slopeR_absVal I)

/-- All hypotheses of `C55_domain` hold for `x` over [0, 2]. -/
example : rasin id (Ex.slopeR 1 1 ⟨0, 0⟩ ⟨0, 2⟩) = .error .runtimeError :=
  (C55_domain (Ex.slopeR_wf one_ne_zero le_rfl le_rfl (by norm_num [InItv])) (show 1 ≤ 62 by norm_num) rfl
    ⟨fun _ => 2, 2, by rw [Ex.slopeR_inDom]; norm_num [InItv], by unfold Allows; rw [Ex.slopeR_polyAt one_ne_zero le_rfl]; norm_num [InItv, Ex.slopeR],
      by norm_num⟩).1

end Audi
