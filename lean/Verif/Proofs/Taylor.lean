import Verif.Spec.Taylor
import Verif.Proofs.Trunc
import Mathlib.Analysis.Calculus.Deriv.Add
import Mathlib.Analysis.Calculus.Deriv.Mul
import Mathlib.Analysis.Calculus.Deriv.Comp
import Mathlib.Topology.Algebra.Ring.Real

/-! Closure properties of `IsTaylor`. -/

set_option linter.unusedSectionVars false

namespace Audi.Spec

open MvPolynomial Topology Filter

variable {σ : Type*} [DecidableEq σ] {𝕜 : Type*} [NontriviallyNormedField 𝕜] {a : σ → 𝕜} {m n : ℕ} {F G : (σ → 𝕜) → 𝕜}
  {P Q : MvPolynomial σ 𝕜}

theorem IsTaylor.cont (h : IsTaylor a m F P) : ContinuousAt F a := by
  cases m <;> exact h.1

theorem IsTaylor.val (h : IsTaylor a m F P) : F a = P.coeff 0 := by
  cases m
  · exact h.2
  · exact h.2.1

theorem IsTaylor.of_succ (h : IsTaylor a (m + 1) F P) : IsTaylor a m F P := by
  induction m generalizing F P with
  | zero => exact ⟨h.1, h.2.1⟩
  | succ m ih =>
    refine ⟨h.1, h.2.1, fun s => ?_⟩
    obtain ⟨F', h1, h2⟩ := h.2.2 s
    exact ⟨F', h1, ih h2⟩

theorem IsTaylor.mono (h : IsTaylor a m F P) (hn : n ≤ m) : IsTaylor a n F P := by
  induction hn with
  | refl => exact h
  | step _ ih => exact ih h.of_succ

theorem IsTaylor.congr_poly (h : IsTaylor a m F P) (hPQ : EqUpTo m P Q) : IsTaylor a m F Q := by
  induction m generalizing F P Q with
  | zero => exact ⟨h.1, h.2.trans (hPQ 0 (by simp))⟩
  | succ m ih =>
    refine ⟨h.1, h.2.1.trans (hPQ 0 (by simp)), fun s => ?_⟩
    obtain ⟨F', h1, h2⟩ := h.2.2 s
    exact ⟨F', h1, ih h2 (hPQ.pderiv s)⟩

theorem tendsto_update (x : σ → 𝕜) (s : σ) :
    Tendsto (fun t => Function.update x s t) (𝓝 (x s)) (𝓝 x) := by
  have h : Continuous (fun t => Function.update x s t) := continuous_const.update s continuous_id
  have := h.tendsto (x s)
  rwa [Function.update_eq_self] at this

theorem HasPartialAt.congr {F' : 𝕜} {s : σ} {x : σ → 𝕜} (h : HasPartialAt F F' s x)
    (hFG : F =ᶠ[𝓝 x] G) : HasPartialAt G F' s x := by
  refine HasDerivAt.congr_of_eventuallyEq h ?_
  have := (tendsto_update x s).eventually hFG
  filter_upwards [this] with t ht using ht.symm

theorem IsTaylor.congr_fun (h : IsTaylor a m F P) (hFG : F =ᶠ[𝓝 a] G) : IsTaylor a m G P := by
  have hc : ContinuousAt G a := h.cont.congr hFG
  have hv : G a = P.coeff 0 := by rw [← h.val]; exact hFG.self_of_nhds.symm
  cases m with
  | zero => exact ⟨hc, hv⟩
  | succ m =>
    refine ⟨hc, hv, fun s => ?_⟩
    obtain ⟨F', h1, h2⟩ := h.2.2 s
    refine ⟨F', ?_, h2⟩
    filter_upwards [h1, hFG.eventually_nhds] with x hx hx'
    exact hx.congr hx'

theorem IsTaylor.const (r : 𝕜) : IsTaylor a m (fun _ => r) (C r) := by
  induction m generalizing r with
  | zero => exact ⟨continuousAt_const, by simp⟩
  | succ m ih =>
    refine ⟨continuousAt_const, by simp, fun s => ⟨fun _ => 0, ?_, ?_⟩⟩
    · exact Eventually.of_forall fun x => hasDerivAt_const _ _
    · rw [pderiv_C]; simpa using ih 0

theorem IsTaylor.coord (s : σ) : IsTaylor a m (fun x => x s) (C (a s) + X s) := by
  have hc : ContinuousAt (fun x : σ → 𝕜 => x s) a := (continuous_apply s).continuousAt
  cases m with
  | zero => exact ⟨hc, by simp⟩
  | succ m =>
    refine ⟨hc, by simp, fun u => ?_⟩
    by_cases hu : u = s
    · subst hu
      refine ⟨fun _ => 1, Eventually.of_forall fun x => ?_, ?_⟩
      · show HasDerivAt (fun t => Function.update x u t u) 1 (x u)
        simpa using hasDerivAt_id' (x u)
      · simpa using IsTaylor.const (a := a) (m := m) 1
    · refine ⟨fun _ => 0, Eventually.of_forall fun x => ?_, ?_⟩
      · show HasDerivAt (fun t => Function.update x u t s) 0 (x u)
        simpa [Function.update_of_ne (Ne.symm hu)] using hasDerivAt_const (x u) (x s)
      · simpa [pderiv_X_of_ne (Ne.symm hu)] using IsTaylor.const (a := a) (m := m) 0

theorem IsTaylor.add (hF : IsTaylor a m F P) (hG : IsTaylor a m G Q) :
    IsTaylor a m (fun x => F x + G x) (P + Q) := by
  induction m generalizing F G P Q with
  | zero => exact ⟨hF.1.add hG.1, by rw [coeff_add, ← hF.val, ← hG.val]⟩
  | succ m ih =>
    refine ⟨hF.1.add hG.1, by rw [coeff_add, ← hF.val, ← hG.val], fun s => ?_⟩
    obtain ⟨F', h1, h2⟩ := hF.2.2 s
    obtain ⟨G', h3, h4⟩ := hG.2.2 s
    refine ⟨fun x => F' x + G' x, ?_, ?_⟩
    · filter_upwards [h1, h3] with x hx hx' using HasDerivAt.add hx hx'
    · rw [map_add]; exact ih h2 h4

theorem IsTaylor.neg (hF : IsTaylor a m F P) : IsTaylor a m (fun x => -F x) (-P) := by
  induction m generalizing F P with
  | zero => exact ⟨hF.1.neg, by rw [coeff_neg, ← hF.val]⟩
  | succ m ih =>
    refine ⟨hF.1.neg, by rw [coeff_neg, ← hF.val], fun s => ?_⟩
    obtain ⟨F', h1, h2⟩ := hF.2.2 s
    refine ⟨fun x => -F' x, ?_, ?_⟩
    · filter_upwards [h1] with x hx using HasDerivAt.neg hx
    · rw [map_neg]; exact ih h2

theorem IsTaylor.sub (hF : IsTaylor a m F P) (hG : IsTaylor a m G Q) :
    IsTaylor a m (fun x => F x - G x) (P - Q) := by
  simpa only [sub_eq_add_neg] using hF.add hG.neg

theorem coeff_zero_mul' (P Q : MvPolynomial σ 𝕜) : (P * Q).coeff 0 = P.coeff 0 * Q.coeff 0 := by
  have := map_mul (constantCoeff (R := 𝕜) (σ := σ)) P Q
  simpa only [constantCoeff_eq] using this

theorem IsTaylor.mul (hF : IsTaylor a m F P) (hG : IsTaylor a m G Q) :
    IsTaylor a m (fun x => F x * G x) (P * Q) := by
  induction m generalizing F G P Q with
  | zero => exact ⟨hF.1.mul hG.1, by rw [coeff_zero_mul', ← hF.val, ← hG.val]⟩
  | succ m ih =>
    refine ⟨hF.1.mul hG.1, by rw [coeff_zero_mul', ← hF.val, ← hG.val], fun s => ?_⟩
    obtain ⟨F', h1, h2⟩ := hF.2.2 s
    obtain ⟨G', h3, h4⟩ := hG.2.2 s
    refine ⟨fun x => F' x * G x + F x * G' x, ?_, ?_⟩
    · filter_upwards [h1, h3] with x hx hx'
      have := HasDerivAt.mul hx hx'
      simp only [Function.update_eq_self] at this
      exact this
    · rw [pderiv_mul]
      exact (ih h2 hG.of_succ).add (ih hF.of_succ h4)

theorem IsTaylor.const_mul (r : 𝕜) (hF : IsTaylor a m F P) :
    IsTaylor a m (fun x => r * F x) (C r * P) := (IsTaylor.const r).mul hF

theorem IsTaylor.pow (hF : IsTaylor a m F P) (k : ℕ) : IsTaylor a m (fun x => F x ^ k) (P ^ k) := by
  induction k with
  | zero => simpa using IsTaylor.const (a := a) (m := m) 1
  | succ k ih => simpa only [pow_succ] using ih.mul hF

theorem IsTaylor.sum {ι : Type*} (s : Finset ι) {F : ι → (σ → 𝕜) → 𝕜} {P : ι → MvPolynomial σ 𝕜}
    (h : ∀ i ∈ s, IsTaylor a m (F i) (P i)) :
    IsTaylor a m (fun x => ∑ i ∈ s, F i x) (∑ i ∈ s, P i) := by
  classical
  induction s using Finset.induction_on with
  | empty => simpa using IsTaylor.const (a := a) (m := m) 0
  | insert i s hi ih =>
    simp only [Finset.sum_insert hi]
    exact (h i (Finset.mem_insert_self _ _)).add
      (ih fun j hj => h j (Finset.mem_insert_of_mem hj))

/-- The truncated composition `Σ_{i ≤ m} b_i (P - P₀)^i`. -/
noncomputable def compPoly {K : Type*} [CommRing K] {σ : Type*} (m : ℕ) (b : ℕ → K) (P : MvPolynomial σ K) :
    MvPolynomial σ K :=
  ∑ i ∈ Finset.range (m + 1), C (b i) * (P - C (P.coeff 0)) ^ i

theorem pderiv_compPoly (m : ℕ) (b : ℕ → 𝕜) (P : MvPolynomial σ 𝕜) (s : σ) :
    pderiv s (compPoly (m + 1) b P) =
      compPoly m (fun i => (i + 1 : 𝕜) * b (i + 1)) P * pderiv s P := by
  unfold compPoly
  rw [Finset.sum_range_succ', map_add, map_sum, Finset.sum_mul]
  simp only [pow_zero, mul_one, pderiv_C, add_zero]
  refine Finset.sum_congr rfl fun i _ => ?_
  rw [pderiv_C_mul, pderiv_pow, map_sub, pderiv_C, sub_zero]
  simp only [Nat.add_sub_cancel, map_mul, map_add, map_one, map_natCast]
  push_cast
  ring

theorem coeff_zero_compPoly {K : Type*} [CommRing K] (m : ℕ) (b : ℕ → K) (P : MvPolynomial σ K) :
    (compPoly m b P).coeff 0 = b 0 := by
  have h : ∀ Q : MvPolynomial σ K, Q.coeff 0 = constantCoeff Q := fun Q => by rw [constantCoeff_eq]
  rw [h]
  unfold compPoly
  rw [map_sum, Finset.sum_range_succ']
  simp [h]

theorem IsTaylor₁.cont {c : 𝕜} {g : 𝕜 → 𝕜} {b : ℕ → 𝕜} (h : IsTaylor₁ c m g b) :
    ContinuousAt g c := by
  cases m <;> exact h.1

theorem IsTaylor₁.val {c : 𝕜} {g : 𝕜 → 𝕜} {b : ℕ → 𝕜} (h : IsTaylor₁ c m g b) : g c = b 0 := by
  cases m
  · exact h.2
  · exact h.2.1

/-- Taylor expansion of a composition with a function of one variable. -/
theorem IsTaylor.comp {g : 𝕜 → 𝕜} {b : ℕ → 𝕜} (hF : IsTaylor a m F P)
    (hg : IsTaylor₁ (F a) m g b) : IsTaylor a m (fun x => g (F x)) (compPoly m b P) := by
  induction m generalizing g b F P with
  | zero =>
    refine ⟨ContinuousAt.comp (f := F) (g := g) hg.cont hF.cont, ?_⟩
    rw [coeff_zero_compPoly, ← hg.val]
  | succ m ih =>
    refine ⟨ContinuousAt.comp (f := F) (g := g) hg.cont hF.cont, ?_, fun s => ?_⟩
    · rw [coeff_zero_compPoly, ← hg.val]
    obtain ⟨F', h1, h2⟩ := hF.2.2 s
    obtain ⟨g', h3, h4⟩ := hg.2.2
    refine ⟨fun x => g' (F x) * F' x, ?_, ?_⟩
    · filter_upwards [h1, hF.cont.eventually h3] with x hx hx'
      have hx'' : HasDerivAt g (g' (F x)) (F (Function.update x s (x s))) := by
        rwa [Function.update_eq_self]
      exact HasDerivAt.comp (x s) hx'' hx
    · rw [pderiv_compPoly]
      exact (ih hF.of_succ h4).mul h2

/-! ### Consequences: derivatives and uniqueness -/

/-- Every iterated partial derivative of order at most `m` is read off the polynomial. -/
theorem IsTaylor.pds_eq (l : List σ) (h : IsTaylor a m F P) (hl : l.length ≤ m) :
    pds l F a = (l.foldl (fun Q s => pderiv s Q) P).coeff 0 := by
  induction l generalizing F P m with
  | nil => exact h.val
  | cons s l ih =>
    cases m with
    | zero => simp at hl
    | succ m =>
      obtain ⟨F', h1, h2⟩ := h.2.2 s
      have h3 : IsTaylor a m (pd s F) (pderiv s P) := by
        refine h2.congr_fun ?_
        filter_upwards [h1] with x hx
        exact hx.deriv.symm
      exact ih h3 (by simpa using hl)

theorem foldl_pderiv_coeff (l : List σ) (P : MvPolynomial σ 𝕜) (e : σ →₀ ℕ) :
    (l.foldl (fun Q s => pderiv s Q) P).coeff e =
      ((l.foldr (fun s (p : (σ →₀ ℕ) × 𝕜) => (p.1 + Finsupp.single s 1, p.2 * (p.1 s + 1))) (e, 1)).2)
      * P.coeff ((l.foldr (fun s (p : (σ →₀ ℕ) × 𝕜) => (p.1 + Finsupp.single s 1, p.2 * (p.1 s + 1))) (e, 1)).1) := by
  induction l generalizing P with
  | nil => simp
  | cons s l ih =>
    rw [List.foldl_cons, ih, List.foldr_cons, coeff_pderiv]
    ring

theorem IsTaylor.unique [CharZero 𝕜] (hP : IsTaylor a m F P) (hQ : IsTaylor a m F Q) : EqUpTo m P Q := by
  -- the difference has all derivatives zero
  induction m generalizing F P Q with
  | zero =>
    intro e he
    have : e = 0 := by rw [← Finsupp.degree_eq_zero_iff]; omega
    rw [this, ← hP.val, ← hQ.val]
  | succ m ih =>
    intro e he
    by_cases h0 : e = 0
    · rw [h0, ← hP.val, ← hQ.val]
    obtain ⟨s, hs⟩ : ∃ s, e s ≠ 0 := by
      by_contra hcon; push Not at hcon; exact h0 (Finsupp.ext hcon)
    obtain ⟨F', h1, h2⟩ := hP.2.2 s
    obtain ⟨G', h3, h4⟩ := hQ.2.2 s
    have h5 : IsTaylor a m F' (pderiv s Q) := by
      refine h4.congr_fun ?_
      filter_upwards [h1, h3] with x hx hx' using hx'.unique hx
    obtain ⟨e', rfl⟩ : ∃ e', e = e' + Finsupp.single s 1 :=
      ⟨e - Finsupp.single s 1, (tsub_add_cancel_of_le (by
        rw [Finsupp.single_le_iff]; omega)).symm⟩
    have h6 := ih h2 h5 e' (by
      rw [map_add, Finsupp.degree_single] at he; omega)
    rw [coeff_pderiv, coeff_pderiv] at h6
    have h7 : ((e' s : 𝕜) + 1) ≠ 0 := Nat.cast_add_one_ne_zero _
    exact mul_right_cancel₀ h7 h6

end Audi.Spec
