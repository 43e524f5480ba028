import Verif.Proofs.Taylor
import Mathlib.RingTheory.PowerSeries.Trunc
import Mathlib.Analysis.Calculus.Deriv.Inv
import Mathlib.Tactic.LinearCombination
import Mathlib.Tactic.Ring
import Mathlib.Tactic.FieldSimp
import Mathlib.Algebra.MvPolynomial.Eval

/-! Truncated composition of series, Taylor expansions of functions of one variable, division. -/

set_option linter.unusedSectionVars false

namespace Audi.Spec

open MvPolynomial Topology Filter

section algebra
variable {σ : Type*} {K : Type*} [CommRing K] {m : ℕ} {P : MvPolynomial σ K}

theorem coeff_zero_hat (P : MvPolynomial σ K) : (P - C (P.coeff 0)).coeff 0 = 0 := by simp

/-- Sums of powers of a polynomial without constant term: terms past the order do not matter. -/
theorem sum_pow_eqUpTo {H : MvPolynomial σ K} (h0 : H.coeff 0 = 0) (b : ℕ → K) {N : ℕ} (hN : m + 1 ≤ N) :
    EqUpTo m (∑ j ∈ Finset.range N, C (b j) * H ^ j) (∑ j ∈ Finset.range (m + 1), C (b j) * H ^ j) := by
  rw [← tr_eq_iff, map_sum, map_sum, ← Finset.sum_range_add_sum_Ico _ hN]
  have : ∑ k ∈ Finset.Ico (m + 1) N, tr m (C (b k) * H ^ k) = 0 := by
    refine Finset.sum_eq_zero fun k hk => ?_
    rw [map_mul, map_pow, tr_pow_eq_zero h0 (by have := (Finset.mem_Ico.mp hk).1; omega), mul_zero]
  rw [this, add_zero]

theorem compPoly_congr {b b' : ℕ → K} (h : ∀ i ≤ m, b i = b' i) : compPoly m b P = compPoly m b' P := by
  refine Finset.sum_congr rfl fun i hi => ?_
  rw [h i (by have := Finset.mem_range.mp hi; omega)]

theorem compPoly_add (b b' : ℕ → K) :
    compPoly m (fun i => b i + b' i) P = compPoly m b P + compPoly m b' P := by
  simp only [compPoly, map_add, add_mul, Finset.sum_add_distrib]

theorem compPoly_mul_const (r : K) (b : ℕ → K) :
    compPoly m (fun i => r * b i) P = C r * compPoly m b P := by
  simp only [compPoly, map_mul, Finset.mul_sum, mul_assoc]

theorem compPoly_C (c : K) (b : ℕ → K) : compPoly m b (C c : MvPolynomial σ K) = C (b 0) := by
  unfold compPoly
  rw [Finset.sum_range_succ']
  simp

/-- Cauchy product. -/
theorem compPoly_mul (f g : PowerSeries K) (P : MvPolynomial σ K) :
    EqUpTo m (compPoly m (fun i => PowerSeries.coeff i (f * g)) P)
      (compPoly m (fun i => PowerSeries.coeff i f) P * compPoly m (fun i => PowerSeries.coeff i g) P) := by
  set H := P - C (P.coeff 0) with hH
  have key : ∀ f : PowerSeries K, compPoly m (fun i => PowerSeries.coeff i f) P =
      Polynomial.eval₂RingHom C H (PowerSeries.trunc (m + 1) f) := by
    intro f
    rw [Polynomial.coe_eval₂RingHom, PowerSeries.eval₂_trunc_eq_sum_range]
    rfl
  have hd : (Polynomial.X : Polynomial K) ^ (m + 1) ∣
      PowerSeries.trunc (m + 1) f * PowerSeries.trunc (m + 1) g - PowerSeries.trunc (m + 1) (f * g) := by
    rw [Polynomial.X_pow_dvd_iff]
    intro k hk
    rw [Polynomial.coeff_sub, sub_eq_zero]
    have := congrArg (fun p => Polynomial.coeff p k) (PowerSeries.trunc_trunc_mul_trunc (n := m + 1) f g)
    simp only [PowerSeries.coeff_trunc, if_pos hk] at this ⊢
    rw [← this, ← Polynomial.coe_mul, Polynomial.coeff_coe]
  obtain ⟨q, hq⟩ := hd
  rw [key, key, key, ← map_mul, sub_eq_iff_eq_add.mp hq, map_add, map_mul (Polynomial.eval₂RingHom C H), map_pow]
  rw [Polynomial.coe_eval₂RingHom, Polynomial.eval₂_X, ← tr_eq_iff, map_add, map_mul (tr m), map_pow,
    tr_pow_eq_zero (by rw [hH]; exact coeff_zero_hat P) (Nat.lt_succ_self m), zero_mul, zero_add]

end algebra

section one
variable {𝕜 : Type*} [NontriviallyNormedField 𝕜] {c : 𝕜} {m : ℕ} {g h : 𝕜 → 𝕜} {b b' : ℕ → 𝕜}

theorem IsTaylor₁.of_succ (hg : IsTaylor₁ c (m + 1) g b) : IsTaylor₁ c m g b := by
  induction m generalizing g b with
  | zero => exact ⟨hg.1, hg.2.1⟩
  | succ m ih =>
    obtain ⟨h1, h2, g', h3, h4⟩ := hg
    exact ⟨h1, h2, g', h3, ih h4⟩

theorem IsTaylor₁.succ {g' : 𝕜 → 𝕜} (hv : g c = b 0) (hd : ∀ᶠ t in 𝓝 c, HasDerivAt g (g' t) t)
    (h : IsTaylor₁ c m g' (fun i => (i + 1 : 𝕜) * b (i + 1))) : IsTaylor₁ c (m + 1) g b :=
  ⟨hd.self_of_nhds.continuousAt, hv, g', hd, h⟩

theorem IsTaylor₁.congr (hg : IsTaylor₁ c m g b) (hb : ∀ i ≤ m, b i = b' i) : IsTaylor₁ c m g b' := by
  induction m generalizing g b b' with
  | zero => exact ⟨hg.1, hg.2.trans (hb 0 le_rfl)⟩
  | succ m ih =>
    obtain ⟨h1, h2, g', h3, h4⟩ := hg
    exact ⟨h1, h2.trans (hb 0 (Nat.zero_le _)), g', h3, ih h4 fun i hi => by rw [hb (i + 1) (by omega)]⟩

theorem IsTaylor₁.congr_fun (hg : IsTaylor₁ c m g b) (hh : g =ᶠ[𝓝 c] h) : IsTaylor₁ c m h b := by
  have hc : ContinuousAt h c := hg.cont.congr hh
  have hv : h c = b 0 := by rw [← hg.val]; exact hh.self_of_nhds.symm
  cases m with
  | zero => exact ⟨hc, hv⟩
  | succ m =>
    obtain ⟨h1, h2, g', h3, h4⟩ := hg
    refine ⟨hc, hv, g', ?_, h4⟩
    filter_upwards [h3, hh.eventually_nhds] with x hx hx'
    exact hx.congr_of_eventuallyEq (hx'.mono fun _ h => h.symm)

theorem IsTaylor₁.add (hg : IsTaylor₁ c m g b) (hh : IsTaylor₁ c m h b') :
    IsTaylor₁ c m (fun t => g t + h t) (fun i => b i + b' i) := by
  induction m generalizing g h b b' with
  | zero => exact ⟨hg.1.add hh.1, congrArg₂ (· + ·) hg.2 hh.2⟩
  | succ m ih =>
    obtain ⟨h1, h2, g', h3, h4⟩ := hg
    obtain ⟨k1, k2, k', k3, k4⟩ := hh
    refine ⟨h1.add k1, congrArg₂ (· + ·) h2 k2, fun t => g' t + k' t, ?_, ?_⟩
    · filter_upwards [h3, k3] with x hx hx' using hx.add hx'
    · exact (ih h4 k4).congr fun i _ => by ring

theorem IsTaylor₁.const_mul (r : 𝕜) (hg : IsTaylor₁ c m g b) :
    IsTaylor₁ c m (fun t => r * g t) (fun i => r * b i) := by
  induction m generalizing g b with
  | zero => exact ⟨continuousAt_const.mul hg.1, congrArg (r * ·) hg.2⟩
  | succ m ih =>
    obtain ⟨h1, h2, g', h3, h4⟩ := hg
    refine ⟨continuousAt_const.mul h1, congrArg (r * ·) h2, fun t => r * g' t, ?_, ?_⟩
    · filter_upwards [h3] with x hx using hx.const_mul r
    · exact (ih h4).congr fun i _ => by ring

theorem IsTaylor₁.const (r : 𝕜) : IsTaylor₁ c m (fun _ => r) (fun i => if i = 0 then r else 0) := by
  induction m generalizing r with
  | zero => exact ⟨continuousAt_const, by simp⟩
  | succ m ih =>
    refine IsTaylor₁.succ (g' := fun _ => 0) (by simp) (Eventually.of_forall fun x => hasDerivAt_const _ _) ?_
    exact (ih 0).congr fun i _ => by simp

/-- Affine change of variable. -/
theorem IsTaylor₁.affine (α β : 𝕜) (hg : IsTaylor₁ (α * c + β) m g b) :
    IsTaylor₁ c m (fun t => g (α * t + β)) (fun i => b i * α ^ i) := by
  have hcont : ContinuousAt (fun t : 𝕜 => α * t + β) c := by fun_prop
  induction m generalizing g b with
  | zero => exact ⟨ContinuousAt.comp (f := fun t : 𝕜 => α * t + β) (g := g) hg.1 hcont, by simp [hg.2]⟩
  | succ m ih =>
    obtain ⟨h1, h2, g', h3, h4⟩ := hg
    refine IsTaylor₁.succ (g' := fun t => α * g' (α * t + β)) (by simp [h2]) ?_ ?_
    · filter_upwards [hcont.eventually h3] with x hx
      have h5 : HasDerivAt (fun t : 𝕜 => α * t + β) α x := by
        simpa using ((hasDerivAt_id x).const_mul α).add_const β
      have := HasDerivAt.comp x hx h5
      rwa [mul_comm] at this
    · exact ((ih h4).const_mul α).congr fun i _ => by ring

/-- Generalised binomial coefficients. -/
noncomputable def binR (p : 𝕜) (i : ℕ) : 𝕜 := (∏ j ∈ Finset.range i, (p - j)) / i.factorial

variable [CharZero 𝕜]

theorem binR_zero (p : 𝕜) : binR p 0 = 1 := by simp [binR]

theorem binR_succ (p : 𝕜) (i : ℕ) : binR p (i + 1) = binR p i * (p - i) / (i + 1) := by
  unfold binR
  rw [Finset.prod_range_succ, Nat.factorial_succ]
  push_cast
  have : (i.factorial : 𝕜) ≠ 0 := by exact_mod_cast i.factorial_ne_zero
  field_simp

theorem succ_mul_binR (p : 𝕜) (i : ℕ) : (i + 1 : 𝕜) * binR p (i + 1) = p * binR (p - 1) i := by
  unfold binR
  rw [Finset.prod_range_succ', Nat.factorial_succ]
  push_cast
  have : (i.factorial : 𝕜) ≠ 0 := by exact_mod_cast i.factorial_ne_zero
  have h : ∏ j ∈ Finset.range i, (p - ((j : 𝕜) + 1)) = ∏ j ∈ Finset.range i, (p - 1 - j) :=
    Finset.prod_congr rfl fun j _ => by ring
  rw [h]
  field_simp
  ring

/-- Functions with `t g'(t) = p g(t)` near `c ≠ 0`. -/
theorem isTaylor₁_power (hc : c ≠ 0) (p : 𝕜) (hg : ∀ᶠ t in 𝓝 c, HasDerivAt g (p * g t / t) t) :
    IsTaylor₁ c m g (fun i => g c * binR p i / c ^ i) := by
  induction m generalizing g p with
  | zero => exact ⟨hg.self_of_nhds.continuousAt, by simp [binR_zero]⟩
  | succ m ih =>
    refine IsTaylor₁.succ (by simp [binR_zero]) hg ?_
    have h1 : ∀ᶠ t in 𝓝 c, HasDerivAt (fun t => p * g t / t) ((p - 1) * (p * g t / t) / t) t := by
      filter_upwards [hg, isOpen_ne.mem_nhds hc] with t ht ht0
      have := (ht.const_mul p).div (hasDerivAt_id t) ht0
      refine this.congr_deriv ?_
      simp only [id]
      field_simp
    refine (ih (p - 1) h1).congr fun i _ => ?_
    have h2 := succ_mul_binR p i
    rw [pow_succ]
    field_simp
    linear_combination (-g c) * h2

theorem isTaylor₁_inv (hc : c ≠ 0) : IsTaylor₁ c m (fun t => t⁻¹) (fun i => (-1) ^ i / c ^ (i + 1)) := by
  have h : ∀ᶠ t in 𝓝 c, HasDerivAt (fun t : 𝕜 => t⁻¹) (-1 * t⁻¹ / t) t := by
    filter_upwards [isOpen_ne.mem_nhds hc] with t ht
    refine (hasDerivAt_inv ht).congr_deriv ?_
    field_simp
  refine (isTaylor₁_power hc (-1) h).congr fun i _ => ?_
  have hb : ∀ i, binR (-1 : 𝕜) i = (-1) ^ i := by
    intro i
    induction i with
    | zero => simp [binR_zero]
    | succ i ih =>
      rw [binR_succ, ih, pow_succ]
      have : (i + 1 : 𝕜) ≠ 0 := by exact_mod_cast i.succ_ne_zero
      field_simp
      ring
  rw [hb, pow_succ]
  field_simp

end one

section division
variable {𝕜 : Type*} [NontriviallyNormedField 𝕜] [CharZero 𝕜] {σ : Type*} [DecidableEq σ] {a : σ → 𝕜} {m n : ℕ} {F G : (σ → 𝕜) → 𝕜}
  {P Q R : MvPolynomial σ 𝕜}

/-- Quotients: any polynomial `R` with `R Q = P` up to the order is the expansion of `F / G`. -/
theorem IsTaylor.div_of_mul (hF : IsTaylor a m F P) (hG : IsTaylor a m G Q) (h0 : Q.coeff 0 ≠ 0)
    (hR : EqUpTo m (R * Q) P) : IsTaylor a m (fun x => F x / G x) R := by
  have hv : G a ≠ 0 := by rw [hG.val]; exact h0
  have hI := hG.comp (isTaylor₁_inv (c := G a) (m := m) hv)
  set I := compPoly m (fun i => (-1) ^ i / (G a) ^ (i + 1)) Q
  have h1 : IsTaylor a m (fun _ => 1) (Q * I) := by
    refine (hG.mul hI).congr_fun ?_
    filter_upwards [hG.cont.eventually_ne hv] with x hx
    exact mul_inv_cancel₀ hx
  have h2 : EqUpTo m (Q * I) 1 := by
    have := h1.unique (IsTaylor.const 1)
    rwa [map_one] at this
  have h3 := hF.mul hI
  refine IsTaylor.congr_poly (by simpa only [div_eq_mul_inv] using h3) ?_
  have h4 : EqUpTo m (P * I) (R * Q * I) := hR.symm.mul (EqUpTo.refl _)
  refine h4.trans ?_
  rw [mul_assoc]
  have := (EqUpTo.refl (m := m) R).mul h2
  rwa [mul_one] at this

/-- Every polynomial is the expansion of a function. -/
theorem isTaylor_poly (a : σ → 𝕜) (m : ℕ) (P : MvPolynomial σ 𝕜) :
    IsTaylor a m (fun x => eval (fun s => x s - a s) P) P := by
  induction P using MvPolynomial.induction_on with
  | C r => simpa using IsTaylor.const (a := a) (m := m) r
  | add p q hp hq => simpa using hp.add hq
  | mul_X p s hp =>
    have h1 : IsTaylor a m (fun x => x s - a s) (X s) := by
      have := (IsTaylor.coord (a := a) (m := m) s).sub (IsTaylor.const (a s))
      simpa using this
    simpa using hp.mul h1

end division

end Audi.Spec
