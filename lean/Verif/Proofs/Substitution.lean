import Verif.Proofs.Ode
import Verif.Proofs.Picard
import Verif.Proofs.Deriv
import Mathlib.Analysis.SpecialFunctions.Arsinh
import Mathlib.Analysis.SpecialFunctions.Arcosh
import Mathlib.Analysis.SpecialFunctions.Trigonometric.InverseDeriv

/-! The expansion of an expression in other functions is obtained by substituting their expansions in the expansion of the expression. -/

namespace Audi

open MvPolynomial Spec Filter Topology

theorem Fn.expansion {f : Fn} {c : ℝ} (h : f.Dom c) (m : ℕ) : ∃ b, IsTaylor₁ c m f.real b := by
  have hz : ∀ z : ℤ, (0 ≤ z ∨ c ≠ 0) → ContDiffAt ℝ m (fun x : ℝ => x ^ z) c := fun z hz => by
    rcases hz with hz | hz
    · obtain ⟨k, rfl⟩ := Int.eq_ofNat_of_zero_le hz
      simp only [zpow_natCast]
      exact contDiffAt_id.pow k
    · obtain ⟨k, rfl | rfl⟩ := z.eq_nat_or_neg
      · simp only [zpow_natCast]
        exact contDiffAt_id.pow k
      · simp only [zpow_neg, zpow_natCast]
        exact (contDiffAt_id.pow k).inv (pow_ne_zero _ hz)
  have hpow : ∀ α : ℚ, (0 < c ∨ α.den = 1 ∧ (0 ≤ α ∨ c ≠ 0)) → ContDiffAt ℝ m (fun x : ℝ => x ^ (α : ℝ)) c := fun α h => by
    rcases h with h | ⟨h1, h2⟩
    · exact contDiffAt_id.rpow_const_of_ne h.ne'
    · have h3 : α = (α.num : ℚ) := (Rat.coe_int_num_of_den_eq_one h1).symm
      have h4 : (fun x : ℝ => x ^ (α : ℝ)) = fun x => x ^ α.num := funext fun x => by
        rw [h3, Rat.cast_intCast, Real.rpow_intCast, Rat.num_intCast]
      rw [h4]
      exact hz _ (h2.imp_left Rat.num_nonneg.2)
  cases f with
  | exp => exact ⟨_, isTaylor₁_exp⟩
  | log => exact ⟨_, isTaylor₁_log (ne_of_gt h)⟩
  | sqrt => exact exists_isTaylor₁ (Real.contDiffAt_sqrt (ne_of_gt h))
  | cbrt => exact ⟨_, isTaylor₁_cbrt h⟩
  | sin => exact exists_isTaylor₁ Real.contDiff_sin.contDiffAt
  | cos => exact exists_isTaylor₁ Real.contDiff_cos.contDiffAt
  | tan => exact exists_isTaylor₁ (Real.contDiffAt_tan.2 h)
  | sinh => exact exists_isTaylor₁ Real.contDiff_sinh.contDiffAt
  | cosh => exact exists_isTaylor₁ Real.contDiff_cosh.contDiffAt
  | tanh =>
    have : Fn.tanh.real = fun x => Real.sinh x / Real.cosh x := funext fun x => Real.tanh_eq_sinh_div_cosh x
    rw [this]
    exact exists_isTaylor₁ (Real.contDiff_sinh.contDiffAt.div Real.contDiff_cosh.contDiffAt (Real.cosh_pos _).ne')
  | asinh => exact exists_isTaylor₁ Real.contDiff_arsinh.contDiffAt
  | acosh => exact exists_isTaylor₁ (Real.contDiffAt_arcosh h)
  | atanh => exact ⟨_, isTaylor₁_artanh h⟩
  | atan => exact ⟨_, isTaylor₁_arctan⟩
  | asin => exact exists_isTaylor₁ (Real.contDiffAt_arcsin (by have := abs_lt.1 h; linarith) (by have := abs_lt.1 h; linarith))
  | acos => exact exists_isTaylor₁ (Real.contDiffAt_arccos (by have := abs_lt.1 h; linarith) (by have := abs_lt.1 h; linarith))
  | neg => exact exists_isTaylor₁ contDiffAt_id.neg
  | powQ α => exact exists_isTaylor₁ (hpow α h.2.2)
  | powInt z => exact exists_isTaylor₁ (hz z h.2)
  | powBase q =>
    have : (Fn.powBase q).real = fun x => Real.exp (Real.log q * x) := funext fun x => Real.rpow_def_of_pos (by exact_mod_cast h) x
    rw [this]
    exact exists_isTaylor₁ (Real.contDiff_exp.contDiffAt.comp _ (contDiffAt_const.mul contDiffAt_id))

theorem aeval_compPoly {K : Type*} [CommRing K] {σ τ : Type*} (m : ℕ) (b : ℕ → K) (P : MvPolynomial σ K) (q : σ → MvPolynomial τ K) (h : coeff 0 (aeval q P) = coeff 0 P) :
    aeval q (compPoly m b P) = compPoly m b (aeval q P) := by
  unfold compPoly
  simp only [map_sum, map_mul, map_pow, map_sub, h]
  simp [algHom_C, algebraMap_eq]

theorem coeff_zero_aeval {K : Type*} [Field K] {σ τ : Type*} {q : σ → MvPolynomial τ K} (hq : ∀ s, coeff 0 (q s) = 0) (P : MvPolynomial σ K) : coeff 0 (aeval q P) = coeff 0 P := by
  have h : (constantCoeff.comp (aeval q : MvPolynomial σ K →ₐ[K] MvPolynomial τ K).toRingHom) = (constantCoeff : MvPolynomial σ K →+* K) := by
    refine ringHom_ext (fun c => by simp [algebraMap_eq]) fun s => ?_
    simpa [constantCoeff_eq] using hq s
  exact RingHom.congr_fun h P

/-- `P` is the expansion of `F` at `v`, and expansions of functions with these values can be substituted. -/
structure Subst {σ : Type*} [DecidableEq σ] (v : σ → ℝ) (m : ℕ) (F : (σ → ℝ) → ℝ) (P : MvPolynomial σ ℝ) : Prop where
  out : ∀ {τ : Type} [DecidableEq τ] {a : τ → ℝ} {φ : σ → (τ → ℝ) → ℝ} {Q : σ → MvPolynomial τ ℝ}, (∀ s, IsTaylor a m (φ s) (Q s)) → (∀ s, φ s a = v s) →
    IsTaylor a m (fun x => F fun s => φ s x) (aeval (fun s => Q s - MvPolynomial.C (v s)) P)

section
variable {σ : Type*} [DecidableEq σ] {v : σ → ℝ} {m : ℕ} {F G : (σ → ℝ) → ℝ} {P Q : MvPolynomial σ ℝ}

theorem Subst.coeff (h : Subst v m F P) {τ : Type} [DecidableEq τ] {a : τ → ℝ} {φ : σ → (τ → ℝ) → ℝ} {Q : σ → MvPolynomial τ ℝ} (h1 : ∀ s, IsTaylor a m (φ s) (Q s))
    (h2 : ∀ s, φ s a = v s) : MvPolynomial.coeff 0 P = F v := by
  have h3 := (h.out h1 h2).val
  rw [coeff_zero_aeval fun s => by rw [coeff_sub, ← (h1 s).val, h2, coeff_C, if_pos rfl, sub_self]] at h3
  rw [← h3]
  simp only [h2]

theorem Subst.var (s : σ) : Subst v m (fun x => x s) (MvPolynomial.C (v s) + X s) := ⟨fun {_ _ _ _ Q} h1 _ => by
  have : aeval (fun s => Q s - MvPolynomial.C (v s)) (MvPolynomial.C (v s) + X s) = Q s := by simp [algebraMap_eq]
  rw [this]
  exact h1 s⟩

theorem Subst.const (c : ℝ) : Subst v m (fun _ => c) (MvPolynomial.C c) := ⟨fun _ _ => by
  rw [algHom_C, algebraMap_eq]
  exact IsTaylor.const c⟩

theorem Subst.add (hF : Subst v m F P) (hG : Subst v m G Q) : Subst v m (fun x => F x + G x) (P + Q) := ⟨fun h1 h2 => by
  rw [map_add]; exact (hF.out h1 h2).add (hG.out h1 h2)⟩

theorem Subst.sub (hF : Subst v m F P) (hG : Subst v m G Q) : Subst v m (fun x => F x - G x) (P - Q) := ⟨fun h1 h2 => by
  rw [map_sub]; exact (hF.out h1 h2).sub (hG.out h1 h2)⟩

theorem Subst.mul (hF : Subst v m F P) (hG : Subst v m G Q) : Subst v m (fun x => F x * G x) (P * Q) := ⟨fun h1 h2 => by
  rw [map_mul]; exact (hF.out h1 h2).mul (hG.out h1 h2)⟩

theorem Subst.comp {g : ℝ → ℝ} {b : ℕ → ℝ} (hF : Subst v m F P) (hg : IsTaylor₁ (F v) m g b) : Subst v m (fun x => g (F x)) (compPoly m b P) :=
  ⟨fun {_ _ _ φ Q} h1 h2 => by
    rw [aeval_compPoly _ _ _ _ (coeff_zero_aeval (fun s => by rw [coeff_sub, ← (h1 s).val, h2, coeff_C, if_pos rfl, sub_self]) P)]
    exact (hF.out h1 h2).comp (by simp only [h2]; exact hg)⟩

theorem Subst.congr (hF : Subst v m F P) (h : ∀ᶠ x in 𝓝 v, F x = G x) : Subst v m G P := ⟨fun {_ _ a φ Q} h1 h2 => by
  have h3 : Tendsto (fun x s => φ s x) (𝓝 a) (𝓝 v) := tendsto_pi_nhds.2 fun s => by
    have : Tendsto (φ s) (𝓝 a) (𝓝 (φ s a)) := (h1 s).cont
    rwa [h2] at this
  exact (hF.out h1 h2).congr_fun (h3.eventually h)⟩

end

variable {C : Type} [CfFun C] {ι : Type} [Lanes C ι ℝ] {m : ℕ}

theorem Op.subst (op : Op) {v : String → ℝ} {F G : (String → ℝ) → ℝ} {P Q : MvPolynomial String ℝ} (hF : Subst v m F P) (hG : Subst v m G Q) (hd : op.Dom (G v)) :
    ∃ R, Subst v m (fun x => op.real (F x) (G x)) R := by
  cases op with
  | add => exact ⟨_, hF.add hG⟩
  | sub => exact ⟨_, hF.sub hG⟩
  | mul => exact ⟨_, hF.mul hG⟩
  | div =>
    have h := hF.mul (hG.comp (isTaylor₁_inv hd))
    simp only [← div_eq_mul_inv] at h
    exact ⟨_, h⟩

theorem Expr.subst (i : ι) {v : String → ℝ} : ∀ e : Expr C, e.Dom i v → ∃ P, Subst v m (e.sem i) P := by
  intro e
  induction e with
  | var s => exact fun _ => ⟨_, Subst.var s⟩
  | const c => exact fun _ => ⟨_, Subst.const _⟩
  | bin op e1 e2 ih1 ih2 =>
    intro h
    obtain ⟨P, hP⟩ := ih1 h.1
    obtain ⟨Q, hQ⟩ := ih2 h.2.1
    exact op.subst hP hQ h.2.2
  | left op c e ih =>
    intro h
    obtain ⟨Q, hQ⟩ := ih h.1
    exact op.subst (Subst.const _) hQ h.2
  | right op e c ih =>
    intro h
    obtain ⟨Q, hQ⟩ := ih h.1
    exact op.subst hQ (Subst.const _) h.2
  | fn f e ih =>
    intro h
    obtain ⟨Q, hQ⟩ := ih h.1
    obtain ⟨b, hb⟩ := Fn.expansion h.2 m
    exact ⟨_, hQ.comp hb⟩
  | pow e1 e2 ih1 ih2 =>
    intro h
    obtain ⟨P, hP⟩ := ih1 h.1
    obtain ⟨Q, hQ⟩ := ih2 h.2.1
    have h1 := (hP.comp (isTaylor₁_log h.2.2.ne')).mul hQ
    refine ⟨_, (h1.comp isTaylor₁_exp).congr ?_⟩
    filter_upwards [(Expr.continuousAt_dom i e1 h.1).1.eventually (lt_mem_nhds h.2.2)] with x hx
    exact (Real.rpow_def_of_pos hx _).symm

end Audi
