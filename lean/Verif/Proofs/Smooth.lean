import Verif.Proofs.Substitution
import Verif.Spec.Newton
import Mathlib.LinearAlgebra.Matrix.SchurComplement
import Mathlib.Analysis.SpecialFunctions.Artanh
import Mathlib.Analysis.Calculus.FDeriv.Symmetric
import Mathlib.Analysis.Calculus.Deriv.Pi
import Mathlib.LinearAlgebra.Matrix.ToLin
import Mathlib.Analysis.Calculus.InverseFunctionTheorem.ContDiff

/-! Expressions are smooth on their domain, and smooth functions of finitely many variables have Taylor expansions. -/

namespace Audi

open MvPolynomial Spec Filter Topology

theorem Fn.contDiffAt {f : Fn} {c : ℝ} (h : f.Dom c) (m : ℕ) : ContDiffAt ℝ m f.real c := by
  have hz : ∀ z : ℤ, (0 ≤ z ∨ c ≠ 0) → ContDiffAt ℝ m (fun x : ℝ => x ^ z) c := fun z hz => by
    rcases hz with hz | hz
    · obtain ⟨k, rfl⟩ := Int.eq_ofNat_of_zero_le hz
      simp only [zpow_natCast]
      exact contDiffAt_id.pow k
    · obtain ⟨k, rfl | rfl⟩ := z.eq_nat_or_neg
      · simp only [zpow_natCast]
        exact contDiffAt_id.pow k
      · simp only [zpow_neg, zpow_natCast]
        exact (contDiffAt_id.pow k).inv (pow_ne_zero _ hz)
  have hpow : ∀ α : ℚ, (0 < c ∨ α.den = 1 ∧ (0 ≤ α ∨ c ≠ 0)) → ContDiffAt ℝ m (fun x : ℝ => x ^ (α : ℝ)) c := fun α h => by
    rcases h with h | ⟨h1, h2⟩
    · exact contDiffAt_id.rpow_const_of_ne h.ne'
    · have h3 : α = (α.num : ℚ) := (Rat.coe_int_num_of_den_eq_one h1).symm
      have h4 : (fun x : ℝ => x ^ (α : ℝ)) = fun x => x ^ α.num := funext fun x => by
        rw [h3, Rat.cast_intCast, Real.rpow_intCast, Rat.num_intCast]
      rw [h4]
      exact hz _ (h2.imp_left Rat.num_nonneg.2)
  cases f with
  | exp => exact Real.contDiff_exp.contDiffAt
  | log => exact Real.contDiffAt_log.2 (ne_of_gt h)
  | sqrt => exact Real.contDiffAt_sqrt (ne_of_gt h)
  | cbrt =>
    have h' : c ≠ 0 := h
    rcases lt_or_gt_of_ne h' with h' | h'
    · have : ContDiffAt ℝ m (fun x : ℝ => -(-x) ^ ((1 : ℝ) / 3)) c := (contDiffAt_id.neg.rpow_const_of_ne (by simpa using h'.ne)).neg
      exact this.congr_of_eventuallyEq ((gt_mem_nhds h').mono fun x hx => cbrt_of_neg hx)
    · have : ContDiffAt ℝ m (fun x : ℝ => x ^ ((1 : ℝ) / 3)) c := contDiffAt_id.rpow_const_of_ne h'.ne'
      exact this.congr_of_eventuallyEq ((lt_mem_nhds h').mono fun x hx => cbrt_of_pos hx)
  | sin => exact Real.contDiff_sin.contDiffAt
  | cos => exact Real.contDiff_cos.contDiffAt
  | tan => exact Real.contDiffAt_tan.2 h
  | sinh => exact Real.contDiff_sinh.contDiffAt
  | cosh => exact Real.contDiff_cosh.contDiffAt
  | tanh =>
    have : Fn.tanh.real = fun x => Real.sinh x / Real.cosh x := funext fun x => Real.tanh_eq_sinh_div_cosh x
    rw [this]
    exact Real.contDiff_sinh.contDiffAt.div Real.contDiff_cosh.contDiffAt (Real.cosh_pos _).ne'
  | asinh => exact Real.contDiff_arsinh.contDiffAt
  | acosh => exact Real.contDiffAt_arcosh h
  | atanh =>
    have h' := abs_lt.1 h
    have h1 : ContDiffAt ℝ m (fun x : ℝ => 1 / 2 * Real.log ((1 + x) / (1 - x))) c := by
      refine contDiffAt_const.mul (ContDiffAt.log ((contDiffAt_const.add contDiffAt_id).div (contDiffAt_const.sub contDiffAt_id) ?_) ?_)
      · exact ne_of_gt (by linarith : (0:ℝ) < 1 - c)
      · exact (div_pos (by linarith : (0:ℝ) < 1 + c) (by linarith : (0:ℝ) < 1 - c)).ne'
    refine h1.congr_of_eventuallyEq ?_
    filter_upwards [Ioo_mem_nhds h'.1 h'.2] with x hx
    exact Real.artanh_eq_half_log ⟨hx.1.le, hx.2.le⟩
  | atan => exact Real.contDiff_arctan.contDiffAt
  | asin => exact Real.contDiffAt_arcsin (by have := abs_lt.1 h; linarith) (by have := abs_lt.1 h; linarith)
  | acos => exact Real.contDiffAt_arccos (by have := abs_lt.1 h; linarith) (by have := abs_lt.1 h; linarith)
  | neg => exact contDiffAt_id.neg
  | powQ α => exact hpow α h.2.2
  | powInt z => exact hz z h.2
  | powBase q =>
    have : (Fn.powBase q).real = fun x => Real.exp (Real.log q * x) := funext fun x => Real.rpow_def_of_pos (by exact_mod_cast h) x
    rw [this]
    exact Real.contDiff_exp.contDiffAt.comp _ (contDiffAt_const.mul contDiffAt_id)

section
variable {E : Type*} [NormedAddCommGroup E] [NormedSpace ℝ E] {m : ℕ} {a : E}

theorem Op.contDiffAt (op : Op) {F G : E → ℝ} (hF : ContDiffAt ℝ m F a) (hG : ContDiffAt ℝ m G a) (h : op.Dom (G a)) : ContDiffAt ℝ m (fun y => op.real (F y) (G y)) a := by
  cases op with
  | add => exact hF.add hG
  | sub => exact hF.sub hG
  | mul => exact hF.mul hG
  | div => exact hF.div hG h

theorem Expr.contDiffAt {C : Type} {ι : Type} [CfFun C] [Lanes C ι ℝ] (i : ι) {φ : String → E → ℝ} (hφ : ∀ s, ContDiffAt ℝ m (φ s) a) :
    ∀ e : Expr C, e.Dom i (fun s => φ s a) → ContDiffAt ℝ m (fun y => e.sem i fun s => φ s y) a := by
  intro e
  induction e with
  | var s => exact fun _ => hφ s
  | const c => exact fun _ => contDiffAt_const
  | bin op e1 e2 ih1 ih2 => exact fun h => op.contDiffAt (ih1 h.1) (ih2 h.2.1) h.2.2
  | left op c e ih => exact fun h => op.contDiffAt contDiffAt_const (ih h.1) h.2
  | right op e c ih => exact fun h => op.contDiffAt (ih h.1) contDiffAt_const h.2
  | fn f e ih => exact fun h => (Fn.contDiffAt h.2 m).comp a (ih h.1)
  | pow e1 e2 ih1 ih2 => exact fun h => (ih1 h.1).rpow (ih2 h.2.1) h.2.2.ne'

end

/-! ## Expansions -/

section
variable {σ : Type} [Fintype σ] [DecidableEq σ]

/-- A polynomial with given partial derivatives. -/
theorem exists_primitive (c : ℝ) (m : ℕ) (R : σ → MvPolynomial σ ℝ) (hR : ∀ s t, ∀ e : σ →₀ ℕ, e.degree < m → coeff e (pderiv t (R s)) = coeff e (pderiv s (R t))) :
    ∃ P : MvPolynomial σ ℝ, coeff 0 P = c ∧ ∀ s, EqUpTo m (pderiv s P) (R s) := by
  classical
  let R' : σ → MvPolynomial σ ℝ := fun s => ∑ b ∈ (R s).support, monomial b (coeff b (R s) / (b.degree + 1))
  have hR' : ∀ s e, coeff e (R' s) = coeff e (R s) / (e.degree + 1) := fun s e => by
    simp only [R', coeff_sum, coeff_monomial]
    rw [Finset.sum_ite_eq']
    split_ifs with h
    · rfl
    · rw [notMem_support_iff.1 h, zero_div]
  refine ⟨MvPolynomial.C c + ∑ s, X s * R' s, ?_, fun t e he => ?_⟩
  · simp [coeff_sum, coeff_X_mul']
  · have h1 : ∀ s, ((e + Finsupp.single t 1 : σ →₀ ℕ) t : ℝ) * coeff (e + Finsupp.single t 1) (X s * R' s) = ((e + Finsupp.single t 1 : σ →₀ ℕ) s : ℝ) * coeff e (R t) / (e.degree + 1) := fun s => by
      rw [coeff_X_mul']
      split_ifs with hs
      · have hs' : (e + Finsupp.single t 1 : σ →₀ ℕ) s ≠ 0 := Finsupp.mem_support_iff.1 hs
        have hd : (e + Finsupp.single t 1 - Finsupp.single s 1).degree = e.degree := by
          have h2 : e + Finsupp.single t 1 - Finsupp.single s 1 + Finsupp.single s 1 = e + Finsupp.single t 1 :=
            tsub_add_cancel_of_le (Finsupp.single_le_iff.2 (Nat.one_le_iff_ne_zero.2 hs'))
          have h3 := congrArg Finsupp.degree h2
          rw [map_add, map_add, Finsupp.degree_single, Finsupp.degree_single] at h3
          omega
        rw [hR', hd, ← mul_div_assoc]
        congr 1
        by_cases hst : s = t
        · subst hst
          rw [add_tsub_cancel_right]
        · have hes : (e + Finsupp.single t 1 : σ →₀ ℕ) s = e s := by simp [Ne.symm hst]
          rw [hes] at hs' ⊢
          obtain ⟨b, rfl⟩ : ∃ b, e = b + Finsupp.single s 1 :=
            ⟨e - Finsupp.single s 1, (tsub_add_cancel_of_le (Finsupp.single_le_iff.2 (Nat.one_le_iff_ne_zero.2 hs'))).symm⟩
          have h4 := hR s t b (by rw [map_add, Finsupp.degree_single] at he; omega)
          rw [coeff_pderiv, coeff_pderiv] at h4
          rw [add_right_comm, add_tsub_cancel_right]
          have e1 : (b + Finsupp.single t 1 + Finsupp.single s 1 : σ →₀ ℕ) t = b t + 1 := by simp [hst]
          have e2 : (b + Finsupp.single s 1 : σ →₀ ℕ) s = b s + 1 := by simp
          rw [e1, e2]
          push_cast
          linarith
      · rw [mul_zero, Finsupp.notMem_support_iff.1 hs]; simp
    rw [coeff_pderiv, coeff_add, coeff_C, if_neg (fun h => by
      have := DFunLike.congr_fun h t
      simp at this), zero_add, coeff_sum, mul_comm]
    have h5 : ((e t : ℝ) + 1) = ((e + Finsupp.single t 1 : σ →₀ ℕ) t : ℕ) := by simp
    rw [h5, Finset.mul_sum, Finset.sum_congr rfl fun s _ => h1 s, ← Finset.sum_div, ← Finset.sum_mul]
    have h6 : ∑ s, ((e + Finsupp.single t 1 : σ →₀ ℕ) s : ℝ) = e.degree + 1 := by
      have : (e + Finsupp.single t 1).degree = e.degree + 1 := by rw [map_add, Finsupp.degree_single]
      rw [Finsupp.degree_eq_sum] at this
      exact_mod_cast this
    rw [h6, mul_div_assoc, mul_comm, div_mul_cancel₀]
    positivity

theorem hasPartialAt_of_hasFDerivAt {F : (σ → ℝ) → ℝ} {L : (σ → ℝ) →L[ℝ] ℝ} {x : σ → ℝ} (h : HasFDerivAt F L x) (s : σ) : HasPartialAt F (L (Pi.single s 1)) s x := by
  have h1 : HasDerivAt (fun t => Function.update x s t) (Pi.single s (1 : ℝ)) (x s) := hasDerivAt_update x s (x s)
  have h2 : HasFDerivAt F L (Function.update x s (x s)) := by rwa [Function.update_eq_self]
  exact h2.comp_hasDerivAt (x s) h1

/-- Functions of class `C^n` have expansions of order `n`. -/
theorem exists_isTaylor {a : σ → ℝ} {n : ℕ} {F : (σ → ℝ) → ℝ} (h : ContDiffAt ℝ n F a) : ∃ P, IsTaylor a n F P := by
  induction n generalizing F with
  | zero => exact ⟨MvPolynomial.C (F a), h.continuousAt, by simp⟩
  | succ n ih =>
    have hev : ∀ᶠ x in 𝓝 a, ContDiffAt ℝ (n + 1 : ℕ) F x := h.eventually (by simp)
    have hd : ∀ᶠ x in 𝓝 a, HasFDerivAt F (fderiv ℝ F x) x := hev.mono fun x hx => (hx.differentiableAt (by simp)).hasFDerivAt
    have hf' : ContDiffAt ℝ n (fderiv ℝ F) a := h.fderiv_right (by norm_cast)
    choose R hR using fun s => ih (F := fun x => fderiv ℝ F x (Pi.single s 1)) (hf'.clm_apply contDiffAt_const)
    have hp : ∀ s, ∀ᶠ x in 𝓝 a, HasPartialAt F (fderiv ℝ F x (Pi.single s 1)) s x := fun s => hd.mono fun x hx => hasPartialAt_of_hasFDerivAt hx s
    obtain ⟨P, hP0, hP⟩ := exists_primitive (F a) n R fun s t e he => by
      obtain ⟨k, rfl⟩ : ∃ k, n = k + 1 := ⟨n - 1, by omega⟩
      obtain ⟨G, hG, hGT⟩ := (hR s).2.2 t
      obtain ⟨H, hH, hHT⟩ := (hR t).2.2 s
      have hGH : G =ᶠ[𝓝 a] H := by
        filter_upwards [hG, hH, hev] with x h1 h2 h3
        have h4 : IsSymmSndFDerivAt ℝ F x := h3.isSymmSndFDerivAt (by
          rw [minSmoothness_of_isRCLikeNormedField]; norm_cast; omega)
        have h5 : HasFDerivAt (fderiv ℝ F) (fderiv ℝ (fderiv ℝ F) x) x :=
          ((h3.fderiv_right (m := (k + 1 : ℕ)) (by norm_cast)).differentiableAt (by simp)).hasFDerivAt
        have h6 : ∀ u w, HasPartialAt (fun y => fderiv ℝ F y (Pi.single u 1)) (fderiv ℝ (fderiv ℝ F) x (Pi.single w 1) (Pi.single u 1)) w x := fun u w => by
          have := hasPartialAt_of_hasFDerivAt (h5.clm_apply (hasFDerivAt_const (Pi.single u (1 : ℝ)) x)) w
          simpa using this
        rw [HasDerivAt.unique h1 (h6 s t), HasDerivAt.unique h2 (h6 t s)]
        exact h4 _ _
      exact (hGT.unique (hHT.congr_fun hGH.symm)) e (by omega)
    exact ⟨P, h.continuousAt, hP0.symm, fun s => ⟨_, hp s, (hR s).congr_poly fun e he => (hP s e he).symm⟩⟩

end

/-! ## Local inverses -/

section
variable {C : Type} {ι : Type} [CfFun C] [Lanes C ι ℝ] {κ : Type} [Fintype κ] [DecidableEq κ]

/-- The variables `s j` have the values `y j`, the others those of `v`. -/
noncomputable def point (s : κ → String) (v : String → ℝ) (y : κ → ℝ) : String → ℝ := Function.extend s y v

omit [DecidableEq κ] in
theorem point_self {s : κ → String} (v : String → ℝ) : point s v (fun j => v (s j)) = v := by
  funext t
  unfold point
  by_cases h : ∃ j, s j = t
  · obtain ⟨j, rfl⟩ := h
    exact Function.FactorsThrough.extend_apply (fun _ _ h => by rw [h]) _ _
  · exact Function.extend_apply' _ _ _ h

theorem point_update {s : κ → String} (hs : Function.Injective s) (v : String → ℝ) (y : κ → ℝ) (j : κ) (r : ℝ) :
    point s v (Function.update y j r) = Function.update (point s v y) (s j) r := by
  funext t
  unfold point
  by_cases h : ∃ k, s k = t
  · obtain ⟨k, rfl⟩ := h
    rw [hs.extend_apply]
    by_cases hk : k = j
    · subst hk; simp
    · rw [Function.update_of_ne hk, Function.update_of_ne (fun h => hk (hs h)), hs.extend_apply]
  · rw [Function.extend_apply' _ _ _ h, Function.update_of_ne (fun h' => h ⟨j, h'.symm⟩), Function.extend_apply' _ _ _ h]

omit [DecidableEq κ] in
theorem contDiff_point (s : κ → String) (hs : Function.Injective s) (v : String → ℝ) (m : ℕ) (t : String) : ContDiff ℝ m fun y => point s v y t := by
  unfold point
  by_cases h : ∃ k, s k = t
  · obtain ⟨k, rfl⟩ := h
    simp only [hs.extend_apply]
    exact contDiff_apply ℝ ℝ k
  · simp only [Function.extend_apply' _ _ _ h]
    exact contDiff_const

/-- The inverse function theorem for functions given by expressions. -/
theorem exists_local_inverse (i : ι) {E : κ → Expr C} {s : κ → String} (hs : Function.Injective s) {v : String → ℝ} (hd : ∀ k, (E k).Dom i v) {m : ℕ} (hm : m ≠ 0)
    (hJ : IsUnit (Matrix.det (Matrix.of fun k j => pds [s j] ((E k).sem i) v))) :
    ∃ ψ : (κ → ℝ) → κ → ℝ, (∀ j, ψ 0 j = v (s j)) ∧ (∀ j, ContDiffAt ℝ m (fun p => ψ p j) 0) ∧
      ∀ᶠ p in 𝓝 0, ∀ k, (E k).sem i (point s v (ψ p)) = (E k).sem i v + p k := by
  let y0 : κ → ℝ := fun j => v (s j)
  let F : (κ → ℝ) → κ → ℝ := fun y k => (E k).sem i (point s v y)
  have hF : ContDiffAt ℝ m F y0 := contDiffAt_pi.2 fun k => (E k).contDiffAt i (φ := fun t y => point s v y t) (fun t => (contDiff_point s hs v m t).contDiffAt) (by
    rw [show (fun t => point s v y0 t) = v from point_self v]; exact hd k)
  have hL := (hF.differentiableAt (by exact_mod_cast hm)).hasFDerivAt
  set J : Matrix (κ) (κ) ℝ := Matrix.of fun k j => pds [s j] ((E k).sem i) v
  have hLJ : ∀ w, fderiv ℝ F y0 w = J.mulVec w := fun w => by
    have h1 : ∀ k j, fderiv ℝ F y0 (Pi.single j 1) k = J k j := fun k j => by
      have h2 := hasPartialAt_of_hasFDerivAt (hasFDerivAt_pi'.1 hL k) j
      have h3 : HasDerivAt (fun t => (E k).sem i (Function.update v (s j) t)) (fderiv ℝ F y0 (Pi.single j 1) k) (v (s j)) := by
        have h4 : (fun t => F (Function.update y0 j t) k) = fun t => (E k).sem i (Function.update v (s j) t) := funext fun t => by
          simp only [F]
          rw [point_update hs, point_self]
        unfold HasPartialAt at h2
        rw [h4] at h2
        simpa using h2
      exact h3.deriv.symm
    funext k
    have h5 : w = ∑ j, w j • (Pi.single j (1 : ℝ) : κ → ℝ) := by
      funext l
      simp [Finset.sum_apply, Pi.single_apply]
    conv_lhs => rw [h5]
    rw [map_sum, Finset.sum_apply]
    simp only [map_smul, Pi.smul_apply, h1, smul_eq_mul]
    exact Finset.sum_congr rfl fun j _ => mul_comm _ _
  have hJ' : IsUnit J := (Matrix.isUnit_iff_isUnit_det _).2 hJ
  let Lj : (κ → ℝ) ≃L[ℝ] (κ → ℝ) := (Matrix.toLinearEquiv' J hJ'.invertible).toContinuousLinearEquiv
  have hLj : HasFDerivAt F (Lj : (κ → ℝ) →L[ℝ] (κ → ℝ)) y0 := by
    have : (Lj : (κ → ℝ) →L[ℝ] (κ → ℝ)) = fderiv ℝ F y0 := by
      ext w k
      rw [hLJ]
      rfl
    rw [this]; exact hL
  have hm' : (m : WithTop ℕ∞) ≠ 0 := by exact_mod_cast hm
  have hstrict := hF.hasStrictFDerivAt' hLj hm'
  have hF0 : F y0 = fun k => (E k).sem i v := funext fun k => by simp only [F]; rw [point_self]
  refine ⟨fun p => hF.localInverse hLj hm' (F y0 + p), fun j => ?_, fun j => ?_, ?_⟩
  · simp only [add_zero]
    exact congrFun (hF.localInverse_apply_image hLj hm') j
  · have h1 := hF.to_localInverse hLj hm'
    have h2 : ContDiffAt ℝ m (fun p : κ → ℝ => F y0 + p) 0 := contDiffAt_const.add contDiffAt_id
    have h3 : ContDiffAt ℝ m (fun p => hF.localInverse hLj hm' (F y0 + p)) 0 := ContDiffAt.comp (0 : κ → ℝ) (by rw [add_zero]; exact h1) h2
    exact contDiffAt_pi.1 h3 j
  · have h1 := hstrict.eventually_right_inverse
    have h2 : Tendsto (fun p : κ → ℝ => F y0 + p) (𝓝 0) (𝓝 (F y0)) := by
      have : Continuous fun p : κ → ℝ => F y0 + p := by fun_prop
      simpa using this.tendsto 0
    filter_upwards [h2.eventually h1] with p hp k
    exact (congrFun hp k).trans (by rw [Pi.add_apply, hF0])

end

/-- The expansion of a function of some of the variables. -/
theorem isTaylor_restrict {σ τ : Type*} [DecidableEq σ] [DecidableEq τ] {a : τ → ℝ} {f : σ → τ} (hf : Function.Injective f) {m : ℕ} {F : (σ → ℝ) → ℝ} {P : MvPolynomial σ ℝ}
    (h : IsTaylor (fun s => a (f s)) m F P) : IsTaylor a m (fun z : τ → ℝ => F fun s => z (f s)) (rename f P) := by
  have htend : Tendsto (fun z : τ → ℝ => fun s => z (f s)) (𝓝 a) (𝓝 fun s => a (f s)) := by
    have h1 : Continuous fun z : τ → ℝ => fun s => z (f s) := by fun_prop
    exact h1.tendsto a
  have hcoeff : ∀ Q : MvPolynomial σ ℝ, coeff 0 (rename f Q) = coeff 0 Q := fun Q => constantCoeff_rename f Q
  have hcont : ∀ G : (σ → ℝ) → ℝ, ContinuousAt G (fun s => a (f s)) → ContinuousAt (fun z : τ → ℝ => G fun s => z (f s)) a := fun G hG => by
    have h3 : Tendsto G (𝓝 fun s => a (f s)) (𝓝 (G fun s => a (f s))) := hG
    exact h3.comp htend
  induction m generalizing F P with
  | zero => exact ⟨hcont F h.1, by rw [hcoeff, ← h.2]⟩
  | succ m ih =>
    refine ⟨hcont F h.1, by rw [hcoeff, ← h.2.1], fun u => ?_⟩
    by_cases hu : ∃ s, f s = u
    · obtain ⟨s, rfl⟩ := hu
      obtain ⟨F', h1, h2⟩ := h.2.2 s
      refine ⟨_, ?_, by rw [pderiv_rename hf]; exact ih h2⟩
      filter_upwards [htend.eventually h1] with z hz
      unfold HasPartialAt at hz ⊢
      have h3 : ∀ w : ℝ, (fun s' => Function.update z (f s) w (f s')) = Function.update (fun s' => z (f s')) s w := fun w => by
        funext s'
        by_cases hs : s' = s
        · subst hs; simp
        · rw [Function.update_of_ne hs, Function.update_of_ne (hf.ne hs)]
      simp only [h3]
      exact hz
    · refine ⟨fun _ => 0, Eventually.of_forall fun z => ?_, ?_⟩
      · unfold HasPartialAt
        have h3 : ∀ w : ℝ, (fun s' => Function.update z u w (f s')) = fun s' => z (f s') := fun w => by
          funext s'
          rw [Function.update_of_ne fun h => hu ⟨s', h⟩]
        simp only [h3]
        exact hasDerivAt_const _ _
      · have : pderiv u (rename f P) = 0 := by
          refine pderiv_eq_zero_of_notMem_vars fun h => hu ?_
          have := vars_rename f P h
          obtain ⟨s, -, hs⟩ := Finset.mem_image.1 this
          exact ⟨s, hs⟩
        rw [this]
        have h0 := IsTaylor.const (a := a) (m := m) (0 : ℝ)
        rwa [map_zero] at h0

/-- The implicit function theorem for equations given by expressions. -/
theorem exists_implicit {C : Type} {ι : Type} [CfFun C] [Lanes C ι ℝ] (i : ι) {ys I : List String} (hdis : ∀ y ∈ ys, y ∉ I) {G : String → Expr C} {v : String → ℝ}
    (hd : ∀ y ∈ ys, (G y).Dom i v) {m : ℕ} (hm : m ≠ 0)
    (hJ : IsUnit (Matrix.det (Matrix.of fun y z : {y // y ∈ ys} => pds [z.1] ((G y.1).sem i) v))) :
    ∃ ψ : String → (String → ℝ) → ℝ, (∀ y ∈ ys, ∃ P, IsTaylor v m (ψ y) P) ∧ (∀ y ∈ ys, ψ y v = v y) ∧
      ∀ᶠ x in 𝓝 v, ∀ y ∈ ys, (G y).sem i (solEnv ys I v ψ x) = (G y).sem i v := by
  let κ := {y // y ∈ ys} ⊕ {s // s ∈ I}
  let s : κ → String := Sum.elim Subtype.val Subtype.val
  let E : κ → Expr C := Sum.elim (fun y => G y.1) fun s => .var s.1
  have hs : Function.Injective s := by
    rintro (⟨a, ha⟩ | ⟨a, ha⟩) (⟨b, hb⟩ | ⟨b, hb⟩) h
    · simp only [s, Sum.elim_inl] at h; subst h; rfl
    · simp only [s, Sum.elim_inl, Sum.elim_inr] at h; subst h; exact absurd hb (hdis _ ha)
    · simp only [s, Sum.elim_inl, Sum.elim_inr] at h; subst h; exact absurd ha (hdis _ hb)
    · simp only [s, Sum.elim_inr] at h; subst h; rfl
  obtain ⟨Ψ, h0, h1, h2⟩ := exists_local_inverse i (E := E) hs (v := v) (fun k => by
    rcases k with y | s
    · exact hd y.1 y.2
    · trivial) hm (by
    have hvar : ∀ t u : String, pds [t] ((.var u : Expr C).sem i) v = if u = t then 1 else 0 := fun t u => by
      simp only [pds, pd, Expr.sem]
      split_ifs with h
      · subst h
        simp
      · simp [Function.update_of_ne h]
    have : (Matrix.of fun k j : κ => pds [s j] ((E k).sem i) v) = Matrix.fromBlocks (Matrix.of fun y z : {y // y ∈ ys} => pds [z.1] ((G y.1).sem i) v)
        (Matrix.of fun (y : {y // y ∈ ys}) (z : {s // s ∈ I}) => pds [z.1] ((G y.1).sem i) v) 0 1 := by
      ext (k | k) (j | j)
      · rfl
      · rfl
      · exact (hvar j.1 k.1).trans (if_neg fun h : k.1 = j.1 => hdis j.1 j.2 (h ▸ k.2))
      · refine (hvar _ _).trans ?_
        rw [Matrix.fromBlocks_apply₂₂, Matrix.one_apply]
        exact if_congr Subtype.ext_iff.symm rfl rfl
    rw [this, Matrix.det_fromBlocks_zero₂₁, Matrix.det_one, mul_one]
    exact hJ)
  let q : (String → ℝ) → κ → ℝ := fun x => Sum.elim 0 fun s => x s.1 - v s.1
  have hq0 : q v = 0 := by
    funext k
    rcases k with k | k
    · rfl
    · exact sub_self _
  have hqt : Tendsto q (𝓝 v) (𝓝 0) := by
    have h3 : Continuous q := continuous_pi fun k => by
      rcases k with k | k
      · exact continuous_const
      · exact (continuous_apply k.1).sub continuous_const
    have := h3.tendsto v
    rwa [hq0] at this
  refine ⟨fun y x => if h : y ∈ ys then Ψ (q x) (Sum.inl ⟨y, h⟩) else 0, fun y hy => ?_, fun y hy => ?_, ?_⟩
  · simp only [dif_pos hy]
    let r : ({s // s ∈ I} → ℝ) → κ → ℝ := fun w => Sum.elim 0 fun s => w s - v s.1
    have hr : ContDiffAt ℝ m (fun w => Ψ (r w) (Sum.inl ⟨y, hy⟩)) fun s => v s.1 := by
      have hr0 : r (fun s => v s.1) = 0 := hq0
      have hr1 : ContDiffAt ℝ m r fun s => v s.1 := contDiffAt_pi.2 fun k => by
        rcases k with k | k
        · exact contDiffAt_const
        · exact (contDiff_apply ℝ ℝ k).contDiffAt.sub contDiffAt_const
      exact ContDiffAt.comp (g := fun p => Ψ p (Sum.inl ⟨y, hy⟩)) _ (by rw [hr0]; exact h1 _) hr1
    obtain ⟨P, hP⟩ := exists_isTaylor hr
    exact ⟨_, isTaylor_restrict Subtype.val_injective hP⟩
  · simp only [dif_pos hy, hq0]
    exact h0 _
  · filter_upwards [hqt.eventually h2] with x hx y hy
    have h3 : point s v (Ψ (q x)) = solEnv ys I v (fun y x => if h : y ∈ ys then Ψ (q x) (Sum.inl ⟨y, h⟩) else 0) x := by
      funext t
      unfold solEnv point
      split_ifs with h4 h5
      · exact (hs.extend_apply (Ψ (q x)) v (Sum.inl ⟨t, h4⟩)).trans (by simp only [dif_pos h4])
      · refine (hs.extend_apply (Ψ (q x)) v (Sum.inr ⟨t, h5⟩)).trans ?_
        have h6 := hx (Sum.inr ⟨t, h5⟩)
        have h7 : point s v (Ψ (q x)) t = v t + (x t - v t) := h6
        unfold point at h7
        rw [← hs.extend_apply (Ψ (q x)) v (Sum.inr ⟨t, h5⟩)]
        exact h7.trans (by ring)
      · refine Function.extend_apply' _ _ _ ?_
        rintro ⟨k | k, rfl⟩
        · exact h4 k.2
        · exact h5 k.2
    rw [← h3]
    exact (hx (Sum.inl ⟨y, hy⟩)).trans (by simp [q, E])

end Audi
