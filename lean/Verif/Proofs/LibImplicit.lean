import Verif.Proofs.LibSmooth

/-! The inverse and implicit function theorems for expressions with all the functions. -/

namespace Audi

open MvPolynomial Spec Filter Topology GDual

/-- The inverse function theorem for functions given by expressions. -/
theorem LExpr.exists_local_inverse {C : Type} {ι : Type} [CfFun C] [Lanes C ι ℝ] {κ : Type} [Fintype κ] [DecidableEq κ] (i : ι) {E : κ → LExpr C} {s : κ → String} (hs : Function.Injective s) {v : String → ℝ} (hd : ∀ k, (E k).Dom i v) {m : ℕ} (hm : m ≠ 0)
    (hJ : IsUnit (Matrix.det (Matrix.of fun k j => pds [s j] ((E k).sem i) v))) :
    ∃ ψ : (κ → ℝ) → κ → ℝ, (∀ j, ψ 0 j = v (s j)) ∧ (∀ j, ContDiffAt ℝ m (fun p => ψ p j) 0) ∧
      ∀ᶠ p in 𝓝 0, ∀ k, (E k).sem i (point s v (ψ p)) = (E k).sem i v + p k := by
  let y0 : κ → ℝ := fun j => v (s j)
  let F : (κ → ℝ) → κ → ℝ := fun y k => (E k).sem i (point s v y)
  have hF : ContDiffAt ℝ m F y0 := contDiffAt_pi.2 fun k => LExpr.contDiffAt i (φ := fun t y => point s v y t) (fun t => (contDiff_point s hs v m t).contDiffAt) (E k) (by
    rw [show (fun t => point s v y0 t) = v from point_self v]; exact hd k)
  have hL := (hF.differentiableAt (by exact_mod_cast hm)).hasFDerivAt
  set J : Matrix (κ) (κ) ℝ := Matrix.of fun k j => pds [s j] ((E k).sem i) v
  have hLJ : ∀ w, fderiv ℝ F y0 w = J.mulVec w := fun w => by
    have h1 : ∀ k j, fderiv ℝ F y0 (Pi.single j 1) k = J k j := fun k j => by
      have h2 := hasPartialAt_of_hasFDerivAt (hasFDerivAt_pi'.1 hL k) j
      have h3 : HasDerivAt (fun t => (E k).sem i (Function.update v (s j) t)) (fderiv ℝ F y0 (Pi.single j 1) k) (v (s j)) := by
        have h4 : (fun t => F (Function.update y0 j t) k) = fun t => (E k).sem i (Function.update v (s j) t) := funext fun t => by
          simp only [F]
          rw [point_update hs, point_self]
        unfold HasPartialAt at h2
        rw [h4] at h2
        simpa using h2
      exact h3.deriv.symm
    funext k
    have h5 : w = ∑ j, w j • (Pi.single j (1 : ℝ) : κ → ℝ) := by
      funext l
      simp [Finset.sum_apply, Pi.single_apply]
    conv_lhs => rw [h5]
    rw [map_sum, Finset.sum_apply]
    simp only [map_smul, Pi.smul_apply, h1, smul_eq_mul]
    exact Finset.sum_congr rfl fun j _ => mul_comm _ _
  have hJ' : IsUnit J := (Matrix.isUnit_iff_isUnit_det _).2 hJ
  let Lj : (κ → ℝ) ≃L[ℝ] (κ → ℝ) := (Matrix.toLinearEquiv' J hJ'.invertible).toContinuousLinearEquiv
  have hLj : HasFDerivAt F (Lj : (κ → ℝ) →L[ℝ] (κ → ℝ)) y0 := by
    have : (Lj : (κ → ℝ) →L[ℝ] (κ → ℝ)) = fderiv ℝ F y0 := by
      ext w k
      rw [hLJ]
      rfl
    rw [this]; exact hL
  have hm' : (m : WithTop ℕ∞) ≠ 0 := by exact_mod_cast hm
  have hstrict := hF.hasStrictFDerivAt' hLj hm'
  have hF0 : F y0 = fun k => (E k).sem i v := funext fun k => by simp only [F]; rw [point_self]
  refine ⟨fun p => hF.localInverse hLj hm' (F y0 + p), fun j => ?_, fun j => ?_, ?_⟩
  · simp only [add_zero]
    exact congrFun (hF.localInverse_apply_image hLj hm') j
  · have h1 := hF.to_localInverse hLj hm'
    have h2 : ContDiffAt ℝ m (fun p : κ → ℝ => F y0 + p) 0 := contDiffAt_const.add contDiffAt_id
    have h3 : ContDiffAt ℝ m (fun p => hF.localInverse hLj hm' (F y0 + p)) 0 := ContDiffAt.comp (0 : κ → ℝ) (by rw [add_zero]; exact h1) h2
    exact contDiffAt_pi.1 h3 j
  · have h1 := hstrict.eventually_right_inverse
    have h2 : Tendsto (fun p : κ → ℝ => F y0 + p) (𝓝 0) (𝓝 (F y0)) := by
      have : Continuous fun p : κ → ℝ => F y0 + p := by fun_prop
      simpa using this.tendsto 0
    filter_upwards [h2.eventually h1] with p hp k
    exact (congrFun hp k).trans (by rw [Pi.add_apply, hF0])

/-- The implicit function theorem for equations given by expressions. -/
theorem LExpr.exists_implicit {C : Type} {ι : Type} [CfFun C] [Lanes C ι ℝ] (i : ι) {ys I : List String} (hdis : ∀ y ∈ ys, y ∉ I) {G : String → LExpr C} {v : String → ℝ}
    (hd : ∀ y ∈ ys, (G y).Dom i v) {m : ℕ} (hm : m ≠ 0)
    (hJ : IsUnit (Matrix.det (Matrix.of fun y z : {y // y ∈ ys} => pds [z.1] ((G y.1).sem i) v))) :
    ∃ ψ : String → (String → ℝ) → ℝ, (∀ y ∈ ys, ∃ P, IsTaylor v m (ψ y) P) ∧ (∀ y ∈ ys, ψ y v = v y) ∧
      ∀ᶠ x in 𝓝 v, ∀ y ∈ ys, (G y).sem i (solEnv ys I v ψ x) = (G y).sem i v := by
  let κ := {y // y ∈ ys} ⊕ {s // s ∈ I}
  let s : κ → String := Sum.elim Subtype.val Subtype.val
  let E : κ → LExpr C := Sum.elim (fun y => G y.1) fun s => .var s.1
  have hs : Function.Injective s := by
    rintro (⟨a, ha⟩ | ⟨a, ha⟩) (⟨b, hb⟩ | ⟨b, hb⟩) h
    · simp only [s, Sum.elim_inl] at h; subst h; rfl
    · simp only [s, Sum.elim_inl, Sum.elim_inr] at h; subst h; exact absurd hb (hdis _ ha)
    · simp only [s, Sum.elim_inl, Sum.elim_inr] at h; subst h; exact absurd ha (hdis _ hb)
    · simp only [s, Sum.elim_inr] at h; subst h; rfl
  obtain ⟨Ψ, h0, h1, h2⟩ := LExpr.exists_local_inverse i (E := E) hs (v := v) (fun k => by
    rcases k with y | s
    · exact hd y.1 y.2
    · trivial) hm (by
    have hvar : ∀ t u : String, pds [t] ((.var u : LExpr C).sem i) v = if u = t then 1 else 0 := fun t u => by
      simp only [pds, pd, LExpr.sem]
      split_ifs with h
      · subst h
        simp
      · simp [Function.update_of_ne h]
    have : (Matrix.of fun k j : κ => pds [s j] ((E k).sem i) v) = Matrix.fromBlocks (Matrix.of fun y z : {y // y ∈ ys} => pds [z.1] ((G y.1).sem i) v)
        (Matrix.of fun (y : {y // y ∈ ys}) (z : {s // s ∈ I}) => pds [z.1] ((G y.1).sem i) v) 0 1 := by
      ext (k | k) (j | j)
      · rfl
      · rfl
      · exact (hvar j.1 k.1).trans (if_neg fun h : k.1 = j.1 => hdis j.1 j.2 (h ▸ k.2))
      · refine (hvar _ _).trans ?_
        rw [Matrix.fromBlocks_apply₂₂, Matrix.one_apply]
        exact if_congr Subtype.ext_iff.symm rfl rfl
    rw [this, Matrix.det_fromBlocks_zero₂₁, Matrix.det_one, mul_one]
    exact hJ)
  let q : (String → ℝ) → κ → ℝ := fun x => Sum.elim 0 fun s => x s.1 - v s.1
  have hq0 : q v = 0 := by
    funext k
    rcases k with k | k
    · rfl
    · exact sub_self _
  have hqt : Tendsto q (𝓝 v) (𝓝 0) := by
    have h3 : Continuous q := continuous_pi fun k => by
      rcases k with k | k
      · exact continuous_const
      · exact (continuous_apply k.1).sub continuous_const
    have := h3.tendsto v
    rwa [hq0] at this
  refine ⟨fun y x => if h : y ∈ ys then Ψ (q x) (Sum.inl ⟨y, h⟩) else 0, fun y hy => ?_, fun y hy => ?_, ?_⟩
  · simp only [dif_pos hy]
    let r : ({s // s ∈ I} → ℝ) → κ → ℝ := fun w => Sum.elim 0 fun s => w s - v s.1
    have hr : ContDiffAt ℝ m (fun w => Ψ (r w) (Sum.inl ⟨y, hy⟩)) fun s => v s.1 := by
      have hr0 : r (fun s => v s.1) = 0 := hq0
      have hr1 : ContDiffAt ℝ m r fun s => v s.1 := contDiffAt_pi.2 fun k => by
        rcases k with k | k
        · exact contDiffAt_const
        · exact (contDiff_apply ℝ ℝ k).contDiffAt.sub contDiffAt_const
      exact ContDiffAt.comp (g := fun p => Ψ p (Sum.inl ⟨y, hy⟩)) _ (by rw [hr0]; exact h1 _) hr1
    obtain ⟨P, hP⟩ := exists_isTaylor hr
    exact ⟨_, isTaylor_restrict Subtype.val_injective hP⟩
  · simp only [dif_pos hy, hq0]
    exact h0 _
  · filter_upwards [hqt.eventually h2] with x hx y hy
    have h3 : point s v (Ψ (q x)) = solEnv ys I v (fun y x => if h : y ∈ ys then Ψ (q x) (Sum.inl ⟨y, h⟩) else 0) x := by
      funext t
      unfold solEnv point
      split_ifs with h4 h5
      · exact (hs.extend_apply (Ψ (q x)) v (Sum.inl ⟨t, h4⟩)).trans (by simp only [dif_pos h4])
      · refine (hs.extend_apply (Ψ (q x)) v (Sum.inr ⟨t, h5⟩)).trans ?_
        have h6 := hx (Sum.inr ⟨t, h5⟩)
        have h7 : point s v (Ψ (q x)) t = v t + (x t - v t) := h6
        unfold point at h7
        rw [← hs.extend_apply (Ψ (q x)) v (Sum.inr ⟨t, h5⟩)]
        exact h7.trans (by ring)
      · refine Function.extend_apply' _ _ _ ?_
        rintro ⟨k | k, rfl⟩
        · exact h4 k.2
        · exact h5 k.2
    rw [← h3]
    exact (hx (Sum.inl ⟨y, hy⟩)).trans (by simp [q, E])

end Audi
