import Verif.Proofs.LibSmooth
import Mathlib.Analysis.ODE.ExistUnique
import Mathlib.Analysis.Calculus.MeanValue

/-! Existence of solutions of differential equations given by expressions with all the functions. -/

namespace Audi

open MvPolynomial Spec Filter Topology GDual

/-- The existence theorem for differential equations given by expressions. -/
theorem LExpr.exists_solution {C : Type} {ι : Type} [CfFun C] [Lanes C ι ℝ] (i : ι) {ys : List String} {t : String} (hty : t ∉ ys) {rhs : String → LExpr C} {v : String → ℝ}
    (hd : ∀ y ∈ ys, (rhs y).Dom i v) :
    ∃ ψ : String → ℝ → ℝ, (∀ y ∈ ys, ψ y (v t) = v y) ∧
      ∀ y ∈ ys, ∀ᶠ x in 𝓝 (v t), HasDerivAt (ψ y) ((rhs y).sem i fun s => if s ∈ ys then ψ s x else if s = t then x else v s) x := by
  classical
  let κ := {s // s ∈ t :: ys}
  let s : κ → String := Subtype.val
  have hs : Function.Injective s := Subtype.val_injective
  let F : (κ → ℝ) → κ → ℝ := fun z k => if k.1 = t then 1 else (rhs k.1).sem i (point s v z)
  let z0 : κ → ℝ := fun k => v k.1
  have hF : ContDiffAt ℝ 1 F z0 := contDiffAt_pi.2 fun k => by
    simp only [F]
    split_ifs with hk
    · exact contDiffAt_const
    · have hk' : k.1 ∈ ys := (List.mem_cons.1 k.2).resolve_left hk
      have := LExpr.contDiffAt (m := 1) i (φ := fun t y => point s v y t) (a := z0) (fun t => (contDiff_point s hs v 1 t).contDiffAt) (rhs k.1) (by
        have h := hd _ hk'
        rwa [← point_self (s := s) v] at h)
      exact_mod_cast this
  obtain ⟨α, h0, ε, hε, hα⟩ := hF.exists_forall_mem_closedBall_exists_eq_forall_mem_Ioo_hasDerivAt₀ (v t)
  have hmem : Set.Ioo (v t - ε) (v t + ε) ∈ 𝓝 (v t) := Ioo_mem_nhds (by linarith) (by linarith)
  have hk : ∀ x ∈ Set.Ioo (v t - ε) (v t + ε), ∀ k, HasDerivAt (fun x => α x k) (F (α x) k) x := fun x hx => hasDerivAt_pi.1 (hα x hx)
  let kt : κ := ⟨t, by simp⟩
  have htime : ∀ x ∈ Set.Ioo (v t - ε) (v t + ε), α x kt = x := by
    intro x hx
    have hder : ∀ y ∈ Set.Ioo (v t - ε) (v t + ε), HasDerivWithinAt (fun y => α y kt - y) 0 (Set.Ioo (v t - ε) (v t + ε)) y := fun y hy => by
      have := (hk y hy kt).sub (hasDerivAt_id y)
      simp only [F, kt, if_true, sub_self] at this
      exact this.hasDerivWithinAt
    have hv : v t ∈ Set.Ioo (v t - ε) (v t + ε) := ⟨by linarith, by linarith⟩
    have hb := (convex_Ioo (v t - ε) (v t + ε)).norm_image_sub_le_of_norm_hasDerivWithin_le (C := 0) hder (by simp) hv hx
    have h1 : α (v t) kt = v t := by rw [h0]
    rw [zero_mul, norm_le_zero_iff, h1, sub_self, sub_zero] at hb
    exact sub_eq_zero.1 hb
  refine ⟨fun y x => if h : y ∈ t :: ys then α x ⟨y, h⟩ else 0, fun y hy => ?_, fun y hy => ?_⟩
  · simp only [List.mem_cons, hy, or_true, dif_pos, h0, z0]
  · filter_upwards [hmem] with x hx
    have hy' : y ∈ t :: ys := by simp [hy]
    have h1 := hk x hx ⟨y, hy'⟩
    have hyt : y ≠ t := fun h => hty (h ▸ hy)
    simp only [F, hyt, if_false] at h1
    simp only [hy', dif_pos]
    convert h1 using 2
    funext u
    unfold point
    by_cases hu : u ∈ t :: ys
    · have e : (Function.extend s (α x) v) u = α x ⟨u, hu⟩ := hs.extend_apply (α x) v ⟨u, hu⟩
      rw [e]
      by_cases hu' : u ∈ ys
      · simp [hu', hu]
      · have : u = t := (List.mem_cons.1 hu).resolve_right hu'
        subst this
        simp only [hu', if_false, if_true]
        exact (htime x hx).symm
    · rw [Function.extend_apply' _ _ _ (by rintro ⟨k, rfl⟩; exact hu k.2)]
      simp only [List.mem_cons, not_or] at hu
      simp [hu.1, hu.2]

end Audi
