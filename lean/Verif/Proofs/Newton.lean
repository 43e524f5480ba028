import Verif.Spec.Newton
import Verif.Proofs.Substitution

/-! Fixed point iterations on gduals. -/

namespace Audi

open MvPolynomial Spec GDual Filter Topology

/-- Taylor's formula of degree one for polynomials of polynomials. -/
theorem aeval_linear {K σ τ : Type*} [Field K] [DecidableEq σ] {S : Finset σ} {q q' : σ → MvPolynomial τ K} (hS : ∀ s ∉ S, q s = q' s) {J : Ideal (MvPolynomial τ K)}
    (hJ : ∀ s, q s - q' s ∈ J) (P : MvPolynomial σ K) :
    aeval q P - aeval q' P - ∑ s ∈ S, (q s - q' s) * aeval q' (pderiv s P) ∈ J ^ 2 := by
  induction P using MvPolynomial.induction_on with
  | C c => simp [algHom_C]
  | add P Q hP hQ =>
    have : aeval q (P + Q) - aeval q' (P + Q) - ∑ s ∈ S, (q s - q' s) * aeval q' (pderiv s (P + Q)) =
        (aeval q P - aeval q' P - ∑ s ∈ S, (q s - q' s) * aeval q' (pderiv s P)) + (aeval q Q - aeval q' Q - ∑ s ∈ S, (q s - q' s) * aeval q' (pderiv s Q)) := by
      simp only [map_add, mul_add, Finset.sum_add_distrib]; ring
    rw [this]
    exact add_mem hP hQ
  | mul_X P t hP =>
    have h1 : ∑ s ∈ S, (q s - q' s) * aeval q' (pderiv s (P * X t)) =
        (∑ s ∈ S, (q s - q' s) * aeval q' (pderiv s P)) * q' t + (q t - q' t) * aeval q' P := by
      have h2 : ∀ s ∈ S, (q s - q' s) * aeval q' (pderiv s (P * X t)) =
          (q s - q' s) * aeval q' (pderiv s P) * q' t + if s = t then (q s - q' s) * aeval q' P else 0 := fun s _ => by
        rw [Derivation.leibniz, smul_eq_mul, smul_eq_mul, pderiv_X, map_add, map_mul, map_mul, aeval_X]
        by_cases h : s = t
        · subst h; simp; ring
        · rw [if_neg h, Pi.single_eq_of_ne (Ne.symm h)]; simp; ring
      rw [Finset.sum_congr rfl h2, Finset.sum_add_distrib, ← Finset.sum_mul, Finset.sum_ite_eq']
      split_ifs with h
      · rfl
      · rw [hS t h]; simp
    have h3 : aeval q P - aeval q' P ∈ J := by
      have h4 := Ideal.pow_le_self two_ne_zero hP
      have h5 : ∑ s ∈ S, (q s - q' s) * aeval q' (pderiv s P) ∈ J := sum_mem fun s _ => Ideal.mul_mem_right _ _ (hJ s)
      have := add_mem h4 h5
      simpa using this
    have h6 : aeval q (P * X t) - aeval q' (P * X t) - ∑ s ∈ S, (q s - q' s) * aeval q' (pderiv s (P * X t)) =
        (aeval q P - aeval q' P - ∑ s ∈ S, (q s - q' s) * aeval q' (pderiv s P)) * q' t + (aeval q P - aeval q' P) * (q t - q' t) := by
      rw [h1, map_mul, map_mul, aeval_X, aeval_X]; ring
    rw [h6, pow_two]
    exact add_mem (Ideal.mul_mem_right _ _ (by rw [← pow_two]; exact hP)) (Ideal.mul_mem_mul h3 (hJ t))

theorem Subst.isTaylor {v : String → ℝ} {m : ℕ} {F : (String → ℝ) → ℝ} {P : MvPolynomial String ℝ} (h : Subst v m F P) : IsTaylor v m F P := by
  have h1 := h.out (a := v) (φ := fun s x => x s) (fun s => IsTaylor.coord s) fun s => rfl
  have h2 : (fun s => MvPolynomial.C (v s) + X s - MvPolynomial.C (v s)) = (X : String → MvPolynomial String ℝ) := funext fun s => add_sub_cancel_left _ _
  rw [h2, aeval_X_left] at h1
  exact h1

variable {C : Type} [CfFun C] {ι : Type} [Lanes C ι ℝ] [LanesFun C ι] {m n n' k : ℕ} {ys : List String} {rhs : String → Expr C} {σ0 σ : String → GDual C}
  {φ : ι → String → (String → ℝ) → ℝ}

omit [LanesFun C ι] in
theorem Fixed.other_taylor (hs : Fixed ys rhs m σ0 φ) {s : String} (h : s ∉ ys) (i : ι) (n : ℕ) : IsTaylor 0 n (φ i s) ((σ0 s).toMv i) := by
  refine (isTaylor_poly (0 : String → ℝ) n ((σ0 s).toMv i)).congr_fun (Eventually.of_forall fun x => ?_)
  simp only [hs.other s h, Pi.zero_apply, sub_zero]

/-- The derivatives of the right hand sides with respect to the unknowns vanish to degree `k - 1` along the solution. -/
def Flat (ys : List String) (rhs : String → Expr C) (m k : ℕ) (φ : ι → String → (String → ℝ) → ℝ) : Prop :=
  ∀ y ∈ ys, ∀ s ∈ ys, ∀ (i : ι) (P : MvPolynomial String ℝ) (Φ : String → MvPolynomial String ℝ), IsTaylor (fun s => φ i s 0) m ((rhs y).sem i) P →
    (∀ s, IsTaylor 0 m (φ i s) (Φ s)) → aeval (fun s => Φ s - MvPolynomial.C (φ i s 0)) (pderiv s P) ∈ idealOfVars String ℝ ^ k

theorem fix_step (hs : Fixed ys rhs m σ0 φ) (hk : Flat ys rhs m k φ) (hn : n ≤ m) (hn' : n' ≤ m) (h1 : n' ≤ 2 * n + 1) (h2 : n' ≤ n + k) (inv : PicardInv m n σ0 σ φ)
    (hσ : ∀ s ∉ ys, σ s = σ0 s) :
    ∃ σ', FixStep ys rhs σ σ' ∧ PicardInv m n' σ0 σ' φ ∧ (∀ y ∈ ys, (σ' y).order = m) ∧ ∀ s ∉ ys, σ' s = σ0 s := by
  classical
  let u : ι → String → (String → ℝ) → ℝ := fun i s x => MvPolynomial.eval (fun w => x w - (0 : String → ℝ) w) ((σ s).toMv i)
  have hu : ∀ k (i : ι) s, IsTaylor 0 k (u i s) ((σ s).toMv i) := fun k i s => isTaylor_poly 0 k _
  have hval : ∀ i s, u i s 0 = φ i s 0 := fun i s => by rw [(hu 0 i s).val, (inv.taylor i s).val]
  have hdu : ∀ y ∈ ys, ∀ i : ι, (rhs y).Dom i fun s => u i s 0 := fun y hy i => by simpa only [hval] using hs.dom y hy i
  have gσ : ∀ s, Good m (fun _ => 0) (fun i => u i s) (σ s) := fun s => ⟨(inv.base s).1, (inv.base s).2.1, (inv.base s).2.2, fun i => hu m i s⟩
  have key : ∀ y ∈ ys, ∃ r, (rhs y).eval σ = .ok r ∧ Good m (fun _ => 0) (fun (i : ι) x => (rhs y).sem i fun s => u i s x) r ∧ r.order = m := fun y hy => by
    obtain ⟨r, hr, gr⟩ := Expr.eval_good gσ (rhs y) (hs.fnOrder y hy) (hdu y hy)
    exact ⟨r, hr, gr, Expr.eval_order gσ (V := fun s => (σ0 s).order = m) inv.full (rhs y) (hs.fnOrder y hy) (hdu y hy) (hs.full y hy) r hr⟩
  have hex : ∀ (i : ι) (s : String), ∃ P, IsTaylor 0 m (φ i s) P ∧ (s ∉ ys → P = (σ0 s).toMv i) := fun i s => by
    by_cases h : s ∈ ys
    · obtain ⟨P, hP⟩ := hs.smooth s h i
      exact ⟨P, hP, fun h' => absurd h h'⟩
    · exact ⟨_, hs.other_taylor h i m, fun _ => rfl⟩
  choose Φ hΦ hΦ' using hex
  have : Nonempty (GDual C) := ⟨ofCf Cf.zero⟩
  choose! r hr gr ho using key
  refine ⟨fun y => if y ∈ ys then r y else σ y, ⟨fun y hy => by simp only [if_pos hy]; exact hr y hy, fun y hy => if_neg hy⟩, ⟨fun s => ?_, fun s h => ?_, fun i s => ?_⟩,
    fun y hy => by simp only [if_pos hy]; exact ho y hy, fun s hy => by simp only [if_neg hy]; exact hσ s hy⟩
  · by_cases h : s ∈ ys
    · simp only [if_pos h]; exact ⟨(gr s h).valid, (gr s h).le, (gr s h).order⟩
    · simp only [if_neg h]; exact inv.base s
  · by_cases h' : s ∈ ys
    · simp only [if_pos h']; exact ho s h'
    · simp only [if_neg h']; exact inv.full s h
  · by_cases h : s ∈ ys
    · simp only [if_pos h]
      obtain ⟨P, hP⟩ := Expr.subst (m := m) i (rhs s) (hs.dom s h i)
      have a1 := hP.out (a := 0) (φ := u i) (fun s => hu m i s) fun s => hval i s
      have a2 := hP.out (a := 0) (φ := φ i) (fun s => hΦ i s) fun s => rfl
      have a3 : IsTaylor 0 m (φ i s) (aeval (fun s => Φ i s - MvPolynomial.C (φ i s 0)) P) := a2.congr_fun <| by
        filter_upwards [hs.eqn s h i] with x hx using hx.symm
      have a4 := ((gr s h).taylor i).unique a1
      refine (a3.mono hn').congr_poly (EqUpTo.trans ?_ (a4.symm.mono hn'))
      refine EqUpTo.symm (eqUpTo_iff_mem.2 ?_)
      let q : String → MvPolynomial String ℝ := fun s => (σ s).toMv i - MvPolynomial.C (φ i s 0)
      let q' : String → MvPolynomial String ℝ := fun s => Φ i s - MvPolynomial.C (φ i s 0)
      have hqq : ∀ s, q s - q' s = (σ s).toMv i - Φ i s := fun s => by simp only [q, q']; ring
      have hJ : ∀ s, q s - q' s ∈ idealOfVars String ℝ ^ (n + 1) := fun s => by
        rw [hqq, ← eqUpTo_iff_mem]
        exact (inv.taylor i s).unique ((hΦ i s).mono hn)
      have b1 := aeval_linear (S := ys.toFinset) (q := q) (q' := q') (fun s hs' => by
        have hs'' : s ∉ ys := fun h => hs' (List.mem_toFinset.2 h)
        simp only [q, q', hσ s hs'', hΦ' i s hs'']) hJ P
      have b2 : ∑ t ∈ ys.toFinset, (q t - q' t) * aeval q' (pderiv t P) ∈ idealOfVars String ℝ ^ (n' + 1) := sum_mem fun t ht => by
        have h3 := Ideal.mul_mem_mul (hJ t) (hk s h t (List.mem_toFinset.1 ht) i P (Φ i) hP.isTaylor (hΦ i))
        rw [← pow_add] at h3
        exact Ideal.pow_le_pow_right (by omega) h3
      rw [← pow_mul] at b1
      have b3 := add_mem (Ideal.pow_le_pow_right (by omega : n' + 1 ≤ (n + 1) * 2) b1) b2
      rwa [sub_add_cancel] at b3
    · simp only [if_neg h]
      rw [hσ s h]
      exact hs.other_taylor h i n'

omit [LanesFun C ι] in
theorem fix_zero (hs : Fixed ys rhs m σ0 φ) : PicardInv m 0 σ0 σ0 φ where
  base := hs.base
  full s h := h
  taylor i s := by
    by_cases hy : s ∈ ys
    · obtain ⟨P, hP⟩ := hs.smooth s hy i
      exact ⟨hP.cont, hs.init s hy i⟩
    · exact hs.other_taylor hy i 0

omit [LanesFun C ι] in
theorem flat_one (hd : ∀ y ∈ ys, ∀ s ∈ ys, ∀ i : ι, HasPartialAt ((rhs y).sem i) 0 s fun s => φ i s 0) (hm : 0 < m) : Flat ys rhs m 1 φ := by
  intro y hy s hs i P Φ hP hΦ
  obtain ⟨j, rfl⟩ : ∃ j, m = j + 1 := ⟨m - 1, by omega⟩
  obtain ⟨F', h1, h2⟩ := hP.2.2 s
  have h3 : coeff 0 (pderiv s P) = 0 := by
    rw [← h2.val]
    exact HasDerivAt.unique h1.self_of_nhds (hd y hy s hs i)
  rw [pow_one, mem_ideal_iff, coeff_zero_aeval, h3]
  intro s
  rw [coeff_sub, ← (hΦ s).val, coeff_C, if_pos rfl, sub_self]

omit [LanesFun C ι] in
theorem flat_all (hs : Fixed ys rhs m σ0 φ) (hp : ∀ y ∈ ys, (rhs y).PowOk)
    (hd : ∀ y ∈ ys, ∀ s ∈ ys, ∀ i : ι, ∀ᶠ x in 𝓝 0, HasPartialAt ((rhs y).sem i) 0 s fun s => φ i s x) : Flat ys rhs m m φ := by
  intro y hy s hs' i P Φ hP hΦ
  rcases Nat.eq_zero_or_pos m with rfl | hm
  · simp
  obtain ⟨j, rfl⟩ : ∃ j, m = j + 1 := ⟨m - 1, by omega⟩
  have hq : ∀ s, Φ s - MvPolynomial.C (φ i s 0) ∈ idealOfVars String ℝ := fun s => mem_ideal_iff.2 (by
    rw [coeff_sub, ← (hΦ s).val, coeff_C, if_pos rfl, sub_self])
  have hdom := hs.dom y hy i
  obtain ⟨P', hP'⟩ := Expr.subst (m := j + 1) i ((rhs y).deriv s) (Expr.deriv_dom i s (rhs y) (hp y hy) hdom)
  obtain ⟨F', h1, h2⟩ := hP.2.2 s
  have h3 : IsTaylor (fun s => φ i s 0) j F' P' := (hP'.isTaylor.of_succ).congr_fun <| by
    filter_upwards [h1, (Expr.continuousAt_dom i (rhs y) hdom).2] with x hx hx'
    exact HasDerivAt.unique (Expr.hasPartialAt i s (rhs y) hx') hx
  have h4 := (h2.unique h3).aeval hq
  have h5 := hP'.out (a := 0) (φ := φ i) hΦ fun s => rfl
  have h6 : Tendsto (fun x s => φ i s x) (𝓝 0) (𝓝 fun s => φ i s 0) := tendsto_pi_nhds.2 fun s => (hΦ s).cont
  have h7 : IsTaylor 0 (j + 1) (fun _ => (0 : ℝ)) (aeval (fun s => Φ s - MvPolynomial.C (φ i s 0)) P') := h5.congr_fun <| by
    filter_upwards [hd y hy s hs' i, h6.eventually (Expr.continuousAt_dom i (rhs y) hdom).2] with x hx hx'
    exact HasDerivAt.unique (Expr.hasPartialAt i s (rhs y) hx') hx
  have h8 := h4.trans ((h7.unique (IsTaylor.const 0)).mono (Nat.le_succ j))
  rw [map_zero, eqUpTo_iff_mem, sub_zero] at h8
  exact h8

/-- Iterating. -/
theorem fix_iter (hs : Fixed ys rhs m σ0 φ) {e : ℕ → ℕ} (he0 : e 0 = 0) (hk : Flat ys rhs m k φ) (h1 : ∀ j, min (e (j + 1)) m ≤ 2 * min (e j) m + 1)
    (h2 : ∀ j, min (e (j + 1)) m ≤ min (e j) m + k) (j : ℕ) :
    ∃ σ, FixIter ys rhs σ0 j σ ∧ PicardInv m (min (e j) m) σ0 σ φ ∧ (0 < j → ∀ y ∈ ys, (σ y).order = m) ∧ ∀ s ∉ ys, σ s = σ0 s := by
  induction j with
  | zero =>
    refine ⟨σ0, .zero, ?_, fun h => absurd h (lt_irrefl 0), fun _ _ => rfl⟩
    rw [he0, Nat.zero_min]
    exact fix_zero hs
  | succ j ih =>
    obtain ⟨σ, a1, inv, -, a3⟩ := ih
    obtain ⟨σ', b1, b2, b3, b4⟩ := fix_step hs hk (min_le_right _ _) (min_le_right (e (j + 1)) m) (h1 j) (h2 j) inv a3
    exact ⟨σ', .succ a1 b1, b2, fun _ => b3, b4⟩

end Audi
