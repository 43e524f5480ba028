import Verif.Spec.LibNewton
import Verif.Proofs.LibOde
import Verif.Proofs.LibSubst
import Verif.Proofs.Newton

/-! Fixed point iterations on gduals, with all the functions. -/

namespace Audi

open MvPolynomial Spec GDual Filter Topology

variable {C : Type} [CfFun C] [AbsFn C] {ι : Type} [Lanes C ι ℝ] [LanesFun C ι] {m n n' k : ℕ} {ys : List String} {rhs : String → LExpr C} {σ0 σ : String → GDual C}
  {φ : ι → String → (String → ℝ) → ℝ}

/-- As `Fixed` (Spec/Newton.lean). -/
structure LFixed (ys : List String) (rhs : String → LExpr C) (m : ℕ) (σ0 : String → GDual C) (φ : ι → String → (String → ℝ) → ℝ) : Prop where
  base : ∀ s, (σ0 s).Valid ∧ (σ0 s).order ≤ m ∧ ((σ0 s).order = m ∨ IsConst ι (σ0 s))
  syms : ∀ s, SymsOk (σ0 s)
  named : ∀ s, (σ0 s).order = m → (σ0 s).p.syms = [] → m = 0
  noAbs : ∀ y ∈ ys, (rhs y).NoAbs ∨ AbsLaw C ι
  fnOrder : ∀ y ∈ ys, (rhs y).FnOrder m
  full : ∀ y ∈ ys, (rhs y).FullIn fun s => (σ0 s).order = m
  dom : ∀ y ∈ ys, ∀ i : ι, (rhs y).Dom i fun s => φ i s 0
  other : ∀ s ∉ ys, ∀ (i : ι) x, φ i s x = MvPolynomial.eval x ((σ0 s).toMv i)
  init : ∀ y ∈ ys, ∀ i : ι, φ i y 0 = MvPolynomial.coeff 0 ((σ0 y).toMv i)
  smooth : ∀ y ∈ ys, ∀ i : ι, ∃ P, Spec.IsTaylor 0 m (φ i y) P
  eqn : ∀ y ∈ ys, ∀ i : ι, ∀ᶠ x in nhds 0, φ i y x = (rhs y).sem i fun s => φ i s x

omit [LanesFun C ι] in
theorem LFixed.other_taylor (hs : LFixed ys rhs m σ0 φ) {s : String} (h : s ∉ ys) (i : ι) (n : ℕ) : IsTaylor 0 n (φ i s) ((σ0 s).toMv i) := by
  refine (isTaylor_poly (0 : String → ℝ) n ((σ0 s).toMv i)).congr_fun (Eventually.of_forall fun x => ?_)
  simp only [hs.other s h, Pi.zero_apply, sub_zero]

/-- The derivatives of the right hand sides with respect to the unknowns vanish to degree `k - 1` along the solution. -/
def LFlat (ys : List String) (rhs : String → LExpr C) (m k : ℕ) (φ : ι → String → (String → ℝ) → ℝ) : Prop :=
  ∀ y ∈ ys, ∀ s ∈ ys, ∀ (i : ι) (P : MvPolynomial String ℝ) (Φ : String → MvPolynomial String ℝ), IsTaylor (fun s => φ i s 0) m ((rhs y).sem i) P →
    (∀ s, IsTaylor 0 m (φ i s) (Φ s)) → aeval (fun s => Φ s - MvPolynomial.C (φ i s 0)) (pderiv s P) ∈ idealOfVars String ℝ ^ k

theorem lfix_step (hs : LFixed ys rhs m σ0 φ) (hk : LFlat ys rhs m k φ) (hn : n ≤ m) (hn' : n' ≤ m) (h1 : n' ≤ 2 * n + 1) (h2 : n' ≤ n + k) (inv : LPicardInv m n σ0 σ φ)
    (hσ : ∀ s ∉ ys, σ s = σ0 s) :
    ∃ σ', LFixStep ys rhs σ σ' ∧ LPicardInv m n' σ0 σ' φ ∧ (∀ y ∈ ys, (σ' y).order = m) ∧ ∀ s ∉ ys, σ' s = σ0 s := by
  classical
  let u : ι → String → (String → ℝ) → ℝ := fun i s x => MvPolynomial.eval (fun w => x w - (0 : String → ℝ) w) ((σ s).toMv i)
  have hu : ∀ k (i : ι) s, IsTaylor 0 k (u i s) ((σ s).toMv i) := fun k i s => isTaylor_poly 0 k _
  have hval : ∀ i s, u i s 0 = φ i s 0 := fun i s => by rw [(hu 0 i s).val, (inv.taylor i s).val]
  have hdu : ∀ y ∈ ys, ∀ i : ι, (rhs y).Dom i fun s => u i s 0 := fun y hy i => by simpa only [hval] using hs.dom y hy i
  have gσ : ∀ s, GoodS m (fun _ => 0) (fun i => u i s) (σ s) := fun s => ⟨⟨(inv.base s).1, (inv.base s).2.1, (inv.base s).2.2, fun i => hu m i s⟩, inv.syms s⟩
  have key : ∀ y ∈ ys, ∃ r, (rhs y).eval σ = .ok r ∧ GoodS m (fun _ => 0) (fun (i : ι) x => (rhs y).sem i fun s => u i s x) r ∧ r.order = m ∧ (r.p.syms = [] → m = 0) := fun y hy => by
    obtain ⟨r, hr, gr⟩ := LExpr.eval_good gσ (rhs y) (hs.noAbs y hy) (hs.fnOrder y hy) (hdu y hy)
    exact ⟨r, hr, gr, LExpr.eval_order gσ (V := fun s => (σ0 s).order = m) (fun s h => ⟨inv.full s h, inv.named s h⟩) (rhs y) (hs.noAbs y hy) (hs.fnOrder y hy) (hdu y hy) (hs.full y hy) r hr⟩
  have hex : ∀ (i : ι) (s : String), ∃ P, IsTaylor 0 m (φ i s) P ∧ (s ∉ ys → P = (σ0 s).toMv i) := fun i s => by
    by_cases h : s ∈ ys
    · obtain ⟨P, hP⟩ := hs.smooth s h i
      exact ⟨P, hP, fun h' => absurd h h'⟩
    · exact ⟨_, hs.other_taylor h i m, fun _ => rfl⟩
  choose Φ hΦ hΦ' using hex
  have : Nonempty (GDual C) := ⟨ofCf Cf.zero⟩
  choose! r hr gr ho hN using key
  refine ⟨fun y => if y ∈ ys then r y else σ y, ⟨fun y hy => by simp only [if_pos hy]; exact hr y hy, fun y hy => if_neg hy⟩, ⟨⟨fun s => ?_, fun s h => ?_, fun i s => ?_⟩, fun s => ?_, fun s h => ?_⟩,
    fun y hy => by simp only [if_pos hy]; exact ho y hy, fun s hy => by simp only [if_neg hy]; exact hσ s hy⟩
  · by_cases h : s ∈ ys
    · simp only [if_pos h]; exact ⟨(gr s h).valid, (gr s h).le, (gr s h).order⟩
    · simp only [if_neg h]; exact inv.base s
  · by_cases h' : s ∈ ys
    · simp only [if_pos h']; exact ho s h'
    · simp only [if_neg h']; exact inv.full s h
  · by_cases h : s ∈ ys
    · simp only [if_pos h]
      obtain ⟨P, hP⟩ := LExpr.subst (m := m) i (rhs s) (hs.dom s h i)
      have a1 := hP.out (a := 0) (φ := u i) (fun s => hu m i s) fun s => hval i s
      have a2 := hP.out (a := 0) (φ := φ i) (fun s => hΦ i s) fun s => rfl
      have a3 : IsTaylor 0 m (φ i s) (aeval (fun s => Φ i s - MvPolynomial.C (φ i s 0)) P) := a2.congr_fun <| by
        filter_upwards [hs.eqn s h i] with x hx using hx.symm
      have a4 := ((gr s h).taylor i).unique a1
      refine (a3.mono hn').congr_poly (EqUpTo.trans ?_ (a4.symm.mono hn'))
      refine EqUpTo.symm (eqUpTo_iff_mem.2 ?_)
      let q : String → MvPolynomial String ℝ := fun s => (σ s).toMv i - MvPolynomial.C (φ i s 0)
      let q' : String → MvPolynomial String ℝ := fun s => Φ i s - MvPolynomial.C (φ i s 0)
      have hqq : ∀ s, q s - q' s = (σ s).toMv i - Φ i s := fun s => by simp only [q, q']; ring
      have hJ : ∀ s, q s - q' s ∈ idealOfVars String ℝ ^ (n + 1) := fun s => by
        rw [hqq, ← eqUpTo_iff_mem]
        exact (inv.taylor i s).unique ((hΦ i s).mono hn)
      have b1 := aeval_linear (S := ys.toFinset) (q := q) (q' := q') (fun s hs' => by
        have hs'' : s ∉ ys := fun h => hs' (List.mem_toFinset.2 h)
        simp only [q, q', hσ s hs'', hΦ' i s hs'']) hJ P
      have b2 : ∑ t ∈ ys.toFinset, (q t - q' t) * aeval q' (pderiv t P) ∈ idealOfVars String ℝ ^ (n' + 1) := sum_mem fun t ht => by
        have h3 := Ideal.mul_mem_mul (hJ t) (hk s h t (List.mem_toFinset.1 ht) i P (Φ i) hP.isTaylor (hΦ i))
        rw [← pow_add] at h3
        exact Ideal.pow_le_pow_right (by omega) h3
      rw [← pow_mul] at b1
      have b3 := add_mem (Ideal.pow_le_pow_right (by omega : n' + 1 ≤ (n + 1) * 2) b1) b2
      rwa [sub_add_cancel] at b3
    · simp only [if_neg h]
      rw [hσ s h]
      exact hs.other_taylor h i n'
  · by_cases h : s ∈ ys
    · simp only [if_pos h]; exact (gr s h).syms
    · simp only [if_neg h]; exact inv.syms s
  · by_cases h' : s ∈ ys
    · simp only [if_pos h']; exact hN s h'
    · simp only [if_neg h']; exact inv.named s h

omit [LanesFun C ι] in
theorem lfix_zero (hs : LFixed ys rhs m σ0 φ) : LPicardInv m 0 σ0 σ0 φ where
  base := hs.base
  syms := hs.syms
  named := hs.named
  full s h := h
  taylor i s := by
    by_cases hy : s ∈ ys
    · obtain ⟨P, hP⟩ := hs.smooth s hy i
      exact ⟨hP.cont, hs.init s hy i⟩
    · exact hs.other_taylor hy i 0

omit [LanesFun C ι] in
theorem lflat_one (hd : ∀ y ∈ ys, ∀ s ∈ ys, ∀ i : ι, HasPartialAt ((rhs y).sem i) 0 s fun s => φ i s 0) (hm : 0 < m) : LFlat ys rhs m 1 φ := by
  intro y hy s hs i P Φ hP hΦ
  obtain ⟨j, rfl⟩ : ∃ j, m = j + 1 := ⟨m - 1, by omega⟩
  obtain ⟨F', h1, h2⟩ := hP.2.2 s
  have h3 : coeff 0 (pderiv s P) = 0 := by
    rw [← h2.val]
    exact HasDerivAt.unique h1.self_of_nhds (hd y hy s hs i)
  rw [pow_one, mem_ideal_iff, coeff_zero_aeval, h3]
  intro s
  rw [coeff_sub, ← (hΦ s).val, coeff_C, if_pos rfl, sub_self]

omit [LanesFun C ι] in
theorem lflat_all (hs : LFixed ys rhs m σ0 φ)
    (hd : ∀ y ∈ ys, ∀ s ∈ ys, ∀ i : ι, ∀ᶠ x in 𝓝 0, HasPartialAt ((rhs y).sem i) 0 s fun s => φ i s x) : LFlat ys rhs m m φ := by
  intro y hy s hs' i P Φ hP hΦ
  rcases Nat.eq_zero_or_pos m with rfl | hm
  · simp
  obtain ⟨j, rfl⟩ : ∃ j, m = j + 1 := ⟨m - 1, by omega⟩
  have hq : ∀ s, Φ s - MvPolynomial.C (φ i s 0) ∈ idealOfVars String ℝ := fun s => mem_ideal_iff.2 (by
    rw [coeff_sub, ← (hΦ s).val, coeff_C, if_pos rfl, sub_self])
  have hdom := hs.dom y hy i
  obtain ⟨D, hD⟩ := (rhs y).derives i s
  obtain ⟨P', hP'⟩ := hD.der _ (j + 1) hdom
  obtain ⟨F', h1, h2⟩ := hP.2.2 s
  have h3 : IsTaylor (fun s => φ i s 0) j F' P' := (hP'.isTaylor.of_succ).congr_fun <| by
    filter_upwards [h1, (LExpr.continuousAt_dom i (rhs y) hdom).2] with x hx hx'
    exact HasDerivAt.unique (hD.diff _ hx') hx
  have h4 := (h2.unique h3).aeval hq
  have h5 := hP'.out (a := 0) (φ := φ i) hΦ fun s => rfl
  have h6 : Tendsto (fun x s => φ i s x) (𝓝 0) (𝓝 fun s => φ i s 0) := tendsto_pi_nhds.2 fun s => (hΦ s).cont
  have h7 : IsTaylor 0 (j + 1) (fun _ => (0 : ℝ)) (aeval (fun s => Φ s - MvPolynomial.C (φ i s 0)) P') := h5.congr_fun <| by
    filter_upwards [hd y hy s hs' i, h6.eventually (LExpr.continuousAt_dom i (rhs y) hdom).2] with x hx hx'
    exact HasDerivAt.unique (hD.diff _ hx') hx
  have h8 := h4.trans ((h7.unique (IsTaylor.const 0)).mono (Nat.le_succ j))
  rw [map_zero, eqUpTo_iff_mem, sub_zero] at h8
  exact h8

/-- Iterating. -/
theorem lfix_iter (hs : LFixed ys rhs m σ0 φ) {e : ℕ → ℕ} (he0 : e 0 = 0) (hk : LFlat ys rhs m k φ) (h1 : ∀ j, min (e (j + 1)) m ≤ 2 * min (e j) m + 1)
    (h2 : ∀ j, min (e (j + 1)) m ≤ min (e j) m + k) (j : ℕ) :
    ∃ σ, LFixIter ys rhs σ0 j σ ∧ LPicardInv m (min (e j) m) σ0 σ φ ∧ (0 < j → ∀ y ∈ ys, (σ y).order = m) ∧ ∀ s ∉ ys, σ s = σ0 s := by
  induction j with
  | zero =>
    refine ⟨σ0, .zero, ?_, fun h => absurd h (lt_irrefl 0), fun _ _ => rfl⟩
    rw [he0, Nat.zero_min]
    exact lfix_zero hs
  | succ j ih =>
    obtain ⟨σ, a1, inv, -, a3⟩ := ih
    obtain ⟨σ', b1, b2, b3, b4⟩ := lfix_step hs hk (min_le_right _ _) (min_le_right (e (j + 1)) m) (h1 j) (h2 j) inv a3
    exact ⟨σ', .succ a1 b1, b2, fun _ => b3, b4⟩

end Audi
