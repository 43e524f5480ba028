import Verif.Proofs.LibNewton
import Verif.Proofs.LibImplicit
import Verif.Props.C83_Newton
import Verif.Props.C79_AllFunctions

/-!
# C83: implicit functions, with all the functions

As Props/C83_Newton.lean, for the expressions of Spec/LibExpr.lean. In contrast to `C83_quadratic_partial` and `C83_newton_partial` there is no condition on powers.
-/

namespace Audi

open MvPolynomial Spec GDual Filter Topology

variable {C : Type} [CfFun C] [AbsFn C]

theorem LFixIter.unique {ys : List String} {rhs : String → LExpr C} {σ0 σ τ : String → GDual C} {k : ℕ} (h : LFixIter ys rhs σ0 k σ)
    (h' : LFixIter ys rhs σ0 k τ) : τ = σ := by
  induction h generalizing τ with
  | zero => cases h'; rfl
  | succ h1 h2 ih =>
    cases h' with
    | succ g1 g2 =>
      obtain rfl := ih g1
      funext y
      by_cases hy : y ∈ ys
      · have e1 := h2.1 y hy
        rw [g2.1 y hy] at e1
        injection e1
      · rw [h2.2 y hy, g2.2 y hy]

variable {ι : Type} [Lanes C ι ℝ] [LanesFun C ι] {m : ℕ} {ys : List String} {rhs : String → LExpr C} {σ0 : String → GDual C}

omit [LanesFun C ι] in
theorem LImplicit.fixed {I : List String} {v : String → C} {ψ : ι → String → (String → ℝ) → ℝ} (h : LImplicit ys I rhs m v σ0 ψ) (hA : ∀ y ∈ ys, (rhs y).NoAbs ∨ AbsLaw C ι) :
    LFixed ys rhs m σ0 fun (i : ι) s z => solEnv ys I (fun s => Lanes.lane i (v s)) (ψ i) (shiftBy (fun s => Lanes.lane i (v s)) z) s := by
  have hX : ∀ s ∈ I, ∀ i : ι, (σ0 s).toMv i = MvPolynomial.C (Lanes.lane i (v s)) + (X ("d" ++ s) : MvPolynomial String ℝ) := fun s hs i => by
    rw [toMv_mk3 (h.params s hs), if_neg h.order.ne']
  have hC : ∀ s ∉ I, ∀ i : ι, (σ0 s).toMv i = (MvPolynomial.C (Lanes.lane i (v s)) : MvPolynomial String ℝ) := fun s hs i => by
    rw [h.others s hs, toMv_ofCf]
  have hord : ∀ s ∈ I, (σ0 s).order = m := fun s hs => order_mk3 (h.params s hs)
  have hval : ∀ (i : ι) s, solEnv ys I (fun s => Lanes.lane i (v s)) (ψ i) (fun s => Lanes.lane i (v s)) s = Lanes.lane i (v s) := fun i s => by
    unfold solEnv
    split_ifs with h1
    · exact h.init s h1 i
    · rfl
    · rfl
  refine ⟨fun s => ?_, fun s => ?_, fun s ho => ?_, hA, h.fnOrder, fun y hy => LExpr.FullIn.mono (fun s h => hord s h) (rhs y) (h.full y hy), fun y hy i => ?_, fun s hs i x => ?_, fun y hy i => ?_, fun y hy i => ?_,
    fun y hy i => ?_⟩
  · by_cases hs : s ∈ I
    · exact ⟨valid_mk3 (ι := ι) (K := ℝ) (h.params s hs), (hord s hs).le, Or.inl (hord s hs)⟩
    · rw [h.others s hs]
      refine ⟨valid_ofCf _, Nat.zero_le _, Or.inr fun i => ?_⟩
      rw [toMv_ofCf]; simp
  · by_cases hs : s ∈ I
    · exact symsOk_mk3 (h.params s hs)
    · rw [h.others s hs]; exact symsOk_ofCf _
  · by_cases hs : s ∈ I
    · rw [syms_mk3 (h.params s hs)]; exact fun h => absurd h (by simp)
    · rw [h.others s hs] at ho
      exact absurd ho h.order.ne
  · simp only [shiftBy_zero, hval]
    exact h.dom y hy i
  · simp only [solEnv, if_neg hs]
    split_ifs with h1
    · rw [hX s h1]; simp [shiftBy]
    · rw [hC s h1]; simp
  · simp only [shiftBy_zero, hval]
    rw [hC y (h.disj y hy)]; simp
  · obtain ⟨P, hP⟩ := h.smooth y hy i
    simp only [solEnv, if_pos hy]
    exact ⟨_, isTaylor_shift d_append_injective hP⟩
  · filter_upwards [(tendsto_shiftBy _).eventually (h.eqn y hy i)] with z hz
    simp only [solEnv, if_pos hy] at hz ⊢
    exact hz

omit [LanesFun C ι] in
theorem LImplicit.reads {I : List String} {v : String → C} {ψ : ι → String → (String → ℝ) → ℝ} (h : LImplicit ys I rhs m v σ0 ψ) {n k : ℕ} {σ : String → GDual C}
    (inv : LPicardInv m (min n m) σ0 σ fun (i : ι) s z => solEnv ys I (fun s => Lanes.lane i (v s)) (ψ i) (shiftBy (fun s => Lanes.lane i (v s)) z) s)
    (hn : 0 < n → 0 < k) (hord : 0 < k → ∀ y ∈ ys, (σ y).order = m) {y : String} (hy : y ∈ ys) : ReadsDerivatives (σ y) (min n m) (fun i => ψ i y) fun (i : ι) s => Lanes.lane i (v s) := by
  intro l hl dict hk hpos hcount
  obtain ⟨c, hc, hlane⟩ := inv.derivative (k := n) (ys := ys) (fun h0 => hord (hn h0)) hy (l := l.map fun s => "d" ++ s) (by rwa [List.length_map]) hk hpos hcount
  refine ⟨c, hc, fun i => ?_⟩
  rw [hlane i]
  have hφ : (fun z => solEnv ys I (fun s => Lanes.lane i (v s)) (ψ i) (shiftBy (fun s => Lanes.lane i (v s)) z) y) =
      fun z => ψ i y (shiftBy (fun s => Lanes.lane i (v s)) z) := funext fun z => if_pos hy
  rw [hφ]
  obtain ⟨P, hP⟩ := h.smooth y hy i
  have hP' : IsTaylor 0 m (fun z => ψ i y (shiftBy (fun s => Lanes.lane i (v s)) z)) (rename (fun s => "d" ++ s) P) := isTaylor_shift d_append_injective hP
  rw [hP.pds_eq l (hl.trans (min_le_right _ _)), hP'.pds_eq _ (by rw [List.length_map]; exact hl.trans (min_le_right _ _)), List.foldl_map]
  have h5 : ∀ (l : List String) (Q : MvPolynomial String ℝ), l.foldl (fun Q s => pderiv ("d" ++ s) Q) (rename (fun s => "d" ++ s) Q) =
      rename (fun s => "d" ++ s) (l.foldl (fun Q s => pderiv s Q) Q) := fun l => by
    induction l with
    | nil => exact fun Q => rfl
    | cons s l ih =>
      intro Q
      rw [List.foldl_cons, List.foldl_cons, ← ih, pderiv_rename d_append_injective]
  rw [h5]
  exact constantCoeff_rename _ _

/-- **C83 (fixed points, partial).** If the derivatives of the right hand sides with respect to the unknowns vanish at the expansion point, then the iteration `y := rhs y` does not throw, and
after `k` rounds the derivatives of degree at most `min(k, m)` are those of the solution `ψ y`. For the restrictions see `LImplicit`; `abs` only for scalar coefficients (`absLaw_real`). -/
theorem C83_all_fixed_point_partial {I : List String} {v : String → C} {ψ : ι → String → (String → ℝ) → ℝ} (h : LImplicit ys I rhs m v σ0 ψ) (hA : ∀ y ∈ ys, (rhs y).NoAbs ∨ AbsLaw C ι)
    (hd : ∀ y ∈ ys, ∀ s ∈ ys, ∀ i : ι, HasPartialAt ((rhs y).sem i) 0 s fun s => Lanes.lane i (v s)) (k : ℕ) :
    ∃ σ, LFixIter ys rhs σ0 k σ ∧ (∀ τ, LFixIter ys rhs σ0 k τ → τ = σ) ∧
      ∀ y ∈ ys, (0 < k → (σ y).getOrder = m) ∧ ReadsDerivatives (σ y) (min k m) (fun i => ψ i y) fun (i : ι) s => Lanes.lane i (v s) := by
  have hf := h.fixed hA
  have hval : ∀ (i : ι), (fun s => solEnv ys I (fun s => Lanes.lane i (v s)) (ψ i) (shiftBy (fun s => Lanes.lane i (v s)) 0) s) = fun s => Lanes.lane i (v s) := fun i =>
    funext fun s => by
      rw [shiftBy_zero]
      unfold solEnv
      split_ifs with h1
      · exact h.init s h1 i
      · rfl
      · rfl
  obtain ⟨σ, h1, inv, h2, -⟩ := lfix_iter hf (e := fun j => j) rfl (lflat_one (fun y hy s hs i => by rw [hval]; exact hd y hy s hs i) h.order) (fun j => by omega) (fun j => by omega) k
  exact ⟨σ, h1, fun τ hτ => h1.unique hτ, fun y hy => ⟨fun h => h2 h y hy, h.reads inv id h2 hy⟩⟩

/-- **C83 (quadratic convergence, partial).** If these derivatives vanish along the solution, as for Newton's method, the number of correct degrees doubles in every round: after `k` rounds
the derivatives of degree at most `min(2^k - 1, m)` are those of the solution. For the restrictions see `LImplicit`; `abs` only for scalar coefficients (`absLaw_real`). -/
theorem C83_all_quadratic_partial {I : List String} {v : String → C} {ψ : ι → String → (String → ℝ) → ℝ} (h : LImplicit ys I rhs m v σ0 ψ) (hA : ∀ y ∈ ys, (rhs y).NoAbs ∨ AbsLaw C ι)
    (hd : ∀ y ∈ ys, ∀ s ∈ ys, ∀ i : ι, ∀ᶠ x in 𝓝 fun s => Lanes.lane i (v s), HasPartialAt ((rhs y).sem i) 0 s (solEnv ys I (fun s => Lanes.lane i (v s)) (ψ i) x)) (k : ℕ) :
    ∃ σ, LFixIter ys rhs σ0 k σ ∧ (∀ τ, LFixIter ys rhs σ0 k τ → τ = σ) ∧
      ∀ y ∈ ys, (0 < k → (σ y).getOrder = m) ∧ ReadsDerivatives (σ y) (min (2 ^ k - 1) m) (fun i => ψ i y) fun (i : ι) s => Lanes.lane i (v s) := by
  have hf := h.fixed hA
  obtain ⟨σ, h1, inv, h2, -⟩ := lfix_iter hf (e := fun j => 2 ^ j - 1) rfl
    (lflat_all hf fun y hy s hs i => (tendsto_shiftBy _).eventually (hd y hy s hs i))
    (fun j => by have := Nat.one_le_two_pow (n := j); rw [pow_succ]; omega) (fun j => by omega) k
  refine ⟨σ, h1, fun τ hτ => h1.unique hτ, fun y hy => ⟨fun h => h2 h y hy, h.reads inv (fun h0 => ?_) h2 hy⟩⟩
  rcases Nat.eq_zero_or_pos k with rfl | h
  · simp at h0
  · exact h

omit [LanesFun C ι] in
/-- **C83 (existence for systems).** If the derivatives of the right hand sides with respect to the unknowns vanish at the expansion point and the numbers `v y` are a solution there, then the
equations `y = rhs y` have a solution as assumed in `C83_all_fixed_point_partial`. -/
theorem C83_all_fixed_point_exists {I : List String} {v : String → C} (hm : 0 < m) (hdis : ∀ y ∈ ys, y ∉ I) (hI : ∀ s ∈ I, GDual.mk3 (v s) s m = .ok (σ0 s))
    (hI' : ∀ s ∉ I, σ0 s = GDual.ofCf (v s)) (hf : ∀ y ∈ ys, (rhs y).FnOrder m) (hfull : ∀ y ∈ ys, (rhs y).FullIn (· ∈ I))
    (hdom : ∀ y ∈ ys, ∀ i : ι, (rhs y).Dom i fun s => Lanes.lane i (v s)) (h0 : ∀ y ∈ ys, ∀ i : ι, (rhs y).sem i (fun s => Lanes.lane i (v s)) = Lanes.lane i (v y))
    (hd : ∀ y ∈ ys, ∀ s ∈ ys, ∀ i : ι, HasPartialAt ((rhs y).sem i) 0 s fun s => Lanes.lane i (v s)) :
    ∃ ψ : ι → String → (String → ℝ) → ℝ, LImplicit ys I rhs m v σ0 ψ := by
  have key : ∀ i : ι, ∃ ψ : String → (String → ℝ) → ℝ, (∀ y ∈ ys, ∃ P, IsTaylor (fun s => Lanes.lane i (v s)) m (ψ y) P) ∧ (∀ y ∈ ys, ψ y (fun s => Lanes.lane i (v s)) = Lanes.lane i (v y)) ∧
      ∀ᶠ x in 𝓝 fun s => Lanes.lane i (v s), ∀ y ∈ ys, ψ y x = (rhs y).sem i (solEnv ys I (fun s => Lanes.lane i (v s)) ψ x) := fun i => by
    obtain ⟨ψ, h1, h2, h3⟩ := LExpr.exists_implicit i hdis (G := fun y => .bin .sub (.var y) (rhs y)) (v := fun s => Lanes.lane i (v s)) (fun y hy => ⟨trivial, hdom y hy i, trivial⟩) hm.ne' (by
      have : (Matrix.of fun y z : {y // y ∈ ys} => pds [z.1] ((.bin .sub (.var y.1) (rhs y.1) : LExpr C).sem i) fun s => Lanes.lane i (v s)) = 1 := by
        ext y z
        simp only [Matrix.of_apply, pds, pd, LExpr.sem, Op.real]
        have h4 := hd y.1 y.2 z.1 z.2 i
        unfold HasPartialAt at h4
        rw [Matrix.one_apply]
        by_cases hyz : y = z
        · subst hyz
          rw [if_pos rfl]
          have h5 := ((hasDerivAt_id (Lanes.lane i (v y.1) : ℝ)).sub h4).deriv
          rw [sub_zero] at h5
          simp only [Function.update_self]
          exact h5
        · rw [if_neg hyz]
          have hne : y.1 ≠ z.1 := fun h => hyz (Subtype.ext h)
          have h5 := ((hasDerivAt_const (Lanes.lane i (v z.1) : ℝ) (Lanes.lane i (v y.1) : ℝ)).sub h4).deriv
          rw [sub_zero] at h5
          simp only [Function.update_of_ne hne]
          exact h5
      rw [this, Matrix.det_one]
      exact isUnit_one)
    refine ⟨ψ, h1, h2, ?_⟩
    filter_upwards [h3] with x hx y hy
    have h4 := hx y hy
    simp only [LExpr.sem, Op.real, h0 y hy i, sub_self] at h4
    have h5 := sub_eq_zero.1 h4
    rw [← h5]
    simp [solEnv, hy]
  choose ψ h1 h2 h3 using key
  exact ⟨ψ, hm, hdis, hI, hI', hf, hfull, hdom, fun y hy i => h1 i y hy, fun y hy i => h2 i y hy, fun y hy i => (h3 i).mono fun x hx => hx y hy⟩

variable {I : List String} {v : String → C} {y : String} {F D : LExpr C} {ψ : ι → (String → ℝ) → ℝ}

/-- The equation `F(y, p) = 0` for one unknown `y`, with the solution `ψ`; same conventions and restrictions as `LImplicit`. -/
structure LRoot (y : String) (I : List String) (F : LExpr C) (m : ℕ) (v : String → C) (σ0 : String → GDual C) (ψ : ι → (String → ℝ) → ℝ) : Prop where
  order : 0 < m
  disj : y ∉ I
  params : ∀ s ∈ I, GDual.mk3 (v s) s m = .ok (σ0 s)
  others : ∀ s ∉ I, σ0 s = GDual.ofCf (v s)
  fnOrder : F.FnOrder m
  full : F.FullIn (· ∈ I)
  dom : ∀ i : ι, F.Dom i fun s => Lanes.lane i (v s)
  smooth : ∀ i : ι, ∃ P, IsTaylor (fun s => Lanes.lane i (v s)) m (ψ i) P
  init : ∀ i : ι, ψ i (fun s => Lanes.lane i (v s)) = Lanes.lane i (v y)
  root : ∀ i : ι, ∀ᶠ x in 𝓝 fun s => Lanes.lane i (v s), F.sem i (solEnv [y] I (fun s => Lanes.lane i (v s)) (fun _ => ψ i) x) = 0

omit [LanesFun C ι] in
theorem LRoot.env (h : LRoot y I F m v σ0 ψ) (i : ι) : solEnv [y] I (fun s => Lanes.lane i (v s)) (fun _ => ψ i) (fun s => Lanes.lane i (v s)) = fun s => Lanes.lane i (v s) := by
  funext s
  unfold solEnv
  split_ifs with h1
  · obtain rfl : s = y := by simpa using h1
    exact h.init i
  · rfl
  · rfl

omit [LanesFun C ι] in
theorem LRoot.tendsto (h : LRoot y I F m v σ0 ψ) (i : ι) : Tendsto (solEnv [y] I (fun s => Lanes.lane i (v s)) fun _ => ψ i) (𝓝 fun s => Lanes.lane i (v s)) (𝓝 fun s => Lanes.lane i (v s)) := by
  have h1 : Tendsto (solEnv [y] I (fun s => Lanes.lane i (v s)) fun _ => ψ i) (𝓝 fun s => Lanes.lane i (v s))
      (𝓝 (solEnv [y] I (fun s => Lanes.lane i (v s)) (fun _ => ψ i) fun s => Lanes.lane i (v s))) := by
    refine tendsto_pi_nhds.2 fun s => ?_
    unfold solEnv
    split_ifs with h1
    · obtain ⟨P, hP⟩ := h.smooth i
      exact hP.cont
    · exact (continuous_apply s).tendsto _
    · exact tendsto_const_nhds
  rwa [h.env i] at h1

omit [LanesFun C ι] in
/-- **C83 (existence).** If `y` solves the equation at the expansion point and the derivative of `F` with respect to `y` is not zero there, then there is a solution `ψ` as assumed in
`C83_all_chord_partial` and `C83_all_newton_partial`. -/
theorem C83_all_root_exists (hm : 0 < m) (hdis : y ∉ I) (hI : ∀ s ∈ I, GDual.mk3 (v s) s m = .ok (σ0 s)) (hI' : ∀ s ∉ I, σ0 s = GDual.ofCf (v s)) (hf : F.FnOrder m)
    (hfull : F.FullIn (· ∈ I)) (hdom : ∀ i : ι, F.Dom i fun s => Lanes.lane i (v s)) (h0 : ∀ i : ι, F.sem i (fun s => Lanes.lane i (v s)) = 0)
    (hd : ∀ i : ι, ∃ c, c ≠ 0 ∧ HasPartialAt (F.sem i) c y fun s => Lanes.lane i (v s)) : ∃ ψ : ι → (String → ℝ) → ℝ, LRoot y I F m v σ0 ψ := by
  have key : ∀ i : ι, ∃ ψ : (String → ℝ) → ℝ, (∃ P, IsTaylor (fun s => Lanes.lane i (v s)) m ψ P) ∧ ψ (fun s => Lanes.lane i (v s)) = Lanes.lane i (v y) ∧
      ∀ᶠ x in 𝓝 fun s => Lanes.lane i (v s), F.sem i (solEnv [y] I (fun s => Lanes.lane i (v s)) (fun _ => ψ) x) = 0 := fun i => by
    obtain ⟨c, hc, hp⟩ := hd i
    obtain ⟨ψ, h1, h2, h3⟩ := LExpr.exists_implicit i (ys := [y]) (I := I) (by simpa using hdis) (G := fun _ => F) (v := fun s => Lanes.lane i (v s)) (fun _ _ => hdom i) hm.ne' (by
      have : Unique {z // z ∈ [y]} := ⟨⟨⟨y, by simp⟩⟩, fun z => Subtype.ext (by simpa using z.2)⟩
      rw [Matrix.det_unique, Matrix.of_apply]
      have h4 : pds [y] (F.sem i) (fun s => Lanes.lane i (v s)) = c := HasDerivAt.deriv hp
      have h5 : (default : {z // z ∈ [y]}).1 = y := by simpa using (default : {z // z ∈ [y]}).2
      rw [h5, h4]
      exact hc.isUnit)
    refine ⟨ψ y, h1 y (by simp), h2 y (by simp), ?_⟩
    filter_upwards [h3] with x hx
    have h6 : solEnv [y] I (fun s => Lanes.lane i (v s)) ψ x = solEnv [y] I (fun s => Lanes.lane i (v s)) (fun _ => ψ y) x := by
      funext s
      unfold solEnv
      split_ifs with hs
      · obtain rfl : s = y := by simpa using hs
        rfl
      · rfl
      · rfl
    rw [← h6, hx y (by simp), h0 i]
  choose ψ h1 h2 h3 using key
  exact ⟨ψ, hm, hdis, hI, hI', hf, hfull, hdom, h1, h2, h3⟩

/-- **C83 (chord method, partial).** The equation `F(y, p) = 0` with the solution `y = ψ(p)` and a number `c`, the derivative of `F` with respect to `y` at the expansion point: after `k` rounds of
`y := y - F(y, p) / c`, starting with the number `y`, the derivatives of degree at most `min(k, m)` are those of the solution. -/
theorem C83_all_chord_partial (h : LRoot y I F m v σ0 ψ) (hA : F.NoAbs ∨ AbsLaw C ι) {c : C} (hc : ∀ i : ι, (Lanes.lane i c : ℝ) ≠ 0)
    (hd : ∀ i : ι, HasPartialAt (F.sem i) (Lanes.lane i c) y fun s => Lanes.lane i (v s)) (k : ℕ) :
    ∃ σ, LFixIter [y] (fun _ => .bin .sub (.var y) (.right .div F c)) σ0 k σ ∧ (0 < k → (σ y).getOrder = m) ∧
      ReadsDerivatives (σ y) (min k m) ψ fun (i : ι) s => Lanes.lane i (v s) := by
  have hI : LImplicit [y] I (fun _ => .bin .sub (.var y) (.right .div F c)) m v σ0 fun (i : ι) _ => ψ i := by
    refine ⟨h.order, by simpa using h.disj, h.params, h.others, fun _ _ => ⟨trivial, h.fnOrder⟩, fun _ _ => Or.inr h.full, fun _ _ i => ⟨trivial, ⟨h.dom i, hc i⟩, trivial⟩,
      fun _ _ => h.smooth, fun z hz i => ?_, fun _ _ i => ?_⟩
    · obtain rfl : z = y := by simpa using hz
      exact h.init i
    · filter_upwards [h.root i] with x hx
      simp only [LExpr.sem, Op.real, hx, zero_div, sub_zero]
      simp [solEnv]
  obtain ⟨σ, h1, -, h2⟩ := C83_all_fixed_point_partial hI (fun _ _ => hA.imp (fun h => ⟨trivial, h⟩) id) (fun _ _ s hs i => by
    obtain rfl : s = y := by simpa using hs
    have h3 := ((hasDerivAt_id (Lanes.lane i (v s) : ℝ)).sub ((hd i).div_const (Lanes.lane i c))).congr_deriv (show 1 - Lanes.lane i c / Lanes.lane i c = (0 : ℝ) by
      rw [div_self (hc i), sub_self])
    unfold HasPartialAt
    simp only [LExpr.sem, Op.real, Function.update_self]
    exact h3) k
  exact ⟨σ, h1, h2 y (by simp)⟩

/-- **C83 (Newton's method, partial).** The equation `F(y, p) = 0` with the solution `y = ψ(p)` and an expression `D` for the derivative of `F` with respect to `y`, not zero at the expansion
point: after `k` rounds of `y := y - F(y, p) / D(y, p)`, starting with the number `y`, the derivatives of degree at most `min(2^k - 1, m)` are those of the solution. -/
theorem C83_all_newton_partial (h : LRoot y I F m v σ0 ψ) (hA : (F.NoAbs ∧ D.NoAbs) ∨ AbsLaw C ι) (hDo : D.FnOrder m) (hDd : ∀ i : ι, D.Dom i fun s => Lanes.lane i (v s))
    (hD0 : ∀ i : ι, D.sem i (fun s => Lanes.lane i (v s)) ≠ 0)
    (hd : ∀ i : ι, ∀ᶠ x in 𝓝 fun s => Lanes.lane i (v s), HasPartialAt (F.sem i) (D.sem i x) y x) (k : ℕ) :
    ∃ σ, LFixIter [y] (fun _ => .bin .sub (.var y) (.bin .div F D)) σ0 k σ ∧ (0 < k → (σ y).getOrder = m) ∧
      ReadsDerivatives (σ y) (min (2 ^ k - 1) m) ψ fun (i : ι) s => Lanes.lane i (v s) := by
  have hI : LImplicit [y] I (fun _ => .bin .sub (.var y) (.bin .div F D)) m v σ0 fun (i : ι) _ => ψ i := by
    refine ⟨h.order, by simpa using h.disj, h.params, h.others, fun _ _ => ⟨trivial, h.fnOrder, hDo⟩, fun _ _ => Or.inr (Or.inl h.full),
      fun _ _ i => ⟨trivial, ⟨h.dom i, hDd i, hD0 i⟩, trivial⟩, fun _ _ => h.smooth, fun z hz i => ?_, fun _ _ i => ?_⟩
    · obtain rfl : z = y := by simpa using hz
      exact h.init i
    · filter_upwards [h.root i] with x hx
      simp only [LExpr.sem, Op.real, hx, zero_div, sub_zero]
      simp [solEnv]
  obtain ⟨σ, h1, -, h2⟩ := C83_all_quadratic_partial hI (fun _ _ => hA.imp (fun h => ⟨trivial, h.1, h.2⟩) id) (fun _ _ s hs i => by
    obtain rfl : s = y := by simpa using hs
    have hcd := LExpr.continuousAt_dom i D (hDd i)
    filter_upwards [h.root i, (h.tendsto i).eventually (hd i), (h.tendsto i).eventually hcd.2, (h.tendsto i).eventually (hcd.1.eventually_ne (hD0 i))] with x hx h3 h4 h5
    obtain ⟨D', hD'⟩ := D.derives i s
    have h6 := hD'.diff _ h4
    generalize solEnv [s] I (fun s => Lanes.lane i (v s)) (fun _ => ψ i) x = e at hx h3 h4 h5 h6
    unfold HasPartialAt at h3 h6 ⊢
    have h7 : D.sem i (Function.update e s (e s)) ≠ 0 := by rwa [Function.update_eq_self]
    have h8 := ((hasDerivAt_id (e s)).sub (h3.div h6 h7)).congr_deriv (show _ = (0 : ℝ) by
      rw [Function.update_eq_self, hx]
      field_simp
      ring)
    simp only [LExpr.sem, Op.real, Function.update_self]
    exact h8) k
  exact ⟨σ, h1, h2 y (by simp)⟩

/-- The function `expm1(y) - erf(x)`. -/
noncomputable def exRoot : LExpr ℝ := .bin .sub (.fn .expm1 (.var "y")) (.fn .erf (.var "x"))

/-- The equation `expm1(y) = erf(x)` at the origin, at order 20: there is a solution, and five rounds of Newton's method give all its derivatives. -/
example : ∃ (σ0 : String → GDual ℝ) (ψ : Unit → (String → ℝ) → ℝ), (∀ᶠ x in 𝓝 (fun _ : String => (0 : ℝ)), Real.exp (ψ () x) - 1 = Spec.erf (x "x")) ∧ ∃ σ,
    LFixIter ["y"] (fun _ => .bin .sub (.var "y") (.bin .div exRoot (.fn (.base .exp) (.var "y")))) σ0 5 σ ∧ ReadsDerivatives (σ "y") 20 ψ fun _ _ => 0 := by
  obtain ⟨r, hr⟩ : ∃ r : GDual ℝ, GDual.mk3 0 "x" 20 = .ok r := ⟨_, mk3_ok.mpr ⟨by decide, ⟨'x', by decide, by decide⟩, rfl⟩⟩
  have hxy : ("x" : String) ≠ "y" := by decide
  have hp : ∀ x : String → ℝ, HasPartialAt (exRoot.sem ()) (Real.exp (x "y")) "y" x := fun x => by
    have h1 := ((Real.hasDerivAt_exp (x "y")).sub_const 1).sub_const (Spec.erf (x "x"))
    unfold HasPartialAt
    simpa [exRoot, LExpr.sem, Op.real, LFn.real, Lanes.lane, Function.update_of_ne hxy] using h1
  have he : Spec.erf 0 = 0 := by simp [Spec.erf]
  let σ0 : String → GDual ℝ := fun s => if s = "x" then r else GDual.ofCf 0
  obtain ⟨ψ, hψ⟩ := C83_all_root_exists (C := ℝ) (ι := Unit) (y := "y") (I := ["x"]) (F := exRoot) (m := 20)
    (v := fun _ => 0) (σ0 := σ0) (by decide) (by decide) (fun s hs => by
      obtain rfl : s = "x" := by simpa using hs
      exact hr) (fun s hs => if_neg (by simpa using hs)) (by simp [exRoot, LExpr.FnOrder, LFn.MaxOrder]) (by simp [exRoot, LExpr.FullIn])
    (fun _ => by simp [exRoot, LExpr.Dom, Op.Dom, LFn.Dom, LExpr.sem, Lanes.lane])
    (fun _ => by simp [exRoot, LExpr.sem, Op.real, LFn.real, Lanes.lane, he]) fun _ => ⟨_, by norm_num [Lanes.lane], hp _⟩
  refine ⟨σ0, ψ, ?_, ?_⟩
  · refine (hψ.root ()).mono fun x hx => ?_
    rw [← sub_eq_zero]
    simpa [exRoot, LExpr.sem, Op.real, LFn.real, Lanes.lane, solEnv, hxy] using hx
  · obtain ⟨σ, h1, -, h2⟩ := C83_all_newton_partial hψ (D := .fn (.base .exp) (.var "y")) (Or.inr absLaw_real) (by simp [LExpr.FnOrder, LFn.MaxOrder, Fn.MaxOrder])
      (fun _ => by simp [LExpr.Dom, LFn.Dom, Fn.Dom]) (fun _ => by norm_num [LExpr.sem, LFn.real, Fn.real, Lanes.lane])
      (fun _ => Eventually.of_forall fun x => by simpa [LExpr.sem, LFn.real, Fn.real, Lanes.lane] using hp x) 5
    exact ⟨σ, h1, h2⟩

/-- The equation `y = x + sinh(y) * erf(y)` at the origin, at order 20, meets the hypotheses of `C83_all_quadratic_partial`. -/
example : ∃ (σ0 : String → GDual ℝ) (ψ : Unit → String → (String → ℝ) → ℝ),
    LImplicit ["y"] ["x"] (fun _ => .bin .add (.var "x") (.bin .mul (.fn .sinhOf (.var "y")) (.fn .erf (.var "y")))) 20 (fun _ => 0) σ0 ψ := by
  obtain ⟨r, hr⟩ : ∃ r : GDual ℝ, GDual.mk3 0 "x" 20 = .ok r := ⟨_, mk3_ok.mpr ⟨by decide, ⟨'x', by decide, by decide⟩, rfl⟩⟩
  have hxy : ("x" : String) ≠ "y" := by decide
  have he : Spec.erf 0 = 0 := by simp [Spec.erf]
  refine ⟨fun s => if s = "x" then r else GDual.ofCf 0, ?_⟩
  refine C83_all_fixed_point_exists (C := ℝ) (ι := Unit) (by decide) (by simp) (fun s hs => by
    obtain rfl : s = "x" := by simpa using hs
    exact hr) (fun s hs => if_neg (by simpa using hs)) (by simp [LExpr.FnOrder, LFn.MaxOrder]) (by simp [LExpr.FullIn]) (fun _ _ _ => by simp [LExpr.Dom, Op.Dom, LFn.Dom])
    (fun _ _ _ => by simp [LExpr.sem, Op.real, LFn.real, Lanes.lane, he]) fun y _ s hs _ => ?_
  obtain rfl : s = "y" := by simpa using hs
  have h1 := ((Real.hasDerivAt_sinh (0 : ℝ)).mul (Spec.hasDerivAt_erf 0)).const_add 0
  unfold HasPartialAt
  simpa [LExpr.sem, Op.real, LFn.real, Lanes.lane, Function.update_of_ne hxy, he] using h1

end Audi
