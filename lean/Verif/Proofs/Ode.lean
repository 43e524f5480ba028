import Verif.Spec.Ode
import Verif.Proofs.Program

/-! Picard iteration on gduals. -/

namespace Audi

open MvPolynomial Spec GDual Filter Topology

variable {C : Type} [CfFun C] {ι : Type} [Lanes C ι ℝ] [LanesFun C ι] {m : ℕ} {p : ι → String → ℝ}

theorem Expr.FullIn.mono {C : Type} {V W : String → Prop} (h : ∀ s, V s → W s) : ∀ e : Expr C, e.FullIn V → e.FullIn W := by
  intro e
  induction e with
  | var s => exact h s
  | const _ => exact id
  | bin _ _ _ ih1 ih2 => exact Or.imp ih1 ih2
  | left _ _ _ ih => exact ih
  | right _ _ _ ih => exact ih
  | fn f _ ih => cases f <;> first | exact ih | exact id
  | pow _ _ ih1 ih2 => exact Or.imp ih1 ih2

/-- The order of the value of an expression. -/
theorem Expr.eval_order {σ : String → GDual C} {F : ι → String → (String → ℝ) → ℝ} (hσ : ∀ s, Good m p (fun i => F i s) (σ s))
    {V : String → Prop} (hV : ∀ s, V s → (σ s).order = m) :
    ∀ e : Expr C, e.FnOrder m → (∀ i : ι, e.Dom i fun s => F i s (p i)) → e.FullIn V → ∀ r, e.eval σ = .ok r → r.order = m := by
  have good : ∀ e : Expr C, e.FnOrder m → (∀ i : ι, e.Dom i fun s => F i s (p i)) → ∀ r, e.eval σ = .ok r →
      Good m p (fun (i : ι) y => e.sem i fun s => F i s y) r := fun e h1 h2 r hr => by
    obtain ⟨r', e1, e2⟩ := Expr.eval_good hσ e h1 h2
    rw [hr] at e1; injection e1 with e1; rw [e1]; exact e2
  intro e
  induction e with
  | var s => intro _ _ hf r hr; injection hr with hr; rw [← hr]; exact hV s hf
  | const c => exact fun _ _ hf => hf.elim
  | bin op e1 e2 ih1 ih2 =>
    intro hl hd hf r hr
    obtain ⟨r1, h1, hr⟩ := bind_ok_iff.1 hr
    obtain ⟨r2, h2, hr⟩ := bind_ok_iff.1 hr
    have g1 := good e1 hl.1 (fun i => (hd i).1) r1 h1
    have g2 := good e2 hl.2 (fun i => (hd i).2.1) r2 h2
    have hord : r.order = max r1.order r2.order := by
      cases op with
      | add => injection hr with hr; rw [← hr]; rfl
      | sub => injection hr with hr; rw [← hr]; rfl
      | mul => injection hr with hr; rw [← hr]; rfl
      | div =>
        have h0' : ∀ i : ι, coeff 0 (r2.toMv i : MvPolynomial String ℝ) ≠ 0 := fun i => by
          rw [← (g2.taylor i).val]; exact (hd i).2.2
        obtain ⟨r', hr', -, ho, -⟩ := div_spec' g1.valid g2.valid h0'
        have : Op.div.run r1 r2 = .ok r' := hr'
        rw [hr] at this; injection this with this; rw [this, ho]
    rw [hord]
    rcases hf with hf | hf
    · rw [ih1 hl.1 (fun i => (hd i).1) hf r1 h1]; exact max_eq_left g2.le
    · rw [ih2 hl.2 (fun i => (hd i).2.1) hf r2 h2]; exact max_eq_right g1.le
  | left op c e ih =>
    intro hl hd hf r hr
    obtain ⟨r1, h1, hr⟩ := bind_ok_iff.1 hr
    have g1 := good e hl (fun i => (hd i).1) r1 h1
    have hord : r.order = r1.order := by
      cases op with
      | add => injection hr with hr; rw [← hr]; rfl
      | sub => injection hr with hr; rw [← hr]; rfl
      | mul => injection hr with hr; rw [← hr]; exact ((IsLift.id (ι := ι) g1.valid).mulSG c).order
      | div =>
        have h0' : ∀ i : ι, coeff 0 (r1.toMv i : MvPolynomial String ℝ) ≠ 0 := fun i => by
          rw [← (g1.taylor i).val]; exact (hd i).2
        obtain ⟨r', hr', -, ho, -⟩ := divSG_spec c g1.valid h0'
        have : Op.div.runL c r1 = .ok r' := hr'
        rw [hr] at this; injection this with this; rw [this, ho]
    rw [hord]
    exact ih hl (fun i => (hd i).1) hf r1 h1
  | right op e c ih =>
    intro hl hd hf r hr
    obtain ⟨r1, h1, hr⟩ := bind_ok_iff.1 hr
    have g1 := good e hl (fun i => (hd i).1) r1 h1
    have hord : r.order = r1.order := by
      cases op with
      | add => injection hr with hr; rw [← hr]; rfl
      | sub => injection hr with hr; rw [← hr]; rfl
      | mul => injection hr with hr; rw [← hr]; exact ((IsLift.id (ι := ι) g1.valid).mulGS c).order
      | div =>
        obtain ⟨r', hr', hw⟩ := (IsLift.id (ι := ι) g1.valid).divGS (c := c) fun i => (hd i).2
        have : Op.div.runR r1 c = .ok r' := hr'
        rw [hr] at this; injection this with this; rw [this, hw.order]
    rw [hord]
    exact ih hl (fun i => (hd i).1) hf r1 h1
  | fn f e ih =>
    intro hl hd hf r hr
    obtain ⟨r1, h1, hr⟩ := bind_ok_iff.1 hr
    have g1 := good e hl.1 (fun i => (hd i).1) r1 h1
    have hdom : ∀ i : ι, f.Dom (coeff 0 (r1.toMv i : MvPolynomial String ℝ)) := fun i => by
      rw [← (g1.taylor i).val]; exact (hd i).2
    obtain ⟨r', e1, -, e3⟩ := Fn.lift (ι := ι) f g1.valid (Fn.maxOrder_mono hl.2 g1.le) hdom
    rw [hr] at e1; injection e1 with e1
    have hne : ∀ q, f ≠ .powBase q := by rintro q rfl; exact hf
    have hf' : e.FullIn V := by cases f <;> first | exact hf | exact absurd rfl (hne _)
    rw [e1, e3 hne, ih hl.1 (fun i => (hd i).1) hf' r1 h1]
  | pow e1 e2 ih1 ih2 =>
    intro hl hd hf r hr
    obtain ⟨r1, h1, hr⟩ := bind_ok_iff.1 hr
    obtain ⟨r2, h2, hr⟩ := bind_ok_iff.1 hr
    have g1 := good e1 hl.1 (fun i => (hd i).1) r1 h1
    have g2 := good e2 hl.2 (fun i => (hd i).2.1) r2 h2
    obtain ⟨l, hl', hr⟩ := bind_ok_iff.1 hr
    obtain ⟨l', k1, k2⟩ := computes_log.lift (ι := ι) r1 g1.valid fun i => by
      rw [← (g1.taylor i).val]; exact (hd i).2.2
    rw [hl'] at k1; injection k1 with k1
    subst k1
    obtain ⟨r', k3, k4⟩ := computes_exp.lift (ι := ι) (r2.mul l) (g2.valid.mul k2.valid) fun i => trivial
    rw [hr] at k3; injection k3 with k3
    rw [k3, k4.order]
    change max r2.order l.order = m
    rw [k2.order]
    rcases hf with hf | hf
    · rw [ih1 hl.1 (fun i => (hd i).1) hf r1 h1]; exact max_eq_right g2.le
    · rw [ih2 hl.2 (fun i => (hd i).2.1) hf r2 h2]; exact max_eq_left g1.le

theorem Expr.fnOrder_mono {C : Type} {m n : ℕ} (e : Expr C) (h : e.FnOrder m) (hn : n ≤ m) : e.FnOrder n := by
  induction e with
  | var s => trivial
  | const c => trivial
  | bin op e1 e2 ih1 ih2 => exact ⟨ih1 h.1, ih2 h.2⟩
  | left op c e ih => exact ih h
  | right op e c ih => exact ih h
  | fn f e ih => exact ⟨ih h.1, Fn.maxOrder_mono h.2 hn⟩
  | pow e1 e2 ih1 ih2 => exact ⟨ih1 h.1, ih2 h.2⟩

/-- The polynomial cut at degree `n`, with this order. -/
def cut (n : ℕ) (d : GDual C) : GDual C := ⟨d.p.truncate n, n⟩

omit [LanesFun C ι] in
theorem good_cut {F : ι → (String → ℝ) → ℝ} {n : ℕ} {d : GDual C} (hd : d.Valid) (h : ∀ i : ι, IsTaylor (p i) n (F i) (d.toMv i)) :
    Good n p F (cut n d) :=
  ⟨⟨hd.wf.truncate n, Poly.deg_truncate _ _⟩, le_rfl, Or.inl rfl, fun i => (h i).congr_poly fun e he => by
    change _ = coeff e ((d.p.truncate n).toMv i)
    rw [Poly.coeff_truncate hd.wf, if_pos he]; rfl⟩

/-- The expansion to order `n` of an expression depends on the expansions to order `n` of its variables only. -/
theorem Expr.eval_taylor {σ : String → GDual C} {n : ℕ} (hn : n ≤ m) (hσ : ∀ s, (σ s).Valid ∧ (σ s).order ≤ m ∧ ((σ s).order = m ∨ IsConst ι (σ s)))
    {φ : ι → String → (String → ℝ) → ℝ} (hφ : ∀ (i : ι) s, IsTaylor (p i) n (φ i s) ((σ s).toMv i)) (e : Expr C) (he : e.FnOrder m)
    (hd : ∀ i : ι, e.Dom i fun s => φ i s (p i)) {V : String → Prop} (hV : ∀ s, V s → (σ s).order = m) (hf : e.FullIn V) :
    ∃ r, e.eval σ = .ok r ∧ r.Valid ∧ r.order = m ∧ ∀ i : ι, IsTaylor (p i) n (fun x => e.sem i fun s => φ i s x) (r.toMv i) := by
  let u : ι → String → (String → ℝ) → ℝ := fun i s x => MvPolynomial.eval (fun v => x v - p i v) ((σ s).toMv i)
  have hu : ∀ k (i : ι) s, IsTaylor (p i) k (u i s) ((σ s).toMv i) := fun k i s => isTaylor_poly (p i) k _
  have hval : ∀ i s, u i s (p i) = φ i s (p i) := fun i s => by rw [(hu 0 i s).val, (hφ i s).val]
  have hdu : ∀ i : ι, e.Dom i fun s => u i s (p i) := fun i => by simpa only [hval] using hd i
  have gσ : ∀ s, Good m p (fun i => u i s) (σ s) := fun s => ⟨(hσ s).1, (hσ s).2.1, (hσ s).2.2, fun i => hu m i s⟩
  obtain ⟨r, hr, gr⟩ := Expr.eval_good gσ e he hdu
  refine ⟨r, hr, gr.valid, Expr.eval_order gσ hV e he hdu hf r hr, fun i => ?_⟩
  obtain ⟨r1, hr1, g1⟩ := Expr.eval_good (σ := fun s => cut n (σ s)) (F := u) (fun s => good_cut (hσ s).1 fun i => hu n i s) e
    (e.fnOrder_mono he hn) hdu
  obtain ⟨r2, hr2, g2⟩ := Expr.eval_good (σ := fun s => cut n (σ s)) (F := φ) (fun s => good_cut (hσ s).1 fun i => hφ i s) e
    (e.fnOrder_mono he hn) hd
  rw [hr1] at hr2; injection hr2 with hr2; subst hr2
  exact (g2.taylor i).congr_poly ((g1.taylor i).unique ((gr.taylor i).mono hn))

theorem sub_single_add {σ : Type*} [DecidableEq σ] {e : σ →₀ ℕ} {s : σ} (h : e s ≠ 0) : e - Finsupp.single s 1 + Finsupp.single s 1 = e := by
  ext u
  by_cases hu : u = s
  · subst hu; simp; omega
  · simp [Finsupp.single_eq_of_ne hu]

theorem degree_sub_single {σ : Type*} [DecidableEq σ] {e : σ →₀ ℕ} {s : σ} (h : e s ≠ 0) : (e - Finsupp.single s 1).degree + 1 = e.degree := by
  have := congrArg Finsupp.degree (sub_single_add h)
  rw [map_add, Finsupp.degree_single] at this
  exact this

section
variable {σ : Type*} [DecidableEq σ] {a : σ → ℝ}

/-- Coefficients without `t` are determined by the values on the hyperplane. -/
theorem coeff_eq_of_hyperplane {F G : (σ → ℝ) → ℝ} {P Q : MvPolynomial σ ℝ} {m : ℕ} (hF : IsTaylor a m F P) (hG : IsTaylor a m G Q) {t : σ}
    (h : ∀ᶠ x in 𝓝 a, x t = a t → F x = G x) {e : σ →₀ ℕ} (he : e.degree ≤ m) (ht : e t = 0) : coeff e P = coeff e Q := by
  induction m generalizing F G P Q e with
  | zero =>
    have : e = 0 := by rw [← Finsupp.degree_eq_zero_iff]; omega
    rw [this, ← hF.val, ← hG.val]
    exact h.self_of_nhds rfl
  | succ m ih =>
    by_cases h0 : e = 0
    · rw [h0, ← hF.val, ← hG.val]
      exact h.self_of_nhds rfl
    obtain ⟨s, hs⟩ : ∃ s, e s ≠ 0 := by
      by_contra hcon; push Not at hcon; exact h0 (Finsupp.ext hcon)
    have hst : t ≠ s := fun hts => hs (hts ▸ ht)
    obtain ⟨F', h1, h2⟩ := hF.2.2 s
    obtain ⟨G', h3, h4⟩ := hG.2.2 s
    have h5 : ∀ᶠ x in 𝓝 a, x t = a t → F' x = G' x := by
      filter_upwards [h1, h3, eventually_eventually_nhds.2 h] with x hx1 hx3 hx hxt
      have h6 : Tendsto (fun u => Function.update x s u) (𝓝 (x s)) (𝓝 x) := tendsto_update x s
      refine HasDerivAt.unique hx1 (HasDerivAt.congr_of_eventuallyEq hx3 ?_)
      filter_upwards [h6.eventually hx] with u hu
      exact hu (by rw [Function.update_of_ne hst]; exact hxt)
    have h7 := sub_single_add hs
    have hdeg : (e - Finsupp.single s 1).degree ≤ m := by have := degree_sub_single hs; omega
    have h8 := ih h2 h4 h5 hdeg (by simp [ht])
    rw [coeff_pderiv, coeff_pderiv, h7] at h8
    exact mul_right_cancel₀ (by positivity) h8

end

/-- The state after `k` steps: expansions correct to degree `k`. -/
structure PicardInv (m n : ℕ) (σ0 σ : String → GDual C) (φ : ι → String → (String → ℝ) → ℝ) : Prop where
  base : ∀ s, (σ s).Valid ∧ (σ s).order ≤ m ∧ ((σ s).order = m ∨ IsConst ι (σ s))
  full : ∀ s, (σ0 s).order = m → (σ s).order = m
  taylor : ∀ (i : ι) s, IsTaylor 0 n (φ i s) ((σ s).toMv i)

variable {ys : List String} {rhs : String → Expr C} {t : String} {σ0 σ : String → GDual C} {φ : ι → String → (String → ℝ) → ℝ} {n k : ℕ}

/-- One step exists, and the coefficients of the new values. -/
theorem picard_step (hs : Solves ys rhs t m σ0 φ) (ht : ∃ c, t.toList.head? = some c ∧ c ≠ 'd') (hn : n ≤ m) (inv : PicardInv m n σ0 σ φ) :
    ∃ σ', PicardStep ys rhs t σ0 σ σ' ∧ (∀ s, (σ' s).Valid ∧ (σ' s).order ≤ m ∧ ((σ' s).order = m ∨ IsConst ι (σ' s))) ∧
      (∀ s, (σ0 s).order = m ∨ s ∈ ys → (σ' s).order = m) ∧ (∀ s ∉ ys, σ' s = σ0 s) ∧
      ∀ y ∈ ys, ∀ i : ι, ∃ R : MvPolynomial String ℝ, IsTaylor 0 n (fun x => (rhs y).sem i fun s => φ i s x) R ∧
        ∀ e : String →₀ ℕ, e.degree ≤ m → coeff e ((σ' y).toMv i) =
          if e ("d" ++ t) = 0 then coeff e ((σ0 y).toMv i) else coeff (e - Finsupp.single ("d" ++ t) 1) R / (e ("d" ++ t) : ℝ) := by
  classical
  have key : ∀ y ∈ ys, ∃ r s, (rhs y).eval σ = .ok r ∧ r.integrate t = .ok s ∧ r.Valid ∧ r.order = m ∧
      ∀ i : ι, IsTaylor 0 n (fun x => (rhs y).sem i fun s => φ i s x) (r.toMv i) := fun y hy => by
    obtain ⟨r, h1, h2, h3, h4⟩ := Expr.eval_taylor (p := fun _ => 0) hn inv.base inv.taylor (rhs y) (hs.fnOrder y hy) (hs.dom y hy)
      (V := fun s => (σ0 s).order = m) inv.full (hs.full y hy)
    exact ⟨r, _, h1, integrate_ok.2 ⟨ht, rfl⟩, h2, h3, h4⟩
  have : Nonempty (GDual C) := ⟨ofCf Cf.zero⟩
  choose! r s h1 h2 h3 h4 h5 using key
  have hsv : ∀ y ∈ ys, (s y).Valid ∧ (s y).order = m := fun y hy => by
    refine ⟨(h3 y hy).integrate (h2 y hy), ?_⟩
    obtain ⟨-, h⟩ := integrate_ok.1 (h2 y hy)
    rw [h]; exact h4 y hy
  have hadd : ∀ y ∈ ys, ((σ0 y).add (s y)).order = m := fun y hy => by
    change max (σ0 y).order (s y).order = m
    rw [(hsv y hy).2]
    exact max_eq_right (hs.base y).2.1
  refine ⟨fun y => if y ∈ ys then (σ0 y).add (s y) else σ0 y, ⟨fun y hy => ⟨r y, s y, h1 y hy, h2 y hy, if_pos hy⟩, fun y hy => if_neg hy⟩,
    fun y => ?_, fun y hy => ?_, fun y hy => if_neg hy, fun y hy i => ⟨(r y).toMv i, h5 y hy i, fun e he => ?_⟩⟩
  · by_cases hy : y ∈ ys
    · simp only [if_pos hy]
      exact ⟨(hs.base y).1.add (hsv y hy).1, (hadd y hy).le, Or.inl (hadd y hy)⟩
    · simp only [if_neg hy]
      exact hs.base y
  · by_cases hy' : y ∈ ys
    · simp only [if_pos hy']; exact hadd y hy'
    · simp only [if_neg hy']; exact hy.resolve_right hy'
  · simp only [if_pos hy]
    rw [toMv_add (hs.base y).1 (hsv y hy).1, coeff_add, coeff_integrate (h3 y hy) (h2 y hy), h4 y hy, if_pos he]
    split_ifs with h0
    · rw [add_zero]
    · rw [hs.noT y hy i e h0, zero_add]

omit [LanesFun C ι] in
theorem picard_zero (hs : Solves ys rhs t m σ0 φ) (hc : ∀ y ∈ ys, ∀ i : ι, ContinuousAt (φ i y) 0) : PicardInv m 0 σ0 σ0 φ where
  base := hs.base
  full s h := h
  taylor i s := by
    by_cases hy : s ∈ ys
    · refine ⟨hc s hy i, ?_⟩
      rw [(hs.init s hy i).self_of_nhds rfl]
      simpa using (isTaylor_poly (0 : String → ℝ) 0 ((σ0 s).toMv i)).val
    · have h1 := isTaylor_poly (0 : String → ℝ) 0 ((σ0 s).toMv i)
      refine h1.congr_fun (Eventually.of_forall fun x => ?_)
      simp only [hs.other s hy, Pi.zero_apply, sub_zero]

omit [LanesFun C ι] in
/-- Non-state variables are unchanged. -/
theorem other_taylor (hs : Solves ys rhs t m σ0 φ) {s : String} (h : s ∉ ys) (i : ι) (n : ℕ) : IsTaylor 0 n (φ i s) ((σ0 s).toMv i) := by
  refine (isTaylor_poly (0 : String → ℝ) n ((σ0 s).toMv i)).congr_fun (Eventually.of_forall fun x => ?_)
  simp only [hs.other s h, Pi.zero_apply, sub_zero]

/-- With parameters: the solution has an expansion to order `m`. -/
theorem picard_smooth (hs : Solves ys rhs t m σ0 φ) (ht : ∃ c, t.toList.head? = some c ∧ c ≠ 'd')
    (hsm : ∀ y ∈ ys, ∀ i : ι, ∃ P, IsTaylor 0 m (φ i y) P) (k : ℕ) :
    ∃ σ, Picard ys rhs t σ0 k σ ∧ PicardInv m (min k m) σ0 σ φ ∧ (0 < k → ∀ y ∈ ys, (σ y).order = m) := by
  induction k with
  | zero =>
    refine ⟨σ0, .zero, ?_, fun h => absurd h (lt_irrefl 0)⟩
    rw [Nat.zero_min]
    exact picard_zero hs fun y hy i => let ⟨P, hP⟩ := hsm y hy i; hP.cont
  | succ k ih =>
    obtain ⟨σ, h1, inv, -⟩ := ih
    obtain ⟨σ', h2, h3, h4, h5, h6⟩ := picard_step hs ht (min_le_right k m) inv
    refine ⟨σ', .succ h1 h2, ⟨h3, fun s h => h4 s (Or.inl h), fun i s => ?_⟩, fun _ y hy => h4 y (Or.inr hy)⟩
    by_cases hy : s ∈ ys
    · obtain ⟨P, hP⟩ := hsm s hy i
      obtain ⟨R, hR, hc⟩ := h6 s hy i
      refine (hP.mono (min_le_right _ _)).congr_poly fun e he => ?_
      have hem : e.degree ≤ m := he.trans (min_le_right _ _)
      rw [hc e hem]
      split_ifs with h0
      · refine coeff_eq_of_hyperplane (a := 0) hP (isTaylor_poly (0 : String → ℝ) m ((σ0 s).toMv i)) (t := "d" ++ t) ?_ hem h0
        filter_upwards [hs.init s hy i] with x hx hx0
        rw [hx hx0]
        simp
      · have hdeg := degree_sub_single h0
        obtain ⟨j, rfl⟩ : ∃ j, m = j + 1 := ⟨m - 1, by omega⟩
        obtain ⟨F', k1, k2⟩ := hP.2.2 ("d" ++ t)
        have k3 : IsTaylor 0 j (fun x => (rhs s).sem i fun u => φ i u x) (pderiv ("d" ++ t) P) := by
          refine k2.congr_fun ?_
          filter_upwards [k1, hs.eqn s hy i] with x a b
          exact HasDerivAt.unique a b
        have hle : min (min k (j + 1)) j = min k j := by omega
        have k4 := (k3.mono (min_le_right k j)).unique (hR.mono (by omega : min k j ≤ min k (j + 1)))
          (e - Finsupp.single ("d" ++ t) 1) (by omega)
        rw [← k4, coeff_pderiv, sub_single_add h0]
        have h7 : (((e - Finsupp.single ("d" ++ t) 1 : String →₀ ℕ) ("d" ++ t) : ℕ) : ℝ) + 1 = (e ("d" ++ t) : ℝ) := by
          have : (e - Finsupp.single ("d" ++ t) 1 : String →₀ ℕ) ("d" ++ t) + 1 = e ("d" ++ t) := by simp; omega
          exact_mod_cast this
        rw [h7, mul_div_cancel_right₀]
        exact_mod_cast h0
    · rw [h5 s hy]
      exact other_taylor hs hy i _

/-- The expansion of a function that does not depend on a variable. -/
theorem coeff_eq_zero_of_indep {σ : Type*} [DecidableEq σ] {a : σ → ℝ} {n : ℕ} {F : (σ → ℝ) → ℝ} {R : MvPolynomial σ ℝ} (h : IsTaylor a n F R) {u : σ}
    (hF : ∀ x v, F (Function.update x u v) = F x) {e : σ →₀ ℕ} (he : e.degree ≤ n) (hu : e u ≠ 0) : coeff e R = 0 := by
  have hdeg := degree_sub_single hu
  obtain ⟨j, rfl⟩ : ∃ j, n = j + 1 := ⟨n - 1, by omega⟩
  obtain ⟨F', h1, h2⟩ := h.2.2 u
  have h3 : IsTaylor a j (fun _ => (0 : ℝ)) (pderiv u R) := by
    refine h2.congr_fun ?_
    filter_upwards [h1] with x hx
    refine HasDerivAt.unique hx ?_
    simp only [hF]
    exact hasDerivAt_const _ _
  have h4 := h3.unique (IsTaylor.const 0) (e - Finsupp.single u 1) (by omega)
  rw [coeff_pderiv, sub_single_add hu, map_zero, coeff_zero] at h4
  exact (mul_eq_zero.1 h4).resolve_right (by positivity)

/-- Without parameters (all the initial values are constants and `t` is the only variable), the solutions need not be assumed to be smooth. -/
theorem picard_ode (hs : Solves ys rhs t m σ0 φ) (ht : ∃ c, t.toList.head? = some c ∧ c ≠ 'd')
    (hcst : ∀ y ∈ ys, ∀ (i : ι) (e : String →₀ ℕ), e ≠ 0 → coeff e ((σ0 y).toMv i : MvPolynomial String ℝ) = 0)
    (hdep : ∀ (s : String) (i : ι) x x', x ("d" ++ t) = x' ("d" ++ t) → φ i s x = φ i s x')
    (hcont : ∀ y ∈ ys, ∀ i : ι, ContinuousAt (φ i y) 0) (k : ℕ) :
    ∃ σ, Picard ys rhs t σ0 k σ ∧ PicardInv m (min k m) σ0 σ φ ∧ (0 < k → ∀ y ∈ ys, (σ y).order = m) := by
  induction k with
  | zero =>
    refine ⟨σ0, .zero, ?_, fun h => absurd h (lt_irrefl 0)⟩
    rw [Nat.zero_min]
    exact picard_zero hs hcont
  | succ k ih =>
    obtain ⟨σ, h1, inv, -⟩ := ih
    obtain ⟨σ', h2, h3, h4, h5, h6⟩ := picard_step hs ht (min_le_right k m) inv
    refine ⟨σ', .succ h1 h2, ⟨h3, fun s h => h4 s (Or.inl h), fun i s => ?_⟩, fun _ y hy => h4 y (Or.inr hy)⟩
    by_cases hy : s ∈ ys
    · obtain ⟨R, hR, hc⟩ := h6 s hy i
      have hval : φ i s 0 = coeff 0 ((σ' s).toMv i) := by
        rw [hc 0 (by simp), if_pos (by simp)]
        exact ((picard_zero hs hcont).taylor i s).val
      rcases Nat.eq_zero_or_pos m with rfl | hm
      · rw [Nat.min_zero]
        exact ⟨hcont s hy i, hval⟩
      · obtain ⟨j, rfl⟩ : ∃ j, m = j + 1 := ⟨m - 1, by omega⟩
        rw [Nat.add_min_add_right]
        have hle : min k j ≤ min k (j + 1) := by omega
        refine ⟨hcont s hy i, hval, fun u => ?_⟩
        by_cases hu : u = "d" ++ t
        · subst hu
          refine ⟨_, hs.eqn s hy i, (hR.mono hle).congr_poly fun e he => ?_⟩
          have hd : (e + Finsupp.single ("d" ++ t) 1).degree ≤ j + 1 := by
            rw [map_add, Finsupp.degree_single]
            have : min k j ≤ j := min_le_right _ _
            omega
          rw [coeff_pderiv, hc _ hd, if_neg (by simp), add_tsub_cancel_right]
          simp only [Finsupp.add_apply, Finsupp.single_eq_same, Nat.cast_add, Nat.cast_one]
          rw [div_mul_cancel₀]
          positivity
        · refine ⟨fun _ => 0, Eventually.of_forall fun x => ?_, ?_⟩
          · have : (fun v => φ i s (Function.update x u v)) = fun _ => φ i s x := funext fun v => by
              refine hdep s i _ _ ?_
              rw [Function.update_of_ne (Ne.symm hu)]
            unfold HasPartialAt
            rw [this]
            exact hasDerivAt_const _ _
          · have h0 := IsTaylor.const (a := (0 : String → ℝ)) (m := min k j) (0 : ℝ)
            refine h0.congr_poly fun e he => ?_
            have hd : (e + Finsupp.single u 1).degree ≤ j + 1 := by
              rw [map_add, Finsupp.degree_single]
              have : min k j ≤ j := min_le_right _ _
              omega
            rw [map_zero, coeff_zero, coeff_pderiv, hc _ hd]
            split_ifs with h0
            · rw [hcst s hy i _ fun h => by have := DFunLike.congr_fun h u; simp at this, zero_mul]
            · rw [coeff_eq_zero_of_indep (u := u) hR, zero_div, zero_mul]
              · intro x v
                congr 1
                funext s'
                refine hdep s' i _ _ ?_
                rw [Function.update_of_ne (Ne.symm hu)]
              · have := degree_sub_single h0
                rw [map_add, Finsupp.degree_single] at this
                omega
              · have : (Finsupp.single ("d" ++ t) 1 : String →₀ ℕ) u = 0 := Finsupp.single_eq_of_ne hu
                simp [this]
    · rw [h5 s hy]
      exact other_taylor hs hy i _

end Audi
