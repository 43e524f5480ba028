import Verif.Proofs.LibSmooth
import Verif.Proofs.LibProgram
import Verif.Proofs.Substitution

/-! Substitution in the expansions of expressions with all the functions, and of their partial derivatives. -/

namespace Audi

open MvPolynomial Spec Filter Topology GDual

theorem exists_isTaylor₁ {g : ℝ → ℝ} {c : ℝ} {m : ℕ} (h : ContDiffAt ℝ m g c) : ∃ b, IsTaylor₁ c m g b := by
  induction m generalizing g with
  | zero => exact ⟨fun _ => g c, h.continuousAt, rfl⟩
  | succ m ih =>
    have h' : ContDiffAt ℝ ((m : WithTop ℕ∞) + 1) g c := by exact_mod_cast h
    have hd : ContDiffAt ℝ m (deriv g) c := by
      have h1 := (h'.fderiv_right (m := m) le_rfl).clm_apply (contDiffAt_const (c := (1 : ℝ)))
      exact h1.congr_of_eventuallyEq (Eventually.of_forall fun x => (fderiv_apply_one_eq_deriv).symm)
    obtain ⟨b, hb⟩ := ih hd
    refine ⟨fun n => match n with | 0 => g c | n + 1 => b n / (n + 1 : ℝ), h.continuousAt, rfl, deriv g, ?_, ?_⟩
    · have h1 : ContDiffAt ℝ 1 g c := h.of_le (by exact_mod_cast Nat.succ_le_succ (Nat.zero_le m))
      filter_upwards [h1.eventually (by simp)] with x hx
      exact (hx.differentiableAt (by simp)).hasDerivAt
    · have : (fun n : ℕ => (n + 1 : ℝ) * (b n / (n + 1 : ℝ))) = b := funext fun n => mul_div_cancel₀ _ (by positivity)
      simpa only [this] using hb

theorem LFn.expansion {f : LFn} {c : ℝ} (h : f.Dom c) (m : ℕ) : ∃ b, IsTaylor₁ c m f.real b := exists_isTaylor₁ (LFn.contDiffAt h m)

theorem LFn.expansion_deriv {f : LFn} {c : ℝ} (h : f.Dom c) (m : ℕ) : ∃ b, IsTaylor₁ c m (deriv f.real) b := by
  refine exists_isTaylor₁ ?_
  have h' : ContDiffAt ℝ ((m : WithTop ℕ∞) + 1) f.real c := by exact_mod_cast LFn.contDiffAt h (m + 1)
  have h1 := (h'.fderiv_right (m := m) le_rfl).clm_apply (contDiffAt_const (c := (1 : ℝ)))
  exact h1.congr_of_eventuallyEq (Eventually.of_forall fun x => (fderiv_apply_one_eq_deriv).symm)

theorem LFn.hasDerivAt {f : LFn} {c : ℝ} (h : f.Dom c) : HasDerivAt f.real (deriv f.real c) c :=
  ((LFn.contDiffAt h 1).differentiableAt (by simp)).hasDerivAt

variable {C : Type} [CfFun C] {ι : Type} [Lanes C ι ℝ]

/-- Continuity, and the domain is open. -/
theorem LExpr.continuousAt_dom (i : ι) : ∀ (e : LExpr C) {x : String → ℝ}, e.Dom i x → ContinuousAt (e.sem i) x ∧ ∀ᶠ y in 𝓝 x, e.Dom i y := by
  have hne : ∀ {x : String → ℝ} {F : (String → ℝ) → ℝ} (op : Op), ContinuousAt F x → op.Dom (F x) → ∀ᶠ y in 𝓝 x, op.Dom (F y) := fun op hF h => by
    cases op with
    | div => exact hF.eventually_ne h
    | _ => exact Eventually.of_forall fun _ => trivial
  have hop : ∀ {x : String → ℝ} {F G : (String → ℝ) → ℝ} (op : Op), ContinuousAt F x → ContinuousAt G x → op.Dom (G x) →
      ContinuousAt (fun y => op.real (F y) (G y)) x := fun op hF hG h => by
    cases op with
    | add => exact hF.add hG
    | sub => exact hF.sub hG
    | mul => exact hF.mul hG
    | div => exact hF.div hG h
  intro e
  induction e with
  | var s => exact fun _ => ⟨(continuous_apply s).continuousAt, Eventually.of_forall fun _ => trivial⟩
  | const c => exact fun _ => ⟨continuousAt_const, Eventually.of_forall fun _ => trivial⟩
  | bin op e1 e2 ih1 ih2 =>
    intro x h
    obtain ⟨c1, d1⟩ := ih1 h.1
    obtain ⟨c2, d2⟩ := ih2 h.2.1
    exact ⟨hop op c1 c2 h.2.2, d1.and (d2.and (hne op c2 h.2.2))⟩
  | left op c e ih =>
    intro x h
    obtain ⟨c2, d2⟩ := ih h.1
    exact ⟨hop op continuousAt_const c2 h.2, d2.and (hne op c2 h.2)⟩
  | right op e c ih =>
    intro x h
    obtain ⟨c2, d2⟩ := ih h.1
    exact ⟨hop op c2 continuousAt_const h.2, d2.and (Eventually.of_forall fun _ => h.2)⟩
  | fn f e ih =>
    intro x h
    obtain ⟨c2, d2⟩ := ih h.1
    exact ⟨ContinuousAt.comp (g := f.real) (LFn.hasDerivAt h.2).continuousAt c2, d2.and (c2.eventually (f.isOpen_dom.mem_nhds h.2))⟩
  | pow e1 e2 ih1 ih2 =>
    intro x h
    obtain ⟨c1, d1⟩ := ih1 h.1
    obtain ⟨c2, d2⟩ := ih2 h.2.1
    exact ⟨c1.rpow c2 (Or.inl h.2.2.ne'), d1.and (d2.and (c1.eventually (lt_mem_nhds h.2.2)))⟩

/-- `F'` is the derivative of `F` with respect to `s` in the set `U`, and both have expansions in which functions can be substituted. -/
structure Derives (s : String) (U : (String → ℝ) → Prop) (F F' : (String → ℝ) → ℝ) : Prop where
  diff : ∀ x, U x → HasPartialAt F (F' x) s x
  fn : ∀ v m, U v → ∃ P, Subst v m F P
  der : ∀ v m, U v → ∃ P, Subst v m F' P

section
variable {s : String} {U V W : (String → ℝ) → Prop} {F F' G G' : (String → ℝ) → ℝ}

theorem Derives.mono (h : Derives s U F F') (hV : ∀ x, V x → U x) : Derives s V F F' := ⟨fun x hx => h.diff x (hV x hx), fun v m hv => h.fn v m (hV v hv), fun v m hv => h.der v m (hV v hv)⟩

theorem Derives.const (c : ℝ) : Derives s U (fun _ => c) fun _ => 0 :=
  ⟨fun _ _ => hasDerivAt_const _ _, fun _ _ _ => ⟨_, Subst.const c⟩, fun _ _ _ => ⟨_, Subst.const 0⟩⟩

theorem Derives.op (op : Op) (hF : Derives s U F F') (hG : Derives s U G G') (hd : ∀ x, U x → op.Dom (G x)) : ∃ H, Derives s U (fun x => op.real (F x) (G x)) H := by
  have hop : ∀ v m, U v → ∃ P, Subst v m (fun x => op.real (F x) (G x)) P := fun v m hv => by
    obtain ⟨P, hP⟩ := hF.fn v m hv
    obtain ⟨Q, hQ⟩ := hG.fn v m hv
    exact op.subst hP hQ (hd v hv)
  cases op with
  | add =>
    refine ⟨fun x => F' x + G' x, fun x hx => HasDerivAt.add (hF.diff x hx) (hG.diff x hx), hop, fun v m hv => ?_⟩
    obtain ⟨P, hP⟩ := hF.der v m hv
    obtain ⟨Q, hQ⟩ := hG.der v m hv
    exact ⟨_, hP.add hQ⟩
  | sub =>
    refine ⟨fun x => F' x - G' x, fun x hx => HasDerivAt.sub (hF.diff x hx) (hG.diff x hx), hop, fun v m hv => ?_⟩
    obtain ⟨P, hP⟩ := hF.der v m hv
    obtain ⟨Q, hQ⟩ := hG.der v m hv
    exact ⟨_, hP.sub hQ⟩
  | mul =>
    refine ⟨fun x => F' x * G x + F x * G' x, fun x hx => (HasDerivAt.mul (hF.diff x hx) (hG.diff x hx)).congr_deriv (by rw [Function.update_eq_self]), hop, fun v m hv => ?_⟩
    obtain ⟨P, hP⟩ := hF.der v m hv
    obtain ⟨Q, hQ⟩ := hG.der v m hv
    obtain ⟨P0, hP0⟩ := hF.fn v m hv
    obtain ⟨Q0, hQ0⟩ := hG.fn v m hv
    exact ⟨_, (hP.mul hQ0).add (hP0.mul hQ)⟩
  | div =>
    refine ⟨fun x => (F' x * G x - F x * G' x) / (G x * G x), fun x hx => (HasDerivAt.div (hF.diff x hx) (hG.diff x hx) (by rw [Function.update_eq_self]; exact hd x hx)).congr_deriv
      (by rw [Function.update_eq_self, pow_two]), hop, fun v m hv => ?_⟩
    obtain ⟨P, hP⟩ := hF.der v m hv
    obtain ⟨Q, hQ⟩ := hG.der v m hv
    obtain ⟨P0, hP0⟩ := hF.fn v m hv
    obtain ⟨Q0, hQ0⟩ := hG.fn v m hv
    exact Op.div.subst ((hP.mul hQ0).sub (hP0.mul hQ)) (hQ0.mul hQ0) (mul_ne_zero (hd v hv) (hd v hv))

theorem Derives.comp {g g' : ℝ → ℝ} {D : ℝ → Prop} (hF : Derives s U F F') (hd : ∀ x, U x → D (F x)) (h1 : ∀ c, D c → HasDerivAt g (g' c) c)
    (h2 : ∀ c m, D c → ∃ b, IsTaylor₁ c m g b) (h3 : ∀ c m, D c → ∃ b, IsTaylor₁ c m g' b) : Derives s U (fun x => g (F x)) fun x => g' (F x) * F' x := by
  refine ⟨fun x hx => ?_, fun v m hv => ?_, fun v m hv => ?_⟩
  · have h := h1 _ (hd x hx)
    rw [← Function.update_eq_self s x] at h
    refine (HasDerivAt.comp (x s) h (hF.diff x hx)).congr_deriv ?_
    rw [Function.update_eq_self]
  · obtain ⟨P, hP⟩ := hF.fn v m hv
    obtain ⟨b, hb⟩ := h2 _ m (hd v hv)
    exact ⟨_, hP.comp hb⟩
  · obtain ⟨P, hP⟩ := hF.fn v m hv
    obtain ⟨Q, hQ⟩ := hF.der v m hv
    obtain ⟨b, hb⟩ := h3 _ m (hd v hv)
    exact ⟨_, (hP.comp hb).mul hQ⟩

theorem HasPartialAt.congr_near {x : String → ℝ} {c : ℝ} (h : HasPartialAt F c s x) (hFG : ∀ᶠ y in 𝓝 x, F y = G y) : HasPartialAt G c s x := by
  refine HasDerivAt.congr_of_eventuallyEq h ?_
  filter_upwards [(tendsto_update x s).eventually hFG] with u hu using hu.symm

theorem Derives.congr (hF : Derives s U F F') (h : ∀ x, U x → ∀ᶠ y in 𝓝 x, F y = G y) : Derives s U G F' := by
  refine ⟨fun x hx => HasPartialAt.congr_near (hF.diff x hx) (h x hx), fun v m hv => ?_, hF.der⟩
  obtain ⟨P, hP⟩ := hF.fn v m hv
  exact ⟨P, hP.congr (h v hv)⟩

end

/-- Expressions have partial derivatives in their domain. -/
theorem LExpr.derives (i : ι) (s : String) : ∀ e : LExpr C, ∃ F', Derives s (e.Dom i) (e.sem i) F' := by
  have hexp : ∀ (c : ℝ) (m : ℕ), True → ∃ b, IsTaylor₁ c m Real.exp b := fun c m _ => ⟨_, isTaylor₁_exp⟩
  intro e
  induction e with
  | var t =>
    by_cases h : t = s
    · subst h
      refine ⟨fun _ => 1, fun x _ => ?_, fun _ _ _ => ⟨_, Subst.var t⟩, fun _ _ _ => ⟨_, Subst.const 1⟩⟩
      unfold HasPartialAt
      simpa [LExpr.sem] using hasDerivAt_id' (x t)
    · refine ⟨fun _ => 0, fun x _ => ?_, fun _ _ _ => ⟨_, Subst.var t⟩, fun _ _ _ => ⟨_, Subst.const 0⟩⟩
      unfold HasPartialAt
      simp only [LExpr.sem, Function.update_of_ne h]
      exact hasDerivAt_const _ _
  | const c => exact ⟨_, Derives.const _⟩
  | bin op e1 e2 ih1 ih2 =>
    obtain ⟨_, h1⟩ := ih1
    obtain ⟨_, h2⟩ := ih2
    exact Derives.op op (h1.mono fun x hx => hx.1) (h2.mono fun x hx => hx.2.1) fun x hx => hx.2.2
  | left op c e ih =>
    obtain ⟨_, h⟩ := ih
    exact Derives.op op (Derives.const _) (h.mono fun x hx => hx.1) fun x hx => hx.2
  | right op e c ih =>
    obtain ⟨_, h⟩ := ih
    exact Derives.op op (h.mono fun x hx => hx.1) (Derives.const _) fun x hx => hx.2
  | fn f e ih =>
    obtain ⟨_, h⟩ := ih
    exact ⟨_, Derives.comp (h.mono fun x hx => hx.1) (D := f.Dom) (fun x hx => hx.2) (fun c hc => LFn.hasDerivAt hc) (fun c m hc => LFn.expansion hc m) fun c m hc => LFn.expansion_deriv hc m⟩
  | pow e1 e2 ih1 ih2 =>
    obtain ⟨_, h1⟩ := ih1
    obtain ⟨_, h2⟩ := ih2
    have hl := Derives.comp (U := (LExpr.pow e1 e2).Dom i) (h1.mono fun x hx => hx.1) (g := Real.log) (g' := fun x => x⁻¹) (D := fun x => 0 < x) (fun x hx => hx.2.2)
      (fun c hc => Real.hasDerivAt_log hc.ne') (fun c m hc => ⟨_, isTaylor₁_log hc.ne'⟩) fun c m hc => ⟨_, isTaylor₁_inv hc.ne'⟩
    obtain ⟨_, hm⟩ := Derives.op .mul hl (h2.mono fun x hx => hx.2.1) fun _ _ => trivial
    have he := Derives.comp hm (g := Real.exp) (g' := Real.exp) (D := fun _ => True) (fun _ _ => trivial) (fun c _ => Real.hasDerivAt_exp c) hexp hexp
    refine ⟨_, he.congr fun x hx => ?_⟩
    filter_upwards [(LExpr.continuousAt_dom i e1 hx.1).1.eventually (lt_mem_nhds hx.2.2)] with y hy
    exact (Real.rpow_def_of_pos hy _).symm

theorem LExpr.subst {m : ℕ} (i : ι) {v : String → ℝ} (e : LExpr C) (h : e.Dom i v) : ∃ P, Subst v m (e.sem i) P := by
  obtain ⟨_, hd⟩ := e.derives i ""
  exact hd.fn v m h

end Audi
