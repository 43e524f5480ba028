import Verif.Model.TaylorModelFunctions
import Verif.Proofs.TMDivision
import Verif.Proofs.Lagrange
import Verif.Proofs.Lift
import Verif.Proofs.FunctionsTrig
import Verif.Proofs.FunctionsPow

/-!
# Proofs: functions of Taylor models
-/

namespace Audi

open MvPolynomial Spec

namespace Itv

variable {a : Itv ℝ} {x : ℝ}

theorem mem_rexp (h : InItv a x) : InItv a.rexp (Real.exp x) := ⟨Real.exp_le_exp.2 h.1, Real.exp_le_exp.2 h.2⟩

theorem mem_rsinh (h : InItv a x) : InItv a.rsinh (Real.sinh x) := ⟨Real.sinh_le_sinh.2 h.1, Real.sinh_le_sinh.2 h.2⟩

theorem mem_ratan (h : InItv a x) : InItv a.ratan (Real.arctan x) := ⟨Real.arctan_mono h.1, Real.arctan_mono h.2⟩

theorem mem_rcosh (h : InItv a x) : InItv a.rcosh (Real.cosh x) := by
  have h1 := h.1
  have h2 := h.2
  unfold rcosh
  split_ifs with h3 h4
  · exact ⟨Real.cosh_le_cosh.2 (by rw [abs_of_nonneg h3, abs_of_nonneg (h3.trans h1)]; exact h1),
      Real.cosh_le_cosh.2 (by rw [abs_of_nonneg (h3.trans h1), abs_of_nonneg (h3.trans (h1.trans h2))]; exact h2)⟩
  · exact ⟨Real.cosh_le_cosh.2 (by rw [abs_of_nonpos h4, abs_of_nonpos (h2.trans h4)]; exact neg_le_neg h2),
      Real.cosh_le_cosh.2 (by rw [abs_of_nonpos (h2.trans h4), abs_of_nonpos ((h1.trans h2).trans h4)]; exact neg_le_neg h1)⟩
  · refine ⟨Real.one_le_cosh x, ?_⟩
    rcases le_total 0 x with h5 | h5
    · exact (Real.cosh_le_cosh.2 (by rw [abs_of_nonneg h5, abs_of_nonneg (h5.trans h2)]; exact h2)).trans (le_max_right _ _)
    · exact (Real.cosh_le_cosh.2 (by rw [abs_of_nonpos h5, abs_of_nonpos (h1.trans h5)]; exact neg_le_neg h1)).trans (le_max_left _ _)

theorem mem_rsin (h : InItv a x) : InItv a.rsin (Real.sin x) :=
  ⟨csInf_le ⟨-1, by rintro _ ⟨t, -, rfl⟩; exact Real.neg_one_le_sin t⟩ ⟨x, ⟨h.1, h.2⟩, rfl⟩,
    le_csSup ⟨1, by rintro _ ⟨t, -, rfl⟩; exact Real.sin_le_one t⟩ ⟨x, ⟨h.1, h.2⟩, rfl⟩⟩

theorem mem_rcos (h : InItv a x) : InItv a.rcos (Real.cos x) :=
  ⟨csInf_le ⟨-1, by rintro _ ⟨t, -, rfl⟩; exact Real.neg_one_le_cos t⟩ ⟨x, ⟨h.1, h.2⟩, rfl⟩,
    le_csSup ⟨1, by rintro _ ⟨t, -, rfl⟩; exact Real.cos_le_one t⟩ ⟨x, ⟨h.1, h.2⟩, rfl⟩⟩

theorem mem_rsqrt (h : InItv a x) (h0 : 0 ≤ x) : ∃ r, a.rsqrt = .ok r ∧ InItv r (√x) := by
  refine ⟨⟨√a.lo, √a.hi⟩, ?_, Real.sqrt_le_sqrt h.1, Real.sqrt_le_sqrt h.2⟩
  unfold rsqrt
  rw [if_neg (not_lt.2 (h0.trans h.2))]

end Itv

/-! ### The polynomial part -/

namespace GDual

theorem lift_closed {d r : GDual ℝ} {g : ℝ → ℝ} {b : ℕ → ℝ} (h : IsLift (fun _ : Unit => g) d r)
    (hg : IsTaylor₁ (coeff 0 (d.toMv () : MvPolynomial String ℝ)) d.order g b) :
    EqUpTo d.order (r.toMv () : MvPolynomial String ℝ) (compPoly d.order b (d.toMv ())) := by
  have h1 : IsTaylor (fun _ => 0) d.order (fun v => eval v (d.toMv () : MvPolynomial String ℝ)) (d.toMv ()) := by
    simpa using isTaylor_poly (fun _ => 0) d.order (d.toMv () : MvPolynomial String ℝ)
  have h2 := h.taylor () _ _ h1
  refine h2.unique (IsTaylor.comp h1 ?_)
  have : eval (fun _ : String => (0 : ℝ)) (d.toMv () : MvPolynomial String ℝ) = coeff 0 (d.toMv () : MvPolynomial String ℝ) := by
    change eval 0 (d.toMv () : MvPolynomial String ℝ) = _
    rw [eval_zero, constantCoeff_eq]
  rw [this]
  exact hg

/-- The lift of a function to a polynomial of degree at most 1, in closed form. -/
theorem lift_linear {d r : GDual ℝ} {g : ℝ → ℝ} {b : ℕ → ℝ} (h : IsLift (fun _ : Unit => g) d r)
    (hg : IsTaylor₁ (coeff 0 (d.toMv () : MvPolynomial String ℝ)) d.order g b)
    (hlin : DegLE 1 (d.toMv () : MvPolynomial String ℝ)) :
    (r.toMv () : MvPolynomial String ℝ) = ∑ i ∈ Finset.range (d.order + 1),
      C (b i) * (d.toMv () - C (coeff 0 (d.toMv () : MvPolynomial String ℝ))) ^ i := by
  refine (lift_closed h hg).eq_of_degLE (h.order ▸ h.valid.degLE (ι := Unit) (K := ℝ) ()) ?_
  refine TM.degLE_sum fun i hi => TM.degLE_C_mul' (TM.degLE_mono (TM.degLE_pow ?_ i) (by simpa [Nat.lt_succ_iff] using hi)) _
  intro e he
  rw [coeff_sub, hlin e he, coeff_C, if_neg, sub_zero]
  rintro rfl
  simp at he

end GDual

namespace TM

variable {a : TM ℝ} {ord : List String → List String}

/-- What the functions compute first. -/
theorem prologue_ok (ha : a.WF) (h62 : a.order ≤ 62) (ho : ord (a.tpol.p.syms.map varName) = a.tpol.p.syms.map varName) :
    ∃ c B b, prologue ord a = .ok (c, B, a.order) ∧ a.tpol.constantCf = .ok c ∧ coeff 0 (a.tpol.toMv () : MvPolynomial String ℝ) = c ∧
      a.bounds ord = .ok b ∧ B.lo ≤ B.hi ∧ (InItv a.rem 0 → InItv B 0) ∧
      (∀ x, a.InDom x → ∀ y, a.Allows x y → InItv B (y - c) ∧ InItv (b.add a.rem) y) ∧
      (DegLE 1 (a.tpol.toMv () : MvPolynomial String ℝ) →
        (∀ t, t = B.lo ∨ t = B.hi → ∃ x y, a.InDom x ∧ a.Allows x y ∧ y = c + t) ∧
        (∀ t, t = (b.add a.rem).lo ∨ t = (b.add a.rem).hi → ∃ x y, a.InDom x ∧ a.Allows x y ∧ y = t)) := by
  obtain ⟨c, B, h1, h2, h3, h4, h5, h6⟩ := setup ha h62 ho
  obtain ⟨b, hb1, hb2, hb3⟩ := bounds_encloses ha h62 ho
  refine ⟨c, B.add a.rem, b, ?_, h1, h2, hb1, ?_, ?_, fun x hx y hy => ⟨?_, ?_⟩, fun hlin => ⟨fun t ht => ?_, fun t ht => ?_⟩⟩
  · unfold prologue
    rw [bind_ok h1, bind_ok h3, ha.order]
    rfl
  · exact Itv.lo_le_hi_add (h4.1.trans h4.2) ha.rem
  · intro h0
    have := Itv.mem_add h4 h0
    rwa [add_zero] at this
  · have := Itv.mem_add (h5 x hx) hy
    rwa [show a.polyAt x - c + (y - a.polyAt x) = y - c by ring] at this
  · have := Itv.mem_add (hb3 x hx) hy
    rwa [show a.polyAt x + (y - a.polyAt x) = y by ring] at this
  · have key : ∀ t s, (t = B.lo ∨ t = B.hi) → InItv a.rem s → ∃ x y, a.InDom x ∧ a.Allows x y ∧ y = c + (t + s) := by
      intro t s ht hs
      obtain ⟨x, e1, e2⟩ := h6 hlin t ht
      refine ⟨x, a.polyAt x + s, e1, ?_, by rw [e2]; ring⟩
      unfold Allows
      rwa [add_sub_cancel_left]
    rcases ht with rfl | rfl
    · exact key B.lo a.rem.lo (.inl rfl) ⟨le_rfl, ha.rem⟩
    · exact key B.hi a.rem.hi (.inr rfl) ⟨ha.rem, le_rfl⟩
  · have hba := getBounds_attained ha.valid ha.names (terms_lin ha.valid hlin) (fun v hv => by
      obtain ⟨I, x, e1, e2, e3⟩ := ha.lookup hv
      exact ⟨I, x, e1, e2, e3.1.trans e3.2⟩) ho hb1
    have key : ∀ t s, (t = b.lo ∨ t = b.hi) → InItv a.rem s → ∃ x y, a.InDom x ∧ a.Allows x y ∧ y = t + s := by
      intro t s ht hs
      obtain ⟨x, e1, e2⟩ := hba t ht
      refine ⟨x, a.polyAt x + s, (inDom_iff ha x).2 e1, ?_, by rw [← e2]; rfl⟩
      unfold Allows
      rwa [add_sub_cancel_left]
    rcases ht with rfl | rfl
    · exact key b.lo a.rem.lo (.inl rfl) ⟨le_rfl, ha.rem⟩
    · exact key b.hi a.rem.hi (.inr rfl) ⟨ha.rem, le_rfl⟩

/-- Values of the polynomial of the lift: the polynomial has degree at most 1 and the remainder is zero, or the order is 0. -/
theorem lift_value (ha : a.WF) (hlin : DegLE 1 (a.tpol.toMv () : MvPolynomial String ℝ)) (hsimple : a.rem = ⟨0, 0⟩ ∨ a.order = 0)
    {g : ℝ → ℝ} {b : ℕ → ℝ} {p : GDual ℝ} (h : IsLift (fun _ : Unit => g) a.tpol p) {c : ℝ}
    (hc : coeff 0 (a.tpol.toMv () : MvPolynomial String ℝ) = c) (hg : IsTaylor₁ c a.order g b) {x : String → ℝ} {y : ℝ}
    (hy : a.Allows x y) {exp : VMap ℝ} (he : ∀ s ∈ a.tpol.p.syms, displacement exp x s = displacement a.exp x s)
    (hs : p.p.syms = a.tpol.p.syms) :
    eval (displacement exp x) (p.toMv ()) = ∑ i ∈ Finset.range (a.order + 1), b i * (y - c) ^ i := by
  rw [eval_congr h.valid (fun s hs' => he s (by rw [← hs]; exact hs')), GDual.lift_linear h (by rw [hc, ← ha.order]; exact hg) hlin,
    map_sum, ha.order]
  refine Finset.sum_congr rfl fun i hi => ?_
  rw [map_mul, map_pow, map_sub, eval_C, eval_C, hc]
  change b i * (a.polyAt x - c) ^ i = _
  rcases hsimple with h0 | h0
  · unfold Allows at hy
    rw [h0] at hy
    rw [sub_eq_zero.1 (le_antisymm hy.2 hy.1)]
  · rw [← ha.order, h0, zero_add, Finset.mem_range, Nat.lt_one_iff] at hi
    rw [hi, pow_zero, pow_zero]

/-- The difference between the value of the function and the value of the lift, for a remainder that contains the Lagrange remainders. -/
theorem func_allows {S : Set ℝ} {G : ℕ → ℝ → ℝ} (hG : Derivs S G) (hSo : IsOpen S) (hSc : S.OrdConnected) (ha : a.WF)
    (hlin : DegLE 1 (a.tpol.toMv () : MvPolynomial String ℝ)) (hsimple : a.rem = ⟨0, 0⟩ ∨ a.order = 0) {c : ℝ}
    (hc : coeff 0 (a.tpol.toMv () : MvPolynomial String ℝ) = c) (hcS : c ∈ S) (hin : ∀ x, a.InDom x → ∀ y, a.Allows x y → y ∈ S)
    {p : GDual ℝ} (hl : IsLift (fun _ : Unit => G 0) a.tpol p) (hs : p.p.syms = a.tpol.p.syms) {J : Itv ℝ}
    (hJ : ∀ x, a.InDom x → ∀ y, a.Allows x y → ∀ θ : ℝ, 0 ≤ θ → θ ≤ 1 →
      InItv J (G (a.order + 1) (c + θ * (y - c)) / (a.order + 1).factorial * (y - c) ^ (a.order + 1))) {exp : VMap ℝ}
    {x : String → ℝ} (he : ∀ s ∈ a.tpol.p.syms, displacement exp x s = displacement a.exp x s) {y : ℝ} (hx : a.InDom x) (hy : a.Allows x y) :
    InItv J (G 0 y - eval (displacement exp x) (p.toMv ())) := by
  rw [lift_value ha hlin hsimple hl hc (hG.isTaylor₁ hSo hcS a.order) hy he hs]
  obtain ⟨θ, h0, h1, h2⟩ := hG.lagrange hSc hcS (hin x hx y hy) a.order
  rw [h2]
  exact hJ x hx y hy θ h0 h1

theorem lo_le_hi_of_values (ha : a.WF) {J : Itv ℝ} {f : ℝ → ℝ} (hJ : ∀ x, a.InDom x → ∀ y, a.Allows x y → InItv J (f y)) : J.lo ≤ J.hi := by
  have := hJ _ (expPoint_inDom ha) (a.polyAt a.expPoint + a.rem.lo) (by unfold Allows; rw [add_sub_cancel_left]; exact ⟨le_rfl, ha.rem⟩)
  exact this.1.trans this.2

/-- Soundness of a function whose remainder contains the Lagrange remainders. -/
theorem func_sound {S : Set ℝ} {G : ℕ → ℝ → ℝ} (hG : Derivs S G) (hSo : IsOpen S) (hSc : S.OrdConnected) (ha : a.WF)
    (hlin : DegLE 1 (a.tpol.toMv () : MvPolynomial String ℝ)) (hsimple : a.rem = ⟨0, 0⟩ ∨ a.order = 0) {c : ℝ}
    (hc : coeff 0 (a.tpol.toMv () : MvPolynomial String ℝ) = c) (hcS : c ∈ S) (hin : ∀ x, a.InDom x → ∀ y, a.Allows x y → y ∈ S)
    {p : GDual ℝ} (hl : IsLift (fun _ : Unit => G 0) a.tpol p) (hs : p.p.syms = a.tpol.p.syms) {J : Itv ℝ}
    (hJ : ∀ x, a.InDom x → ∀ y, a.Allows x y → ∀ θ : ℝ, 0 ≤ θ → θ ≤ 1 →
      InItv J (G (a.order + 1) (c + θ * (y - c)) / (a.order + 1).factorial * (y - c) ^ (a.order + 1))) :
    Sound₁ a (make p J a.exp a.dom) fun y z => z = G 0 y := by
  obtain ⟨r, r1, r2, r3, r4, r5, r6, r7⟩ := remake ha hl.valid hs (lo_le_hi_of_values ha fun x hx y hy => hJ x hx y hy 0 le_rfl zero_le_one)
  refine ⟨r, r1, r2, by rw [r3, hl.order, ha.order], inDom_congr r7, fun x hx y z hy hz => ?_⟩
  have hz' : z = G 0 y := hz
  unfold Allows polyAt
  rw [r4, r5, r6, hz']
  exact func_allows hG hSo hSc ha hlin hsimple hc hcS hin hl hs hJ (fun _ _ => rfl) hx hy

/-! ### Sequences of derivatives -/

theorem derivs_exp : Derivs Set.univ fun _ => Real.exp := fun _ t _ => Real.hasDerivAt_exp t

theorem derivs_sin : Derivs Set.univ fun j t => Real.sin (t + j * (Real.pi / 2)) := fun j t _ => by
  have := ((Real.hasDerivAt_sin (t + j * (Real.pi / 2))).comp t ((hasDerivAt_id t).add_const _))
  refine this.congr_deriv ?_
  push_cast
  rw [mul_one, ← Real.sin_add_pi_div_two]
  congr 1
  ring

theorem derivs_cos : Derivs Set.univ fun j t => Real.cos (t + j * (Real.pi / 2)) := fun j t _ => by
  have := ((Real.hasDerivAt_cos (t + j * (Real.pi / 2))).comp t ((hasDerivAt_id t).add_const _))
  refine this.congr_deriv ?_
  push_cast
  rw [mul_one, ← Real.cos_add_pi_div_two]
  congr 1
  ring

theorem derivs_sinh : Derivs Set.univ fun j => if j % 2 = 0 then Real.sinh else Real.cosh := fun j t _ => by
  rcases Nat.mod_two_eq_zero_or_one j with h | h
  · have h' : (j + 1) % 2 = 1 := by omega
    simp only [h, h', if_true, one_ne_zero, if_false]
    exact Real.hasDerivAt_sinh t
  · have h' : (j + 1) % 2 = 0 := by omega
    simp only [h, h', if_true, one_ne_zero, if_false]
    exact Real.hasDerivAt_cosh t

theorem derivs_cosh : Derivs Set.univ fun j => if j % 2 = 0 then Real.cosh else Real.sinh := fun j t _ => by
  rcases Nat.mod_two_eq_zero_or_one j with h | h
  · have h' : (j + 1) % 2 = 1 := by omega
    simp only [h, h', if_true, one_ne_zero, if_false]
    exact Real.hasDerivAt_cosh t
  · have h' : (j + 1) % 2 = 0 := by omega
    simp only [h, h', if_true, one_ne_zero, if_false]
    exact Real.hasDerivAt_sinh t

theorem sin_shift (k : ℕ) (t : ℝ) {A : Itv ℝ} (h : InItv A t) : InItv (sinCond k A) (Real.sin (t + (k + 1 : ℕ) * (Real.pi / 2))) := by
  have hk : k = 4 * (k / 4) + k % 4 := (Nat.div_add_mod k 4).symm
  have h4 : k % 4 < 4 := Nat.mod_lt _ (by norm_num)
  have e : ∀ r : ℕ, k % 4 = r → t + (k + 1 : ℕ) * (Real.pi / 2) = (t + (r + 1) * (Real.pi / 2)) + (k / 4 : ℕ) * (2 * Real.pi) := by
    intro r hr
    have : (k : ℝ) = 4 * (k / 4 : ℕ) + r := by
      rw [hr] at hk
      exact_mod_cast hk
    push_cast
    rw [this]
    ring
  unfold sinCond
  obtain hr | hr | hr | hr : k % 4 = 0 ∨ k % 4 = 1 ∨ k % 4 = 2 ∨ k % 4 = 3 := by omega
  · rw [e 0 hr, Real.sin_add_nat_mul_two_pi]
    simp only [show k % 2 = 0 by omega, if_true]
    rw [if_neg (by omega)]
    rw [show t + (((0 : ℕ) : ℝ) + 1) * (Real.pi / 2) = t + Real.pi / 2 by push_cast; ring, Real.sin_add_pi_div_two]
    exact Itv.mem_rcos h
  · rw [e 1 hr, Real.sin_add_nat_mul_two_pi]
    simp only [show k % 2 = 1 by omega, one_ne_zero, if_false]
    rw [if_pos (by omega), show t + (((1 : ℕ) : ℝ) + 1) * (Real.pi / 2) = t + Real.pi by push_cast; ring, Real.sin_add_pi]
    exact Itv.mem_neg (Itv.mem_rsin h)
  · rw [e 2 hr, Real.sin_add_nat_mul_two_pi]
    simp only [show k % 2 = 0 by omega, if_true]
    rw [if_pos (by omega), show t + (((2 : ℕ) : ℝ) + 1) * (Real.pi / 2) = (t + Real.pi) + Real.pi / 2 by push_cast; ring,
      Real.sin_add_pi_div_two, Real.cos_add_pi]
    exact Itv.mem_neg (Itv.mem_rcos h)
  · rw [e 3 hr, Real.sin_add_nat_mul_two_pi]
    simp only [show k % 2 = 1 by omega, one_ne_zero, if_false]
    rw [if_neg (by omega), show t + (((3 : ℕ) : ℝ) + 1) * (Real.pi / 2) = t + 2 * Real.pi by push_cast; ring, Real.sin_add_two_pi]
    exact Itv.mem_rsin h

theorem cos_shift (k : ℕ) (t : ℝ) {A : Itv ℝ} (h : InItv A t) : InItv (cosCond k A) (Real.cos (t + (k + 1 : ℕ) * (Real.pi / 2))) := by
  have hk : k = 4 * (k / 4) + k % 4 := (Nat.div_add_mod k 4).symm
  have h4 : k % 4 < 4 := Nat.mod_lt _ (by norm_num)
  have e : ∀ r : ℕ, k % 4 = r → t + (k + 1 : ℕ) * (Real.pi / 2) = (t + (r + 1) * (Real.pi / 2)) + (k / 4 : ℕ) * (2 * Real.pi) := by
    intro r hr
    have : (k : ℝ) = 4 * (k / 4 : ℕ) + r := by
      rw [hr] at hk
      exact_mod_cast hk
    push_cast
    rw [this]
    ring
  unfold cosCond
  obtain hr | hr | hr | hr : k % 4 = 0 ∨ k % 4 = 1 ∨ k % 4 = 2 ∨ k % 4 = 3 := by omega
  · rw [e 0 hr, Real.cos_add_nat_mul_two_pi]
    simp only [show k % 2 = 0 by omega, if_true]
    rw [if_pos (by omega), show t + (((0 : ℕ) : ℝ) + 1) * (Real.pi / 2) = t + Real.pi / 2 by push_cast; ring, Real.cos_add_pi_div_two]
    exact Itv.mem_neg (Itv.mem_rsin h)
  · rw [e 1 hr, Real.cos_add_nat_mul_two_pi]
    simp only [show k % 2 = 1 by omega, one_ne_zero, if_false]
    rw [if_pos (by omega), show t + (((1 : ℕ) : ℝ) + 1) * (Real.pi / 2) = t + Real.pi by push_cast; ring, Real.cos_add_pi]
    exact Itv.mem_neg (Itv.mem_rcos h)
  · rw [e 2 hr, Real.cos_add_nat_mul_two_pi]
    simp only [show k % 2 = 0 by omega, if_true]
    rw [if_neg (by omega), show t + (((2 : ℕ) : ℝ) + 1) * (Real.pi / 2) = (t + Real.pi) + Real.pi / 2 by push_cast; ring,
      Real.cos_add_pi_div_two, Real.sin_add_pi, neg_neg]
    exact Itv.mem_rsin h
  · rw [e 3 hr, Real.cos_add_nat_mul_two_pi]
    simp only [show k % 2 = 1 by omega, one_ne_zero, if_false]
    rw [if_neg (by omega), show t + (((3 : ℕ) : ℝ) + 1) * (Real.pi / 2) = t + 2 * Real.pi by push_cast; ring, Real.cos_add_two_pi]
    exact Itv.mem_rcos h

theorem sinh_shift (k : ℕ) (t : ℝ) {A : Itv ℝ} (h : InItv A t) :
    InItv (sinhCond k A) ((if (k + 1) % 2 = 0 then Real.sinh else Real.cosh) t) := by
  unfold sinhCond
  rcases Nat.mod_two_eq_zero_or_one k with hk | hk
  · rw [if_pos hk, if_neg (by omega)]
    exact Itv.mem_rcosh h
  · rw [if_neg (by omega), if_pos (by omega)]
    exact Itv.mem_rsinh h

theorem cosh_shift (k : ℕ) (t : ℝ) {A : Itv ℝ} (h : InItv A t) :
    InItv (coshCond k A) ((if (k + 1) % 2 = 0 then Real.cosh else Real.sinh) t) := by
  unfold coshCond
  rcases Nat.mod_two_eq_zero_or_one k with hk | hk
  · rw [if_pos hk, if_neg (by omega)]
    exact Itv.mem_rsinh h
  · rw [if_neg (by omega), if_pos (by omega)]
    exact Itv.mem_rcosh h

theorem factorial_ok {n : ℕ} (h : n ≤ 170) : factorial n = .ok (n.factorial : ℝ) := if_pos h

theorem mem_theta {c u θ : ℝ} {B : Itv ℝ} (hu : InItv B u) (h0 : 0 ≤ θ) (h1 : θ ≤ 1) : InItv (thetaArg c B) (c + θ * u) := by
  rw [mul_comm]
  exact Itv.mem_add (Itv.mem_point c) (Itv.mem_mul hu ⟨h0, h1⟩)

/-! ### Soundness -/

section
variable (ha : a.WF) (h62 : a.order ≤ 62) (ho : ord (a.tpol.p.syms.map varName) = a.tpol.p.syms.map varName)
  (hlin : DegLE 1 (a.tpol.toMv () : MvPolynomial String ℝ)) (hsimple : a.rem = ⟨0, 0⟩ ∨ a.order = 0)
include ha h62 ho hlin hsimple

theorem rexp_sound : Sound₁ a (rexp ord a) fun y z => z = Real.exp y := by
  obtain ⟨c, B, b, h1, -, h3, -, -, -, h7, -⟩ := prologue_ok ha h62 ho
  obtain ⟨p, p1, p2⟩ := (GDual.computes_exp (C := ℝ) (ι := Unit)).lift a.tpol ha.valid fun _ => trivial
  have hs : p.p.syms = a.tpol.p.syms := GDual.HasSyms.exp ha.valid.wf.sorted (d := a.tpol) rfl p1
  unfold rexp
  rw [bind_ok h1]
  simp only
  rw [bind_ok (factorial_ok (by omega : a.order + 1 ≤ 170)), bind_ok p1]
  refine func_sound derivs_exp isOpen_univ Set.ordConnected_univ ha hlin hsimple h3 trivial (fun _ _ _ _ => trivial) p2 hs ?_
  intro x hx y hy θ h0 h1'
  have hu := (h7 x hx y hy).1
  have := Itv.mem_mul (Itv.mem_mul (Itv.mem_point (Real.exp c * (1 / (a.order + 1).factorial))) (Itv.mem_pow hu (a.order + 1)))
    (Itv.mem_rexp (Itv.mem_mul hu (show InItv (⟨0, 1⟩ : Itv ℝ) θ from ⟨h0, h1'⟩)))
  rw [show Real.exp (c + θ * (y - c)) / (a.order + 1).factorial * (y - c) ^ (a.order + 1) =
      Real.exp c * (1 / (a.order + 1).factorial) * (y - c) ^ (a.order + 1) * Real.exp ((y - c) * θ) by
    rw [Real.exp_add, mul_comm θ]; ring]
  exact this

theorem trig_sound {fn : GDual ℝ → Res (GDual ℝ)} {cond : ℕ → Itv ℝ → Itv ℝ} {G : ℕ → ℝ → ℝ} (hG : Derivs Set.univ G)
    (hfn : Computes (C := ℝ) (ι := Unit) fn (G 0) fun _ => True) (hsy : ∀ d r : GDual ℝ, d.p.syms.Pairwise (· < ·) → fn d = .ok r → r.p.syms = d.p.syms)
    (hcond : ∀ (k : ℕ) (t : ℝ) {A : Itv ℝ}, InItv A t → InItv (cond k A) (G (k + 1) t)) :
    Sound₁ a (trig fn cond ord a) fun y z => z = G 0 y := by
  obtain ⟨c, B, b, h1, -, h3, -, -, -, h7, -⟩ := prologue_ok ha h62 ho
  obtain ⟨p, p1, p2⟩ := hfn.lift a.tpol ha.valid fun _ => trivial
  unfold trig
  rw [bind_ok h1]
  simp only
  rw [bind_ok (factorial_ok (by omega : a.order + 1 ≤ 170)), bind_ok p1]
  refine func_sound hG isOpen_univ Set.ordConnected_univ ha hlin hsimple h3 trivial (fun _ _ _ _ => trivial) p2
    (hsy _ _ ha.valid.wf.sorted p1) ?_
  intro x hx y hy θ h0 h1'
  have hu := (h7 x hx y hy).1
  have := Itv.mem_mul (Itv.mem_mul (Itv.mem_point (1 / ((a.order + 1).factorial : ℝ))) (hcond a.order _ (mem_theta (c := c) hu h0 h1')))
    (Itv.mem_pow hu (a.order + 1))
  unfold trigRem
  rw [show G (a.order + 1) (c + θ * (y - c)) / (a.order + 1).factorial * (y - c) ^ (a.order + 1) =
      1 / ((a.order + 1).factorial : ℝ) * G (a.order + 1) (c + θ * (y - c)) * (y - c) ^ (a.order + 1) by ring]
  exact this

theorem rsin_sound : Sound₁ a (rsin ord a) fun y z => z = Real.sin y := by
  unfold rsin
  have := trig_sound ha h62 ho hlin hsimple derivs_sin (fn := GDual.sin) (by simpa using GDual.computes_sin)
    (fun d r hd h => GDual.HasSyms.sin hd (d := d) rfl h) sin_shift
  simpa using this

theorem rcos_sound : Sound₁ a (rcos ord a) fun y z => z = Real.cos y := by
  unfold rcos
  have := trig_sound ha h62 ho hlin hsimple derivs_cos (fn := GDual.cos) (by simpa using GDual.computes_cos)
    (fun d r hd h => GDual.HasSyms.cos hd (d := d) rfl h) cos_shift
  simpa using this

theorem rsinh_sound : Sound₁ a (rsinh ord a) fun y z => z = Real.sinh y := by
  unfold rsinh
  have := trig_sound ha h62 ho hlin hsimple derivs_sinh (fn := GDual.sinh) (by simpa using GDual.computes_sinh)
    (fun d r hd h => GDual.HasSyms.sinh hd (d := d) rfl h) sinh_shift
  simpa using this

theorem rcosh_sound : Sound₁ a (rcosh ord a) fun y z => z = Real.cosh y := by
  unfold rcosh
  have := trig_sound ha h62 ho hlin hsimple derivs_cosh (fn := GDual.cosh) (by simpa using GDual.computes_cosh)
    (fun d r hd h => GDual.HasSyms.cosh hd (d := d) rfl h) cosh_shift
  simpa using this

end
end TM
end Audi
