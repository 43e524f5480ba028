import Verif.Proofs.FunctionsTrig

/-! Combining lifts: arithmetic and composition of gdual functions of one argument. -/

set_option linter.unusedSectionVars false

namespace Audi

open MvPolynomial Spec Topology Filter

variable {C : Type} [CfFun C] {ι : Type} {𝕜 : Type} [NontriviallyNormedField 𝕜] [CharZero 𝕜] [Lanes C ι 𝕜] {d r s : GDual C} {g h : ι → 𝕜 → 𝕜}

theorem GDual.lane_one (i : ι) : (Lanes.lane i (Cf.ofRat 1 : C) : 𝕜) = 1 := by rw [Lanes.lane_ofRat]; norm_num

namespace IsLift

theorem id (hd : d.Valid) : IsLift (fun (_ : ι) x => x) d d := ⟨hd, rfl, fun _ _ _ h => h⟩

theorem comp (h1 : IsLift g d r) (h2 : IsLift h r s) : IsLift (fun i x => h i (g i x)) d s :=
  ⟨h2.valid, h2.order.trans h1.order, fun i F a hF => by
    have := h2.taylor i _ a (by rw [h1.order]; exact h1.taylor i F a hF)
    rwa [h1.order] at this⟩

theorem add (h1 : IsLift g d r) (h2 : IsLift h d s) : IsLift (fun i x => g i x + h i x) d (r.add s) :=
  ⟨h1.valid.add h2.valid, by change max _ _ = _; rw [h1.order, h2.order, max_self], fun i F a hF => by
    rw [GDual.toMv_add h1.valid h2.valid]; exact (h1.taylor i F a hF).add (h2.taylor i F a hF)⟩

theorem sub (h1 : IsLift g d r) (h2 : IsLift h d s) : IsLift (fun i x => g i x - h i x) d (r.sub s) :=
  ⟨h1.valid.sub h2.valid, by change max _ _ = _; rw [h1.order, h2.order, max_self], fun i F a hF => by
    rw [GDual.toMv_sub h1.valid h2.valid]; exact (h1.taylor i F a hF).sub (h2.taylor i F a hF)⟩

theorem neg (h1 : IsLift g d r) : IsLift (fun i x => - g i x) d r.neg :=
  ⟨h1.valid.neg, h1.order, fun i F a hF => by
    rw [GDual.toMv_neg]; exact (h1.taylor i F a hF).neg⟩

theorem mul (h1 : IsLift g d r) (h2 : IsLift h d s) : IsLift (fun i x => g i x * h i x) d (r.mul s) := by
  have e1 : GDual.Rep d.order r (fun i : ι => (r.toMv i : MvPolynomial String 𝕜)) := ⟨h1.valid, h1.order.le, fun _ => EqUpTo.refl _⟩
  have e2 : GDual.Rep d.order s (fun i : ι => (s.toMv i : MvPolynomial String 𝕜)) := ⟨h2.valid, h2.order.le, fun _ => EqUpTo.refl _⟩
  have e3 := e1.mul e2 (Or.inl h1.order)
  exact ⟨e3.valid, e1.order_mul e2 (Or.inl h1.order), fun i F a hF =>
    ((h1.taylor i F a hF).mul (h2.taylor i F a hF)).congr_poly (e3.eq i).symm⟩

theorem addSG (c : C) (h1 : IsLift g d r) : IsLift (fun i x => Lanes.lane i c + g i x) d (r.addSG c) :=
  ⟨h1.valid.addSG c, h1.order, fun i F a hF => by
    rw [GDual.toMv_addSG c h1.valid]; exact (IsTaylor.const _).add (h1.taylor i F a hF)⟩

theorem addGS (c : C) (h1 : IsLift g d r) : IsLift (fun i x => g i x + Lanes.lane i c) d (r.addGS c) :=
  ⟨h1.valid.addGS c, h1.order, fun i F a hF => by
    rw [GDual.toMv_addGS c h1.valid]; exact (h1.taylor i F a hF).add (IsTaylor.const _)⟩

theorem subSG (c : C) (h1 : IsLift g d r) : IsLift (fun i x => Lanes.lane i c - g i x) d (r.subSG c) :=
  ⟨h1.valid.subSG c, h1.order, fun i F a hF => by
    rw [GDual.toMv_subSG c h1.valid]; exact (IsTaylor.const _).sub (h1.taylor i F a hF)⟩

theorem subGS (c : C) (h1 : IsLift g d r) : IsLift (fun i x => g i x - Lanes.lane i c) d (r.subGS c) :=
  ⟨h1.valid.subGS c, h1.order, fun i F a hF => by
    rw [GDual.toMv_subGS c h1.valid]; exact (h1.taylor i F a hF).sub (IsTaylor.const _)⟩

theorem mulSG (c : C) (h1 : IsLift g d r) : IsLift (fun i x => Lanes.lane i c * g i x) d (r.mulSG c) :=
  ⟨h1.valid.mulSG c, by rw [GDual.order_mulSG, h1.order], fun i F a hF => by
    rw [GDual.toMv_mulSG c h1.valid]; exact (h1.taylor i F a hF).const_mul _⟩

theorem mulGS (c : C) (h1 : IsLift g d r) : IsLift (fun i x => g i x * Lanes.lane i c) d (r.mulGS c) :=
  ⟨h1.valid.mulGS c, by rw [GDual.order_mulGS, h1.order], fun i F a hF => by
    rw [GDual.toMv_mulGS c h1.valid]; exact (h1.taylor i F a hF).mul (IsTaylor.const _)⟩

/-- Only the behaviour near the constant part matters. -/
theorem congr (h1 : IsLift g d r) (he : ∀ i : ι, g i =ᶠ[𝓝 (coeff 0 (d.toMv i))] h i) : IsLift h d r :=
  ⟨h1.valid, h1.order, fun i F a hF => (h1.taylor i F a hF).congr_fun (by
    have := hF.cont
    rw [ContinuousAt, hF.val] at this
    exact this.eventually (he i))⟩

theorem congr' (h1 : IsLift g d r) (he : ∀ (i : ι) x, g i x = h i x) : IsLift h d r :=
  h1.congr fun i => Eventually.of_forall (he i)

theorem div (h1 : IsLift g d r) (h2 : IsLift h d s) (h0 : ∀ i : ι, h i (coeff 0 (d.toMv i)) ≠ 0) :
    ∃ q, r.div s = .ok q ∧ IsLift (fun i x => g i x / h i x) d q := by
  have e1 : GDual.Rep d.order r (fun i : ι => (r.toMv i : MvPolynomial String 𝕜)) := ⟨h1.valid, h1.order.le, fun _ => EqUpTo.refl _⟩
  have e2 : GDual.Rep d.order s (fun i : ι => (s.toMv i : MvPolynomial String 𝕜)) := ⟨h2.valid, h2.order.le, fun _ => EqUpTo.refl _⟩
  have h0' : ∀ i : ι, coeff 0 (s.toMv i : MvPolynomial String 𝕜) ≠ 0 := fun i => by rw [h2.coeff_zero]; exact h0 i
  obtain ⟨q, hq, hqo, R, hR, hRQ⟩ := GDual.div_rep e1 e2 h2.order h0'
  exact ⟨q, hq, hR.valid, hqo, fun i F a hF =>
    ((h1.taylor i F a hF).div_of_mul (h2.taylor i F a hF) (h0' i) (hRQ i)).congr_poly (hR.eq i).symm⟩

theorem divGS {c : C} (h1 : IsLift g d r) (h0 : ∀ i : ι, (Lanes.lane i c : 𝕜) ≠ 0) :
    ∃ q, r.divGS c = .ok q ∧ IsLift (fun i x => g i x / Lanes.lane i c) d q := by
  refine ⟨_, GDual.divGS_eq ((Lanes.isUnit_iff (ι := ι) (K := 𝕜) c).mpr h0), h1.valid.mulGS _, by rw [GDual.order_mulGS, h1.order],
    fun i F a hF => ?_⟩
  rw [GDual.toMv_mulGS_div c h1.valid]
  simpa only [div_eq_mul_inv] using (h1.taylor i F a hF).mul (IsTaylor.const (Lanes.lane i c)⁻¹)

/-- `s / d` for a scalar `s`. -/
theorem divSG (c : C) (h1 : IsLift g d r) (h0 : ∀ i : ι, g i (coeff 0 (d.toMv i)) ≠ 0) :
    ∃ q, GDual.divSG c r = .ok q ∧ IsLift (fun i x => Lanes.lane i c / g i x) d q := by
  have h0' : ∀ i : ι, coeff 0 (r.toMv i : MvPolynomial String 𝕜) ≠ 0 := fun i => by rw [h1.coeff_zero]; exact h0 i
  obtain ⟨q, hq, hqv, hqo, hI⟩ := GDual.divSG_spec c h1.valid h0'
  refine ⟨q, hq, hqv, by rw [hqo, h1.order], fun i F a hF => ?_⟩
  obtain ⟨I, hI1, hI2⟩ := hI i
  rw [h1.order] at hI1 hI2
  refine (IsTaylor.div_of_mul (IsTaylor.const (Lanes.lane i c)) (h1.taylor i F a hF) (h0' i) (R := MvPolynomial.C (Lanes.lane i c) * I) ?_).congr_poly hI2.symm
  have := (EqUpTo.refl (m := d.order) (MvPolynomial.C (Lanes.lane i c : 𝕜))).mul hI1
  rwa [mul_one, ← mul_assoc] at this

/-- Two lifts of functions that agree near the constant part are equal gduals. -/
theorem toMv_eq (h1 : IsLift g d r) (h2 : IsLift h d s)
    (he : ∀ i : ι, g i =ᶠ[𝓝 (coeff 0 (d.toMv i))] h i) (i : ι) : (r.toMv i : MvPolynomial String 𝕜) = s.toMv i := by
  have hF := isTaylor_poly (fun _ => 0) d.order (d.toMv i : MvPolynomial String 𝕜)
  have hu := ((h1.congr he).taylor i _ _ hF).unique (h2.taylor i _ _ hF)
  have d1 := h1.order ▸ h1.valid.degLE (K := 𝕜) i
  have d2 := h2.order ▸ h2.valid.degLE (K := 𝕜) i
  ext e
  by_cases hle : e.degree ≤ d.order
  · exact hu e hle
  · rw [d1 e (by omega), d2 e (by omega)]

theorem eq (h1 : IsLift g d r) (h2 : IsLift h d s)
    (he : ∀ i : ι, g i =ᶠ[𝓝 (coeff 0 (d.toMv i))] h i) : GDual.eq r s = true := by
  unfold GDual.eq
  rw [Poly.eq_iff (ι := ι) (K := 𝕜) h1.valid.wf h2.valid.wf]
  exact h1.toMv_eq h2 he

end IsLift
end Audi
