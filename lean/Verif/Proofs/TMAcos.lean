import Verif.Proofs.TMAsinOk

/-!
# Proofs: inverse cosine of Taylor models

`acos(tm)` is `π / 2 - asin(tm)`, and a number minus a Taylor model keeps the remainder as it is. So the remainder of the inverse sine has to be
symmetric around 0.
-/

namespace Audi

namespace Itv

/-- The interval is symmetric around 0. -/
def Symm (I : Itv ℝ) : Prop := I.lo = -I.hi

theorem Symm.mul_left {I : Itv ℝ} (h : I.Symm) (J : Itv ℝ) : (I.mul J).Symm := by
  unfold Symm at h ⊢
  simp only [Itv.mul, h]
  rw [← min_neg_neg, ← min_neg_neg, ← min_neg_neg]
  simp only [neg_mul, neg_neg]
  rw [min_comm]

theorem mul_comm' (I J : Itv ℝ) : I.mul J = J.mul I := by
  simp only [Itv.mul, Itv.mk.injEq]
  constructor
  · rw [min_min_min_comm]
    simp only [mul_comm]
  · rw [max_max_max_comm]
    simp only [mul_comm]

theorem Symm.mul_right {I : Itv ℝ} (h : I.Symm) (J : Itv ℝ) : (J.mul I).Symm := by
  rw [mul_comm']
  exact h.mul_left J

theorem Symm.add {I J : Itv ℝ} (h : I.Symm) (h' : J.Symm) : (I.add J).Symm := by
  unfold Symm at *
  simp only [Itv.add, h, h']
  ring

theorem Symm.pow_odd {I : Itv ℝ} (h : I.Symm) {n : ℕ} (hn : n % 2 = 1) : (I.pow n).Symm := by
  unfold Symm at *
  unfold Itv.pow
  rw [if_neg (by rintro rfl; simp at hn), if_pos hn]
  simp only [h]
  exact Odd.neg_pow (Nat.odd_iff.2 hn) _

theorem Symm.div {I J q : Itv ℝ} (h : I.Symm) (hq : I.div J = .ok q) : q.Symm := by
  obtain ⟨c, -, h2⟩ := bind_ok_iff.1 hq
  injection h2 with h2
  subst h2
  exact h.mul_left c

end Itv

namespace GDual
open MvPolynomial Spec

/-- `asin` of a gdual of order 0 has no symbols. -/
theorem syms_asinWith_zero {d r : GDual ℝ} (hd : d.Valid) (h0 : d.order = 0) (h : asinWith binomialU32 d = .ok r) : r.p.syms = [] := by
  by_cases hc : ∀ _ : Unit, |coeff 0 (d.toMv () : MvPolynomial String ℝ)| < 1
  · have h1 := ((IsLift.id (ι := Unit) hd).mul (IsLift.id hd)).subSG (Cf.ofRat 1)
    have h1c : ∀ i : Unit, 0 < coeff 0 (((d.mul d).subSG (Cf.ofRat 1)).toMv i : MvPolynomial String ℝ) := fun i => by
      rw [h1.coeff_zero, lane_one]
      have := abs_lt.mp (hc i)
      nlinarith
    obtain ⟨s, hs, hsl⟩ := computes_sqrt.lift _ h1.valid (ι := Unit) h1c
    obtain ⟨q, hq, hql⟩ := (IsLift.id (ι := Unit) hd).div (h1.comp hsl) (fun i => by
      have := h1c i
      rw [h1.coeff_zero] at this
      exact (Real.sqrt_pos.mpr this).ne')
    unfold asinWith at h
    rw [bind_ok hs, bind_ok hq] at h
    exact syms_atanWith_zero (hql.order.trans h0) h
  · rw [asinWith_undef (ι := Unit) hd hc] at h
    exact absurd h (by simp)

end GDual

namespace TM
open MvPolynomial Spec

/-- Of the two entries, the one with even index is symmetric. -/
theorem asinDPair_symm {A : Itv ℝ} (hA : A.Symm) : ∀ (n : ℕ) {d : Itv ℝ × Itv ℝ}, asinDPair A n = .ok d →
    (n % 2 = 0 → d.2.Symm) ∧ (n % 2 = 1 → d.1.Symm) := by
  intro n
  induction n with
  | zero =>
    intro d h
    obtain ⟨d1, -, h⟩ := bind_ok_iff.1 h
    obtain ⟨d2, e2, h⟩ := bind_ok_iff.1 h
    injection h with h
    subst h
    exact ⟨fun _ => (hA.mul_left _).div e2, fun h => absurd h (by decide)⟩
  | succ n ih =>
    intro d h
    obtain ⟨⟨k0, k1⟩, e1, h⟩ := bind_ok_iff.1 h
    obtain ⟨q, -, h⟩ := bind_ok_iff.1 h
    injection h with h
    subst h
    obtain ⟨i1, i2⟩ := ih e1
    refine ⟨fun h => ?_, fun h => i1 (by omega)⟩
    exact Itv.Symm.mul_right (Itv.Symm.add ((hA.mul_right _).mul_left _) ((i2 (by omega)).mul_right _)) q

theorem asinDerivative_symm {A J : Itv ℝ} (hA : A.Symm) {n : ℕ} (hn : n % 2 = 0) (h1 : 1 ≤ n) (h : asinDerivative A n = .ok J) : J.Symm := by
  match n, hn, h1, h with
  | n + 2, hn, _, h =>
    obtain ⟨d, e, h⟩ := bind_ok_iff.1 h
    injection h with h
    subst h
    exact (asinDPair_symm hA n e).1 (by omega)

variable {a : TM ℝ} {ord : List String → List String}

/-- `acos` of a Taylor model whose polynomial has degree 1 and no constant term, over a domain that is symmetric around the expansion point. -/
theorem racos_sound (ha : a.WF) (h1 : 1 ≤ a.order) (h17 : a.order ≤ 17) (ho : Faithful ord (a.tpol.p.syms.map varName))
    (hlin : DegLE 1 (a.tpol.toMv () : MvPolynomial String ℝ)) (hrem : a.rem = ⟨0, 0⟩) (hc : coeff 0 (a.tpol.toMv () : MvPolynomial String ℝ) = 0)
    (hnz : (a.tpol.toMv () : MvPolynomial String ℝ) ≠ 0)
    (ht : (∃ m : String →₀ ℕ, a.order < m.degree ∧ ((tiny : ℚ) : ℝ) < |coeff m (a.tpol.toMv () * a.tpol.toMv () : MvPolynomial String ℝ)|) ∨
        ∀ m : String →₀ ℕ, a.order < m.degree → coeff m (a.tpol.toMv () * a.tpol.toMv () : MvPolynomial String ℝ) = 0)
    {R : String → ℝ} (hR0 : ∀ s, 0 ≤ R s) (hR : Radius a R) (hM : absVal R (a.tpol.toMv () : MvPolynomial String ℝ) < 1)
    (hsym : ∀ x, a.InDom x → a.InDom fun v => 2 * a.expPoint v - x v) : Sound₁ a (racos ord a) fun y z => z = Real.arccos y := by
  obtain ⟨r, B, dv, h, hw, -, -, hdom, hrr, hdv, hB, hin, hatt⟩ := rasin_ok ha h1 h17 ho hrem hc hnz ht hR0 hR hM
  obtain ⟨r', h', s1, s2, s3, s4⟩ := rasin_sound_of_ok ha h1 (by omega) ho hlin hrem hc hnz ht h
  have : r' = r := Except.ok.inj (h'.symm.trans h)
  subst this
  have hrefl : ∀ t, t = B.lo ∨ t = B.hi → InItv B (-t) := fun t ht => by
    obtain ⟨x, x1, rfl⟩ := hatt hlin t ht
    have e := polyAt_affine hlin a.expPoint x (-1)
    rw [polyAt_expPoint, hc] at e
    have e2 : (fun v => (1 - -1) * a.expPoint v + -1 * x v) = fun v => 2 * a.expPoint v - x v := funext fun v => by ring
    rw [e2] at e
    have := hin _ (hsym x x1)
    rw [e] at this
    rwa [show (1 - -1) * 0 + -1 * a.polyAt x = -a.polyAt x by ring] at this
  have hBs : B.Symm := by
    have e1 := (hrefl _ (.inl rfl)).2
    have e2 := (hrefl _ (.inr rfl)).1
    exact le_antisymm e2 (by linarith)
  have hrs : r'.rem.Symm := by
    rw [hrr]
    rcases Nat.mod_two_eq_zero_or_one (a.order + 1) with h2 | h2
    · exact (asinDerivative_symm (hBs.mul_right _) h2 (by omega) hdv).mul_right _
    · exact ((hBs.pow_odd h2).mul_right _).mul_left _
  obtain ⟨q, q1, q2, q3, q4, q5⟩ := subST_sound hw (Real.pi / 2) hrs
  refine ⟨q, ?_, q2, q3.trans s2, fun x => (q4 x).trans (s3 x), fun x hx y z hy hz => ?_⟩
  · unfold racos
    rw [bind_ok h, q1]
  · refine q5 x ((s3 x).2 hx) _ _ (s4 x hx y _ hy rfl) ?_
    rw [hz, Real.arccos_eq_pi_div_two_sub_arcsin]

end TM
end Audi
