import Verif.Proofs.AbsVal
import Verif.Proofs.Syms

/-!
# Proofs: the remainder of quotients of Taylor models

`s / tm` returns when the constant term outweighs the rest; an upper bound for its remainder.
-/

namespace Audi

namespace Itv
variable {K : Type} [Field K] [LinearOrder K] [IsStrictOrderedRing K]

/-- The end points are at most `M` in absolute value. -/
def AbsLE (I : Itv K) (M : K) : Prop := |I.lo| ≤ M ∧ |I.hi| ≤ M

variable {I J : Itv K} {M N : K}

omit [IsStrictOrderedRing K] in
theorem AbsLE.mono (h : I.AbsLE M) (hMN : M ≤ N) : I.AbsLE N := ⟨h.1.trans hMN, h.2.trans hMN⟩

theorem AbsLE.nonneg (h : I.AbsLE M) : 0 ≤ M := (abs_nonneg _).trans h.1

omit [IsStrictOrderedRing K] in
theorem AbsLE.point (x : K) : (Itv.point x).AbsLE |x| := ⟨le_rfl, le_rfl⟩

theorem AbsLE.add (h : I.AbsLE M) (h' : J.AbsLE N) : (I.add J).AbsLE (M + N) :=
  ⟨(abs_add_le _ _).trans (add_le_add h.1 h'.1), (abs_add_le _ _).trans (add_le_add h.2 h'.2)⟩

theorem AbsLE.mul (h : I.AbsLE M) (h' : J.AbsLE N) : (I.mul J).AbsLE (M * N) := by
  have key : ∀ {x y : K}, |x| ≤ M → |y| ≤ N → |x * y| ≤ M * N := fun hx hy => by
    rw [abs_mul]
    exact mul_le_mul hx hy (abs_nonneg _) h.nonneg
  have h1 := abs_le.1 (key h.1 h'.1)
  have h2 := abs_le.1 (key h.1 h'.2)
  have h3 := abs_le.1 (key h.2 h'.1)
  have h4 := abs_le.1 (key h.2 h'.2)
  unfold AbsLE Itv.mul
  simp only [abs_le, le_min_iff, min_le_iff, le_max_iff, max_le_iff]
  tauto

theorem AbsLE.pow (h : I.AbsLE M) (n : ℕ) : (I.pow n).AbsLE (M ^ n) := by
  have key : ∀ {x : K}, |x| ≤ M → |x ^ n| ≤ M ^ n := fun hx => by
    rw [abs_pow]
    exact pow_le_pow_left₀ (abs_nonneg _) hx n
  have h0 : 0 ≤ M ^ n := pow_nonneg h.nonneg n
  unfold Itv.pow
  split_ifs with h1
  · subst h1
    simp [AbsLE]
  · exact ⟨key h.1, key h.2⟩
  · exact ⟨key h.1, key h.2⟩
  · exact ⟨key h.2, key h.1⟩
  · refine ⟨by simpa using h0, ?_⟩
    have a1 := abs_le.1 (key h.1)
    have a2 := abs_le.1 (key h.2)
    exact abs_le.2 ⟨a1.1.trans (le_max_left _ _), max_le a1.2 a2.2⟩

theorem AbsLE.mem (h : I.AbsLE M) {x : K} (hx : Spec.InItv I x) : |x| ≤ M :=
  abs_le.2 ⟨(abs_le.1 h.1).1.trans hx.1, hx.2.trans (abs_le.1 h.2).2⟩

theorem AbsLE.sdiv (h : I.AbsLE M) {y : K} (hy : y ≠ 0) : ∃ q, TM.sdiv I y = .ok q ∧ q.AbsLE (M / |y|) := by
  have hz : (Itv.point y).zeroIn = false := by
    rw [Itv.zeroIn_false_iff]
    exact (lt_or_gt_of_ne hy).symm
  refine ⟨I.mul ⟨y⁻¹, y⁻¹⟩, ?_, ?_⟩
  · unfold TM.sdiv Itv.div
    rw [Itv.inv_ok hz]
    rfl
  · rw [div_eq_mul_inv, ← abs_inv]
    exact h.mul ⟨le_rfl, le_rfl⟩

end Itv

namespace TM
open MvPolynomial Spec
variable {K : Type} [Field K] [LinearOrder K] [IsStrictOrderedRing K]
variable {a : TM K} {ord : List String → List String} {R : String → K}

/-- `s / tm` when the sum of the absolute values of the other terms and the remainder, `N`, is less than the constant term. -/
theorem divST_abs (ha : a.WF) (h62 : a.order ≤ 62) (ho : ord (a.tpol.p.syms.map varName) = a.tpol.p.syms.map varName) (hR : Radius a R)
    {c N ρ : K} (hc : coeff 0 (a.tpol.toMv () : MvPolynomial String K) = c) (hρ : a.rem.AbsLE ρ) (hN : absVal R (a.tpol.toMv () - C c) + ρ ≤ N)
    (hNc : N < |c|) (s : K) : ∃ r, divST ord s a = .ok r ∧ r.WF ∧ r.order = a.order ∧ r.exp = a.exp ∧ r.dom = a.dom ∧
      r.tpol.p.syms = a.tpol.p.syms ∧ GDual.divSG s a.tpol = .ok r.tpol ∧ r.rem.AbsLE (N ^ (a.order + 1) / (|c| - N) ^ (a.order + 2)) := by
  obtain ⟨c', c1⟩ := GDual.constantCf_isOk a.tpol
  have c2 : c' = c := by
    rw [← hc]
    exact GDual.lane_constantCf (ι := Unit) (K := K) ha.valid c1 ()
  subst c2
  obtain ⟨b, hb, -, -⟩ := bounds_encloses (ord := ord) ha h62 ho
  have hm : ∀ v ∈ a.tpol.p.syms.map varName, ∃ I x, a.dom.lookup v = some I ∧ a.exp.lookup v = some x ∧ I.lo ≤ I.hi := fun v hv => by
    obtain ⟨I, x, e1, e2, e3⟩ := ha.lookup hv
    exact ⟨I, x, e1, e2, e3.1.trans e3.2⟩
  have hv := GDual.Valid.subGS (ι := Unit) (K := K) c' ha.valid
  obtain ⟨fb, hfb, -, -⟩ := getBounds_encloses' hv ha.names (fun t ht k hk => ((List.single_le_sum (by simp) _ hk).trans (hv.deg t ht)).trans
    (show (a.tpol.subGS c').order ≤ 62 from ha.order ▸ h62)) (exp := a.exp) (dom := a.dom) hm ho
  obtain ⟨k1, k2⟩ := bounds_centre (ord := ord) ha h62 ho hR hc
  have k1 := k1 b hb
  have k2 : fb.AbsLE _ := k2 fb hfb
  have hB : (fb.add a.rem).AbsLE N := (k2.add hρ).mono hN
  have hN0 := hB.nonneg
  have hcpos : 0 < |c'| := hN0.trans_lt hNc
  have hc0 : c' ≠ 0 := abs_pos.1 hcpos
  have hbz : (b.add a.rem).zeroIn = false := by
    rw [Itv.zeroIn_false_iff]
    have e1 := abs_le.1 k1.1
    have e2 := abs_le.1 k1.2
    have e3 := abs_le.1 hρ.1
    have e4 := abs_le.1 hρ.2
    rcases lt_or_gt_of_ne hc0 with h | h
    · rw [abs_of_neg h] at hNc
      exact .inr (show b.hi + a.rem.hi < 0 by linarith)
    · rw [abs_of_pos h] at hNc
      exact .inl (show 0 < b.lo + a.rem.lo by linarith)
  set k := a.tpol.order with hk
  obtain ⟨num, n1, n2⟩ := Itv.AbsLE.sdiv (I := smul ((-1) ^ (k + 1)) ((fb.add a.rem).pow (k + 1))) ((Itv.AbsLE.point ((-1 : K) ^ (k + 1))).mul (hB.pow (k + 1)))
    (pow_ne_zero (k + 2) hc0)
  obtain ⟨q, q1, q2⟩ := hB.sdiv hc0
  have hq01 : (q.mul ⟨0, 1⟩).AbsLE (N / |c'|) := by
    have := q2.mul (show (⟨0, 1⟩ : Itv K).AbsLE 1 from ⟨by simp, by simp⟩)
    rwa [mul_one] at this
  have hlt : N / |c'| < 1 := (div_lt_one hcpos).2 hNc
  have hlo : 1 - N / |c'| ≤ ((Itv.point 1).add (q.mul ⟨0, 1⟩)).lo := by
    change _ ≤ 1 + (q.mul ⟨0, 1⟩).lo
    linarith [(abs_le.1 hq01.1).1]
  have hle : ((Itv.point 1).add (q.mul ⟨0, 1⟩)).lo ≤ ((Itv.point 1).add (q.mul ⟨0, 1⟩)).hi := Itv.lo_le_hi_add le_rfl (Itv.lo_le_hi_mul _ _)
  have hpos : 0 < 1 - N / |c'| := by linarith
  set D := (Itv.point 1).add (q.mul ⟨0, 1⟩) with hD
  have hDpow : D.pow (k + 2) = ⟨D.lo ^ (k + 2), D.hi ^ (k + 2)⟩ := by
    unfold Itv.pow
    rw [if_neg (by omega)]
    split_ifs with h1 h2
    · rfl
    · rfl
    · exact absurd (hpos.le.trans hlo) h2
    · exact absurd (hpos.le.trans hlo) h2
  have hDlo : 0 < D.lo := hpos.trans_le hlo
  have hDz : (D.pow (k + 2)).zeroIn = false := by
    rw [hDpow, Itv.zeroIn_false_iff]
    exact .inl (pow_pos hDlo _)
  have hden : (Itv.point (1 : K)).div (D.pow (k + 2)) = .ok ((Itv.point 1).mul ⟨(D.hi ^ (k + 2))⁻¹, (D.lo ^ (k + 2))⁻¹⟩) := by
    unfold Itv.div
    rw [Itv.inv_ok hDz, hDpow]
    rfl
  have hdenabs : ((Itv.point (1 : K)).mul ⟨(D.hi ^ (k + 2))⁻¹, (D.lo ^ (k + 2))⁻¹⟩).AbsLE (((1 - N / |c'|) ^ (k + 2))⁻¹) := by
    have hp : 0 < (1 - N / |c'|) ^ (k + 2) := pow_pos hpos _
    have e1 : (1 - N / |c'|) ^ (k + 2) ≤ D.lo ^ (k + 2) := pow_le_pow_left₀ hpos.le hlo _
    have e2 : (1 - N / |c'|) ^ (k + 2) ≤ D.hi ^ (k + 2) := pow_le_pow_left₀ hpos.le (hlo.trans hle) _
    have := (Itv.AbsLE.point (1 : K)).mul (show (⟨(D.hi ^ (k + 2))⁻¹, (D.lo ^ (k + 2))⁻¹⟩ : Itv K).AbsLE (((1 - N / |c'|) ^ (k + 2))⁻¹) from by
      constructor
      · simp only
        rw [abs_of_pos (inv_pos.2 (hp.trans_le e2))]
        exact inv_anti₀ hp e2
      · simp only
        rw [abs_of_pos (inv_pos.2 (hp.trans_le e1))]
        exact inv_anti₀ hp e1)
    rwa [abs_one, one_mul] at this
  obtain ⟨p, p1, p2, p3, -⟩ := GDual.divSG_spec (ι := Unit) (K := K) s ha.valid fun _ => by rw [hc]; exact hc0
  have hs : p.p.syms = a.tpol.p.syms := GDual.HasSyms.divSG ha.valid.wf.sorted (a := a.tpol) rfl p1
  obtain ⟨r, r1, r2, r3, r4, r5, r6, r7⟩ := remake ha p2 hs (Itv.lo_le_hi_mul num ((Itv.point 1).mul ⟨(D.hi ^ (k + 2))⁻¹, (D.lo ^ (k + 2))⁻¹⟩))
  refine ⟨r, ?_, r2, by rw [r3, p3, ha.order], r6, r7, by rw [r4, hs], by rw [r4]; exact p1, ?_⟩
  · unfold divST
    rw [bind_ok hb, hbz, if_neg (by simp), bind_ok c1]
    simp only
    rw [bind_ok hfb]
    change (do
      let num ← sdiv (smul ((-1) ^ (k + 1)) ((fb.add a.rem).pow (k + 1))) (c' ^ (k + 2))
      let q ← sdiv (fb.add a.rem) c'
      let den ← (Itv.point 1).div (((Itv.point 1).add (q.mul ⟨0, 1⟩)).pow (k + 2))
      let p ← GDual.divSG s a.tpol
      make p (num.mul den) a.exp a.dom) = _
    rw [bind_ok n1, bind_ok q1, bind_ok hden, bind_ok p1, r1]
  · rw [r5]
    refine (n2.mul hdenabs).mono (le_of_eq ?_)
    rw [ha.order, ← hk, abs_pow, abs_neg, abs_one, one_pow, one_mul, abs_pow, ← div_eq_mul_inv, div_div, ← mul_pow]
    congr 2
    field_simp

end TM
end Audi
