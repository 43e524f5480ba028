import Verif.Proofs.TMDivisionRem
import Verif.Proofs.TMAsinOk

/-!
# Proofs: the remainder of square roots and logarithms of Taylor models

`sqrt(tm)` and `log(tm)` return when the constant term outweighs the rest; upper bounds for their remainders.
-/

namespace Audi
namespace TM

open MvPolynomial Spec

variable {a : TM ℝ} {ord : List String → List String} {R : String → ℝ}

/-- The common start of the functions when `N` bounds the sum of the absolute values of the non-constant terms and the remainder. -/
theorem prologue_abs (ha : a.WF) (h62 : a.order ≤ 62) (ho : ord (a.tpol.p.syms.map varName) = a.tpol.p.syms.map varName) (hR : Radius a R)
    {c N ρ : ℝ} (hc : coeff 0 (a.tpol.toMv () : MvPolynomial String ℝ) = c) (hρ : a.rem.AbsLE ρ) (hN : absVal R (a.tpol.toMv () - C c) + ρ ≤ N) :
    ∃ B b, prologue ord a = .ok (c, B, a.order) ∧ B.lo ≤ B.hi ∧ B.AbsLE N ∧ a.bounds ord = .ok b ∧ c - N ≤ (b.add a.rem).lo ∧ (b.add a.rem).hi ≤ c + N := by
  obtain ⟨c', B, b, h1, h2, h3, h4, h5, -⟩ := prologue_ok (ord := ord) ha h62 ho
  obtain rfl : c' = c := h3.symm.trans hc
  obtain ⟨k1, k2⟩ := bounds_centre (ord := ord) ha h62 ho hR hc
  have k1 := k1 b h4
  have e1 := abs_le.1 k1.1
  have e2 := abs_le.1 k1.2
  have e3 := abs_le.1 hρ.1
  have e4 := abs_le.1 hρ.2
  refine ⟨B, b, h1, h5, ?_, h4, show _ ≤ b.lo + a.rem.lo by linarith, show b.hi + a.rem.hi ≤ _ by linarith⟩
  unfold prologue at h1
  rw [bind_ok h2] at h1
  obtain ⟨fb, f1, f2⟩ := bind_ok_iff.1 h1
  have f3 : fb.add a.rem = B := by
    have := Except.ok.inj f2
    exact congrArg (fun t : ℝ × Itv ℝ × ℕ => t.2.1) this
  rw [← f3]
  have k2 : fb.AbsLE _ := k2 fb f1
  exact (k2.add hρ).mono hN

/-- `1 + B / c * [0, 1]`. -/
theorem ratio_abs {c N : ℝ} (hc : 0 < c) {B : Itv ℝ} (hB : B.AbsLE N) :
    ∃ q, sdiv B c = .ok q ∧ 1 - N / c ≤ ((Itv.point 1).add (q.mul ⟨0, 1⟩)).lo ∧
      ((Itv.point 1).add (q.mul ⟨0, 1⟩)).lo ≤ ((Itv.point 1).add (q.mul ⟨0, 1⟩)).hi := by
  obtain ⟨q, q1, q2⟩ := hB.sdiv hc.ne'
  have h := q2.mul (show (⟨0, 1⟩ : Itv ℝ).AbsLE 1 from ⟨by simp, by simp⟩)
  rw [mul_one, abs_of_pos hc] at h
  refine ⟨q, q1, ?_, Itv.lo_le_hi_add le_rfl (Itv.lo_le_hi_mul _ _)⟩
  change _ ≤ 1 + (q.mul ⟨0, 1⟩).lo
  linarith [(abs_le.1 h.1).1]

/-- The reciprocal of an interval above `m > 0`. -/
theorem div_abs {I J : Itv ℝ} {M m : ℝ} (hI : I.AbsLE M) (hm : 0 < m) (hJ : m ≤ J.lo) (hJ' : J.lo ≤ J.hi) :
    ∃ q, I.div J = .ok q ∧ q.AbsLE (M / m) ∧ q.lo ≤ q.hi := by
  have h0 := hm.trans_le hJ
  have h1 := h0.trans_le hJ'
  unfold Itv.div
  rw [Itv.inv_ok (Itv.zeroIn_false_iff.2 (.inl h0))]
  refine ⟨_, rfl, ?_, Itv.lo_le_hi_mul _ _⟩
  rw [div_eq_mul_inv]
  refine hI.mul ⟨?_, ?_⟩
  · simp only
    rw [abs_of_pos (inv_pos.2 h1)]
    exact inv_anti₀ hm (hJ.trans hJ')
  · simp only
    rw [abs_of_pos (inv_pos.2 h0)]
    exact inv_anti₀ hm hJ

theorem pow_lo_ge {I : Itv ℝ} {m : ℝ} (hm : 0 ≤ m) (h : m ≤ I.lo) (n : ℕ) : m ^ n ≤ (I.pow n).lo := by
  unfold Itv.pow
  split_ifs with h1 h2 h3 h4
  · rw [h1, pow_zero]
  · exact pow_le_pow_left₀ hm h n
  · exact pow_le_pow_left₀ hm h n
  · exact absurd (hm.trans h) h3
  · exact absurd (hm.trans h) h3

/-- `sqrt(tm)` when the constant term `c` is larger than the sum `N` of the absolute values of the other terms and the remainder. -/
theorem powHalf_abs (ha : a.WF) (h17 : a.order ≤ 17) (ho : ord (a.tpol.p.syms.map varName) = a.tpol.p.syms.map varName) (hR : Radius a R)
    {c N ρ : ℝ} (hc : coeff 0 (a.tpol.toMv () : MvPolynomial String ℝ) = c) (hρ : a.rem.AbsLE ρ) (hN : absVal R (a.tpol.toMv () - C c) + ρ ≤ N)
    (hNc : N < c) : ∃ r, powHalf ord a = .ok r ∧ r.WF ∧ r.order = a.order ∧ r.tpol.p.syms = a.tpol.p.syms ∧ (∀ e ∈ r.exp, e ∈ a.exp) ∧
      (∀ e ∈ r.dom, e ∈ a.dom) ∧ a.tpol.powQ (1 / 2) = .ok r.tpol ∧
      r.rem.AbsLE (√c * (fact2Loop (2 * a.order - 1) : ℕ) / ((a.order + 1).factorial * 2 ^ (a.order + 1)) * (N / c) ^ (a.order + 1) /
        √((1 - N / c) ^ (2 * a.order + 1))) := by
  obtain ⟨B, b, h1, h2, h3, h4, h5, -⟩ := prologue_abs (ord := ord) ha (by omega) ho hR hc hρ hN
  have hN0 := h3.nonneg
  have hc0 : 0 < c := hN0.trans_lt hNc
  obtain ⟨q, q1, q2, q3⟩ := ratio_abs hc0 h3
  have hpos : 0 < 1 - N / c := by
    rw [sub_pos, div_lt_one hc0]
    exact hNc
  set k := a.order with hk
  set V := (Itv.point 1).add (q.mul ⟨0, 1⟩) with hV
  have hVp := pow_lo_ge hpos.le q2 (2 * k + 1)
  have hVp0 : 0 < (1 - N / c) ^ (2 * k + 1) := pow_pos hpos _
  have hVle := Itv.lo_le_hi_pow q3 (2 * k + 1)
  have e1 : (V.pow (2 * k + 1)).rsqrt = .ok ⟨√(V.pow (2 * k + 1)).lo, √(V.pow (2 * k + 1)).hi⟩ :=
    if_neg (not_lt.2 ((hVp0.le.trans hVp).trans hVle))
  set f := (-1) ^ k * √c * (fact2Loop (2 * k - 1) : ℕ) / ((k + 1).factorial * 2 ^ (k + 1)) with hf
  obtain ⟨num, n1, n2⟩ := Itv.AbsLE.sdiv (I := smul f (B.pow (k + 1))) ((Itv.AbsLE.point f).mul (h3.pow (k + 1))) (pow_ne_zero (k + 1) hc0.ne')
  obtain ⟨S, S1, S2, S3⟩ := div_abs (n2.mul (Itv.AbsLE.point 1)) (Real.sqrt_pos.2 hVp0) (J := ⟨√(V.pow (2 * k + 1)).lo, √(V.pow (2 * k + 1)).hi⟩)
    (Real.sqrt_le_sqrt hVp) (Real.sqrt_le_sqrt hVle)
  obtain ⟨p, p1, p2⟩ := GDual.powQ_series_lift (C := ℝ) (ι := Unit) (α := 1 / 2) ha.valid (by norm_num) (fun h => absurd h.1 (by decide +kernel))
    fun _ => Or.inl (by rw [hc]; exact hc0)
  have hs : p.p.syms = a.tpol.p.syms := GDual.HasSyms.powQ ha.valid.wf.sorted (d := a.tpol) rfl p1
  obtain ⟨ne, nd, t1, t2, -, t4⟩ := retrim ha p2.valid hs
  obtain ⟨r, r1, r2, r3, r4, r5, r6, r7⟩ := t4 S S3
  have hok : powHalf ord a = .ok r := by
    unfold powHalf
    rw [bind_ok h1]
    simp only
    rw [bind_ok (requireAbove_ok h4 (by linarith)), bind_ok q1, bind_ok e1, bind_ok (fact2_sqrt h17), bind_ok (factorial_ok (by omega : k + 1 ≤ 170)),
      bind_ok n1, bind_ok S1, bind_ok p1, bind_ok t1, bind_ok t2, r1]
  obtain ⟨w1, w2, w3, w4, w5⟩ := powHalf_wf ha (by rw [hc]; exact hc0) hok
  refine ⟨r, hok, w1, w2, w3, w4, w5, by rw [r4]; exact p1, ?_⟩
  rw [r5]
  refine S2.mono (le_of_eq ?_)
  rw [abs_one, mul_one, hf, abs_div, abs_mul, abs_mul, abs_pow, abs_neg, abs_one, one_pow, one_mul, abs_of_nonneg (Real.sqrt_nonneg _),
    abs_of_nonneg (Nat.cast_nonneg _), abs_of_nonneg (by positivity : (0 : ℝ) ≤ (k + 1).factorial * 2 ^ (k + 1)), abs_of_pos (pow_pos hc0 _), div_pow, mul_div_assoc _ (N ^ _)]

/-- `log(tm)` when the constant term `c` is larger than the sum `N` of the absolute values of the other terms and the remainder. For odd orders the
remainder is at most 0. -/
theorem rlog_abs (ha : a.WF) (h62 : a.order ≤ 62) (ho : ord (a.tpol.p.syms.map varName) = a.tpol.p.syms.map varName) (hR : Radius a R)
    {c N ρ : ℝ} (hc : coeff 0 (a.tpol.toMv () : MvPolynomial String ℝ) = c) (hρ : a.rem.AbsLE ρ) (hN : absVal R (a.tpol.toMv () - C c) + ρ ≤ N)
    (hNc : N < c) : ∃ r, rlog ord a = .ok r ∧ r.WF ∧ r.order = a.order ∧ r.tpol.p.syms = a.tpol.p.syms ∧ r.exp = a.exp ∧ r.dom = a.dom ∧
      a.tpol.log = .ok r.tpol ∧ r.rem.AbsLE (1 / (a.order + 1) * (N / c) ^ (a.order + 1) / (1 - N / c) ^ (a.order + 1)) ∧
      (a.order % 2 = 1 → r.rem.hi ≤ 0) := by
  obtain ⟨B, b, h1, h2, h3, h4, h5, -⟩ := prologue_abs (ord := ord) ha h62 ho hR hc hρ hN
  have hN0 := h3.nonneg
  have hc0 : 0 < c := hN0.trans_lt hNc
  obtain ⟨q, q1, q2, q3⟩ := ratio_abs hc0 h3
  have hpos : 0 < 1 - N / c := by
    rw [sub_pos, div_lt_one hc0]
    exact hNc
  set k := a.order with hk
  set f := (-1) ^ (k + 2) * (1 / (k + 1 : ℝ)) with hf
  obtain ⟨num, n1, n2⟩ := Itv.AbsLE.sdiv (I := (Itv.point f).mul (B.pow (k + 1))) ((Itv.AbsLE.point f).mul (h3.pow (k + 1))) (pow_ne_zero (k + 1) hc0.ne')
  obtain ⟨den, d1, d2, d3⟩ := div_abs (Itv.AbsLE.point 1) hpos q2 q3
  obtain ⟨p, p1, p2⟩ := (GDual.computes_log (C := ℝ) (ι := Unit)).lift a.tpol ha.valid fun i => by rw [hc]; exact hc0
  have hs : p.p.syms = a.tpol.p.syms := GDual.HasSyms.log ha.valid.wf.sorted (d := a.tpol) rfl p1
  obtain ⟨r, r1, r2, r3, r4, r5, r6, r7⟩ := remake ha p2.valid hs (Itv.lo_le_hi_mul num (den.pow (k + 1)))
  refine ⟨r, ?_, r2, by rw [r3, p2.order, hk, ha.order], by rw [r4]; exact hs, r6, r7, by rw [r4]; exact p1, ?_, fun hodd => ?_⟩
  · unfold rlog
    rw [bind_ok (requireAbove_ok h4 (by linarith)), bind_ok h1]
    simp only
    rw [bind_ok n1, bind_ok q1, bind_ok d1, bind_ok p1, r1]
  · rw [r5]
    refine (n2.mul (d2.pow (k + 1))).mono (le_of_eq ?_)
    rw [hf, abs_mul, abs_pow, abs_neg, abs_one, one_pow, one_mul, abs_of_pos (by positivity : (0 : ℝ) < 1 / (k + 1)), abs_of_pos (pow_pos hc0 _), div_pow, div_pow,
      one_pow]
    ring
  · have hev : (k + 1) % 2 = 0 := by omega
    have hsq : ∀ {J : Itv ℝ}, 0 ≤ (J.pow (k + 1)).lo := fun {J} => by
      have he : Even (k + 1) := Nat.even_iff.2 hev
      unfold Itv.pow
      rw [if_neg (by omega), if_neg (by omega)]
      split_ifs
      · exact he.pow_nonneg _
      · exact he.pow_nonneg _
      · exact le_rfl
    have hf0 : f = -(1 / (k + 1 : ℝ)) := by
      rw [hf, Odd.neg_one_pow (by rw [Nat.odd_iff]; omega)]
      ring
    have hnum : num.hi ≤ 0 := by
      unfold sdiv Itv.div at n1
      rw [Itv.inv_ok (Itv.zeroIn_false_iff.2 (.inl (pow_pos hc0 (k + 1))))] at n1
      obtain rfl := Except.ok.inj n1
      have h6 : 0 ≤ (B.pow (k + 1)).lo := hsq
      have h7 := h6.trans (Itv.lo_le_hi_pow h2 (k + 1))
      have h8 : (0 : ℝ) ≤ 1 / (k + 1) := by positivity
      have h9 : 0 ≤ (c ^ (k + 1))⁻¹ := by positivity
      have key : ∀ {t : ℝ}, 0 ≤ t → -(1 / (k + 1 : ℝ)) * t ≤ 0 := fun ht => by nlinarith
      have key2 : ∀ {t : ℝ}, t ≤ 0 → t * (c ^ (k + 1))⁻¹ ≤ 0 := fun ht => mul_nonpos_of_nonpos_of_nonneg ht h9
      rw [hf0]
      simp only [Itv.mul, Itv.point, max_le_iff]
      have hm : max (max (-(1 / (k + 1 : ℝ)) * (B.pow (k + 1)).lo) (-(1 / (k + 1 : ℝ)) * (B.pow (k + 1)).hi))
        (max (-(1 / (k + 1 : ℝ)) * (B.pow (k + 1)).lo) (-(1 / (k + 1 : ℝ)) * (B.pow (k + 1)).hi)) ≤ 0 := by
        simp only [max_le_iff]
        exact ⟨⟨key h6, key h7⟩, key h6, key h7⟩
      have hm' : min (min (-(1 / (k + 1 : ℝ)) * (B.pow (k + 1)).lo) (-(1 / (k + 1 : ℝ)) * (B.pow (k + 1)).hi))
        (min (-(1 / (k + 1 : ℝ)) * (B.pow (k + 1)).lo) (-(1 / (k + 1 : ℝ)) * (B.pow (k + 1)).hi)) ≤ 0 :=
        (min_le_left _ _).trans ((min_le_left _ _).trans (key h6))
      exact ⟨⟨key2 hm', key2 hm'⟩, key2 hm, key2 hm⟩
    have hnum' : num.lo ≤ 0 := by
      unfold sdiv Itv.div at n1
      rw [Itv.inv_ok (Itv.zeroIn_false_iff.2 (.inl (pow_pos hc0 (k + 1))))] at n1
      obtain rfl := Except.ok.inj n1
      exact (Itv.lo_le_hi_mul _ _).trans hnum
    have hd0 : 0 ≤ (den.pow (k + 1)).lo := hsq
    have hd1 := hd0.trans (Itv.lo_le_hi_pow d3 (k + 1))
    rw [r5]
    simp only [Itv.mul, max_le_iff]
    exact ⟨⟨mul_nonpos_of_nonpos_of_nonneg hnum' hd0, mul_nonpos_of_nonpos_of_nonneg hnum' hd1⟩, mul_nonpos_of_nonpos_of_nonneg hnum hd0,
      mul_nonpos_of_nonpos_of_nonneg hnum hd1⟩

end TM
end Audi
