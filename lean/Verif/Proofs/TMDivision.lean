import Verif.Proofs.BoundsExact
import Verif.Proofs.Syms

/-!
# Proofs: reciprocals of Taylor models of polynomials of degree at most 1
-/

namespace Audi
namespace TM

open MvPolynomial Spec

variable {K : Type} [Field K] [LinearOrder K]

omit [LinearOrder K] in
/-- Two inverses up to the order are equal up to the order. -/
theorem inverse_unique {P I J : MvPolynomial String K} {n : ℕ} (hI : EqUpTo n (I * P) 1) (hJ : EqUpTo n (J * P) 1) : EqUpTo n I J := by
  have h1 : EqUpTo n (I * (J * P)) I := ((EqUpTo.refl I).mul hJ).trans (EqUpTo.of_eq (mul_one I))
  have h2 : EqUpTo n (J * (I * P)) J := ((EqUpTo.refl J).mul hI).trans (EqUpTo.of_eq (mul_one J))
  exact h1.symm.trans ((EqUpTo.of_eq (by ring)).trans h2)

omit [LinearOrder K] in
theorem degLE_pow {U : MvPolynomial String K} (h : DegLE 1 U) (j : ℕ) : DegLE j (U ^ j) := by
  induction j with
  | zero =>
    intro e he
    rw [pow_zero, coeff_one, if_neg]
    rintro rfl
    simp at he
  | succ j ih => rw [pow_succ]; exact degLE_mul ih h

omit [LinearOrder K] in
theorem degLE_mono {P : MvPolynomial String K} {m n : ℕ} (h : DegLE m P) (hmn : m ≤ n) : DegLE n P := fun e he => h e (by omega)

omit [LinearOrder K] in
theorem degLE_sum {n : ℕ} {s : Finset ℕ} {f : ℕ → MvPolynomial String K} (h : ∀ i ∈ s, DegLE n (f i)) : DegLE n (∑ i ∈ s, f i) := by
  intro e he
  rw [coeff_sum]
  exact Finset.sum_eq_zero fun i hi => h i hi e he

omit [LinearOrder K] in
theorem degLE_C_mul' {P : MvPolynomial String K} {n : ℕ} (h : DegLE n P) (c : K) : DegLE n (C c * P) := by
  intro e he
  rw [coeff_C_mul, h e he, mul_zero]

/-- The quotient of a number by a gdual of degree at most 1, in closed form. -/
theorem divSG_linear {p : GDual K} (hp : p.Valid) (hlin : DegLE 1 (p.toMv () : MvPolynomial String K)) {c : K}
    (hc : coeff 0 (p.toMv () : MvPolynomial String K) = c) (hc0 : c ≠ 0) (s : K) :
    ∃ r, GDual.divSG s p = .ok r ∧ r.Valid ∧ r.order = p.order ∧ r.p.syms = p.p.syms ∧
      (r.toMv () : MvPolynomial String K) = ∑ i ∈ Finset.range (p.order + 1), C (s * (-1) ^ i * (c⁻¹) ^ (i + 1)) * (p.toMv () - C c) ^ i ∧
      EqUpTo p.order (r.toMv () * p.toMv () : MvPolynomial String K) (C s) := by
  obtain ⟨r, h1, h2, h3, h4⟩ := GDual.divSG_spec (ι := Unit) (K := K) s hp (fun _ => by rw [hc]; exact hc0)
  obtain ⟨I, h5, h6⟩ := h4 ()
  refine ⟨r, h1, h2, h3, GDual.HasSyms.divSG hp.wf.sorted (a := p) rfl h1, ?_, (h6.mul (EqUpTo.refl (p.toMv ()))).trans
    ((EqUpTo.of_eq (mul_assoc _ _ _)).trans (((EqUpTo.refl _).mul h5).trans (EqUpTo.of_eq (mul_one _))))⟩
  set P : MvPolynomial String K := p.toMv () with hP
  set n := p.order
  set J : MvPolynomial String K := ∑ i ∈ Finset.range (n + 1), C ((-1) ^ i * (c⁻¹) ^ (i + 1)) * (P - C c) ^ i with hJ
  have hU0 : coeff 0 (C c⁻¹ * (P - C c)) = 0 := by
    rw [coeff_C_mul, coeff_sub, hc, coeff_zero_C, sub_self, mul_zero]
  have hCC : (C c⁻¹ : MvPolynomial String K) * C c = 1 := by rw [← map_mul, inv_mul_cancel₀ hc0, map_one]
  have hJinv : EqUpTo n (J * P) 1 := by
    refine EqUpTo.trans (EqUpTo.of_eq ?_) (GDual.geom_inverse hU0 n)
    have e1 : J = (∑ j ∈ Finset.range (n + 1), (-(C c⁻¹ * (P - C c))) ^ j) * C c⁻¹ := by
      rw [hJ, Finset.sum_mul]
      refine Finset.sum_congr rfl fun i _ => ?_
      rw [map_mul, map_pow, map_pow, map_neg, map_one, neg_pow (C c⁻¹ * (P - C c)), mul_pow]
      ring
    rw [e1]
    have e2 : C c⁻¹ * P = 1 + C c⁻¹ * (P - C c) := by linear_combination hCC
    rw [mul_assoc, e2]
  have hU1 : DegLE 1 (P - C c) := by
    intro e he
    rw [coeff_sub, hlin e he, coeff_C, if_neg, sub_zero]
    rintro rfl
    simp at he
  have hJdeg : DegLE n J := degLE_sum fun i hi => degLE_C_mul' (degLE_mono (degLE_pow hU1 i) (by simpa [Nat.lt_succ_iff] using hi)) _
  have hrI : EqUpTo n (r.toMv ()) (C s * J) := h6.trans ((EqUpTo.refl _).mul (inverse_unique h5 hJinv))
  have hrdeg : DegLE n (r.toMv () : MvPolynomial String K) := h3 ▸ h2.degLE (ι := Unit) (K := K) ()
  rw [hrI.eq_of_degLE hrdeg (degLE_C_mul' hJdeg s), hJ, Finset.mul_sum]
  refine Finset.sum_congr rfl fun i _ => ?_
  rw [← mul_assoc, ← map_mul, mul_assoc]

omit [LinearOrder K] in
/-- The error of the truncated geometric series. -/
theorem geom_error (c u : K) (hc : c ≠ 0) (hcu : c + u ≠ 0) (n : ℕ) :
    1 / (c + u) - ∑ i ∈ Finset.range (n + 1), (-1) ^ i * (c⁻¹) ^ (i + 1) * u ^ i = (-1) ^ (n + 1) * u ^ (n + 1) / c ^ (n + 2) * (1 / (1 + u / c)) := by
  have h1 : 1 + u / c ≠ 0 := by
    have : 1 + u / c = (c + u) / c := by field_simp
    rw [this]
    exact div_ne_zero hcu hc
  simp only [inv_pow]
  induction n with
  | zero =>
    rw [Finset.sum_range_one]
    field_simp
    ring
  | succ n ih =>
    rw [Finset.sum_range_succ, ← sub_sub, ih]
    field_simp
    ring

theorem terms_lin {p : GDual K} (hp : p.Valid) (hlin : DegLE 1 (p.toMv () : MvPolynomial String K)) : ∀ t ∈ p.p.terms, ∀ k ∈ t.1, k ≤ 1 := by
  intro t ht k hk
  by_contra hc
  have hdeg : (toExp p.p.syms t.1).degree = t.1.sum := degree_toExp (hp.wf.len t ht)
  have h0 := hlin (toExp p.p.syms t.1) (by
    rw [hdeg]
    have := List.single_le_sum (l := t.1) (by simp) k hk
    omega)
  have h1 := Poly.coeff_toMv_of_mem (K := K) hp.wf (e := t.1) (c := t.2) ht ()
  have h2 : t.2 = 0 := h1.symm.trans h0
  have := hp.wf.nz t ht
  simp [Cf.isZero, h2] at this

variable [IsStrictOrderedRing K] {a : TM K} {ord : List String → List String}

/-- The expansion point. -/
def expPoint (a : TM K) (v : String) : K := (a.exp.lookup v).getD 0

omit [IsStrictOrderedRing K] in
theorem expPoint_inDom (ha : a.WF) : a.InDom a.expPoint := by
  rw [inDom_iff ha]
  intro v hv I hI
  obtain ⟨J, x, h1, h2, h3⟩ := ha.lookup hv
  rw [h1] at hI
  obtain rfl := Option.some.inj hI
  unfold expPoint
  rw [h2]
  exact h3

omit [IsStrictOrderedRing K] in
theorem polyAt_expPoint (a : TM K) : a.polyAt a.expPoint = coeff 0 (a.tpol.toMv () : MvPolynomial String K) := by
  unfold polyAt
  have : displacement a.exp a.expPoint = 0 := by
    funext s
    simp [displacement, expPoint]
  rw [this, eval_zero]
  rfl

/-- The quantities that all operations compute first, for a model with remainder {0}: the constant coefficient `c`, the bounds `B` of
the polynomial without it. -/
theorem setup (ha : a.WF) (h62 : a.order ≤ 62) (ho : ord (a.tpol.p.syms.map varName) = a.tpol.p.syms.map varName) :
    ∃ c B, a.tpol.constantCf = .ok c ∧ coeff 0 (a.tpol.toMv () : MvPolynomial String K) = c ∧
      getBounds ord (a.tpol.subGS c) a.exp a.dom = .ok B ∧ InItv B 0 ∧ (∀ x, a.InDom x → InItv B (a.polyAt x - c)) ∧
      (DegLE 1 (a.tpol.toMv () : MvPolynomial String K) → ∀ b, b = B.lo ∨ b = B.hi → ∃ x, a.InDom x ∧ a.polyAt x = c + b) := by
  obtain ⟨c, hc⟩ := GDual.constantCf_isOk a.tpol
  have hc' : coeff 0 (a.tpol.toMv () : MvPolynomial String K) = c := (GDual.lane_constantCf (ι := Unit) (K := K) ha.valid hc ()).symm
  have hv := GDual.Valid.subGS (ι := Unit) (K := K) c ha.valid
  have hmv : ((a.tpol.subGS c).toMv () : MvPolynomial String K) = a.tpol.toMv () - C c := GDual.toMv_subGS c ha.valid ()
  have hm : ∀ v ∈ (a.tpol.subGS c).p.syms.map varName, ∃ I x, a.dom.lookup v = some I ∧ a.exp.lookup v = some x ∧ I.lo ≤ I.hi := fun v hv => by
    obtain ⟨I, x, e1, e2, e3⟩ := ha.lookup hv
    exact ⟨I, x, e1, e2, e3.1.trans e3.2⟩
  obtain ⟨B, h1, h2, h3⟩ := getBounds_encloses hv ha.names (by rw [ha.order] at h62; exact h62) (exp := a.exp) (dom := a.dom) hm ho
  have hin : ∀ x, a.InDom x → InItv B (a.polyAt x - c) := fun x hx => by
    have := h3 x ((inDom_iff ha x).1 hx)
    rw [hmv, map_sub, eval_C] at this
    exact this
  refine ⟨c, B, hc, hc', h1, ?_, hin, fun hlin b hb => ?_⟩
  · have := hin _ (expPoint_inDom ha)
    rwa [polyAt_expPoint, hc', sub_self] at this
  · have hlin' : DegLE 1 ((a.tpol.subGS c).toMv () : MvPolynomial String K) := by
      rw [hmv]
      intro e he
      rw [coeff_sub, hlin e he, coeff_C, if_neg, sub_zero]
      rintro rfl
      simp at he
    obtain ⟨x, e1, e2⟩ := getBounds_attained hv ha.names (terms_lin hv hlin') hm ho h1 b hb
    refine ⟨x, (inDom_iff ha x).2 e1, ?_⟩
    rw [hmv, map_sub, eval_C] at e2
    rw [← e2]
    unfold polyAt
    ring

/-- `1 / v` lies between 1 and `1 / v ^ m`. -/
theorem inv_between {v : K} (hv : 0 < v) {m : ℕ} (hm : 1 ≤ m) {I : Itv K} (h1 : InItv I 1) (h2 : InItv I (v ^ m)⁻¹) : InItv I v⁻¹ := by
  rcases le_total v 1 with h | h
  · refine ⟨h1.1.trans ((one_le_inv₀ hv).2 h), le_trans (inv_anti₀ (pow_pos hv m) ?_) h2.2⟩
    calc v ^ m ≤ v ^ 1 := pow_le_pow_of_le_one hv.le h hm
      _ = v := pow_one v
  · refine ⟨h2.1.trans (inv_anti₀ hv ?_), (inv_le_one_of_one_le₀ h).trans h1.2⟩
    calc v = v ^ 1 := (pow_one v).symm
      _ ≤ v ^ m := pow_le_pow_right₀ h hm

omit [LinearOrder K] [IsStrictOrderedRing K] in
theorem add_rem_zero [LinearOrder K] {B : Itv K} : B.add ⟨0, 0⟩ = B := by
  cases B
  simp [Itv.add]

omit [IsStrictOrderedRing K] in
/-- A polynomial of degree at most 1 is affine. -/
theorem polyAt_affine (hlin : DegLE 1 (a.tpol.toMv () : MvPolynomial String K)) (x y : String → K) (t : K) :
    a.polyAt (fun v => (1 - t) * x v + t * y v) = (1 - t) * a.polyAt x + t * a.polyAt y := by
  unfold polyAt
  rw [eval_eq, eval_eq, eval_eq, Finset.mul_sum, Finset.mul_sum, ← Finset.sum_add_distrib]
  refine Finset.sum_congr rfl fun m hm => ?_
  have hdeg : m.degree ≤ 1 := by
    by_contra hc
    exact mem_support_iff.1 hm (hlin m (by omega))
  rcases Nat.lt_or_ge m.degree 1 with h | h
  · have : m = 0 := by
      rw [← Finsupp.degree_eq_zero_iff]
      omega
    subst this
    simp
    ring
  · obtain ⟨i, rfl⟩ : ∃ i, m = Finsupp.single i 1 := (Finsupp.sum_eq_one_iff m).1 (show m.degree = 1 by omega)
    have hsup : (Finsupp.single i 1 : String →₀ ℕ).support = {i} := by simp
    rw [hsup]
    simp only [Finset.prod_singleton, Finsupp.single_eq_same, pow_one, displacement]
    ring

theorem inDom_convex {x y : String → K} (hx : a.InDom x) (hy : a.InDom y) {t : K} (h0 : 0 ≤ t) (h1 : t ≤ 1) :
    a.InDom fun v => (1 - t) * x v + t * y v := by
  intro e he
  have h2 := hx e he
  have h3 := hy e he
  have h4 : 0 ≤ 1 - t := sub_nonneg.2 h1
  constructor
  · nlinarith [mul_le_mul_of_nonneg_left h2.1 h4, mul_le_mul_of_nonneg_left h3.1 h0]
  · nlinarith [mul_le_mul_of_nonneg_left h2.2 h4, mul_le_mul_of_nonneg_left h3.2 h0]

/-- A polynomial of degree at most 1 without zeros on the domain has one sign. -/
theorem one_sign (hlin : DegLE 1 (a.tpol.toMv () : MvPolynomial String K)) (hnz : ∀ x, a.InDom x → a.polyAt x ≠ 0) :
    (∀ x, a.InDom x → 0 < a.polyAt x) ∨ ∀ x, a.InDom x → a.polyAt x < 0 := by
  by_contra hc
  push Not at hc
  obtain ⟨⟨x, hx, h1⟩, y, hy, h2⟩ := hc
  have h1' := lt_of_le_of_ne h1 (hnz x hx)
  have hd : 0 < a.polyAt y - a.polyAt x := by linarith
  set t := -a.polyAt x / (a.polyAt y - a.polyAt x) with ht
  have ht0 : 0 ≤ t := div_nonneg (by linarith) hd.le
  have ht1 : t ≤ 1 := (div_le_one hd).2 (by linarith)
  refine hnz _ (inDom_convex hx hy ht0 ht1) ?_
  rw [polyAt_affine hlin]
  have : t * (a.polyAt y - a.polyAt x) = -a.polyAt x := div_mul_cancel₀ _ hd.ne'
  linear_combination this

theorem sdiv_ok (I : Itv K) {y : K} (hy : y ≠ 0) :
    ∃ J, sdiv I y = .ok J ∧ (∀ w, InItv I w → InItv J (w / y)) ∧ ∀ t, t = J.lo ∨ t = J.hi → t = I.lo / y ∨ t = I.hi / y := by
  have hz : (Itv.point y).zeroIn = false := by
    rw [Itv.zeroIn_false_iff]
    exact (lt_or_gt_of_ne hy).symm
  refine ⟨I.mul ⟨y⁻¹, y⁻¹⟩, ?_, fun w hw => ?_, ?_⟩
  · unfold sdiv Itv.div
    rw [Itv.inv_ok hz]
    rfl
  · rw [div_eq_mul_inv]
    exact Itv.mem_mul hw ⟨le_rfl, le_rfl⟩
  · simp only [Itv.mul, min_self, max_self, div_eq_mul_inv]
    rintro t (rfl | rfl)
    · exact min_choice _ _
    · exact max_choice _ _

omit [IsStrictOrderedRing K] in
theorem mul_lo_mem (I J : Itv K) : (I.mul J).lo = I.lo * J.lo ∨ (I.mul J).lo = I.lo * J.hi ∨ (I.mul J).lo = I.hi * J.lo ∨
    (I.mul J).lo = I.hi * J.hi := by
  simp only [Itv.mul]
  rcases min_choice (min (I.lo * J.lo) (I.lo * J.hi)) (min (I.hi * J.lo) (I.hi * J.hi)) with h | h <;> rw [h]
  · rcases min_choice (I.lo * J.lo) (I.lo * J.hi) with h | h <;> simp [h]
  · rcases min_choice (I.hi * J.lo) (I.hi * J.hi) with h | h <;> simp [h]

theorem pow_zeroIn {I : Itv K} (h : 0 < I.lo) (n : ℕ) : (I.pow n).zeroIn = false := by
  rw [Itv.zeroIn_false_iff]
  left
  unfold Itv.pow
  split_ifs <;> first | exact zero_lt_one | exact pow_pos h n | skip
  all_goals exact absurd h.le ‹_›

theorem scale_mem {I : Itv K} {w s : K} (h0 : InItv I 0) (hw : InItv I w) (hs0 : 0 ≤ s) (hs1 : s ≤ 1) : InItv I (s * w) := by
  rcases le_total 0 w with h | h
  · exact ⟨h0.1.trans (mul_nonneg hs0 h), (mul_le_of_le_one_left h hs1).trans hw.2⟩
  · refine ⟨hw.1.trans ?_, (mul_nonpos_of_nonneg_of_nonpos hs0 h).trans h0.2⟩
    nlinarith

/-- `s / tm` for a polynomial of degree at most 1, remainder {0}, and `0 ≤ s ≤ 1`. -/
theorem divST_parts (ha : a.WF) (h62 : a.order ≤ 62) (ho : ord (a.tpol.p.syms.map varName) = a.tpol.p.syms.map varName)
    (hrem : a.rem = ⟨0, 0⟩) (hlin : DegLE 1 (a.tpol.toMv () : MvPolynomial String K)) (hnz : ∀ x, a.InDom x → a.polyAt x ≠ 0) {s : K}
    (hs0 : 0 ≤ s) (hs1 : s ≤ 1) : ∃ r, divST ord s a = .ok r ∧ r.WF ∧ r.order = a.order ∧ (∀ x, r.InDom x ↔ a.InDom x) ∧
      (∀ x, a.InDom x → ∀ y z, a.Allows x y → z = s / y → r.Allows x z) ∧ r.exp = a.exp ∧ r.dom = a.dom ∧ r.tpol.p.syms = a.tpol.p.syms ∧
      EqUpTo a.tpol.order (r.tpol.toMv () * a.tpol.toMv () : MvPolynomial String K) (C s) := by
  have hsgn := one_sign hlin hnz
  obtain ⟨c, B, h1, h2, h3, h4, h5, h6⟩ := setup ha h62 ho
  obtain ⟨b, hb1, hb2, hb3⟩ := bounds_encloses ha h62 ho
  have hba := getBounds_attained ha.valid ha.names (terms_lin ha.valid hlin) (fun v hv => by
    obtain ⟨I, x, e1, e2, e3⟩ := ha.lookup hv
    exact ⟨I, x, e1, e2, e3.1.trans e3.2⟩) ho hb1
  have hbz : (b.add a.rem).zeroIn = false := by
    rw [hrem, add_rem_zero, Itv.zeroIn_false_iff]
    obtain ⟨x, e1, e2⟩ := hba b.lo (.inl rfl)
    obtain ⟨y, e3, e4⟩ := hba b.hi (.inr rfl)
    rcases hsgn with h | h
    · exact .inl (e2 ▸ h x ((inDom_iff ha x).2 e1))
    · exact .inr (e4 ▸ h y ((inDom_iff ha y).2 e3))
  have hc0 : c ≠ 0 := by
    rw [← h2, ← polyAt_expPoint]
    exact hnz _ (expPoint_inDom ha)
  have hv : ∀ x, a.InDom x → 0 < 1 + (a.polyAt x - c) / c := by
    intro x hx
    have e : 1 + (a.polyAt x - c) / c = a.polyAt x / c := by field_simp; ring
    rw [e]
    have hce : c = a.polyAt a.expPoint := by rw [polyAt_expPoint, h2]
    rcases hsgn with h | h
    · exact div_pos (h x hx) (hce ▸ h _ (expPoint_inDom ha))
    · exact div_pos_of_neg_of_neg (h x hx) (hce ▸ h _ (expPoint_inDom ha))
  set k := a.tpol.order with hk
  obtain ⟨num, n1, n2, -⟩ := sdiv_ok (smul ((-1) ^ (k + 1)) (B.pow (k + 1))) (pow_ne_zero (k + 2) hc0)
  obtain ⟨q, q1, q2, q3⟩ := sdiv_ok B hc0
  have hQ : ∀ t, InItv B t → InItv (q.mul ⟨0, 1⟩) (t / c) := fun t ht => by
    have := Itv.mem_mul (q2 t ht) (show InItv (⟨0, 1⟩ : Itv K) 1 from ⟨zero_le_one, le_rfl⟩)
    rwa [mul_one] at this
  have hend : ∀ b, b = B.lo ∨ b = B.hi → 0 < 1 + b / c := fun b hb => by
    obtain ⟨x, e1, e2⟩ := h6 hlin b hb
    have := hv x e1
    rwa [e2, add_sub_cancel_left] at this
  have hqend : ∀ t, t = q.lo ∨ t = q.hi → 0 < 1 + t := fun t ht => by
    rcases q3 t ht with h | h
    · rw [h]; exact hend _ (.inl rfl)
    · rw [h]; exact hend _ (.inr rfl)
  have hlo : 0 < ((Itv.point 1).add (q.mul ⟨0, 1⟩)).lo := by
    change 0 < 1 + (q.mul ⟨0, 1⟩).lo
    rcases mul_lo_mem q ⟨0, 1⟩ with h | h | h | h <;> rw [h]
    · simp
    · simpa using hqend _ (.inl rfl)
    · simp
    · simpa using hqend _ (.inr rfl)
  have hDz := pow_zeroIn hlo (k + 2)
  obtain ⟨den, d1, -⟩ := Itv.mem_div hDz (Itv.mem_point (1 : K)) (Itv.mem_pow (Itv.mem_add (Itv.mem_point (1 : K)) (hQ 0 h4)) (k + 2))
  have hden : ∀ t, InItv B t → InItv den ((1 + t / c) ^ (k + 2))⁻¹ := fun t ht => by
    obtain ⟨den', e1, e2⟩ := Itv.mem_div hDz (Itv.mem_point (1 : K)) (Itv.mem_pow (Itv.mem_add (Itv.mem_point (1 : K)) (hQ t ht)) (k + 2))
    rw [d1] at e1
    obtain rfl := Except.ok.inj e1
    rwa [one_div] at e2
  obtain ⟨p, p1, p2, p3, p4, p5, p6⟩ := divSG_linear ha.valid hlin h2 hc0 s
  obtain ⟨r, r1, r2, r3, r4, r5, r6, r7⟩ := remake ha p2 p4 (Itv.lo_le_hi_mul num den)
  refine ⟨r, ?_, r2, by rw [r3, p3, ha.order], inDom_congr r7, fun x hx y z hy hz => ?_, r6, r7, by rw [r4, p4], by rw [r4]; exact p6⟩
  · unfold divST
    rw [bind_ok hb1, hbz, if_neg (by simp), bind_ok h1]
    simp only
    rw [bind_ok h3, hrem, add_rem_zero]
    change (do
      let num ← sdiv (smul ((-1) ^ (k + 1)) (B.pow (k + 1))) (c ^ (k + 2))
      let q ← sdiv B c
      let den ← (Itv.point 1).div (((Itv.point 1).add (q.mul ⟨0, 1⟩)).pow (k + 2))
      let p ← GDual.divSG s a.tpol
      make p (num.mul den) a.exp a.dom) = _
    rw [bind_ok n1, bind_ok q1, bind_ok d1, bind_ok p1, r1]
  · have hy0 : y = a.polyAt x := by
      unfold Allows at hy
      rw [hrem] at hy
      exact sub_eq_zero.1 (le_antisymm hy.2 hy.1)
    have hz' : z = s / a.polyAt x := hy0 ▸ hz
    set u := a.polyAt x - c with hu
    have hcu : a.polyAt x = c + u := by rw [hu]; ring
    have hpoly : r.polyAt x = s * ∑ i ∈ Finset.range (k + 1), (-1) ^ i * (c⁻¹) ^ (i + 1) * u ^ i := by
      unfold polyAt
      rw [r4, r6, p5, map_sum, Finset.mul_sum]
      refine Finset.sum_congr rfl fun i _ => ?_
      rw [map_mul, map_pow, map_sub, eval_C, eval_C]
      change _ * (a.polyAt x - c) ^ i = _
      ring
    unfold Allows
    rw [r5, hz', hpoly, hcu]
    have herr := geom_error c u hc0 (hcu ▸ hnz x hx) k
    have e : s / (c + u) - s * ∑ i ∈ Finset.range (k + 1), (-1) ^ i * (c⁻¹) ^ (i + 1) * u ^ i =
        s * ((-1) ^ (k + 1) * u ^ (k + 1) / c ^ (k + 2) * (1 / (1 + u / c))) := by
      rw [← herr]
      ring
    rw [e]
    have hnum := n2 _ (Itv.mem_mul (Itv.mem_point ((-1 : K) ^ (k + 1))) (Itv.mem_pow (h5 x hx) (k + 1)))
    have hone : InItv den 1 := by
      have := hden 0 h4
      simpa using this
    have hvi : InItv den (1 + u / c)⁻¹ := inv_between (hv x hx) (by omega) hone (hden u (h5 x hx))
    have hfull := Itv.mem_mul hnum hvi
    have hnum0 := n2 _ (Itv.mem_mul (Itv.mem_point ((-1 : K) ^ (k + 1))) (Itv.mem_pow h4 (k + 1)))
    rw [zero_pow (by omega), mul_zero, zero_div] at hnum0
    have hzero := Itv.mem_mul hnum0 hvi
    rw [zero_mul] at hzero
    rw [one_div]
    exact scale_mem hzero hfull hs0 hs1

theorem divST_sound (ha : a.WF) (h62 : a.order ≤ 62) (ho : ord (a.tpol.p.syms.map varName) = a.tpol.p.syms.map varName)
    (hrem : a.rem = ⟨0, 0⟩) (hlin : DegLE 1 (a.tpol.toMv () : MvPolynomial String K)) (hnz : ∀ x, a.InDom x → a.polyAt x ≠ 0) {s : K}
    (hs0 : 0 ≤ s) (hs1 : s ≤ 1) : Sound₁ a (divST ord s a) fun y z => z = s / y := by
  obtain ⟨r, h1, h2, h3, h4, h5, -⟩ := divST_parts ha h62 ho hrem hlin hnz hs0 hs1
  exact ⟨r, h1, h2, h3, h4, h5⟩

end TM
end Audi
