import Verif.Proofs.GDualOps
import Verif.Proofs.Analytic

/-! Correctness of the loops of functions.hpp. -/

set_option linter.unusedSectionVars false

namespace Audi

open MvPolynomial Spec Topology Filter

/-! Loops -/

theorem foldlM_range' {S : Type} {step : S → ℕ → Res S} {Inv : ℕ → S → Prop} {stp : ℕ} (hstp : 0 < stp) (len : ℕ) :
    ∀ (start : ℕ) (s0 : S), Inv start s0 →
    (∀ k s, start ≤ k → k < start + stp * len → Inv k s → ∃ s', step s k = .ok s' ∧ Inv (k + stp) s') →
    ∃ s', (List.range' start len stp).foldlM step s0 = .ok s' ∧ Inv (start + stp * len) s' := by
  induction len with
  | zero => intro start s0 h0 _; exact ⟨s0, rfl, h0⟩
  | succ len ih =>
    intro start s0 h0 hstep
    rw [List.range'_succ, List.foldlM_cons]
    have hl : stp * (len + 1) = stp * len + stp := by ring
    obtain ⟨s1, h1, h2⟩ := hstep start s0 le_rfl (by omega) h0
    obtain ⟨s', h3, h4⟩ := ih (start + stp) s1 h2 (fun k s hk hk' => hstep k s (by omega) (by omega))
    refine ⟨s', ?_, ?_⟩
    · rw [h1]; exact h3
    · rw [hl, add_comm (stp * len), ← add_assoc]; exact h4

theorem foldl_range' {S : Type} {step : S → ℕ → S} {Inv : ℕ → S → Prop} {stp : ℕ} (hstp : 0 < stp) (len : ℕ) :
    ∀ (start : ℕ) (s0 : S), Inv start s0 →
    (∀ k s, start ≤ k → k < start + stp * len → Inv k s → Inv (k + stp) (step s k)) →
    Inv (start + stp * len) ((List.range' start len stp).foldl step s0) := by
  induction len with
  | zero => intro start s0 h0 _; exact h0
  | succ len ih =>
    intro start s0 h0 hstep
    rw [List.range'_succ, List.foldl_cons]
    have hl : stp * (len + 1) = stp * len + stp := by ring
    have h2 := hstep start s0 le_rfl (by omega) h0
    have h4 := ih (start + stp) _ h2 (fun k s hk hk' => hstep k s (by omega) (by omega))
    rw [hl, add_comm (stp * len), ← add_assoc]; exact h4

theorem bind_ok {α β : Type} {x : Res α} {a : α} (h : x = .ok a) (f : α → Res β) : (x >>= f) = f a := by
  rw [h]; rfl

theorem bind_error {α β : Type} {x : Res α} {e : Exn} (h : x = .error e) (f : α → Res β) : (x >>= f) = .error e := by
  rw [h]; rfl

/-! Power sums -/

section psum
variable {K : Type} [Field K]

/-- `Σ_{j<N} b_j H^j`. -/
noncomputable def psum (b : ℕ → K) (H : MvPolynomial String K) (N : ℕ) : MvPolynomial String K :=
  ∑ j ∈ Finset.range N, MvPolynomial.C (b j) * H ^ j

theorem psum_succ (b : ℕ → K) (H : MvPolynomial String K) (N : ℕ) :
    psum b H (N + 1) = psum b H N + MvPolynomial.C (b N) * H ^ N := Finset.sum_range_succ _ _

theorem psum_two (b : ℕ → K) (H : MvPolynomial String K) :
    psum b H 2 = MvPolynomial.C (b 0) + MvPolynomial.C (b 1) * H := by
  simp [psum, Finset.sum_range_succ]

theorem psum_one (b : ℕ → K) (H : MvPolynomial String K) : psum b H 1 = MvPolynomial.C (b 0) := by
  simp [psum]

theorem psum_scale (b : ℕ → K) (H : MvPolynomial String K) (s : K) (N : ℕ) :
    psum b (H * MvPolynomial.C s) N = psum (fun j => b j * s ^ j) H N := by
  refine Finset.sum_congr rfl fun j _ => ?_
  rw [mul_pow, ← map_pow, map_mul]; ring

theorem psum_mul_C (b : ℕ → K) (H : MvPolynomial String K) (s : K) (N : ℕ) :
    psum b H N * MvPolynomial.C s = psum (fun j => s * b j) H N := by
  unfold psum
  rw [Finset.sum_mul]
  refine Finset.sum_congr rfl fun j _ => ?_
  rw [map_mul]; ring

theorem psum_congr {b b' : ℕ → K} {N : ℕ} (h : ∀ j < N, b j = b' j) (H : MvPolynomial String K) :
    psum b H N = psum b' H N :=
  Finset.sum_congr rfl fun j hj => by rw [h j (Finset.mem_range.mp hj)]

/-- The hat of a polynomial. -/
noncomputable def hat (P : MvPolynomial String K) : MvPolynomial String K := P - MvPolynomial.C (coeff 0 P)

theorem coeff_zero_hat' (P : MvPolynomial String K) : coeff 0 (hat P) = 0 := coeff_zero_hat P

theorem psum_compPoly (b : ℕ → K) (P : MvPolynomial String K) {n N : ℕ} (hN : n + 1 ≤ N) :
    EqUpTo n (psum b (hat P) N) (compPoly n b P) :=
  sum_pow_eqUpTo (coeff_zero_hat P) b hN

theorem psum_eqUpTo (b : ℕ → K) {H : MvPolynomial String K} (h0 : coeff 0 H = 0) {n N : ℕ} (hN : n + 1 ≤ N) :
    EqUpTo n (psum b H N) (psum b H (n + 1)) :=
  sum_pow_eqUpTo h0 b hN

end psum

namespace GDual

section any
variable {C : Type} [Cf C] {ι : Type} {K : Type} [Field K] [Lanes C ι K] {a b d : GDual C} {n : ℕ}
  {P Q : ι → MvPolynomial String K}

theorem Rep.order_add (ha : Rep n a P) (hb : Rep n b Q) (h : a.order = n ∨ b.order = n) : (a.add b).order = n := by
  have := ha.order; have := hb.order
  change max a.order b.order = n
  omega

theorem Rep.order_sub (ha : Rep n a P) (hb : Rep n b Q) (h : a.order = n ∨ b.order = n) : (a.sub b).order = n := by
  have := ha.order; have := hb.order
  change max a.order b.order = n
  omega

include ι in
theorem isUnit_ofRat {q : ℚ} (h : (q : K) ≠ 0) : Cf.isUnit (Cf.ofRat q : C) = true := by
  rw [Lanes.isUnit_iff (ι := ι) (K := K)]
  intro i
  rw [Lanes.lane_ofRat]
  exact h

/-- `phat = d - p0`. -/
theorem rep_hat (hd : d.Valid) {p0 : C} (h : d.constantCf = .ok p0) :
    Rep d.order (d.subGS p0) (fun i => (hat (d.toMv i) : MvPolynomial String K)) :=
  ((Rep.self hd).subGS p0).congr fun i => EqUpTo.of_eq (by rw [hat, lane_constantCf hd h])

/-- Division by a constant gdual of order zero is exact. -/
theorem div_const (ha : Rep n a P) (hao : a.order = n) {c : ι → K} (hb : b.Valid) (hbo : b.order = 0)
    (hc : ∀ i, b.toMv i = MvPolynomial.C (c i)) (h0 : ∀ i, c i ≠ 0) :
    ∃ r, a.div b = .ok r ∧ r.order = n ∧ Rep n r (fun i => P i * MvPolynomial.C (c i)⁻¹) := by
  obtain ⟨p0, hp0⟩ := constantCf_isOk b
  have hu : Cf.isUnit p0 = true := (isUnit_constantCf hb hp0).mpr (fun i => by rw [hc]; simpa using h0 i)
  obtain ⟨q, hq, hqo, hqr⟩ := divSeries_spec (ι := ι) (K := K) hb hp0 hu
  have hp : ∀ i, (Lanes.lane i p0 : K) = c i := fun i => by rw [lane_constantCf hb hp0, hc]; simp
  have hq1 : ∀ i, q.toMv i = (1 : MvPolynomial String K) := by
    intro i
    have hh : (hatPoly b i : MvPolynomial String K) = 0 := by rw [hatPoly, hc]; simp
    have h1 : Rep b.order q (fun _ : ι => (1 : MvPolynomial String K)) := hqr.congr fun j => EqUpTo.of_eq (by
      have hh : (hatPoly b j : MvPolynomial String K) = 0 := by rw [hatPoly, hc]; simp
      rw [hbo, hh]; simp)
    refine h1.toMv_eq (fun _ => ?_) i
    intro e he
    rw [coeff_one, if_neg]
    rintro rfl
    simp at he
  have hqv : Rep n q (fun _ : ι => (1 : MvPolynomial String K)) :=
    ⟨hqr.valid, by rw [hqo, hbo]; exact Nat.zero_le _, fun i => EqUpTo.of_eq (hq1 i)⟩
  have hm := ha.mul hqv (Or.inl hao)
  obtain ⟨r, hr, hro, hrr⟩ := Rep.divGS hu hm
  refine ⟨r, ?_, ?_, hrr.congr fun i => EqUpTo.of_eq (by rw [hp, mul_one])⟩
  · unfold div
    rw [bind_ok hp0]
    rw [if_pos hu, bind_ok hq]
    exact hr
  · rw [hro, Rep.order_mul ha hqv (Or.inl hao)]

/-- Division, both of the same order. -/
theorem div_rep (ha : Rep n a P) (hb : Rep n b Q) (hbo : b.order = n) (h0 : ∀ i, coeff 0 (Q i) ≠ 0) :
    ∃ r, a.div b = .ok r ∧ r.order = n ∧ ∃ R : ι → MvPolynomial String K, Rep n r R ∧
      ∀ i, EqUpTo n (R i * Q i) (P i) := by
  have h0' : ∀ i : ι, coeff 0 (b.toMv i) ≠ (0 : K) := fun i => by
    rw [hb.eq i 0 (by simp)]; exact h0 i
  obtain ⟨r, h1, h2, h3, h4⟩ := div_spec ha.valid hb.valid h0'
  have hm : max a.order b.order = n := by rw [hbo]; exact max_eq_right ha.order
  rw [hm] at h3 h4
  choose I hI1 hI2 using h4
  refine ⟨r, h1, h3, fun i => P i * I i, ⟨h2, h3.le, fun i => (hI2 i).trans ((ha.eq i).mul (EqUpTo.refl _))⟩, fun i => ?_⟩
  have h5 : EqUpTo n (P i * (I i * b.toMv i)) (P i * 1) := (EqUpTo.refl _).mul (hbo ▸ hI1 i)
  rw [mul_one] at h5
  refine EqUpTo.trans ?_ h5
  rw [mul_assoc]
  exact (EqUpTo.refl _).mul ((EqUpTo.refl _).mul (hb.eq i).symm)

theorem mulLoop_rep (hd : d.Valid) {k : ℕ} (hk : 0 < k) :
    Rep d.order ((List.range' 1 (k - 1)).foldl (fun r _ => r.mul d) d) (fun i => (d.toMv i : MvPolynomial String K) ^ k) ∧
    ((List.range' 1 (k - 1)).foldl (fun r _ => r.mul d) d).order = d.order := by
  have := foldl_range' (step := fun (r : GDual C) _ => r.mul d)
    (Inv := fun j r => Rep d.order r (fun i => (d.toMv i : MvPolynomial String K) ^ j) ∧ r.order = d.order)
    (stp := 1) one_pos (k - 1) 1 d ⟨(Rep.self hd).congr fun i => EqUpTo.of_eq (pow_one _).symm, rfl⟩
    (fun j r _ _ hr => ⟨(hr.1.mul (Rep.self hd) (Or.inr rfl)).congr fun i => EqUpTo.of_eq (pow_succ _ _).symm,
      hr.1.order_mul (Rep.self hd (ι := ι) (K := K)) (Or.inr rfl)⟩)
  rwa [one_mul, show 1 + (k - 1) = k by omega] at this

end any

section generic
variable {C : Type} [CfFun C] {ι : Type} {𝕜 : Type} [NontriviallyNormedField 𝕜] [Lanes C ι 𝕜] {d r : GDual C} {n : ℕ}

theorem guardFinite_true {b : Bool} (h : b = true) : guardFinite b = .ok () := by simp [guardFinite, h]
theorem guardFinite_false {b : Bool} (h : ¬ b = true) : guardFinite b = .error .nonFinite := by simp [guardFinite, h]

/-- A gdual representing a truncated composition with the Taylor coefficients of `g` is a lift of `g`. -/
theorem isLift_of_rep {g : ι → 𝕜 → 𝕜} {b : ι → ℕ → 𝕜} (ho : r.order = d.order)
    (hr : Rep d.order r (fun i => compPoly d.order (b i) (d.toMv i)))
    (hg : ∀ i, IsTaylor₁ (coeff 0 (d.toMv i)) d.order (g i) (b i)) : IsLift g d r :=
  ⟨hr.valid, ho, fun i F a hF => by
    have h := hF.comp (g := g i) (b := b i) (by rw [hF.val]; exact hg i)
    exact h.congr_poly (hr.eq i).symm⟩

variable [CharZero 𝕜]

theorem _root_.Audi.IsLift.coeff_zero {g : ι → 𝕜 → 𝕜} (h : IsLift g d r) (i : ι) :
    coeff 0 (r.toMv i) = g i (coeff 0 (d.toMv i)) := by
  have h1 := isTaylor_poly (fun _ => 0) d.order (d.toMv i : MvPolynomial String 𝕜)
  have h2 := (h.taylor i _ _ h1).val
  rw [← h2, ← h1.val]

/-! exp -/

theorem exp_repK (hd : d.Valid) {e : 𝕜 → 𝕜} (he : ∀ (i : ι) (c : C), (Lanes.lane i (CfFun.exp c) : 𝕜) = e (Lanes.lane i c)) :
    ∃ r, exp d = .ok r ∧ r.order = d.order ∧
    Rep d.order r (fun i => compPoly d.order (fun j => e (coeff 0 (d.toMv i)) / j.factorial) (d.toMv i)) := by
  obtain ⟨p0, hp0⟩ := constantCf_isOk d
  have hph := rep_hat (ι := ι) (K := 𝕜) hd hp0
  have hpo : (d.subGS p0).order = d.order := rfl
  set n := d.order with hn
  set ph := d.subGS p0
  set H : ι → MvPolynomial String 𝕜 := fun i => hat (d.toMv i) with hH
  obtain ⟨st, h1, h2, h3, -⟩ := foldlM_range' (step := expStep ph)
    (Inv := fun k s => Rep n s.retval (fun i => psum (fun j => 1 / (j.factorial : 𝕜)) (H i) k) ∧ s.retval.order = n ∧
      Rep n s.phat (fun i => H i ^ (k - 1)) ∧ s.phat.order = n ∧
      s.fact.Valid ∧ s.fact.order = 0 ∧ ∀ i : ι, s.fact.toMv i = MvPolynomial.C ((k - 1).factorial : 𝕜))
    (stp := 1) one_pos (n - 1) 2 ⟨(ofRat 1).add ph, ofRat 1, ph⟩
    ⟨((Rep.ofRat 1).add hph).congr fun i => EqUpTo.of_eq (by rw [psum_two]; simp),
      Rep.order_add (Rep.ofRat (ι := ι) (K := 𝕜) 1) hph (Or.inr hpo),
      hph.congr fun i => EqUpTo.of_eq (by simp), hpo, valid_ofRat 1, rfl,
      fun i => by simp [toMv_ofRat]⟩
    (by
      rintro k s hk - ⟨i1, i2, i3, i4, i5, i6, i7⟩
      have e1 : Rep n (s.phat.mul ph) (fun i => H i ^ k) := (i3.mul hph (Or.inl i4)).congr fun i =>
        EqUpTo.of_eq (by rw [← pow_succ, Nat.sub_add_cancel (by omega)])
      have e2 : (s.phat.mul ph).order = n := i3.order_mul hph (Or.inl i4)
      have e3 : ∀ i : ι, (s.fact.mulGS (Cf.ofRat k)).toMv i = MvPolynomial.C (k.factorial : 𝕜) := by
        intro i
        rw [toMv_mulGS _ i5, i7, Lanes.lane_ofRat, ← map_mul]
        congr 1
        obtain ⟨k, rfl⟩ : ∃ j, k = j + 1 := ⟨k - 1, by omega⟩
        rw [Nat.factorial_succ, Nat.add_sub_cancel]; push_cast; ring
      have e4 : (s.fact.mulGS (Cf.ofRat k)).order = 0 := by rw [order_mulGS, i6]
      obtain ⟨q, hq, hqo, hqr⟩ := div_const e1 e2 (Valid.mulGS _ i5) e4 e3
        (fun i => by exact_mod_cast k.factorial_ne_zero)
      refine ⟨⟨s.retval.add q, s.fact.mulGS (Cf.ofRat k), s.phat.mul ph⟩, ?_, ?_, Rep.order_add i1 hqr (Or.inl i2),
        e1, e2, Valid.mulGS _ i5, e4, e3⟩
      · unfold expStep
        rw [bind_ok hq]
      · refine (i1.add hqr).congr fun i => EqUpTo.of_eq ?_
        rw [psum_succ, one_div]; ring)
  refine ⟨st.retval.mulGS (CfFun.exp p0), ?_, by rw [order_mulGS, h3], ?_⟩
  · unfold exp
    rw [bind_ok hp0]
    change ((List.range' 2 (n - 1)).foldlM (expStep ph) _ >>= _) = _
    rw [bind_ok h1]
  · refine (h2.mulGS _).congr fun i => ?_
    rw [he, lane_constantCf hd hp0, psum_mul_C]
    refine EqUpTo.trans (EqUpTo.of_eq (psum_congr (fun j _ => ?_) _)) (psum_compPoly _ _ (by omega))
    ring

theorem computes_expLike {e : 𝕜 → 𝕜} (he : ∀ (i : ι) (c : C), (Lanes.lane i (CfFun.exp c) : 𝕜) = e (Lanes.lane i c))
    (hd : ∀ t, HasDerivAt e (e t) t) : Computes (C := C) (ι := ι) exp e (fun _ => True) where
  lift d hv _ := by
    obtain ⟨r, h1, h2, h3⟩ := exp_repK (ι := ι) hv he
    exact ⟨r, h1, isLift_of_rep h2 h3 fun i => isTaylor₁_expLike hd⟩
  undef d _ h := absurd (fun _ => trivial) h

/-! log -/

include ι 𝕜 in
/-- `d - d.constant_cf()` is empty exactly when the degree is 0. -/
theorem subGS_constant_nil_iff (hd : d.Valid) {p0 : C} (h : d.constantCf = .ok p0) :
    (d.subGS p0).p.terms = [] ↔ d.degree = 0 := by
  rw [terms_nil_iff (ι := ι) (K := 𝕜) (hd.subGS p0), degree_eq_zero_iff (ι := ι) (K := 𝕜) hd]
  refine forall_congr' fun i => ?_
  rw [toMv_subGS p0 hd, lane_constantCf hd h, sub_eq_zero]

/-- `phat = (d - p0)/p0`. -/
theorem rep_hat_div (hd : d.Valid) {p0 : C} (h : d.constantCf = .ok p0)
    (hc : (∀ i : ι, coeff 0 (d.toMv i : MvPolynomial String 𝕜) ≠ 0) ∨ d.degree = 0) :
    ∃ ph, (d.subGS p0).divGS p0 = .ok ph ∧ ph.order = d.order ∧
      Rep d.order ph (fun i => hat (d.toMv i) * MvPolynomial.C (coeff 0 (d.toMv i : MvPolynomial String 𝕜))⁻¹) := by
  by_cases hu : Cf.isUnit p0 = true
  · obtain ⟨ph, h1, h2, h3⟩ := Rep.divGS hu (rep_hat (ι := ι) (K := 𝕜) hd h)
    exact ⟨ph, h1, h2, h3.congr fun i => EqUpTo.of_eq (by rw [lane_constantCf hd h])⟩
  · have h0 := hc.resolve_left (mt (isUnit_constantCf (ι := ι) (K := 𝕜) hd h).mpr hu)
    refine ⟨_, divGS_empty hu ((subGS_constant_nil_iff (ι := ι) (𝕜 := 𝕜) hd h).mpr h0), rfl,
      (rep_hat (ι := ι) (K := 𝕜) hd h).congr fun i => EqUpTo.of_eq ?_⟩
    have := (degree_eq_zero_iff (ι := ι) (K := 𝕜) hd).mp h0 i
    rw [hat, ← this, sub_self, zero_mul]

theorem log_repK (hd : d.Valid) {l : 𝕜 → 𝕜} {dom : 𝕜 → Prop} (h0 : ¬ dom 0)
    (hlog : ∀ (i : ι) (c : C), dom (Lanes.lane i c) → (Lanes.lane i (CfFun.log c) : 𝕜) = l (Lanes.lane i c))
    (hlok : ∀ c : C, CfFun.logOk c = true ↔ ∀ i : ι, dom (Lanes.lane i c : 𝕜))
    (hdom : ∀ i : ι, dom (coeff 0 (d.toMv i : MvPolynomial String 𝕜))) :
    ∃ r, log d = .ok r ∧ r.order = d.order ∧
    Rep d.order r (fun i => compPoly d.order (logCoeffK (l (coeff 0 (d.toMv i))) (coeff 0 (d.toMv i))) (d.toMv i)) := by
  obtain ⟨p0, hp0⟩ := constantCf_isOk d
  have hl : ∀ i : ι, (Lanes.lane i p0 : 𝕜) = coeff 0 (d.toMv i) := lane_constantCf hd hp0
  have hok : CfFun.logOk p0 = true := (hlok p0).mpr fun i => by rw [hl]; exact hdom i
  obtain ⟨ph, hphe, hpo, hph⟩ := rep_hat_div (ι := ι) hd hp0 (Or.inl fun i hz => h0 (hz ▸ hdom i))
  set n := d.order with hn
  set G : ι → MvPolynomial String 𝕜 := fun i => hat (d.toMv i) * MvPolynomial.C (coeff 0 (d.toMv i))⁻¹ with hG
  set b : ι → ℕ → 𝕜 := fun i j => if j = 0 then l (coeff 0 (d.toMv i)) else (-1) ^ (j - 1) / j with hb
  obtain ⟨st, h1, h2, h3, -⟩ := foldlM_range' (step := logStep ph)
    (Inv := fun k s => Rep n s.retval (fun i => psum (b i) (G i) k) ∧ s.retval.order = n ∧
      Rep n s.phat (fun i => G i ^ (k - 1)) ∧ s.phat.order = n ∧
      Rep n s.fatt (fun _ : ι => MvPolynomial.C ((-1) ^ k : 𝕜)))
    (stp := 1) one_pos (n - 1) 2 ⟨ph.addSG (CfFun.log p0), ofRat 1, ph⟩
    ⟨(hph.addSG _).congr fun i => EqUpTo.of_eq (by
        rw [psum_two, hlog _ _ (by rw [hl]; exact hdom i), hl]; simp [hb]),
      hpo, hph.congr fun i => EqUpTo.of_eq (by simp [hG]), hpo,
      (Rep.ofRat 1).congr fun i => EqUpTo.of_eq (by simp)⟩
    (by
      rintro k s hk - ⟨i1, i2, i3, i4, i5⟩
      have e1 : Rep n (s.phat.mul ph) (fun i => G i ^ k) := (i3.mul hph (Or.inl i4)).congr fun i =>
        EqUpTo.of_eq (by rw [← pow_succ, Nat.sub_add_cancel (by omega)])
      have e2 : (s.phat.mul ph).order = n := i3.order_mul hph (Or.inl i4)
      have e3 : Rep n (s.fatt.mulGS (Cf.ofRat (-1))) (fun _ : ι => MvPolynomial.C ((-1) ^ (k + 1) : 𝕜)) :=
        (i5.mulGS _).congr fun i => EqUpTo.of_eq (by rw [Lanes.lane_ofRat, ← map_mul, pow_succ]; simp)
      have hk0 : ((k : ℚ) : 𝕜) ≠ 0 := by
        have : (k : 𝕜) ≠ 0 := by exact_mod_cast (by omega : k ≠ 0)
        simpa using this
      obtain ⟨q, hq, hqo, hqr⟩ := Rep.divGS (isUnit_ofRat (C := C) (ι := ι) hk0) (e3.mul e1 (Or.inr e2))
      refine ⟨⟨s.retval.add q, s.fatt.mulGS (Cf.ofRat (-1)), s.phat.mul ph⟩, ?_, ?_,
        Rep.order_add i1 hqr (Or.inl i2), e1, e2, e3⟩
      · unfold logStep
        rw [bind_ok hq]
      · refine (i1.add hqr).congr fun i => EqUpTo.of_eq ?_
        rw [psum_succ, Lanes.lane_ofRat]
        have : b i k = (-1) ^ (k + 1) * ((k : ℚ) : 𝕜)⁻¹ := by
          obtain ⟨k, rfl⟩ : ∃ j, k = j + 1 := ⟨k - 1, by omega⟩
          simp only [hb, Nat.succ_ne_zero, if_false, Nat.add_sub_cancel]
          rw [pow_succ, pow_succ]; push_cast; ring
        rw [this, map_mul]; ring)
  refine ⟨st.retval, ?_, h3, ?_⟩
  · unfold log
    rw [bind_ok hp0, bind_ok (guardFinite_true hok), bind_ok hphe]
    change ((List.range' 2 (n - 1)).foldlM (logStep ph) _ >>= _) = _
    rw [bind_ok h1]
  · refine h2.congr fun i => ?_
    rw [hG]
    simp only
    rw [psum_scale]
    refine EqUpTo.trans (EqUpTo.of_eq (psum_congr (fun j _ => ?_) _)) (psum_compPoly _ _ (by omega))
    simp only [hb, logCoeffK]
    split_ifs with hj
    · simp [hj]
    · rw [inv_pow, div_mul_eq_div_div]; ring

theorem computes_logLike {l : 𝕜 → 𝕜} {dom dif : 𝕜 → Prop} (h0 : ¬ dom 0) (hdif : ∀ x, dif x → dom x)
    (hlog : ∀ (i : ι) (c : C), dom (Lanes.lane i c) → (Lanes.lane i (CfFun.log c) : 𝕜) = l (Lanes.lane i c))
    (hlok : ∀ c : C, CfFun.logOk c = true ↔ ∀ i : ι, dom (Lanes.lane i c : 𝕜))
    (hd : ∀ c, dif c → ∀ᶠ t in 𝓝 c, HasDerivAt l t⁻¹ t) (d : GDual C) (hv : d.Valid)
    (h : ∀ i : ι, dif (coeff 0 (d.toMv i : MvPolynomial String 𝕜))) :
    ∃ r, log d = .ok r ∧ IsLift (fun _ : ι => l) d r := by
  obtain ⟨r, h1, h2, h3⟩ := log_repK (ι := ι) hv h0 hlog hlok fun i => hdif _ (h i)
  exact ⟨r, h1, isLift_of_rep h2 h3 fun i => isTaylor₁_logLike (fun hz => h0 (hz ▸ hdif _ (h i))) (hd _ (h i))⟩

theorem log_undef {dom : 𝕜 → Prop} (hlok : ∀ c : C, CfFun.logOk c = true ↔ ∀ i : ι, dom (Lanes.lane i c : 𝕜)) (hd : d.Valid)
    (h : ¬ ∀ i : ι, dom (coeff 0 (d.toMv i : MvPolynomial String 𝕜))) : log d = .error .nonFinite := by
  obtain ⟨p0, hp0⟩ := constantCf_isOk d
  have hok : ¬ CfFun.logOk p0 = true := fun hc => h fun i => by
    rw [← lane_constantCf hd hp0]; exact (hlok p0).mp hc i
  unfold log
  rw [bind_ok hp0, bind_error (guardFinite_false hok)]

/-! Roots -/

theorem lane_binomialC (x : C) (k : ℕ) (hk : 0 < k) (i : ι) :
    (Lanes.lane i (binomialC x k) : 𝕜) = binR (Lanes.lane i x) k := by
  have := foldl_range' (step := fun (retval : C) (i : ℕ) =>
      Cf.div (Cf.mul retval (Cf.sub x (Cf.ofRat i))) (Cf.ofRat ((i : ℚ) + 1)))
    (Inv := fun j c => (Lanes.lane i c : 𝕜) = binR (Lanes.lane i x) j) (stp := 1) one_pos (k - 1) 1 x
    (by rw [binR_succ, binR_zero]; simp)
    (fun j c _ _ hc => by
      rw [Lanes.lane_div, Lanes.lane_mul, Lanes.lane_sub, Lanes.lane_ofRat, Lanes.lane_ofRat, hc, binR_succ]
      push_cast; rfl)
  rw [one_mul, show 1 + (k - 1) = k by omega] at this
  exact this

theorem rootSeries_rep (hd : d.Valid) {p0 rt alpha : C} {α : 𝕜} (hp0 : d.constantCf = .ok p0)
    (hα : ∀ i : ι, (Lanes.lane i alpha : 𝕜) = α)
    (hdom : (∀ i : ι, coeff 0 (d.toMv i : MvPolynomial String 𝕜) ≠ 0) ∨ d.degree = 0) :
    ∃ r, rootSeries d alpha p0 rt = .ok r ∧ r.order = d.order ∧
    Rep d.order r (fun i => compPoly d.order (fun j => Lanes.lane i rt * binR α j / (coeff 0 (d.toMv i)) ^ j) (d.toMv i)) := by
  obtain ⟨ph, hphe, hpo, hph⟩ := rep_hat_div (ι := ι) hd hp0 hdom
  set n := d.order with hn
  set G : ι → MvPolynomial String 𝕜 := fun i => hat (d.toMv i) * MvPolynomial.C (coeff 0 (d.toMv i))⁻¹ with hG
  obtain ⟨h2, h3, -⟩ := foldl_range' (step := rootStep alpha ph)
    (Inv := fun k s => Rep n s.retval (fun i => psum (binR α) (G i) k) ∧ s.retval.order = n ∧
      Rep n s.phat (fun i => G i ^ (k - 1)) ∧ s.phat.order = n)
    (stp := 1) one_pos (n - 1) 2 ⟨(ofRat 1).add (ph.mulSG alpha), ph⟩
    ⟨((Rep.ofRat 1).add (hph.mulSG _)).congr fun i => EqUpTo.of_eq (by
        rw [psum_two, hα, binR_succ, binR_zero]; simp),
      Rep.order_add (Rep.ofRat (ι := ι) (K := 𝕜) 1) (hph.mulSG alpha) (Or.inr (by rw [order_mulSG, hpo])),
      hph.congr fun i => EqUpTo.of_eq (by simp [hG]), hpo⟩
    (by
      rintro k s hk - ⟨i1, i2, i3, i4⟩
      have e1 : Rep n (s.phat.mul ph) (fun i => G i ^ k) := (i3.mul hph (Or.inl i4)).congr fun i =>
        EqUpTo.of_eq (by rw [← pow_succ, Nat.sub_add_cancel (by omega)])
      have e2 : (s.phat.mul ph).order = n := i3.order_mul hph (Or.inl i4)
      refine ⟨?_, Rep.order_add i1 (e1.mulSG (binomialC alpha k)) (Or.inl i2), e1, e2⟩
      refine (i1.add (e1.mulSG (binomialC alpha k))).congr fun i => EqUpTo.of_eq ?_
      rw [psum_succ, lane_binomialC alpha k (by omega), hα])
  refine ⟨((List.range' 2 (n - 1)).foldl (rootStep alpha ph) ⟨(ofRat 1).add (ph.mulSG alpha), ph⟩).retval.mulGS rt,
    ?_, ?_, ?_⟩
  · unfold rootSeries
    rw [bind_ok hphe]
  · rw [order_mulGS]; exact h3
  · refine (h2.mulGS rt).congr fun i => ?_
    rw [hG]
    simp only
    rw [psum_scale, psum_mul_C]
    refine EqUpTo.trans (EqUpTo.of_eq (psum_congr (fun j _ => ?_) _)) (psum_compPoly _ _ (by omega))
    rw [inv_pow]; ring

/-- The constant part has a zero lane and the degree is not 0. -/
theorem rootSeries_error (hd : d.Valid) {p0 rt alpha : C} (hp0 : d.constantCf = .ok p0)
    (h : ¬ ∀ i : ι, coeff 0 (d.toMv i : MvPolynomial String 𝕜) ≠ 0) (h0 : d.degree ≠ 0) :
    rootSeries d alpha p0 rt = .error .nonFinite := by
  unfold rootSeries
  rw [bind_error (divGS_error (mt (isUnit_constantCf (ι := ι) (K := 𝕜) hd hp0).mp h)
    (mt (subGS_constant_nil_iff (ι := ι) (𝕜 := 𝕜) hd hp0).mp h0))]

/-- Roots of gduals of degree 0. -/
theorem rootSeries_const (hd : d.Valid) {p0 rt alpha : C} {α : 𝕜} (hp0 : d.constantCf = .ok p0)
    (hα : ∀ i : ι, (Lanes.lane i alpha : 𝕜) = α) (h0 : d.degree = 0) :
    ∃ r, rootSeries d alpha p0 rt = .ok r ∧ r.Valid ∧ r.order = d.order ∧
      ∀ i : ι, r.toMv i = MvPolynomial.C (Lanes.lane i rt : 𝕜) := by
  obtain ⟨r, h1, h2, h3⟩ := rootSeries_rep (ι := ι) (rt := rt) hd hp0 hα (Or.inr h0)
  refine ⟨r, h1, h3.valid, h2, fun i => ?_⟩
  refine EqUpTo.eq_of_degLE (m := d.order) ((h3.eq i).trans ?_) (h2 ▸ h3.valid.degLE i) (fun e he => ?_)
  · have hc := (degree_eq_zero_iff (ι := ι) (K := 𝕜) hd).mp h0 i
    refine EqUpTo.of_eq ?_
    rw [hc, compPoly_C]
    simp [binR_zero]
  · rw [coeff_C, if_neg]
    rintro rfl
    simp at he

end generic

variable {C : Type} [CfFun C] {ι : Type} [Lanes C ι ℝ] {d r : GDual C} {n : ℕ}

/-! Real coefficients -/

theorem exp_rep [LanesFun C ι] (hd : d.Valid) : ∃ r, exp d = .ok r ∧ r.order = d.order ∧
    Rep d.order r (fun i => compPoly d.order (fun j => Real.exp (coeff 0 (d.toMv i)) / j.factorial) (d.toMv i)) :=
  exp_repK hd LanesFun.lane_exp

theorem computes_exp [LanesFun C ι] : Computes (C := C) (ι := ι) exp Real.exp (fun _ => True) :=
  computes_expLike LanesFun.lane_exp Real.hasDerivAt_exp

theorem log_rep [LanesFun C ι] (hd : d.Valid) (hdom : ∀ i : ι, 0 < coeff 0 (d.toMv i : MvPolynomial String ℝ)) :
    ∃ r, log d = .ok r ∧ r.order = d.order ∧
    Rep d.order r (fun i => compPoly d.order (logCoeff (coeff 0 (d.toMv i))) (d.toMv i)) :=
  log_repK (dom := fun x : ℝ => 0 < x) hd (lt_irrefl _) LanesFun.lane_log LanesFun.logOk_iff hdom

theorem computes_log [LanesFun C ι] : Computes (C := C) (ι := ι) log Real.log (fun x => 0 < x) where
  lift d hd h := computes_logLike (dom := fun x : ℝ => 0 < x) (lt_irrefl _) (fun _ h => h) LanesFun.lane_log LanesFun.logOk_iff
    (fun c (hc : (0 : ℝ) < c) => by filter_upwards [isOpen_ne.mem_nhds hc.ne'] with t ht using Real.hasDerivAt_log ht) d hd h
  undef d hd h := log_undef (dom := fun x : ℝ => 0 < x) LanesFun.logOk_iff hd h

/-- `sqrt` at a constant part which is zero in some lane: not finite, except for gduals of degree 0. -/
theorem sqrt_const [LanesFun C ι] (hd : d.Valid) (h : ∀ i : ι, 0 ≤ coeff 0 (d.toMv i : MvPolynomial String ℝ))
    (h0 : d.degree = 0) : ∃ r, sqrt d = .ok r ∧ r.Valid ∧ r.order = d.order ∧
      ∀ i : ι, r.toMv i = MvPolynomial.C (√(coeff 0 (d.toMv i : MvPolynomial String ℝ))) := by
  obtain ⟨p0, hp0⟩ := constantCf_isOk d
  have hl : ∀ i : ι, (Lanes.lane i p0 : ℝ) = coeff 0 (d.toMv i) := lane_constantCf hd hp0
  have hok : CfFun.sqrtOk p0 = true := (LanesFun.sqrtOk_iff p0).mpr fun i => by rw [hl]; exact h i
  obtain ⟨r, h1, h2, h3, h4⟩ := rootSeries_const (ι := ι) (rt := CfFun.sqrt p0) (alpha := Cf.ofRat (1 / 2)) (α := 1 / 2)
    hd hp0 (fun i => by rw [Lanes.lane_ofRat]; norm_num) h0
  refine ⟨r, ?_, h2, h3, fun i => ?_⟩
  · unfold sqrt
    rw [bind_ok hp0, bind_ok (guardFinite_true hok), h1]
  · rw [h4, LanesFun.lane_sqrt _ _ (by rw [hl]; exact h i), hl]

theorem computes_sqrt [LanesFun C ι] : ComputesE (C := C) (ι := ι) sqrt Real.sqrt (fun x => 0 < x) (fun x => x < 0) where
  lift d hd h := by
    obtain ⟨p0, hp0⟩ := constantCf_isOk d
    have hl : ∀ i : ι, (Lanes.lane i p0 : ℝ) = coeff 0 (d.toMv i) := lane_constantCf hd hp0
    have hok : CfFun.sqrtOk p0 = true := (LanesFun.sqrtOk_iff p0).mpr fun i => by rw [hl]; exact (h i).le
    obtain ⟨r, h1, h2, h3⟩ := rootSeries_rep (ι := ι) (rt := CfFun.sqrt p0) (alpha := Cf.ofRat (1 / 2)) (α := 1 / 2)
      hd hp0 (fun i => by rw [Lanes.lane_ofRat]; norm_num) (Or.inl fun i => (h i).ne')
    refine ⟨r, ?_, isLift_of_rep h2 h3 fun i => ?_⟩
    · unfold sqrt
      rw [bind_ok hp0, bind_ok (guardFinite_true hok), h1]
    · rw [LanesFun.lane_sqrt _ _ (by rw [hl]; exact (h i).le), hl]
      exact isTaylor₁_sqrt (h i)
  bad d hd h := by
    obtain ⟨p0, hp0⟩ := constantCf_isOk d
    obtain ⟨i, hi⟩ := h
    unfold sqrt
    rw [bind_ok hp0, bind_error (guardFinite_false fun hok => ?_)]
    have := (LanesFun.sqrtOk_iff p0).mp hok i
    rw [lane_constantCf hd hp0] at this
    exact absurd this (not_le.mpr hi)
  edge d hd h h0 := by
    obtain ⟨p0, hp0⟩ := constantCf_isOk d
    have hl : ∀ i : ι, (Lanes.lane i p0 : ℝ) = coeff 0 (d.toMv i) := lane_constantCf hd hp0
    unfold sqrt
    rw [bind_ok hp0]
    by_cases hok : CfFun.sqrtOk p0 = true
    · rw [bind_ok (guardFinite_true hok), rootSeries_error (ι := ι) (𝕜 := ℝ) hd hp0 (fun hu => h fun i => ?_) h0]
      have h1 := (LanesFun.sqrtOk_iff p0).mp hok i
      rw [hl] at h1
      exact lt_of_le_of_ne h1 (Ne.symm (hu i))
    · rw [bind_error (guardFinite_false hok)]

/-- Outside of the open domain `sqrt` is not finite or has a zero constant part in some lane. -/
theorem sqrt_not_pos [LanesFun C ι] (hd : d.Valid) (h : ¬ ∀ i : ι, 0 < coeff 0 (d.toMv i : MvPolynomial String ℝ)) :
    sqrt d = .error .nonFinite ∨ ∃ s, sqrt d = .ok s ∧ s.Valid ∧ s.order = d.order ∧ d.degree = 0 ∧
      (∀ i : ι, s.toMv i = MvPolynomial.C (√(coeff 0 (d.toMv i : MvPolynomial String ℝ)))) ∧
      ¬ ∀ i : ι, coeff 0 (s.toMv i : MvPolynomial String ℝ) ≠ 0 := by
  by_cases hneg : ∃ i : ι, coeff 0 (d.toMv i : MvPolynomial String ℝ) < 0
  · exact Or.inl (computes_sqrt.bad d hd hneg)
  push Not at hneg
  by_cases h0 : d.degree = 0
  · obtain ⟨s, h1, h2, h3, h4⟩ := sqrt_const hd hneg h0
    refine Or.inr ⟨s, h1, h2, h3, h0, h4, fun hc => h fun i => ?_⟩
    have := hc i
    rw [h4, coeff_C, if_pos rfl] at this
    exact lt_of_le_of_ne (hneg i) fun he => this (by rw [← he, Real.sqrt_zero])
  · exact Or.inl (computes_sqrt.edge d hd h h0)

theorem computes_cbrt [LanesFun C ι] :
    ComputesE (C := C) (ι := ι) cbrt Spec.cbrt (fun x => x ≠ 0) (fun _ => False) where
  lift d hd h := by
    obtain ⟨p0, hp0⟩ := constantCf_isOk d
    have hl : ∀ i : ι, (Lanes.lane i p0 : ℝ) = coeff 0 (d.toMv i) := lane_constantCf hd hp0
    obtain ⟨r, h1, h2, h3⟩ := rootSeries_rep (ι := ι) (rt := CfFun.cbrt p0)
      (alpha := Cf.div (Cf.ofRat 1) (Cf.ofRat 3)) (α := 1 / 3)
      hd hp0 (fun i => by rw [Lanes.lane_div, Lanes.lane_ofRat, Lanes.lane_ofRat]; norm_num) (Or.inl h)
    refine ⟨r, ?_, isLift_of_rep h2 h3 fun i => ?_⟩
    · unfold cbrt
      rw [bind_ok hp0, h1]
    · have : (Lanes.lane i (CfFun.cbrt p0) : ℝ) = Spec.cbrt (coeff 0 (d.toMv i)) :=
        cube_injective (by rw [LanesFun.lane_cbrt, hl, Spec.cbrt_cube])
      rw [this]
      exact isTaylor₁_cbrt (h i)
  bad d hd h := h.elim fun _ => False.elim
  edge d hd h h0 := by
    obtain ⟨p0, hp0⟩ := constantCf_isOk d
    unfold cbrt
    rw [bind_ok hp0, rootSeries_error (ι := ι) (𝕜 := ℝ) hd hp0 h h0]

end GDual
end Audi
