import Verif.Spec.RoundedFn
import Verif.Props.C67_Rounding
import Mathlib.Algebra.Order.Ring.Pow
import Mathlib.Tactic.Linarith
import Mathlib.Tactic.Positivity

/-! Rounding errors of the series of functions. -/

set_option linter.unusedSectionVars false

namespace Audi

open MvPolynomial Spec

variable {R : Rounding ℝ}

namespace Rounding

/-- `c` is `x` with a relative error of `k` roundings, in either direction. -/
def Rel (R : Rounding ℝ) (k : ℕ) (c x : ℝ) : Prop := ∃ t, c = x * t ∧ (1 - R.u) ^ k ≤ t ∧ t * (1 - R.u) ^ k ≤ 1

namespace Rel
variable {k l : ℕ} {c d x y : ℝ}

theorem refl (R : Rounding ℝ) (x : ℝ) : R.Rel 0 x x := ⟨1, by simp⟩

theorem pos_pow (R : Rounding ℝ) (k : ℕ) : 0 < (1 - R.u) ^ k := pow_pos (by linarith [R.u_lt_one]) k

theorem mul (h : R.Rel k c x) (h' : R.Rel l d y) : R.Rel (k + l) (c * d) (x * y) := by
  obtain ⟨t, rfl, h1, h2⟩ := h
  obtain ⟨s, rfl, h3, h4⟩ := h'
  have p := pos_pow R k
  have q := pos_pow R l
  refine ⟨t * s, by ring, ?_, ?_⟩
  · rw [pow_add]
    exact mul_le_mul h1 h3 q.le (p.le.trans h1)
  · rw [pow_add, show t * s * ((1 - R.u) ^ k * (1 - R.u) ^ l) = (t * (1 - R.u) ^ k) * (s * (1 - R.u) ^ l) by ring]
    exact mul_le_one₀ h2 (mul_nonneg (q.le.trans h3) q.le) h4

theorem inv (h : R.Rel k c x) : R.Rel k c⁻¹ x⁻¹ := by
  obtain ⟨t, rfl, h1, h2⟩ := h
  have p := pos_pow R k
  have ht : 0 < t := p.trans_le h1
  refine ⟨t⁻¹, mul_inv _ _, ?_, ?_⟩
  · rw [le_inv_comm₀ p ht, ← one_div, le_div_iff₀ p]
    exact h2
  · rw [inv_mul_le_iff₀ ht, mul_one]
    exact h1

theorem rnd (h : R.Rel k c x) : R.Rel (k + 1) (R.rnd c) x := by
  obtain ⟨t, rfl, h1, h2⟩ := h
  have p := pos_pow R k
  have ht : 0 < t := p.trans_le h1
  have hu := R.u_nonneg
  have hu1 := R.u_lt_one
  by_cases h0 : x * t = 0
  · have hx : x = 0 := (mul_eq_zero.mp h0).resolve_right ht.ne'
    refine ⟨1, by rw [h0, R.rnd_zero, hx, zero_mul], pow_le_one₀ (by linarith) (by linarith), ?_⟩
    rw [one_mul]
    exact pow_le_one₀ (by linarith) (by linarith)
  · have herr := R.err (x * t)
    set s := R.rnd (x * t) / (x * t) with hs
    have hs1 : R.rnd (x * t) = (x * t) * s := (mul_div_cancel₀ _ h0).symm
    have hs2 : |s - 1| ≤ R.u := by
      rw [hs1, show x * t * s - x * t = (x * t) * (s - 1) by ring, abs_mul, mul_comm] at herr
      exact le_of_mul_le_mul_right herr (abs_pos.mpr h0)
    obtain ⟨h3, h4⟩ := abs_le.mp hs2
    refine ⟨t * s, by rw [hs1]; ring, ?_, ?_⟩
    · rw [pow_succ]
      exact mul_le_mul h1 (by linarith) (by linarith) ht.le
    · rw [pow_succ, show t * s * ((1 - R.u) ^ k * (1 - R.u)) = (t * (1 - R.u) ^ k) * (s * (1 - R.u)) by ring]
      refine mul_le_one₀ h2 (mul_nonneg (by linarith) (by linarith)) ?_
      nlinarith

theorem near (hu : R.u ≤ 1 / 2) (h : R.Rel k c x) : R.Near (2 * k) c x |x| := by
  obtain ⟨t, rfl, h1, h2⟩ := h
  refine ⟨?_, le_rfl⟩
  have hu0 := R.u_nonneg
  have p := pos_pow R k
  have ht : 0 < t := p.trans_le h1
  rw [show x * t - x = (t - 1) * x by ring, abs_mul]
  refine mul_le_mul_of_nonneg_right (abs_le.mpr ⟨?_, ?_⟩) (abs_nonneg x)
  · have h3 : 1 + ((2 * k : ℕ) : ℝ) * R.u ≤ (1 + R.u) ^ (2 * k) := one_add_mul_le_pow (by linarith) _
    have h4 : 1 + (k : ℝ) * (-R.u) ≤ (1 + -R.u) ^ k := one_add_mul_le_pow (by linarith) _
    push_cast at h3
    rw [← sub_eq_add_neg] at h4
    have : 0 ≤ (k : ℝ) * R.u := by positivity
    linarith
  · have h7 : 0 ≤ R.u * (1 / 2 - R.u) := mul_nonneg hu0 (by linarith)
    have h8 : 0 ≤ R.u * (R.u * (1 / 2 - R.u)) := mul_nonneg hu0 h7
    have h3 : 1 ≤ ((1 + R.u) ^ 2 * (1 - R.u)) ^ k := one_le_pow₀ (by nlinarith)
    rw [mul_pow, ← pow_mul] at h3
    have h4 : t * 1 ≤ t * ((1 + R.u) ^ (2 * k) * (1 - R.u) ^ k) := mul_le_mul_of_nonneg_left h3 ht.le
    have h5 : t * ((1 + R.u) ^ (2 * k) * (1 - R.u) ^ k) = (1 + R.u) ^ (2 * k) * (t * (1 - R.u) ^ k) := by ring
    have h6 := mul_le_mul_of_nonneg_left h2 (show 0 ≤ (1 + R.u) ^ (2 * k) by positivity)
    linarith

end Rel

theorem near_ofRat (R : Rounding ℝ) (q : ℚ) : R.Near 1 (Cf.ofRat q : Fl R).val (q : ℝ) |(q : ℝ)| := (Near.refl R 0 _).rnd

theorem rel_ofRat (R : Rounding ℝ) (q : ℚ) : R.Rel 1 (Cf.ofRat q : Fl R).val (q : ℝ) := (Rel.refl R _).rnd

theorem val_ofRat_one (R : Rounding ℝ) : (Cf.ofRat 1 : Fl R).val = 1 := by simp [Cf.ofRat, Fl.round, R.rnd_one]

theorem val_ofRat_neg_one (R : Rounding ℝ) : (Cf.ofRat (-1) : Fl R).val = -1 := by simp [Cf.ofRat, Fl.round, R.rnd_neg, R.rnd_one]

end Rounding

open Rounding

/-- The coefficients up to degree `j` of the gdual are those of `P` with the error of `k` roundings relative to those of `Q`. -/
structure RRep (j k : ℕ) (r : GDual (Fl R)) (P Q : MvPolynomial String ℝ) : Prop where
  vr : r.Valid
  near : ∀ E : String →₀ ℕ, E.degree ≤ j → R.Near k (r.p.cof E) (coeff E P) (coeff E Q)

namespace RRep
open GDual
variable {j k l : ℕ} {r r' : GDual (Fl R)} {P Q P' Q' : MvPolynomial String ℝ}

theorem mono (h : RRep j k r P Q) (hkl : k ≤ l) : RRep j l r P Q := ⟨h.vr, fun E hE => (h.near E hE).mono hkl⟩

theorem congr (h : RRep j k r P Q) (h1 : P = P') (h2 : Q = Q') : RRep j k r P' Q' := by subst h1 h2; exact h

theorem const {c : Fl R} {x X : ℝ} {i : ℕ} (hc : R.Near i c.val x X) (n : ℕ) : RRep j i (ofCfOrder c n) (C x) (C X) where
  vr := valid_ofCfOrder _ _
  near := fun E _ => by
    rw [coeff_C, coeff_C]
    change R.Near i ((Poly.const c).cof E) _ _
    rw [Poly.cof_const]
    split_ifs
    · exact hc
    · exact Near.zero R i

theorem neg (h : RRep j k r P Q) : RRep j k r.neg (-P) Q where
  vr := Close.valid_neg h.vr
  near := fun E hE => by
    rw [coeff_neg]
    change R.Near _ (r.p.neg.cof E) _ _
    rw [Poly.cof_neg]
    exact (h.near E hE).neg

theorem add (h : RRep j k r P Q) (h' : RRep j k r' P' Q') : RRep j (k + 1) (r.add r') (P + P') (Q + Q') where
  vr := h.vr.add h'.vr
  near := fun E hE => by
    rw [coeff_add, coeff_add]
    change R.Near _ ((r.p.add r'.p).cof E) _ _
    rw [Poly.cof_add h.vr.wf h'.vr.wf]
    exact ((h.near E hE).add (h'.near E hE)).rnd

theorem sub (h : RRep j k r P Q) (h' : RRep j k r' P' Q') : RRep j (k + 1) (r.sub r') (P - P') (Q + Q') := by
  rw [sub_eq_add_neg]
  exact h.add h'.neg

theorem mul_of {N : ℕ} (h : RRep j k r P Q) (h' : RRep j l r' P' Q') (hj : j ≤ max r.order r'.order) (hN : 1 ≤ N)
    (hN' : 2 ^ j ≤ N ∨ r.p.terms.length ≤ N ∨ r'.p.terms.length ≤ N) :
    RRep j (k + l + N) (r.mul r') (P * P') (Q * Q') where
  vr := h.vr.mul h'.vr
  near := fun E hE => by
    rw [coeff_mul, coeff_mul]
    refine Poly.near_truncMul h.vr.wf h'.vr.wf (hE.trans hj) (fun d hd => h.near d.1 ((degree_le_of_antidiagonal hd).1.trans hE))
      (fun d hd => h'.near d.2 ((degree_le_of_antidiagonal hd).2.trans hE)) hN ?_
    rcases hN' with h | h
    · exact Or.inl ((card_antidiagonal_le E).trans ((Nat.pow_le_pow_right (by norm_num) hE).trans h))
    · exact Or.inr h

theorem mul (h : RRep j k r P Q) (h' : RRep j l r' P' Q') (hj : j ≤ max r.order r'.order) :
    RRep j (k + l + 2 ^ j) (r.mul r') (P * P') (Q * Q') := mul_of h h' hj Nat.one_le_two_pow (Or.inl le_rfl)

theorem addSG {c : Fl R} {x X : ℝ} (hc : R.Near k c.val x X) (h : RRep j k r P Q) : RRep j (k + 1) (r.addSG c) (C x + P) (C X + Q) where
  vr := Valid.addSG c h.vr
  near := ((const hc r.order).add h).near

theorem mulSG {c : Fl R} {x X : ℝ} {i : ℕ} (hc : R.Near i c.val x X) (h : RRep j k r P Q) (hj : j ≤ r.order) :
    RRep j (i + k + 1) (r.mulSG c) (C x * P) (C X * Q) :=
  (const hc r.order).mul_of h (hj.trans (le_max_right _ _)) le_rfl (Or.inr (Or.inl (Poly.length_const c)))

theorem mulGS {c : Fl R} {x X : ℝ} {i : ℕ} (hc : R.Near i c.val x X) (h : RRep j k r P Q) (hj : j ≤ r.order) :
    RRep j (k + i + 1) (r.mulGS c) (P * C x) (Q * C X) :=
  h.mul_of (const hc r.order) (hj.trans (le_max_left _ _)) le_rfl (Or.inr (Or.inr (Poly.length_const c)))

/-- Division by a number. -/
theorem divGS {c : Fl R} {x X : ℝ} {i : ℕ} (h0 : c.val ≠ 0) (hc : R.Near i c.val⁻¹ x X) (h : RRep j k r P Q) (hj : j ≤ r.order) :
    ∃ q, r.divGS c = .ok q ∧ q.order = r.order ∧ RRep j (k + i + 2) q (P * C x) (Q * C X) := by
  have hu : Cf.isUnit c = true := by simp [Cf.isUnit, h0]
  refine ⟨_, divGS_eq hu, by rw [order_mulGS], ?_⟩
  have h1 : (Cf.div Cf.one c : Fl R).val = R.rnd c.val⁻¹ := by
    simp [Cf.div, Cf.one, Cf.ofRat, Fl.round, R.rnd_one]
  refine (mulGS (i := i + 1) (x := x) (X := X) ?_ h hj).mono (by omega)
  rw [h1]
  exact hc.rnd

theorem divGS_rel (hu : R.u ≤ 1 / 2) {c : Fl R} {x : ℝ} {i : ℕ} (hx : 0 < x) (hc : R.Rel i c.val x) (h : RRep j k r P Q) (hj : j ≤ r.order) :
    ∃ s, r.divGS c = .ok s ∧ s.order = r.order ∧ RRep j (k + 2 * i + 2) s (P * C x⁻¹) (Q * C x⁻¹) := by
  have h1 : c.val ≠ 0 := by
    obtain ⟨t, h2, h3, -⟩ := hc
    rw [h2]
    exact (mul_pos hx ((Rel.pos_pow R i).trans_le h3)).ne'
  have h2 := hc.inv.near hu
  rw [abs_of_pos (inv_pos.mpr hx)] at h2
  exact h.divGS h1 h2 hj

theorem divGS_rat (hu : R.u ≤ 1 / 2) {q : ℚ} (hq : (0 : ℝ) < q) (h : RRep j k r P Q) (hj : j ≤ r.order) :
    ∃ s, r.divGS (Cf.ofRat q) = .ok s ∧ s.order = r.order ∧ RRep j (k + 4) s (P * C (q : ℝ)⁻¹) (Q * C (q : ℝ)⁻¹) := by
  have h1 : (Cf.ofRat q : Fl R).val ≠ 0 := fun h => hq.ne' (R.rnd_eq_zero h)
  have h2 := (R.rel_ofRat q).inv.near hu
  rw [abs_of_pos (inv_pos.mpr hq)] at h2
  obtain ⟨s, g1, g2, g3⟩ := h.divGS h1 h2 hj
  exact ⟨s, g1, g2, g3⟩

end RRep

namespace GDual
variable {d : GDual (Fl R)}

theorem coeff_absPoly (P : MvPolynomial String ℝ) (E : String →₀ ℕ) : coeff E (absPoly P) = |coeff E P| := by
  classical
  rw [absPoly, coeff_sum]
  simp only [coeff_monomial]
  rw [Finset.sum_ite_eq']
  split_ifs with h
  · rfl
  · rw [notMem_support_iff.mp h, abs_zero]

theorem coeff_zero_varPart (d : GDual (Fl R)) : coeff 0 d.varPart = 0 := by
  rw [varPart, coeff_sub, coeff_C, if_pos rfl]
  exact sub_self _

theorem coeff_zero_absPoly (d : GDual (Fl R)) : coeff 0 (absPoly d.varPart) = 0 := by
  rw [coeff_absPoly, coeff_zero_varPart, abs_zero]

theorem coeff_varPart (d : GDual (Fl R)) {E : String →₀ ℕ} (hE : E ≠ 0) : coeff E d.varPart = d.coeffOf E := by
  rw [varPart, coeff_sub, coeff_C, if_neg (Ne.symm hE), sub_zero]
  rfl

theorem val_constantCf {p0 : Fl R} (hd : d.Valid) (h : d.constantCf = .ok p0) : p0.val = d.coeffOf 0 := by
  have h1 := findCf_fl hd h
  rwa [symbolSetSize, toExp_replicate_zero] at h1

/-- `phat = d - p0` is exact. -/
theorem rrep_hat {p0 : Fl R} (hd : d.Valid) (h : d.constantCf = .ok p0) (j : ℕ) : RRep j 0 (d.subGS p0) d.varPart (absPoly d.varPart) where
  vr := ⟨hd.wf.add (Poly.wf_neg_fl (Poly.wf_const p0)), Poly.deg_add hd.wf (Poly.wf_neg_fl (Poly.wf_const p0)) hd.deg
    (Poly.deg_neg (Poly.deg_const p0 _))⟩
  near := fun E _ => by
    have h1 : (d.subGS p0).p.cof E = coeff E d.varPart := by
      change (d.p.sub (Poly.const p0)).cof E = _
      rw [Poly.cof_sub hd.wf (Poly.wf_const p0), Poly.cof_const]
      split_ifs with h0
      · subst h0
        rw [coeff_zero_varPart, val_constantCf hd h, coeffOf]
        change R.rnd (d.coeffOf 0 - d.coeffOf 0) = 0
        rw [sub_self, R.rnd_zero]
      · rw [coeff_varPart d (Ne.symm h0), sub_zero]
        exact Poly.rnd_cof hd.wf E
    rw [h1, coeff_absPoly]
    exact Near.refl R 0 _

theorem order_subGS' {p0 : Fl R} : (d.subGS p0).order = d.order := rfl

theorem _root_.Audi.RRep.of_nil {r : GDual (Fl R)} (hr : r.Valid) (h : r.p.terms = []) (j k : ℕ) : RRep j k r 0 0 where
  vr := hr
  near := fun E _ => by
    have h0 : r.p.cof E = 0 := by
      by_contra hne
      obtain ⟨t, ht, -⟩ := Poly.cof_ne_zero hne
      simp [h] at ht
    rw [h0, coeff_zero]
    exact Near.zero R k

/-- Products of numbers, as gduals. -/
theorem const_mulGS {c s : Fl R} (hc : c.val ≠ 0) (hs : s.val ≠ 0) : (ofCfOrder c 0).mulGS s = ofCfOrder (Cf.mul c s) 0 := by
  have h1 : ¬ R.rnd (c.val * s.val) = 0 := fun h => (mul_ne_zero hc hs) (R.rnd_eq_zero h)
  have e1 : Cf.isZero c = false := by simp [Cf.isZero, hc]
  have e2 : Cf.isZero s = false := by simp [Cf.isZero, hs]
  have e3 : Cf.isZero (Cf.mul c s) = false := by simp [Cf.isZero, Cf.mul, Fl.round, h1]
  simp [GDual.mulGS, GDual.mul, ofCfOrder, Poly.const, Poly.insertTerm, e1, e2, e3, Poly.truncMul, Poly.mulBy, Poly.addSymbols, mergeSyms, reindex,
    Poly.keyDegree, Poly.insertTerms]

theorem constantCf_const {c : Fl R} (hc : c.val ≠ 0) : (ofCfOrder c 0).constantCf = .ok c := by
  have e1 : Cf.isZero c = false := by simp [Cf.isZero, hc]
  simp [constantCf, findCf, symbolSetSize, ofCfOrder, Poly.const, Poly.insertTerm, e1, expSum, Poly.find?]

theorem terms_nil_of_cof {p : Poly (Fl R)} (hp : p.WF) (h : ∀ E, p.cof E = 0) : p.terms = [] := by
  rw [List.eq_nil_iff_forall_not_mem]
  intro t ht
  have h1 := h (toExp p.syms t.1)
  rw [Poly.cof_toExp hp (hp.len t ht), tc_of_mem hp.nodup ht] at h1
  have h2 := hp.nz t ht
  simp [Cf.isZero, h1] at h2

/-- Division by a number, as gdual of order 0. -/
theorem _root_.Audi.RRep.div_const {r : GDual (Fl R)} {P Q : MvPolynomial String ℝ} {j k i : ℕ} {c : Fl R} {x X : ℝ} (h0 : c.val ≠ 0)
    (hc : R.Near i c.val⁻¹ x X) (h : RRep j k r P Q) (hj : j ≤ r.order) :
    ∃ q, r.div (ofCfOrder c 0) = .ok q ∧ q.order = r.order ∧ RRep j (k + i + 2 ^ j + 3) q (P * C x) (Q * C X) := by
  have hu : Cf.isUnit c = true := by simp [Cf.isUnit, h0]
  have hv := valid_ofCfOrder c 0
  set f := ofCfOrder c 0 with hf
  have hsv : (f.subGS c).Valid := ⟨hv.wf.add (Poly.wf_neg_fl (Poly.wf_const c)), Poly.deg_add hv.wf (Poly.wf_neg_fl (Poly.wf_const c)) hv.deg
    (Poly.deg_neg (Poly.deg_const c _))⟩
  have hnil : (f.subGS c).p.terms = [] := terms_nil_of_cof hsv.wf fun E => by
    change ((Poly.const c).sub (Poly.const c)).cof E = 0
    rw [Poly.cof_sub (Poly.wf_const c) (Poly.wf_const c), sub_self, R.rnd_zero]
  have hnil2 : ((f.subGS c).mulGS (Cf.div Cf.one c)).p.terms = [] := by
    change (Poly.truncMul (f.subGS c).p (Poly.const _) _).terms = []
    simp [Poly.truncMul, Poly.mulBy, Poly.addSymbols, hnil, Poly.insertTerms]
  have hv2 : ((f.subGS c).mulGS (Cf.div Cf.one c)).Valid := Valid.mulGS _ hsv
  have h1 : RRep j 0 (ofRat 1 : GDual (Fl R)) (C 1) (C 1) := by
    have h1 := Near.refl R 0 (1 : ℝ)
    rw [abs_one] at h1
    exact RRep.const (c := Cf.ofRat 1) (by rw [R.val_ofRat_one]; exact h1) 0
  have h2 := (h1.sub (RRep.of_nil hv2 hnil2 j 0)).congr (sub_zero _) (add_zero _)
  have h3 := h.mul h2 (hj.trans (le_max_left _ _))
  have ho : (r.mul ((ofRat 1).sub ((f.subGS c).mulGS (Cf.div Cf.one c)))).order = r.order := by
    change max r.order (max 0 (max 0 0)) = _
    simp
  obtain ⟨q, g1, g2, g3⟩ := h3.divGS h0 hc (hj.trans ho.ge)
  refine ⟨q, ?_, g2.trans ho, (g3.congr (by simp) (by simp)).mono (by omega)⟩
  unfold div
  rw [bind_ok (constantCf_const h0), if_pos hu]
  have : divSeries f c = .ok ((ofRat 1).sub ((f.subGS c).mulGS (Cf.div Cf.one c))) := by
    unfold divSeries
    rw [bind_ok (divGS_eq hu)]
    rfl
  rw [bind_ok this]
  exact g1

/-! exp -/

theorem exp_rrep [Libm R] (hu : R.u ≤ 1 / 2) (hd : d.Valid) {j : ℕ} (hj : j ≤ d.order) :
    ∃ r, exp d = .ok r ∧ r.order = d.order ∧ ∃ M, j < M ∧
    RRep j ((d.order + 2) * (2 ^ j + 20) + Libm.acc R) r (psum (fun i => Real.exp (d.coeffOf 0) / i.factorial) d.varPart M)
      (psum (fun i => |Real.exp (d.coeffOf 0)| / i.factorial) (absPoly d.varPart) M) := by
  obtain ⟨p0, hp0⟩ := constantCf_isOk d
  have hph := rrep_hat hd hp0 j
  have hpo : (d.subGS p0).order = d.order := rfl
  have hv0 := val_constantCf hd hp0
  set n := d.order with hn
  set ph := d.subGS p0
  set H := d.varPart
  set A := absPoly d.varPart
  set B := 2 ^ j with hB
  set T := n * (B + 10) + 2 * B + 10 with hT
  have h1r : RRep j 0 (ofRat 1 : GDual (Fl R)) (C 1) (C 1) := by
    have h1 := Near.refl R 0 (1 : ℝ)
    rw [abs_one] at h1
    exact RRep.const (c := Cf.ofRat 1) (by rw [R.val_ofRat_one]; exact h1) 0
  obtain ⟨st, h1, h2, h3, -⟩ := foldlM_range' (step := expStep ph)
    (Inv := fun k s => RRep j (T + k) s.retval (psum (fun i => 1 / (i.factorial : ℝ)) H k) (psum (fun i => 1 / (i.factorial : ℝ)) A k) ∧ s.retval.order = n ∧
      RRep j ((k - 1) * B) s.phat (H ^ (k - 1)) (A ^ (k - 1)) ∧ s.phat.order = n ∧
      ∃ c : Fl R, s.fact = ofCfOrder c 0 ∧ c.val ≠ 0 ∧ R.Rel (2 * (k - 1)) c.val ((k - 1).factorial : ℝ))
    (stp := 1) one_pos (n - 1) 2 ⟨(ofRat 1).add ph, ofRat 1, ph⟩
    ⟨((h1r.add hph).congr (by rw [psum_two]; simp) (by rw [psum_two]; simp)).mono (by omega), by change max 0 n = n; simp,
      (hph.congr (by simp) (by simp)).mono (by omega), hpo, Cf.ofRat 1, rfl, by rw [R.val_ofRat_one]; exact one_ne_zero,
      by rw [R.val_ofRat_one]; simpa [R.rnd_one] using ((Rel.refl R 1).rnd).rnd⟩
    (by
      rintro k s hk hk' ⟨i1, i2, i3, i4, c, i5, i6, i7⟩
      obtain ⟨k, rfl⟩ : ∃ l, k = l + 1 := ⟨k - 1, by omega⟩
      rw [Nat.add_sub_cancel] at i3 i7
      have e1 : RRep j ((k + 1) * B) (s.phat.mul ph) (H ^ (k + 1)) (A ^ (k + 1)) :=
        ((i3.mul hph (by rw [i4, hpo]; simpa using hj)).congr (pow_succ _ _).symm (pow_succ _ _).symm).mono (by rw [add_mul]; omega)
      have e2 : (s.phat.mul ph).order = n := by change max s.phat.order n = n; rw [i4, max_self]
      have hk1 : ((k + 1 : ℕ) : ℝ) ≠ 0 := by positivity
      have e3 : (Cf.ofRat ((k + 1 : ℕ) : ℚ) : Fl R).val ≠ 0 := fun h => hk1 (by simpa using R.rnd_eq_zero h)
      have e4 : R.Rel (2 * (k + 1)) (Cf.mul c (Cf.ofRat ((k + 1 : ℕ) : ℚ)) : Fl R).val ((k + 1).factorial : ℝ) := by
        have := (i7.mul (R.rel_ofRat ((k + 1 : ℕ) : ℚ))).rnd
        rw [Nat.factorial_succ, Nat.cast_mul, mul_comm ((k + 1 : ℕ) : ℝ)]
        simp only [Rat.cast_natCast] at this
        exact this
      have e5 : (Cf.mul c (Cf.ofRat ((k + 1 : ℕ) : ℚ)) : Fl R).val ≠ 0 := fun h => mul_ne_zero i6 e3 (R.rnd_eq_zero h)
      have e6 := e4.inv.near hu
      have hpos : (0 : ℝ) < ((k + 1).factorial : ℝ)⁻¹ := by positivity
      rw [abs_of_pos hpos] at e6
      obtain ⟨q, hq, hqo, hqr⟩ := e1.div_const e5 e6 (by rw [e2]; exact hj)
      refine ⟨⟨s.retval.add q, s.fact.mulGS (Cf.ofRat ((k + 1 : ℕ) : ℚ)), s.phat.mul ph⟩, ?_, ?_, ?_, ?_, e2, _, ?_, e5, ?_⟩
      · unfold expStep
        simp only
        rw [i5, const_mulGS i6 e3, bind_ok hq]
      · refine ((i1.add (hqr.mono ?_)).congr ?_ ?_).mono (by omega)
        · have : (k + 1) * B ≤ n * B := Nat.mul_le_mul_right _ (by omega)
          have h10 : n * (B + 10) = n * B + n * 10 := mul_add _ _ _
          omega
        · rw [psum_succ _ _ (k + 1), one_div]; ring
        · rw [psum_succ _ _ (k + 1), one_div]; ring
      · change max s.retval.order q.order = n
        rw [i2, hqo, e2, max_self]
      · rw [show k + 1 + 1 - 1 = k + 1 by omega]; exact e1
      · rw [i5, const_mulGS i6 e3]
      · rw [show k + 1 + 1 - 1 = k + 1 by omega]; exact e4)
  have hexp : R.Near (Libm.acc R) (CfFun.exp p0 : Fl R).val (Real.exp (d.coeffOf 0)) |Real.exp (d.coeffOf 0)| :=
    ⟨by rw [← hv0]; exact Libm.exp_err p0, le_rfl⟩
  refine ⟨st.retval.mulGS (CfFun.exp p0), ?_, by rw [order_mulGS, h3], 2 + 1 * (n - 1), by omega, ?_⟩
  · unfold exp
    rw [bind_ok hp0]
    change ((List.range' 2 (n - 1)).foldlM (expStep ph) _ >>= _) = _
    rw [bind_ok h1]
  · refine ((h2.mulGS hexp (hj.trans h3.ge)).congr ?_ ?_).mono ?_
    · rw [psum_mul_C]
      exact psum_congr (fun i _ => by ring) _
    · rw [psum_mul_C]
      exact psum_congr (fun i _ => by ring) _
    · have : 1 ≤ B := Nat.one_le_two_pow
      rw [hT]
      nlinarith [Nat.sub_le n 1]

end GDual
end Audi
