import Verif.Proofs.Rounding
import Verif.Proofs.Functions
import Mathlib.Data.Finsupp.Interval
import Mathlib.Data.Finsupp.Antidiagonal

/-! Rounding errors of arithmetic expressions. -/

set_option linter.unusedSectionVars false

namespace Audi

open MvPolynomial Spec

variable {K : Type} [Field K] [LinearOrder K] [IsStrictOrderedRing K] {R : Rounding K}

namespace Poly
variable {p q : Poly (Fl R)}

theorem wf_neg_fl (hp : p.WF) : p.neg.WF where
  sorted := hp.sorted
  len := by
    intro t ht
    obtain ⟨u, hu, rfl⟩ := List.mem_map.mp ht
    exact hp.len u hu
  nodup := by
    simp only [Poly.neg, List.map_map]
    exact hp.nodup
  nz := by
    intro t ht
    obtain ⟨u, hu, rfl⟩ := List.mem_map.mp ht
    have := hp.nz u hu
    simpa [Cf.isZero, Cf.neg] using this

theorem cof_neg (p : Poly (Fl R)) (E : String →₀ ℕ) : p.neg.cof E = -p.cof E := by
  have h : p.neg.exact = p.exact.neg := by
    simp only [Poly.neg, Poly.exact, List.map_map]
    rfl
  rw [cof, h, toMv_neg, coeff_neg, cof]

theorem cof_sub (hp : p.WF) (hq : q.WF) (E : String →₀ ℕ) : (p.sub q).cof E = R.rnd (p.cof E - q.cof E) := by
  rw [Poly.sub, cof_add hp (wf_neg_fl hq), cof_neg, sub_eq_add_neg]

theorem cof_const (c : Fl R) (E : String →₀ ℕ) : (Poly.const c).cof E = if 0 = E then c.val else 0 := by
  have h : (Poly.const c).exact = Poly.const c.val := by
    unfold Poly.const Poly.insertTerm Poly.exact
    by_cases hz : c.val = 0
    · simp [Cf.isZero, hz]
    · simp [Cf.isZero, hz]
  rw [cof, h, toMv_const]
  simp [coeff_C, Lanes.lane]

theorem length_const (c : Fl R) : (Poly.const c).terms.length ≤ 1 := by
  unfold Poly.const Poly.insertTerm
  split_ifs <;> simp

end Poly

theorem card_antidiagonal_le (E : String →₀ ℕ) : (Finset.antidiagonal E).card ≤ 2 ^ E.degree := by
  classical
  have h1 : (Finset.antidiagonal E).card ≤ (Finset.Iic E).card := by
    refine Finset.card_le_card_of_injOn Prod.fst (fun d hd => ?_) fun d hd d' hd' h => ?_
    · have := Finset.mem_antidiagonal.mp hd
      rw [Finset.mem_coe, Finset.mem_Iic, ← this]
      exact le_self_add
    · have h2 := Finset.mem_antidiagonal.mp hd
      rw [← Finset.mem_antidiagonal.mp hd', h] at h2
      exact Prod.ext h (add_left_cancel h2)
  refine h1.trans ?_
  rw [Finsupp.card_Iic, Finsupp.degree_apply, ← Finset.prod_pow_eq_pow_sum]
  refine Finset.prod_le_prod' fun i _ => ?_
  rw [Nat.card_Iic]
  exact Nat.lt_two_pow_self

theorem degree_le_of_antidiagonal {E : String →₀ ℕ} {d : (String →₀ ℕ) × (String →₀ ℕ)} (h : d ∈ Finset.antidiagonal E) :
    d.1.degree ≤ E.degree ∧ d.2.degree ≤ E.degree := by
  rw [← Finset.mem_antidiagonal.mp h, map_add]
  exact ⟨Nat.le_add_right _ _, Nat.le_add_left _ _⟩

theorem AExpr.rounds_mono {C : Type} (e : AExpr C) {i j : ℕ} (h : i ≤ j) : e.rounds i ≤ e.rounds j := by
  induction e with
  | var s => exact le_rfl
  | const c => exact le_rfl
  | bin op e1 e2 h1 h2 =>
    cases op with
    | add => exact Nat.succ_le_succ (max_le_max h1 h2)
    | sub => exact Nat.succ_le_succ (max_le_max h1 h2)
    | mul => exact add_le_add (add_le_add h1 h2) (Nat.pow_le_pow_right (by norm_num) h)
  | left op c e h1 => exact Nat.succ_le_succ h1
  | right op e c h1 => exact Nat.succ_le_succ h1
  | divc e c h1 => exact Nat.add_le_add_right h1 2
  | neg e h1 => exact h1

/-- A gdual with rounded coefficients, the exact gdual and a gdual with larger coefficients; `k` roundings. -/
structure Close (k : ℕ → ℕ) (r : GDual (Fl R)) (a b : GDual K) : Prop where
  vr : r.Valid
  va : a.Valid
  vb : b.Valid
  oa : a.order = r.order
  ob : b.order = r.order
  sa : a.p.syms = r.p.syms
  sb : b.p.syms = r.p.syms
  near : ∀ E, R.Near (k E.degree) (r.p.cof E) (coeff E (a.toMv ())) (coeff E (b.toMv ()))

namespace Close
open GDual
variable {k l : ℕ → ℕ} {r r' : GDual (Fl R)} {a a' b b' : GDual K}

theorem mono (h : Close k r a b) (hkl : ∀ j, k j ≤ l j) : Close l r a b :=
  { h with near := fun E => (h.near E).mono (hkl _) }

theorem valid_neg (h : r.Valid) : r.neg.Valid := ⟨Poly.wf_neg_fl h.wf, Poly.deg_neg h.deg⟩

theorem valid_sub (h : r.Valid) (h' : r'.Valid) : (r.sub r').Valid :=
  ⟨h.wf.add (Poly.wf_neg_fl h'.wf), Poly.deg_add h.wf (Poly.wf_neg_fl h'.wf) (h.mono_deg (le_max_left _ _))
    (Poly.deg_neg (h'.mono_deg (le_max_right _ _)))⟩

theorem const {c : Fl R} {x X : K} {i : ℕ} (hc : R.Near i c.val x X) (n : ℕ) :
    Close (fun _ => i) (ofCfOrder c n) (GDual.ofCfOrder x n) (GDual.ofCfOrder X n) where
  vr := valid_ofCfOrder _ _
  va := valid_ofCfOrder _ _
  vb := valid_ofCfOrder _ _
  oa := rfl
  ob := rfl
  sa := rfl
  sb := rfl
  near := fun E => by
    rw [toMv_ofCfOrder, toMv_ofCfOrder, coeff_C, coeff_C]
    change R.Near i ((Poly.const c).cof E) _ _
    rw [Poly.cof_const]
    split_ifs
    · exact hc
    · exact Rounding.Near.zero R i

theorem ofCfOrder (c : Fl R) (n : ℕ) : Close (fun _ => 0) (ofCfOrder c n) (GDual.ofCfOrder c.val n) (GDual.ofCfOrder |c.val| n) :=
  const (Rounding.Near.refl R 0 _) n

theorem neg (h : Close k r a b) : Close k r.neg a.neg b where
  vr := valid_neg h.vr
  va := GDual.Valid.neg (ι := Unit) (K := K) h.va
  vb := h.vb
  oa := h.oa
  ob := h.ob
  sa := h.sa
  sb := h.sb
  near := fun E => by
    rw [GDual.toMv_neg, coeff_neg]
    change R.Near _ (r.p.neg.cof E) _ _
    rw [Poly.cof_neg]
    exact (h.near E).neg

theorem add (h : Close k r a b) (h' : Close k r' a' b') : Close (fun j => k j + 1) (r.add r') (a.add a') (b.add b') where
  vr := h.vr.add h'.vr
  va := h.va.add h'.va
  vb := h.vb.add h'.vb
  oa := congrArg₂ max h.oa h'.oa
  ob := congrArg₂ max h.ob h'.ob
  sa := congrArg₂ mergeSyms h.sa h'.sa
  sb := congrArg₂ mergeSyms h.sb h'.sb
  near := fun E => by
    rw [GDual.toMv_add h.va h'.va, GDual.toMv_add h.vb h'.vb, coeff_add, coeff_add]
    change R.Near _ ((r.p.add r'.p).cof E) _ _
    rw [Poly.cof_add h.vr.wf h'.vr.wf]
    exact ((h.near E).add (h'.near E)).rnd

theorem sub (h : Close k r a b) (h' : Close k r' a' b') : Close (fun j => k j + 1) (r.sub r') (a.sub a') (b.add b') := h.add h'.neg

theorem mul_of {N : ℕ → ℕ} (hk : Monotone k) (hl : Monotone l) (h : Close k r a b) (h' : Close l r' a' b') (hN : ∀ j, 1 ≤ N j)
    (hN' : ∀ E : String →₀ ℕ, (Finset.antidiagonal E).card ≤ N E.degree ∨ r.p.terms.length ≤ N E.degree ∨ r'.p.terms.length ≤ N E.degree) :
    Close (fun j => k j + l j + N j) (r.mul r') (a.mul a') (b.mul b') where
  vr := h.vr.mul h'.vr
  va := h.va.mul h'.va
  vb := h.vb.mul h'.vb
  oa := congrArg₂ max h.oa h'.oa
  ob := congrArg₂ max h.ob h'.ob
  sa := congrArg₂ mergeSyms h.sa h'.sa
  sb := congrArg₂ mergeSyms h.sb h'.sb
  near := fun E => by
    rw [coeff_mul' h.va h'.va, coeff_mul' h.vb h'.vb, h.oa, h'.oa, h.ob, h'.ob]
    have hw := (h.vr.mul h'.vr)
    by_cases hE : E.degree ≤ max r.order r'.order
    · rw [if_pos hE, if_pos hE, coeff_mul, coeff_mul]
      exact Poly.near_truncMul h.vr.wf h'.vr.wf hE (fun d hd => (h.near d.1).mono (hk (degree_le_of_antidiagonal hd).1))
        (fun d hd => (h'.near d.2).mono (hl (degree_le_of_antidiagonal hd).2)) (hN _) (hN' E)
    · rw [if_neg hE, if_neg hE]
      have h0 : (r.mul r').p.cof E = 0 := by
        by_contra hne
        obtain ⟨t, ht, hte⟩ := Poly.cof_ne_zero hne
        have h1 := hw.deg t ht
        rw [← degree_toExp (hw.wf.len t ht), hte] at h1
        exact hE h1
      rw [h0]
      exact Rounding.Near.zero R _

theorem mul (hk : Monotone k) (hl : Monotone l) (h : Close k r a b) (h' : Close l r' a' b') :
    Close (fun j => k j + l j + 2 ^ j) (r.mul r') (a.mul a') (b.mul b') :=
  mul_of hk hl h h' (fun _ => Nat.one_le_two_pow) fun E => Or.inl (card_antidiagonal_le E)

theorem addSG (c : Fl R) (h : Close k r a b) : Close (fun j => k j + 1) (r.addSG c) (a.addSG c.val) (b.addSG |c.val|) where
  __ := ((ofCfOrder c r.order).mono (fun j => Nat.zero_le (k j))).add h
  vr := Valid.addSG c h.vr
  va := Valid.addSG _ h.va
  vb := Valid.addSG _ h.vb
  oa := h.oa
  ob := h.ob

theorem addGS (c : Fl R) (h : Close k r a b) : Close (fun j => k j + 1) (r.addGS c) (a.addGS c.val) (b.addGS |c.val|) := h.addSG c

theorem subSG (c : Fl R) (h : Close k r a b) : Close (fun j => k j + 1) (r.subSG c) (a.subSG c.val) (b.addSG |c.val|) := h.neg.addSG c

theorem subGS (c : Fl R) (h : Close k r a b) : Close (fun j => k j + 1) (r.subGS c) (a.subGS c.val) (b.addGS |c.val|) where
  vr := ⟨h.vr.wf.add (Poly.wf_neg_fl (Poly.wf_const c)), Poly.deg_add h.vr.wf (Poly.wf_neg_fl (Poly.wf_const c)) h.vr.deg
    (Poly.deg_neg (Poly.deg_const c _))⟩
  va := Valid.subGS (ι := Unit) (K := K) _ h.va
  vb := Valid.addGS _ h.vb
  oa := h.oa
  ob := h.ob
  sa := congrArg₂ mergeSyms h.sa rfl
  sb := by
    change mergeSyms [] b.p.syms = mergeSyms r.p.syms []
    rw [h.sb]
    exact mergeSyms_comm List.Pairwise.nil h.vr.wf.sorted
  near := fun E => by
    rw [toMv_subGS _ h.va, toMv_addGS _ h.vb, coeff_sub, coeff_add, coeff_C, coeff_C, sub_eq_add_neg]
    change R.Near _ ((r.p.sub (Poly.const c)).cof E) _ _
    rw [Poly.cof_sub h.vr.wf (Poly.wf_const c), Poly.cof_const, sub_eq_add_neg]
    refine Rounding.Near.rnd ((h.near E).add (Rounding.Near.neg ?_))
    split_ifs
    · exact Rounding.Near.refl R _ _
    · exact Rounding.Near.zero R _

theorem mulSG_near {c : Fl R} {x X : K} {i : ℕ} (hc : R.Near i c.val x X) (hk : Monotone k) (h : Close k r a b) :
    Close (fun j => i + k j + 1) (r.mulSG c) (a.mulSG x) (b.mulSG X) := by
  have h1 := mul_of (N := fun _ => 1) monotone_const hk (const hc r.order) h (fun _ => le_rfl) fun _ => Or.inr (Or.inl (Poly.length_const c))
  rw [GDual.mulSG, GDual.mulSG, GDual.mulSG, h.oa, h.ob]
  exact h1

theorem mulGS_near {c : Fl R} {x X : K} {i : ℕ} (hc : R.Near i c.val x X) (hk : Monotone k) (h : Close k r a b) :
    Close (fun j => k j + i + 1) (r.mulGS c) (a.mulGS x) (b.mulGS X) := by
  have h1 := mul_of (N := fun _ => 1) hk monotone_const h (const hc r.order) (fun _ => le_rfl) fun _ => Or.inr (Or.inr (Poly.length_const c))
  rw [GDual.mulGS, GDual.mulGS, GDual.mulGS, h.oa, h.ob]
  exact h1

theorem mulSG (c : Fl R) (hk : Monotone k) (h : Close k r a b) : Close (fun j => k j + 1) (r.mulSG c) (a.mulSG c.val) (b.mulSG |c.val|) :=
  (mulSG_near (Rounding.Near.refl R 0 _) hk h).mono fun j => by omega

theorem mulGS (c : Fl R) (hk : Monotone k) (h : Close k r a b) : Close (fun j => k j + 1) (r.mulGS c) (a.mulGS c.val) (b.mulGS |c.val|) :=
  mulGS_near (Rounding.Near.refl R 0 _) hk h

theorem divGS {c : Fl R} (hc : c.val ≠ 0) (hk : Monotone k) (h : Close k r a b) : ∃ r₁ a₁ b₁, r.divGS c = .ok r₁ ∧ a.divGS c.val = .ok a₁ ∧
    b.divGS |c.val| = .ok b₁ ∧ Close (fun j => k j + 2) r₁ a₁ b₁ := by
  have u0 : Cf.isUnit c = true := by simp [Cf.isUnit, hc]
  have u1 : Cf.isUnit c.val = true := by simp [Cf.isUnit, hc]
  have u2 : Cf.isUnit |c.val| = true := by simp [Cf.isUnit, hc]
  refine ⟨_, _, _, divGS_eq u0, divGS_eq u1, divGS_eq u2, mulGS_near ?_ hk h⟩
  have h1 : (Cf.div Cf.one c : Fl R).val = R.rnd (1 / c.val) := by
    simp [Cf.div, Cf.one, Cf.ofRat, Fl.round, R.rnd_one]
  have h2 : (Cf.div Cf.one c.val : K) = 1 / c.val := by simp [Cf.div, Cf.one, Cf.ofRat]
  have h3 : (Cf.div Cf.one |c.val| : K) = |1 / c.val| := by simp [Cf.div, Cf.one, Cf.ofRat]
  rw [h1, h2, h3]
  exact (Rounding.Near.refl R 0 _).rnd

theorem mk3 (c : Fl R) {s : String} {m : ℕ} (hm : m < UINT_MAX - 10) (hs : ∃ c, s.toList.head? = some c ∧ c ≠ 'd') :
    ∃ r a b, GDual.mk3 c s m = .ok r ∧ GDual.mk3 c.val s m = .ok a ∧ GDual.mk3 |c.val| s m = .ok b ∧ Close (fun _ => 0) r a b := by
  have ha := (mk3_ok (v := c.val) (s := s) (n := m)).mpr ⟨hm, hs, rfl⟩
  have hb := (mk3_ok (v := |c.val|) (s := s) (n := m)).mpr ⟨hm, hs, rfl⟩
  have hr := (mk3_ok (v := c) (s := s) (n := m)).mpr ⟨hm, hs, rfl⟩
  refine ⟨_, _, _, hr, ha, hb, ?_⟩
  have hw : (if m = 0 then ⟨["d" ++ s], []⟩ else Poly.var ("d" ++ s) : Poly (Fl R)).WF := by
    split_ifs
    · exact Poly.wf_empty (by simp)
    · exact ⟨by simp [Poly.var], by simp [Poly.var], by simp [Poly.var],
        by simp [Poly.var, Cf.isZero, Cf.one, Cf.ofRat, Fl.round, R.rnd_one]⟩
  have hcof : ∀ E, (if m = 0 then ⟨["d" ++ s], []⟩ else Poly.var ("d" ++ s) : Poly (Fl R)).cof E =
      coeff E (if m = 0 then 0 else X ("d" ++ s)) := fun E => by
    split_ifs
    · rfl
    · have h1 : (Poly.var ("d" ++ s) : Poly (Fl R)).exact = Poly.var ("d" ++ s) := by
        simp [Poly.exact, Poly.var, Cf.one, Cf.ofRat, Fl.round, R.rnd_one]
      rw [Poly.cof, h1, Poly.toMv_var]
  refine ⟨⟨hw.add (Poly.wf_const c), Poly.deg_add hw (Poly.wf_const c) ?_ (Poly.deg_const c _)⟩, valid_mk3 (ι := Unit) (K := K) ha,
    valid_mk3 (ι := Unit) (K := K) hb, rfl, rfl, ?_, ?_, fun E => ?_⟩
  · intro t ht
    split_ifs at ht with h0
    · simp at ht
    · simp only [Poly.var, List.mem_singleton] at ht
      subst ht
      simp only [List.sum_cons, List.sum_nil]; omega
  · rw [syms_mk3 ha, syms_mk3 hr]
  · rw [syms_mk3 hb, syms_mk3 hr]
  · rw [toMv_mk3 ha, toMv_mk3 hb, coeff_add, coeff_add, coeff_C, coeff_C]
    change R.Near 0 (Poly.cof (Poly.add _ _) E) _ _
    rw [Poly.cof_add hw (Poly.wf_const c), hcof, Poly.cof_const]
    have hx : coeff E (if m = 0 then 0 else X ("d" ++ s) : MvPolynomial String K) = 0 ∨
        coeff E (if m = 0 then 0 else X ("d" ++ s) : MvPolynomial String K) = 1 ∧ ¬ 0 = E := by
      split_ifs
      · exact Or.inl (coeff_zero E)
      · rw [coeff_X]
        split_ifs with h
        · refine Or.inr ⟨rfl, fun h0 => ?_⟩
          rw [← h0] at h
          simp at h
        · exact Or.inl rfl
    rcases hx with hx | ⟨hx, hE⟩
    · rw [hx, zero_add, add_zero, add_zero]
      split_ifs
      · rw [c.repr]; exact Rounding.Near.refl R 0 _
      · rw [R.rnd_zero]; exact Rounding.Near.zero R 0
    · rw [hx, if_neg hE, if_neg hE, if_neg hE, add_zero, zero_add, R.rnd_one]
      have := Rounding.Near.refl R 0 1
      rwa [abs_one] at this

end Close

namespace AExpr

/-- Evaluation with rounding, exact evaluation, and evaluation with absolute values. -/
theorem run_close {v : String → Fl R} {m : ℕ} (hm : m < UINT_MAX - 10) (e : AExpr (Fl R)) (hl : e.Legal fun c => c.val = 0) :
    ∃ r a b, e.run v m = .ok r ∧ (e.map Fl.val).run (fun s => (v s).val) m = .ok a ∧
      (e.map Fl.val).abs.run (fun s => |(v s).val|) m = .ok b ∧ Close e.rounds r a b := by
  induction e with
  | var s => exact Close.mk3 (v s) hm hl
  | const c => exact ⟨_, _, _, rfl, rfl, rfl, Close.ofCfOrder c 0⟩
  | bin op e1 e2 h1 h2 =>
    obtain ⟨r1, a1, b1, hr1, ha1, hb1, c1⟩ := h1 hl.1
    obtain ⟨r2, a2, b2, hr2, ha2, hb2, c2⟩ := h2 hl.2
    refine ⟨op.run r1 r2, op.run a1 a2, op.abs.run b1 b2, ?_, ?_, ?_, ?_⟩
    · rw [AExpr.run, bind_ok hr1, bind_ok hr2]
    · rw [AExpr.map, AExpr.run, bind_ok ha1, bind_ok ha2]
    · rw [AExpr.map, AExpr.abs, AExpr.run, bind_ok hb1, bind_ok hb2]
    · cases op with
      | add => exact (c1.mono fun j => le_max_left _ (e2.rounds j)).add (c2.mono fun j => le_max_right (e1.rounds j) _)
      | sub => exact (c1.mono fun j => le_max_left _ (e2.rounds j)).sub (c2.mono fun j => le_max_right (e1.rounds j) _)
      | mul => exact Close.mul (fun _ _ => e1.rounds_mono) (fun _ _ => e2.rounds_mono) c1 c2
  | left op c e h1 =>
    obtain ⟨r1, a1, b1, hr1, ha1, hb1, c1⟩ := h1 hl
    refine ⟨op.runL c r1, op.runL c.val a1, op.abs.runL |c.val| b1, ?_, ?_, ?_, ?_⟩
    · rw [AExpr.run, bind_ok hr1]
    · rw [AExpr.map, AExpr.run, bind_ok ha1]
    · rw [AExpr.map, AExpr.abs, AExpr.run, bind_ok hb1]
    · cases op with
      | add => exact c1.addSG c
      | sub => exact c1.subSG c
      | mul => exact c1.mulSG c fun _ _ => e.rounds_mono
  | right op e c h1 =>
    obtain ⟨r1, a1, b1, hr1, ha1, hb1, c1⟩ := h1 hl
    refine ⟨op.runR r1 c, op.runR a1 c.val, op.abs.runR b1 |c.val|, ?_, ?_, ?_, ?_⟩
    · rw [AExpr.run, bind_ok hr1]
    · rw [AExpr.map, AExpr.run, bind_ok ha1]
    · rw [AExpr.map, AExpr.abs, AExpr.run, bind_ok hb1]
    · cases op with
      | add => exact c1.addGS c
      | sub => exact c1.subGS c
      | mul => exact c1.mulGS c fun _ _ => e.rounds_mono
  | divc e c h1 =>
    obtain ⟨r1, a1, b1, hr1, ha1, hb1, c1⟩ := h1 hl.1
    obtain ⟨r, a, b, hr, ha, hb, c2⟩ := c1.divGS hl.2 fun _ _ => e.rounds_mono
    refine ⟨r, a, b, ?_, ?_, ?_, c2⟩
    · rw [AExpr.run, bind_ok hr1, hr]
    · rw [AExpr.map, AExpr.run, bind_ok ha1, ha]
    · rw [AExpr.map, AExpr.abs, AExpr.run, bind_ok hb1, hb]
  | neg e h1 =>
    obtain ⟨r1, a1, b1, hr1, ha1, hb1, c1⟩ := h1 hl
    refine ⟨r1.neg, a1.neg, b1, ?_, ?_, ?_, c1.neg⟩
    · rw [AExpr.run, bind_ok hr1]
    · rw [AExpr.map, AExpr.run, bind_ok ha1]
    · rw [AExpr.map, AExpr.abs, hb1]

end AExpr

end Audi
