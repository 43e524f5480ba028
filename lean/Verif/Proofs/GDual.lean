import Verif.Proofs.PolyOps
import Mathlib.Algebra.BigOperators.Fin
import Mathlib.Tactic.FieldSimp
import Mathlib.Algebra.Ring.GeomSum

/-! Lemmas on gduals: the invariant, and refinement of each operation. -/

set_option linter.unusedSectionVars false

namespace Audi

open MvPolynomial Spec

namespace GDual
variable {C : Type} [Cf C] {ι : Type} {K : Type} [Field K] [Lanes C ι K]
variable {a b d : GDual C} {n : ℕ}

theorem Valid.degLE (h : d.Valid) (i : ι) : DegLE d.order (d.toMv i) := Poly.degLE_toMv h.wf h.deg i

theorem Valid.mono_deg (h : d.Valid) (hn : d.order ≤ n) : ∀ t ∈ d.p.terms, t.1.sum ≤ n :=
  fun t ht => le_trans (h.deg t ht) hn

/-! Construction -/

theorem valid_ofCf (c : C) : (ofCf c).Valid := ⟨Poly.wf_const c, Poly.deg_const c _⟩
theorem valid_ofCfOrder (c : C) (n : ℕ) : (ofCfOrder c n).Valid := ⟨Poly.wf_const c, Poly.deg_const c _⟩
theorem toMv_ofCf (c : C) (i : ι) : (ofCf c).toMv i = MvPolynomial.C (Lanes.lane i c) := Poly.toMv_const c i
theorem toMv_ofCfOrder (c : C) (n : ℕ) (i : ι) :
    (ofCfOrder c n).toMv i = MvPolynomial.C (Lanes.lane i c) := Poly.toMv_const c i
theorem valid_ofRat (q : ℚ) : (ofRat q : GDual C).Valid := valid_ofCf _
theorem toMv_ofRat (q : ℚ) (i : ι) : (ofRat q : GDual C).toMv i = MvPolynomial.C (q : K) := by
  rw [ofRat, toMv_ofCf, Lanes.lane_ofRat]
theorem order_ofCf (c : C) : (ofCf c).order = 0 := rfl
theorem order_ofRat (q : ℚ) : (ofRat q : GDual C).order = 0 := rfl

/-! Ring operations -/

theorem Valid.add (ha : a.Valid) (hb : b.Valid) : (a.add b).Valid :=
  ⟨ha.wf.add hb.wf, Poly.deg_add ha.wf hb.wf (ha.mono_deg (le_max_left _ _)) (hb.mono_deg (le_max_right _ _))⟩

theorem toMv_add (ha : a.Valid) (hb : b.Valid) (i : ι) : (a.add b).toMv i = a.toMv i + b.toMv i :=
  Poly.toMv_add ha.wf hb.wf i

theorem Valid.addSG (s : C) (hb : b.Valid) : (addSG s b).Valid :=
  ⟨(Poly.wf_const s).add hb.wf, Poly.deg_add (Poly.wf_const s) hb.wf (Poly.deg_const s _) hb.deg⟩

theorem toMv_addSG (s : C) (hb : b.Valid) (i : ι) :
    (addSG s b).toMv i = MvPolynomial.C (Lanes.lane i s) + b.toMv i := by
  rw [← toMv_ofCf]; exact Poly.toMv_add (Poly.wf_const s) hb.wf i

theorem Valid.addGS (s : C) (hb : b.Valid) : (addGS b s).Valid := Valid.addSG s hb

theorem toMv_addGS (s : C) (hb : b.Valid) (i : ι) :
    (addGS b s).toMv i = b.toMv i + MvPolynomial.C (Lanes.lane i s) := by
  rw [add_comm]; exact toMv_addSG s hb i

include ι K in
theorem Valid.sub (ha : a.Valid) (hb : b.Valid) : (a.sub b).Valid :=
  ⟨Poly.WF.sub (ι := ι) (K := K) ha.wf hb.wf, Poly.deg_sub (ι := ι) (K := K) ha.wf hb.wf
    (ha.mono_deg (le_max_left _ _)) (hb.mono_deg (le_max_right _ _))⟩

theorem toMv_sub (ha : a.Valid) (hb : b.Valid) (i : ι) : (a.sub b).toMv i = a.toMv i - b.toMv i :=
  Poly.toMv_sub ha.wf hb.wf i

include ι K in
theorem Valid.subSG (s : C) (hb : b.Valid) : (subSG s b).Valid :=
  ⟨Poly.WF.sub (ι := ι) (K := K) (Poly.wf_const s) hb.wf,
    Poly.deg_sub (ι := ι) (K := K) (Poly.wf_const s) hb.wf (Poly.deg_const s _) hb.deg⟩

theorem toMv_subSG (s : C) (hb : b.Valid) (i : ι) :
    (subSG s b).toMv i = MvPolynomial.C (Lanes.lane i s) - b.toMv i := by
  rw [← toMv_ofCf]; exact Poly.toMv_sub (Poly.wf_const s) hb.wf i

include ι K in
theorem Valid.subGS (s : C) (ha : a.Valid) : (subGS a s).Valid :=
  ⟨Poly.WF.sub (ι := ι) (K := K) ha.wf (Poly.wf_const s),
    Poly.deg_sub (ι := ι) (K := K) ha.wf (Poly.wf_const s) ha.deg (Poly.deg_const s _)⟩

theorem toMv_subGS (s : C) (ha : a.Valid) (i : ι) :
    (subGS a s).toMv i = a.toMv i - MvPolynomial.C (Lanes.lane i s) := by
  rw [← toMv_ofCf]; exact Poly.toMv_sub ha.wf (Poly.wf_const s) i

include ι K in
theorem Valid.neg (ha : a.Valid) : a.neg.Valid :=
  ⟨Poly.WF.neg (ι := ι) (K := K) ha.wf, Poly.deg_neg ha.deg⟩

theorem toMv_neg (a : GDual C) (i : ι) : a.neg.toMv i = -a.toMv i := Poly.toMv_neg _ i

theorem Valid.mul (ha : a.Valid) (hb : b.Valid) : (a.mul b).Valid :=
  ⟨ha.wf.truncMul hb.wf _, Poly.deg_truncMul _ _ _⟩

theorem coeff_mul' (ha : a.Valid) (hb : b.Valid) (i : ι) (m : String →₀ ℕ) :
    coeff m ((a.mul b).toMv i) =
      if m.degree ≤ max a.order b.order then coeff m (a.toMv i * b.toMv i) else 0 :=
  Poly.coeff_truncMul ha.wf hb.wf _ i m

theorem toMv_mul (ha : a.Valid) (hb : b.Valid) (i : ι) :
    EqUpTo (max a.order b.order) ((a.mul b).toMv i) (a.toMv i * b.toMv i) := by
  intro m hm
  rw [coeff_mul' ha hb, if_pos hm]

theorem degLE_C_mul {P : MvPolynomial String K} (h : DegLE n P) (c : K) : DegLE n (MvPolynomial.C c * P) := by
  intro m hm
  rw [coeff_C_mul, h m hm, mul_zero]

theorem order_mulSG (s : C) (b : GDual C) : (mulSG s b).order = b.order := max_self _
theorem order_mulGS (s : C) (a : GDual C) : (mulGS a s).order = a.order := max_self _

theorem Valid.mulSG (s : C) (hb : b.Valid) : (mulSG s b).Valid := (valid_ofCfOrder s _).mul hb
theorem Valid.mulGS (s : C) (ha : a.Valid) : (mulGS a s).Valid := ha.mul (valid_ofCfOrder s _)

theorem toMv_mulSG (s : C) (hb : b.Valid) (i : ι) :
    (mulSG s b).toMv i = MvPolynomial.C (Lanes.lane i s) * b.toMv i := by
  have h := toMv_mul (valid_ofCfOrder s b.order) hb i
  rw [toMv_ofCfOrder] at h
  have ho : max (ofCfOrder s b.order).order b.order = b.order := max_self _
  rw [ho] at h
  refine h.eq_of_degLE ?_ (degLE_C_mul (hb.degLE i) _)
  have := (Valid.mulSG s hb).degLE i
  rwa [order_mulSG] at this

theorem toMv_mulGS (s : C) (ha : a.Valid) (i : ι) :
    (mulGS a s).toMv i = a.toMv i * MvPolynomial.C (Lanes.lane i s) := by
  have h := toMv_mul ha (valid_ofCfOrder s a.order) i
  rw [toMv_ofCfOrder] at h
  have ho : max a.order (ofCfOrder s a.order).order = a.order := max_self _
  rw [ho] at h
  refine h.eq_of_degLE ?_ ?_
  · have := (Valid.mulGS s ha).degLE i
    rwa [order_mulGS] at this
  · rw [mul_comm]; exact degLE_C_mul (ha.degLE i) _

theorem divGS_eq {s : C} (h : Cf.isUnit s = true) : a.divGS s = .ok (a.mulGS (Cf.div Cf.one s)) := by
  rw [divGS, if_pos h]

theorem toMv_mulGS_div (s : C) (ha : a.Valid) (i : ι) :
    (a.mulGS (Cf.div Cf.one s)).toMv i = a.toMv i * MvPolynomial.C (Lanes.lane i s)⁻¹ := by
  rw [toMv_mulGS _ ha, Lanes.lane_div, Poly.lane_one, one_div]

/-! Coefficients -/

theorem findCf_ok {e : List ℕ} {c : C} (h : d.findCf e = .ok c) :
    e.sum ≤ d.order ∧ e.length = d.p.syms.length := by
  unfold findCf at h
  split_ifs at h with h1 h2
  exact ⟨not_lt.mp h1, not_not.mp h2⟩

theorem lane_findCf (hd : d.Valid) {e : List ℕ} {c : C} (h : d.findCf e = .ok c) (i : ι) :
    (Lanes.lane i c : K) = coeff (toExp d.p.syms e) (d.toMv i) := by
  have hl := (findCf_ok h).2
  rw [GDual.toMv, Poly.coeff_toMv_find? hd.wf hl]
  unfold findCf at h
  split_ifs at h with h1 h2
  cases hf : d.p.find? e with
  | none => rw [hf] at h; injection h with h; rw [← h, Poly.lane_zero]
  | some x => rw [hf] at h; injection h with h; rw [← h]

theorem findCf_isOk {e : List ℕ} (h1 : e.sum ≤ d.order) (h2 : e.length = d.p.syms.length) :
    ∃ c, d.findCf e = .ok c := by
  unfold findCf
  rw [if_neg (show ¬ expSum e > d.order from not_lt.mpr h1), if_neg (show ¬ e.length ≠ d.symbolSetSize from not_not.mpr h2)]
  cases d.p.find? e with
  | none => exact ⟨_, rfl⟩
  | some x => exact ⟨_, rfl⟩

theorem constantCf_isOk (d : GDual C) : ∃ c, d.constantCf = .ok c :=
  findCf_isOk (by simp) (by simp [symbolSetSize])

theorem lane_constantCf (hd : d.Valid) {c : C} (h : d.constantCf = .ok c) (i : ι) :
    (Lanes.lane i c : K) = coeff 0 (d.toMv i) := by
  rw [lane_findCf hd h, toExp_replicate_zero]

/-! Representation up to an order: the tool for the loops of the function implementations -/

/-- `g` is a valid gdual of order at most `n` whose polynomial in lane `i` agrees with `P i` up to degree `n`. -/
structure Rep (n : ℕ) (g : GDual C) (P : ι → MvPolynomial String K) : Prop where
  valid : g.Valid
  order : g.order ≤ n
  eq : ∀ i, EqUpTo n (g.toMv i) (P i)

namespace Rep
variable {P Q : ι → MvPolynomial String K}

theorem self (h : d.Valid) : Rep d.order d (fun i => d.toMv i (K := K)) := ⟨h, le_rfl, fun _ => EqUpTo.refl _⟩

theorem congr (h : Rep n a P) (hPQ : ∀ i, EqUpTo n (P i) (Q i)) : Rep n a Q :=
  ⟨h.valid, h.order, fun i => (h.eq i).trans (hPQ i)⟩

theorem ofCf (c : C) : Rep n (ofCf c) (fun i => MvPolynomial.C (Lanes.lane i c : K)) :=
  ⟨valid_ofCf c, Nat.zero_le _, fun i => EqUpTo.of_eq (toMv_ofCf c i)⟩

theorem ofRat (q : ℚ) : Rep n (GDual.ofRat q : GDual C) (fun _ : ι => MvPolynomial.C (q : K)) :=
  ⟨valid_ofRat q, Nat.zero_le _, fun i => EqUpTo.of_eq (toMv_ofRat q i)⟩

theorem add (ha : Rep n a P) (hb : Rep n b Q) : Rep n (a.add b) (fun i => P i + Q i) :=
  ⟨ha.valid.add hb.valid, max_le ha.order hb.order,
    fun i => by rw [toMv_add ha.valid hb.valid]; exact (ha.eq i).add (hb.eq i)⟩

theorem sub (ha : Rep n a P) (hb : Rep n b Q) : Rep n (a.sub b) (fun i => P i - Q i) :=
  ⟨Valid.sub (ι := ι) (K := K) ha.valid hb.valid, max_le ha.order hb.order,
    fun i => by rw [toMv_sub ha.valid hb.valid]; exact (ha.eq i).sub (hb.eq i)⟩

theorem neg (ha : Rep n a P) : Rep n a.neg (fun i => -P i) :=
  ⟨Valid.neg (ι := ι) (K := K) ha.valid, ha.order,
    fun i => by rw [toMv_neg]; exact (ha.eq i).neg⟩

theorem addSG (s : C) (hb : Rep n b Q) : Rep n (GDual.addSG s b) (fun i => MvPolynomial.C (Lanes.lane i s) + Q i) :=
  ⟨Valid.addSG s hb.valid, hb.order,
    fun i => by rw [toMv_addSG s hb.valid]; exact (EqUpTo.refl _).add (hb.eq i)⟩

theorem addGS (s : C) (hb : Rep n b Q) : Rep n (GDual.addGS b s) (fun i => Q i + MvPolynomial.C (Lanes.lane i s)) :=
  ⟨Valid.addGS s hb.valid, hb.order,
    fun i => by rw [toMv_addGS s hb.valid]; exact (hb.eq i).add (EqUpTo.refl _)⟩

theorem subSG (s : C) (hb : Rep n b Q) : Rep n (GDual.subSG s b) (fun i => MvPolynomial.C (Lanes.lane i s) - Q i) :=
  ⟨Valid.subSG (ι := ι) (K := K) s hb.valid, hb.order,
    fun i => by rw [toMv_subSG s hb.valid]; exact (EqUpTo.refl _).sub (hb.eq i)⟩

theorem subGS (s : C) (hb : Rep n b Q) : Rep n (GDual.subGS b s) (fun i => Q i - MvPolynomial.C (Lanes.lane i s)) :=
  ⟨Valid.subGS (ι := ι) (K := K) s hb.valid, hb.order,
    fun i => by rw [toMv_subGS s hb.valid]; exact (hb.eq i).sub (EqUpTo.refl _)⟩

theorem mulSG (s : C) (hb : Rep n b Q) : Rep n (GDual.mulSG s b) (fun i => MvPolynomial.C (Lanes.lane i s) * Q i) :=
  ⟨Valid.mulSG s hb.valid, by rw [order_mulSG]; exact hb.order,
    fun i => by rw [toMv_mulSG s hb.valid]; exact (EqUpTo.refl _).mul (hb.eq i)⟩

theorem mulGS (s : C) (hb : Rep n b Q) : Rep n (GDual.mulGS b s) (fun i => Q i * MvPolynomial.C (Lanes.lane i s)) :=
  ⟨Valid.mulGS s hb.valid, by rw [order_mulGS]; exact hb.order,
    fun i => by rw [toMv_mulGS s hb.valid]; exact (hb.eq i).mul (EqUpTo.refl _)⟩

/-- Product: one of the factors must have the full order. -/
theorem mul (ha : Rep n a P) (hb : Rep n b Q) (ho : a.order = n ∨ b.order = n) :
    Rep n (a.mul b) (fun i => P i * Q i) := by
  have hm : max a.order b.order = n := by
    have := ha.order; have := hb.order
    rcases ho with h | h
    · rw [h]; exact max_eq_left (by omega)
    · rw [h]; exact max_eq_right (by omega)
  refine ⟨ha.valid.mul hb.valid, le_of_eq hm, fun i => ?_⟩
  have := toMv_mul ha.valid hb.valid i (K := K)
  rw [hm] at this
  exact this.trans ((ha.eq i).mul (hb.eq i))

theorem order_mul (ha : Rep n a P) (hb : Rep n b Q) (ho : a.order = n ∨ b.order = n) :
    (a.mul b).order = n := by
  have := ha.order; have := hb.order
  change max a.order b.order = n
  rcases ho with h | h
  · rw [h]; exact max_eq_left (by omega)
  · rw [h]; exact max_eq_right (by omega)

theorem divGS {s : C} (h : Cf.isUnit s = true) (hb : Rep n b Q) :
    ∃ r, GDual.divGS b s = .ok r ∧ r.order = b.order ∧
      Rep n r (fun i => Q i * MvPolynomial.C (Lanes.lane i s)⁻¹) := by
  refine ⟨_, divGS_eq h, order_mulGS _ _, Valid.mulGS _ hb.valid, by rw [order_mulGS]; exact hb.order, fun i => ?_⟩
  rw [toMv_mulGS_div s hb.valid]
  exact (hb.eq i).mul (EqUpTo.refl _)

/-- A valid gdual of order `n` is determined by its representation. -/
theorem toMv_eq (ha : Rep n a P) (hP : ∀ i, DegLE n (P i)) (i : ι) : a.toMv i = P i :=
  (ha.eq i).eq_of_degLE (fun e he => (ha.valid.degLE i) e (lt_of_le_of_lt ha.order he)) (hP i)

end Rep

/-! Division -/

/-- The polynomial `phat = (d - p0)/p0` in lane `i`. -/
noncomputable def hatPoly (d : GDual C) (i : ι) : MvPolynomial String K :=
  (d.toMv i - MvPolynomial.C (coeff 0 (d.toMv i))) * MvPolynomial.C (coeff 0 (d.toMv i))⁻¹

theorem coeff_zero_hatPoly (d : GDual C) (i : ι) : coeff 0 (hatPoly d i : MvPolynomial String K) = 0 := by
  rw [hatPoly, mul_comm, coeff_C_mul, coeff_sub, coeff_C, if_pos rfl, sub_self, mul_zero]

theorem isUnit_constantCf (hd : d.Valid) {p0 : C} (h : d.constantCf = .ok p0) :
    Cf.isUnit p0 = true ↔ ∀ i : ι, coeff 0 (d.toMv i) ≠ (0 : K) := by
  rw [Lanes.isUnit_iff (ι := ι) (K := K)]
  simp only [lane_constantCf hd h]

theorem foldl_divStep {tmp : GDual C} {H : ι → MvPolynomial String K} (ht : Rep n tmp H) (hto : tmp.order = n)
    (L : List ℕ) (k : ℕ) (s : DivSt C)
    (h1 : Rep n s.retval fun i => ∑ j ∈ Finset.range (k + 1), (-H i) ^ j)
    (h2 : ∀ i, (Lanes.lane i s.fatt : K) = (-1) ^ k) (h3 : Rep n s.phat fun i => H i ^ k) :
    Rep n (L.foldl (fun s _ => divStep tmp s) s).retval
      fun i => ∑ j ∈ Finset.range (k + L.length + 1), (-H i) ^ j := by
  induction L generalizing k s with
  | nil => exact h1
  | cons x L ih =>
    rw [List.foldl_cons, List.length_cons, show k + (L.length + 1) = (k + 1) + L.length by ring]
    have hp : Rep n (s.phat.mul tmp) fun i => H i ^ (k + 1) :=
      (h3.mul ht (Or.inr hto)).congr fun i => EqUpTo.of_eq (pow_succ _ _).symm
    have hf : ∀ i, (Lanes.lane i (Cf.mul (Cf.ofRat (-1)) s.fatt) : K) = (-1) ^ (k + 1) := by
      intro i
      rw [Lanes.lane_mul, Lanes.lane_ofRat, h2, pow_succ]; push_cast; ring
    refine ih (k + 1) _ ?_ hf hp
    refine (h1.add (hp.mulSG _)).congr fun i => EqUpTo.of_eq ?_
    rw [Finset.sum_range_succ _ (k + 1), hf, neg_pow (H i) (k + 1)]
    simp

theorem foldl_divStep_order {tmp : GDual C} (L : List ℕ) (s : DivSt C) (h1 : s.retval.order = n)
    (h2 : s.phat.order = n) (h3 : tmp.order = n) :
    (L.foldl (fun s _ => divStep tmp s) s).retval.order = n := by
  induction L generalizing s with
  | nil => exact h1
  | cons x L ih =>
    rw [List.foldl_cons]
    refine ih _ ?_ ?_
    · change max s.retval.order (GDual.mulSG _ _).order = n
      rw [order_mulSG]
      change max s.retval.order (max s.phat.order tmp.order) = n
      simp [h1, h2, h3]
    · change max s.phat.order tmp.order = n
      simp [h2, h3]

theorem divSeries_spec (hd : d.Valid) {p0 : C} (h : d.constantCf = .ok p0) (hu : Cf.isUnit p0 = true) :
    ∃ r, divSeries d p0 = .ok r ∧ r.order = d.order ∧
      Rep d.order r (fun i => ∑ j ∈ Finset.range (d.order + 1), (-(hatPoly d i : MvPolynomial String K)) ^ j) := by
  obtain ⟨ph, hph, ho, hr⟩ := Rep.divGS (n := d.order) (ι := ι) (K := K) hu ((Rep.self hd).subGS p0)
  have ho' : ph.order = d.order := ho
  have hr' : Rep d.order ph (fun i => (hatPoly d i : MvPolynomial String K)) := by
    refine hr.congr fun i => EqUpTo.of_eq ?_
    rw [hatPoly, lane_constantCf hd h]
  refine ⟨((List.range' 2 (d.order - 1)).foldl (fun s _ => divStep ph s)
    ⟨(GDual.ofRat 1).sub ph, Cf.ofRat (-1), ph⟩).retval, ?_, ?_, ?_⟩
  · unfold divSeries
    rw [hph]
    rfl
  · refine foldl_divStep_order _ _ ?_ ho' ho'
    change max 0 ph.order = _
    simp [ho']
  · have h0 : Rep d.order ((GDual.ofRat 1).sub ph)
        fun i => ∑ j ∈ Finset.range (1 + 1), (-(hatPoly d i : MvPolynomial String K)) ^ j :=
      ((Rep.ofRat 1).sub hr').congr fun i => EqUpTo.of_eq (by
        simp [Finset.sum_range_succ, sub_eq_add_neg])
    have := foldl_divStep hr' ho' (List.range' 2 (d.order - 1)) 1
      ⟨(GDual.ofRat 1).sub ph, Cf.ofRat (-1), ph⟩ h0 (fun i => by simp [Lanes.lane_ofRat])
      (hr'.congr fun i => EqUpTo.of_eq (pow_one _).symm)
    refine this.congr fun i => ?_
    rw [List.length_range']
    by_cases hn : d.order = 0
    · rw [hn]
      intro e he
      have he0 : e = 0 := by
        rw [← Finsupp.degree_eq_zero_iff]; exact Nat.le_zero.mp he
      subst he0
      simp [Finset.sum_range_succ, coeff_zero_hatPoly]
    · rw [show 1 + (d.order - 1) + 1 = d.order + 1 by omega]
      exact EqUpTo.refl _

/-- The truncated geometric series inverts `1 + h` up to the order. -/
theorem geom_inverse {H : MvPolynomial String K} (h0 : coeff 0 H = 0) (n : ℕ) :
    EqUpTo n ((∑ j ∈ Finset.range (n + 1), (-H) ^ j) * (1 + H)) 1 := by
  have h1 : (∑ j ∈ Finset.range (n + 1), (-H) ^ j) * (1 + H) = 1 - (-H) ^ (n + 1) := by
    have := geom_sum_mul (-H) (n + 1)
    linear_combination -this
  rw [← tr_eq_iff, h1, map_sub, map_one, map_pow, tr_pow_eq_zero (by simp [h0]) (Nat.lt_succ_self n), sub_zero]

theorem hatPoly_eq (d : GDual C) (i : ι) (h : coeff 0 (d.toMv i) ≠ (0 : K)) :
    (1 + hatPoly d i) * MvPolynomial.C (coeff 0 (d.toMv i)) = (d.toMv i : MvPolynomial String K) := by
  rw [hatPoly, add_mul, mul_assoc, ← map_mul, inv_mul_cancel₀ h]
  simp

theorem inv_series (d : GDual C) (i : ι) (h : coeff 0 (d.toMv i) ≠ (0 : K)) (n : ℕ) :
    EqUpTo n ((∑ j ∈ Finset.range (n + 1), (-(hatPoly d i : MvPolynomial String K)) ^ j) *
      MvPolynomial.C (coeff 0 (d.toMv i))⁻¹ * d.toMv i) 1 := by
  refine EqUpTo.trans (EqUpTo.of_eq ?_) (geom_inverse (coeff_zero_hatPoly d i) n)
  have h1 := hatPoly_eq d i h
  have : (MvPolynomial.C (coeff 0 (d.toMv i))⁻¹ : MvPolynomial String K) *
      MvPolynomial.C (coeff 0 (d.toMv i)) = 1 := by rw [← map_mul, inv_mul_cancel₀ h, map_one]
  linear_combination (∑ j ∈ Finset.range (n + 1), (-(hatPoly d i : MvPolynomial String K)) ^ j) *
    (1 + hatPoly d i) * this - (∑ j ∈ Finset.range (n + 1), (-(hatPoly d i : MvPolynomial String K)) ^ j) *
      MvPolynomial.C (coeff 0 (d.toMv i))⁻¹ * h1

/-- `div` succeeds iff no lane of the constant part of the denominator vanishes. -/
theorem div_spec' (ha : a.Valid) (hb : b.Valid) (h0 : ∀ i : ι, coeff 0 (b.toMv i) ≠ (0 : K)) :
    ∃ r, a.div b = .ok r ∧ r.Valid ∧ r.order = max a.order b.order ∧
      ∀ i, ∃ I : MvPolynomial String K, DegLE b.order I ∧ EqUpTo b.order (I * b.toMv i) 1 ∧
        EqUpTo (max a.order b.order) (r.toMv i) (a.toMv i * I) := by
  obtain ⟨p0, hp0⟩ := constantCf_isOk b
  have hu := (isUnit_constantCf hb hp0).mpr h0
  obtain ⟨q, hq, hqo, hqr⟩ := divSeries_spec (ι := ι) (K := K) hb hp0 hu
  refine ⟨(a.mul q).mulGS (Cf.div Cf.one p0), ?_, Valid.mulGS _ (ha.mul hqr.valid), ?_, fun i => ⟨q.toMv i * MvPolynomial.C (Lanes.lane i p0)⁻¹, ?_, ?_, ?_⟩⟩
  · unfold div
    rw [hp0]
    change (if Cf.isUnit p0 = true then divSeries b p0 >>= fun retval => (a.mul retval).divGS p0 else _) = _
    rw [if_pos hu, hq]
    exact divGS_eq hu
  · rw [order_mulGS]
    change max a.order q.order = _
    rw [hqo]
  · rw [mul_comm]
    have := hqr.valid.degLE (K := K) i
    rw [hqo] at this
    exact degLE_C_mul this _
  · rw [lane_constantCf hb hp0]
    refine EqUpTo.trans ?_ (inv_series b i (h0 i) b.order)
    exact ((hqr.eq i).mul (EqUpTo.refl _)).mul (EqUpTo.refl _)
  · rw [toMv_mulGS_div p0 (ha.mul hqr.valid), ← mul_assoc]
    have := toMv_mul ha hqr.valid i (K := K)
    rw [hqo] at this
    exact this.mul (EqUpTo.refl _)

theorem div_spec (ha : a.Valid) (hb : b.Valid) (h0 : ∀ i : ι, coeff 0 (b.toMv i) ≠ (0 : K)) :
    ∃ r, a.div b = .ok r ∧ r.Valid ∧ r.order = max a.order b.order ∧
      ∀ i, ∃ I : MvPolynomial String K, EqUpTo b.order (I * b.toMv i) 1 ∧
        EqUpTo (max a.order b.order) (r.toMv i) (a.toMv i * I) := by
  obtain ⟨r, h1, h2, h3, h4⟩ := div_spec' ha hb h0
  exact ⟨r, h1, h2, h3, fun i => let ⟨I, _, h⟩ := h4 i; ⟨I, h⟩⟩

theorem divSG_spec (s : C) (hb : b.Valid) (h0 : ∀ i : ι, coeff 0 (b.toMv i) ≠ (0 : K)) :
    ∃ r, divSG s b = .ok r ∧ r.Valid ∧ r.order = b.order ∧
      ∀ i, ∃ I : MvPolynomial String K, EqUpTo b.order (I * b.toMv i) 1 ∧
        EqUpTo b.order (r.toMv i) (MvPolynomial.C (Lanes.lane i s) * I) := by
  obtain ⟨p0, hp0⟩ := constantCf_isOk b
  have hu := (isUnit_constantCf hb hp0).mpr h0
  obtain ⟨q, hq, hqo, hqr⟩ := divSeries_spec (ι := ι) (K := K) hb hp0 hu
  refine ⟨(GDual.mulSG s q).mulGS (Cf.div Cf.one p0), ?_, Valid.mulGS _ (Valid.mulSG s hqr.valid), ?_,
    fun i => ⟨q.toMv i * MvPolynomial.C (Lanes.lane i p0)⁻¹, ?_, ?_⟩⟩
  · unfold divSG
    rw [hp0]
    change (if Cf.isUnit p0 = true then divSeries b p0 >>= fun retval => (mulSG s retval).divGS p0 else _) = _
    rw [if_pos hu, hq]
    exact divGS_eq hu
  · rw [order_mulGS, order_mulSG, hqo]
  · rw [lane_constantCf hb hp0]
    refine EqUpTo.trans ?_ (inv_series b i (h0 i) b.order)
    exact ((hqr.eq i).mul (EqUpTo.refl _)).mul (EqUpTo.refl _)
  · rw [toMv_mulGS_div p0 (Valid.mulSG s hqr.valid), ← mul_assoc]
    rw [toMv_mulSG s hqr.valid]
    exact EqUpTo.refl _

theorem divGS_error {s : C} (h : Cf.isUnit s ≠ true) (ha : a.p.terms ≠ []) : a.divGS s = .error .nonFinite := by
  rw [divGS, if_neg h, if_neg (by simpa using ha)]

theorem divGS_empty {s : C} (h : Cf.isUnit s ≠ true) (ha : a.p.terms = []) : a.divGS s = .ok a := by
  rw [divGS, if_neg h, if_pos (by simpa using ha)]

theorem div_error (hb : b.Valid) (h0 : ¬ ∀ i : ι, coeff 0 (b.toMv i) ≠ (0 : K)) (ha : a.p.terms ≠ []) :
    a.div b = .error .nonFinite := by
  obtain ⟨p0, hp0⟩ := constantCf_isOk b
  have hu := mt (isUnit_constantCf hb hp0).mp h0
  unfold div
  rw [hp0]
  change (if Cf.isUnit p0 = true then _ else if a.p.terms.isEmpty = true then _ else _) = _
  rw [if_neg hu, if_neg (by simpa using ha)]

theorem div_empty (hb : b.Valid) (h0 : ¬ ∀ i : ι, coeff 0 (b.toMv i) ≠ (0 : K)) (ha : a.p.terms = []) :
    a.div b = .ok (a.mul b) := by
  obtain ⟨p0, hp0⟩ := constantCf_isOk b
  have hu := mt (isUnit_constantCf hb hp0).mp h0
  unfold div
  rw [hp0]
  change (if Cf.isUnit p0 = true then _ else if a.p.terms.isEmpty = true then _ else _) = _
  rw [if_neg hu, if_pos (by simpa using ha)]

theorem divSG_error {s : C} (hb : b.Valid) (h0 : ¬ ∀ i : ι, coeff 0 (b.toMv i) ≠ (0 : K)) (hs : Cf.isZero s = false) :
    divSG s b = .error .nonFinite := by
  obtain ⟨p0, hp0⟩ := constantCf_isOk b
  have hu := mt (isUnit_constantCf hb hp0).mp h0
  unfold divSG
  rw [hp0]
  change (if Cf.isUnit p0 = true then _ else if Cf.isZero s = true then _ else _) = _
  rw [if_neg hu, if_neg (by simp [hs])]

theorem divSG_empty {s : C} (hb : b.Valid) (h0 : ¬ ∀ i : ι, coeff 0 (b.toMv i) ≠ (0 : K)) (hs : Cf.isZero s = true) :
    divSG s b = .ok (mulSG s b) := by
  obtain ⟨p0, hp0⟩ := constantCf_isOk b
  have hu := mt (isUnit_constantCf hb hp0).mp h0
  unfold divSG
  rw [hp0]
  change (if Cf.isUnit p0 = true then _ else if Cf.isZero s = true then _ else _) = _
  rw [if_neg hu, if_pos hs]

include ι K in
theorem Valid.div {r : GDual C} (ha : a.Valid) (hb : b.Valid) (h : a.div b = .ok r) : r.Valid := by
  by_cases h0 : ∀ i : ι, coeff 0 (b.toMv i) ≠ (0 : K)
  · obtain ⟨r', hr', hv, _⟩ := div_spec ha hb h0
    rw [h] at hr'
    injection hr' with hr'
    rw [hr']; exact hv
  · by_cases he : a.p.terms = []
    · rw [div_empty hb h0 he] at h
      injection h with h
      rw [← h]; exact ha.mul hb
    · rw [div_error hb h0 he] at h
      cases h

include ι K in
theorem Valid.divSG {r : GDual C} {s : C} (hb : b.Valid) (h : GDual.divSG s b = .ok r) : r.Valid := by
  by_cases h0 : ∀ i : ι, coeff 0 (b.toMv i) ≠ (0 : K)
  · obtain ⟨r', hr', hv, _⟩ := divSG_spec s hb h0
    rw [h] at hr'
    injection hr' with hr'
    rw [hr']; exact hv
  · by_cases he : Cf.isZero s = true
    · rw [divSG_empty hb h0 he] at h
      injection h with h
      rw [← h]; exact Valid.mulSG s hb
    · rw [divSG_error hb h0 (by simpa using he)] at h
      cases h

theorem Valid.divGS {r : GDual C} {s : C} (ha : a.Valid) (h : a.divGS s = .ok r) : r.Valid := by
  unfold GDual.divGS at h
  split_ifs at h
  · injection h with h
    rw [← h]; exact Valid.mulGS _ ha
  · injection h with h
    rw [← h]; exact ha

/-- A valid gdual denoting the zero polynomial in every lane has an empty table. -/
theorem terms_nil_iff (ha : a.Valid) : a.p.terms = [] ↔ ∀ i : ι, a.toMv i = (0 : MvPolynomial String K) := by
  constructor
  · intro h i
    unfold GDual.toMv Poly.toMv
    rw [h]; rfl
  · intro h
    by_contra hne
    obtain ⟨t, ht⟩ := List.exists_mem_of_ne_nil _ hne
    obtain ⟨i, hi⟩ := Poly.exists_lane_ne (ι := ι) (K := K) (ha.wf.nz t ht)
    have := Poly.coeff_toMv_of_mem (ι := ι) (K := K) ha.wf (e := t.1) (c := t.2) ht i
    have h0 := h i
    unfold GDual.toMv at h0
    rw [h0, coeff_zero] at this
    exact hi this.symm

/-- `degree() == 0` exactly when the polynomial is constant. -/
theorem degree_eq_zero_iff (ha : a.Valid) :
    a.degree = 0 ↔ ∀ i : ι, a.toMv i = MvPolynomial.C (coeff 0 (a.toMv i) : K) := by
  constructor
  · intro h i
    have h1 : DegLE 0 (a.toMv i : MvPolynomial String K) := by
      refine Poly.degLE_toMv ha.wf (fun t ht => ?_) i
      have := Poly.le_degree ht
      have h' : a.p.degree = 0 := h
      omega
    ext e
    rw [coeff_C]
    split_ifs with he
    · rw [← he]
    · exact h1 e (by
        rw [Nat.pos_iff_ne_zero]
        intro h2
        exact he ((Finsupp.degree_eq_zero_iff e).mp h2).symm)
  · intro h
    refine Nat.le_zero.mp (Poly.degree_le fun t ht => ?_)
    by_contra hs
    obtain ⟨i, hi⟩ := Poly.exists_lane_ne (ι := ι) (K := K) (ha.wf.nz t ht)
    have h1 := Poly.coeff_toMv_of_mem (ι := ι) (K := K) ha.wf (e := t.1) (c := t.2) ht i
    have h2 := h i
    unfold GDual.toMv at h2
    rw [h2, coeff_C, if_neg] at h1
    · exact hi h1.symm
    · intro h3
      have := degree_toExp (ha.wf.len t ht)
      rw [← h3] at this
      simp at this
      omega

end GDual
end Audi
