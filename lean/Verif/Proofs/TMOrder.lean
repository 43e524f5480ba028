import Verif.Proofs.TMIsotone
import Verif.Proofs.BoundsOrder
import Verif.Proofs.ItvSmall

/-!
# Proofs: the order of the remainders

A family of boxes inside the domain, `h i` the largest distance of a point of the box number `i` from the expansion point: the remainders of
the results of all operations are at most a multiple of `h i ^ (m + 1)`, when those of the operands are.
-/

namespace Audi
namespace TM

open MvPolynomial Spec GDual Itv

variable {ι : Type} {m : ℕ} {E : String → ℝ} {D : String → Itv ℝ} {D' : ι → String → Itv ℝ} {h : ι → ℝ} {t u r : TM ℝ} {T U : ι → TM ℝ}
  {ord : List String → List String}

/-- Boxes in the domain, within `h i ≤ 1` of the expansion point. -/
structure Shrink (E : String → ℝ) (D : String → Itv ℝ) (D' : ι → String → Itv ℝ) (h : ι → ℝ) : Prop where
  ins : ∀ i s, Inside (D' i s) (D s)
  lo : ∀ i s, |(D' i s).lo - E s| ≤ h i
  hi : ∀ i s, |(D' i s).hi - E s| ≤ h i
  pos : ∀ i, 0 ≤ h i
  le : ∀ i, h i ≤ 1

/-- The models `T i` over the boxes, with the polynomial of `t`, and remainders of the order `h i ^ (m + 1)`. -/
structure Fam (m : ℕ) (E : String → ℝ) (D : String → Itv ℝ) (D' : ι → String → Itv ℝ) (h : ι → ℝ) (t : TM ℝ) (T : ι → TM ℝ) : Prop where
  finer : ∀ i, Finer m E (D' i) D (T i) t
  small : ∃ C, 0 ≤ C ∧ ∀ i, Small (C * h i ^ (m + 1)) (T i).rem

theorem Fam.lift {f : ι → Res (TM ℝ)} (hf : ∀ i, ∃ r', f i = .ok r' ∧ Finer m E (D' i) D r' r)
    (hs : ∃ C, 0 ≤ C ∧ ∀ i r', f i = .ok r' → Small (C * h i ^ (m + 1)) r'.rem) : ∃ T', (∀ i, f i = .ok (T' i)) ∧ Fam m E D D' h r T' := by
  choose T' h1 h2 using hf
  obtain ⟨C, c1, c2⟩ := hs
  exact ⟨T', h1, h2, C, c1, fun i => c2 i _ (h1 i)⟩

theorem canon_small (S : Shrink E D D' h) (hord : ∀ l, (ord l).Perm l) {q : GDual ℝ} (hq : q.Valid) (hn : ∀ s ∈ q.p.syms, ∃ v, s = "d" ++ v)
    (ho : q.order ≤ 62) {n : ℕ} (hf : ∀ e, e.degree < n → coeff e (q.toMv () : MvPolynomial String ℝ) = 0) :
    ∃ C, 0 ≤ C ∧ ∀ i B, getBounds ord q (canon q E) (canon q (D' i)) = .ok B → Small (C * h i ^ n) B := by
  have hnd := nodup_varNames hq.wf.ndsyms hn
  refine ⟨absVal (fun _ => 1) (q.toMv ()), Finset.sum_nonneg fun e _ => mul_nonneg (abs_nonneg _) (by simp [Finsupp.prod]), fun i B hB => ?_⟩
  have h1 := getBounds_radius hq hn (fun e he k hk => ((List.le_sum_of_mem hk).trans (hq.deg _ he)).trans ho)
    (fun v hv => ⟨D' i v, E v, lookup_canon hnd _ hv, lookup_canon hnd _ hv, (S.ins i v).2.1⟩) (hord _) hB (S.pos i) fun v hv I x hI hx => by
      rw [lookup_canon hnd _ hv] at hI hx
      injection hI with hI
      injection hx with hx
      subst hI hx
      exact ⟨S.lo i v, S.hi i v⟩
  have h2 := absVal_le_pow hf (S.pos i) (S.le i)
  exact ⟨h1.1.trans h2, h1.2.trans h2⟩

theorem Fam.getBounds (S : Shrink E D D' h) (hord : ∀ l, (ord l).Perm l) (hT : Fam m E D D' h t T) {q : GDual ℝ} (hq : q.Valid)
    (hs : q.p.syms = t.tpol.p.syms) (ho : q.order ≤ 62) {n : ℕ} (hf : ∀ e, e.degree < n → coeff e (q.toMv () : MvPolynomial String ℝ) = 0) :
    ∃ C, 0 ≤ C ∧ ∀ i B, TM.getBounds ord q (T i).exp (T i).dom = .ok B → Small (C * h i ^ n) B := by
  rcases isEmpty_or_nonempty ι with _ | ⟨⟨i0⟩⟩
  · exact ⟨0, le_rfl, fun i => isEmptyElim i⟩
  obtain ⟨F, hb⟩ := (hT.finer i0).big
  obtain ⟨C, c1, c2⟩ := canon_small S hord hq (by rw [hs]; exact hb.wf.names) ho hf
  refine ⟨C, c1, fun i B hB => c2 i B ?_⟩
  obtain ⟨G, hg⟩ := (hT.finer i).small
  rwa [hg.getBounds_canon hq (by rw [hs, (hT.finer i).tpol])] at hB

/-- Powers of the bounds of a polynomial without constant term plus remainder. -/
theorem Fam.pow_small (S : Shrink E D D' h) (hord : ∀ l, (ord l).Perm l) (hT : Fam m E D D' h t T) {q : GDual ℝ} (hq : q.Valid)
    (hs : q.p.syms = t.tpol.p.syms) (ho : q.order ≤ 62) (h0 : coeff 0 (q.toMv () : MvPolynomial String ℝ) = 0) {k : ℕ}
    (hk : k = m ∨ (q.toMv () : MvPolynomial String ℝ) = 0) :
    ∃ C, 0 ≤ C ∧ ∀ i B, TM.getBounds ord q (T i).exp (T i).dom = .ok B → Small (C * h i ^ (m + 1)) ((B.add (T i).rem).pow (k + 1)) := by
  obtain ⟨R, r1, r2⟩ := hT.small
  rcases hk with rfl | hz
  · obtain ⟨C, c1, c2⟩ := hT.getBounds S hord hq hs ho (n := 1) fun e he => by
      obtain rfl : e = 0 := by rw [← Finsupp.degree_eq_zero_iff]; omega
      exact h0
    refine ⟨(C + R) ^ (k + 1), by positivity, fun i B hB => ?_⟩
    have h1 := (((c2 i B hB).add (r2 i)).mono (δ := (C + R) * h i) ?_).pow (k + 1)
    · rwa [mul_pow] at h1
    · have h2 : h i ^ (k + 1) ≤ h i ^ 1 := pow_le_pow_of_le_one (S.pos i) (S.le i) (by omega)
      rw [pow_one] at h2 ⊢
      rw [add_mul]
      exact add_le_add le_rfl (mul_le_mul_of_nonneg_left h2 r1)
  · obtain ⟨C, c1, c2⟩ := hT.getBounds S hord hq hs ho (n := m + 1) fun e _ => by rw [hz]; rfl
    refine ⟨(C + R) ^ (k + 1), by positivity, fun i B hB => ?_⟩
    have h1 := ((c2 i B hB).add (r2 i)).pow (k + 1)
    rw [← add_mul, mul_pow, ← pow_mul] at h1
    exact h1.mono (mul_le_mul_of_nonneg_left (pow_le_pow_of_le_one (S.pos i) (S.le i) (Nat.le_mul_of_pos_right _ (by omega))) (by positivity))

theorem toMv_rest (hq : t.tpol.Valid) (c : ℝ) :
    ((t.tpol.subGS c).toMv () : MvPolynomial String ℝ) = t.tpol.toMv () - C c := GDual.toMv_subGS (ι := Unit) (K := ℝ) c hq ()

/-- The bounds of the common start of the functions. -/
theorem Fam.prologue (S : Shrink E D D' h) (hord : ∀ l, (ord l).Perm l) (hm : m ≤ 62) (hT : Fam m E D D' h t T) :
    ∃ C, 0 ≤ C ∧ ∀ i c B k, TM.prologue ord (T i) = .ok (c, B, k) → Small (C * h i ^ (m + 1)) (B.pow (k + 1)) := by
  rcases isEmpty_or_nonempty ι with _ | ⟨⟨i0⟩⟩
  · exact ⟨0, le_rfl, fun i => isEmptyElim i⟩
  obtain ⟨F, hb⟩ := (hT.finer i0).big
  have h0 : coeff 0 ((t.tpol.subGS (F (pt E))).toMv () : MvPolynomial String ℝ) = 0 := by
    rw [toMv_rest hb.wf.valid, coeff_sub, coeff_zero_C, hb.val, sub_self]
  obtain ⟨C, c1, c2⟩ := hT.pow_small S hord (GDual.Valid.subGS (ι := Unit) (K := ℝ) (F (pt E)) hb.wf.valid) rfl (hb.good.le.trans hm) h0
    (k := t.tpol.order) (by
      refine hb.good.order.imp_right fun hc => ?_
      rw [toMv_rest hb.wf.valid, hc (), hb.val, sub_self])
  refine ⟨C, c1, fun i c B k hB => ?_⟩
  unfold TM.prologue at hB
  rw [(hT.finer i).tpol, bind_ok hb.constantCf] at hB
  obtain ⟨b, b1, hB⟩ := bind_ok_iff.1 hB
  injection hB with hB
  injection hB with e1 e2
  injection e2 with e2 e3
  subst e1 e2 e3
  exact c2 i b b1

/-! ### Sums and multiples -/

theorem Fam.addST (c : ℝ) (hT : Fam m E D D' h t T) (hr : TM.addST c t = .ok r) : ∃ T', (∀ i, TM.addST c (T i) = .ok (T' i)) ∧ Fam m E D D' h r T' := by
  obtain ⟨C, c1, c2⟩ := hT.small
  refine Fam.lift (fun i => (hT.finer i).addST c hr) ⟨C, c1, fun i r' h' => ?_⟩
  rw [(make_fields h').2]
  exact c2 i

theorem Fam.addTS (hT : Fam m E D D' h t T) (c : ℝ) (hr : TM.addTS t c = .ok r) : ∃ T', (∀ i, TM.addTS (T i) c = .ok (T' i)) ∧ Fam m E D D' h r T' := by
  obtain ⟨C, c1, c2⟩ := hT.small
  refine Fam.lift (fun i => (hT.finer i).addTS c hr) ⟨C, c1, fun i r' h' => ?_⟩
  rw [(make_fields h').2]
  exact c2 i

theorem Fam.subTS (hT : Fam m E D D' h t T) (c : ℝ) (hr : TM.subTS t c = .ok r) : ∃ T', (∀ i, TM.subTS (T i) c = .ok (T' i)) ∧ Fam m E D D' h r T' := by
  obtain ⟨C, c1, c2⟩ := hT.small
  refine Fam.lift (fun i => (hT.finer i).subTS c hr) ⟨C, c1, fun i r' h' => ?_⟩
  rw [(make_fields h').2]
  exact c2 i

theorem Fam.subST (c : ℝ) (hT : Fam m E D D' h t T) (hr : TM.subST c t = .ok r) : ∃ T', (∀ i, TM.subST c (T i) = .ok (T' i)) ∧ Fam m E D D' h r T' := by
  obtain ⟨C, c1, c2⟩ := hT.small
  refine Fam.lift (fun i => (hT.finer i).subST c hr) ⟨C, c1, fun i r' h' => ?_⟩
  rw [(make_fields h').2]
  exact c2 i

theorem Fam.mulST (c : ℝ) (hT : Fam m E D D' h t T) (hr : TM.mulST c t = .ok r) : ∃ T', (∀ i, TM.mulST c (T i) = .ok (T' i)) ∧ Fam m E D D' h r T' := by
  obtain ⟨C, c1, c2⟩ := hT.small
  refine Fam.lift (fun i => (hT.finer i).mulST c hr) ⟨C * |c|, by positivity, fun i r' h' => ?_⟩
  rw [(make_fields h').2]
  exact ((small_point c).mul (c2 i)).mono (le_of_eq (by ring))

theorem Fam.mulTS (hT : Fam m E D D' h t T) (c : ℝ) (hr : TM.mulTS t c = .ok r) : ∃ T', (∀ i, TM.mulTS (T i) c = .ok (T' i)) ∧ Fam m E D D' h r T' := by
  obtain ⟨C, c1, c2⟩ := hT.small
  refine Fam.lift (fun i => (hT.finer i).mulTS c hr) ⟨C * |c|, by positivity, fun i r' h' => ?_⟩
  rw [(make_fields h').2]
  exact ((c2 i).mul (small_point c)).mono (le_of_eq (by ring))

theorem Fam.neg (hT : Fam m E D D' h t T) (hr : TM.neg t = .ok r) : ∃ T', (∀ i, TM.neg (T i) = .ok (T' i)) ∧ Fam m E D D' h r T' := hT.subST 0 hr

theorem Fam.divTS (hT : Fam m E D D' h t T) {c : ℝ} (hr : TM.divTS t c = .ok r) : ∃ T', (∀ i, TM.divTS (T i) c = .ok (T' i)) ∧ Fam m E D D' h r T' := by
  obtain ⟨C, c1, c2⟩ := hT.small
  refine Fam.lift (fun i => (hT.finer i).divTS hr) ⟨C * |c⁻¹|, by positivity, fun i r' h' => ?_⟩
  unfold TM.divTS at h'
  obtain ⟨p, -, h'⟩ := bind_ok_iff.1 h'
  obtain ⟨q, q1, h'⟩ := bind_ok_iff.1 h'
  rw [(make_fields h').2]
  exact ((c2 i).sdiv q1).mono (le_of_eq (by ring))

theorem Fam.add (hT : Fam m E D D' h t T) (hU : Fam m E D D' h u U) (hr : TM.add t u = .ok r) :
    ∃ T', (∀ i, TM.add (T i) (U i) = .ok (T' i)) ∧ Fam m E D D' h r T' := by
  obtain ⟨C, c1, c2⟩ := hT.small
  obtain ⟨C', d1, d2⟩ := hU.small
  refine Fam.lift (fun i => (hT.finer i).add (hU.finer i) hr) ⟨C + C', by positivity, fun i r' h' => ?_⟩
  unfold TM.add at h'
  obtain ⟨_, -, h'⟩ := bind_ok_iff.1 h'
  obtain ⟨_, -, h'⟩ := bind_ok_iff.1 h'
  obtain ⟨_, -, h'⟩ := bind_ok_iff.1 h'
  obtain ⟨_, -, h'⟩ := bind_ok_iff.1 h'
  rw [(make_fields h').2]
  exact ((c2 i).add (d2 i)).mono (le_of_eq (by ring))

theorem Fam.sub (hT : Fam m E D D' h t T) (hU : Fam m E D D' h u U) (hr : TM.sub t u = .ok r) :
    ∃ T', (∀ i, TM.sub (T i) (U i) = .ok (T' i)) ∧ Fam m E D D' h r T' := by
  obtain ⟨C, c1, c2⟩ := hT.small
  obtain ⟨C', d1, d2⟩ := hU.small
  refine Fam.lift (fun i => (hT.finer i).sub (hU.finer i) hr) ⟨C + C', by positivity, fun i r' h' => ?_⟩
  unfold TM.sub at h'
  obtain ⟨_, -, h'⟩ := bind_ok_iff.1 h'
  obtain ⟨_, -, h'⟩ := bind_ok_iff.1 h'
  obtain ⟨_, -, h'⟩ := bind_ok_iff.1 h'
  obtain ⟨_, -, h'⟩ := bind_ok_iff.1 h'
  rw [(make_fields h').2]
  exact ((c2 i).sub (d2 i)).mono (le_of_eq (by ring))

/-! ### Product -/

theorem Fam.mul (S : Shrink E D D' h) (hord : ∀ l, (ord l).Perm l) (hm : m ≤ 31) (hT : Fam m E D D' h t T) (hU : Fam m E D D' h u U)
    (ho : 1 ≤ t.order + u.order) (hr : TM.mul ord t u = .ok r) : ∃ T', (∀ i, TM.mul ord (T i) (U i) = .ok (T' i)) ∧ Fam m E D D' h r T' := by
  refine Fam.lift (fun i => (hT.finer i).mul hord (S.ins i) hm (hU.finer i) ho hr) ?_
  rcases isEmpty_or_nonempty ι with _ | ⟨⟨i0⟩⟩
  · exact ⟨0, le_rfl, fun i => isEmptyElim i⟩
  obtain ⟨F, hb⟩ := (hT.finer i0).big
  obtain ⟨G, ub⟩ := (hU.finer i0).big
  obtain ⟨C, c1, c2⟩ := hT.small
  obtain ⟨C', d1, d2⟩ := hU.small
  unfold TM.mul at hr
  obtain ⟨z, z1, hr⟩ := bind_ok_iff.1 hr
  by_cases hz : (t.tpol.eq z || u.tpol.eq z) = true
  · refine ⟨0, le_rfl, fun i r' h' => ?_⟩
    unfold TM.mul at h'
    rw [(hT.finer i).tpol, (hU.finer i).tpol, bind_ok z1, if_pos hz] at h'
    injection h' with h'
    subst h'
    exact ⟨by simp [TM.ofConst], by simp [TM.ofConst]⟩
  rw [if_neg hz, bind_ok (hb.compatible ub).commonExp, bind_ok (hb.compatible ub).commonDom] at hr
  simp only [GDual.getOrder] at hr
  have hao := hb.wf.order
  have hbo := ub.wf.order
  have hal := hb.order_le
  have hbl := ub.order_le
  have hu73 : (73 : ℕ) < UINT_MAX - 10 := by decide
  obtain ⟨h1, e1, v1, o1, p1, s1⟩ := increasedOrder_spec hb.wf.valid (n := t.tpol.order + u.tpol.order) (by omega) (by omega) (by omega)
  obtain ⟨h2, e2, v2, o2, p2, s2⟩ := increasedOrder_spec ub.wf.valid (n := t.tpol.order + u.tpol.order) (by omega) (by omega) (by omega)
  have vq := v1.mul v2
  have oq : (h1.mul h2).order = t.tpol.order + u.tpol.order := by
    change max h1.order h2.order = _
    rw [o1, o2, max_self]
  have sq : ∀ s ∈ (h1.mul h2).p.syms, s ∈ t.tpol.p.syms ∨ s ∈ u.tpol.p.syms := fun s hs =>
    (mem_mergeSyms.1 (show s ∈ mergeSyms h1.p.syms h2.p.syms from hs)).imp (s1 s) (s2 s)
  obtain ⟨g, eg, vg, og, sg, cg⟩ := agreeable_spec vq (n := max t.tpol.order u.tpol.order) (by rw [oq]; omega)
  have ve := GDual.Valid.sub (ι := Unit) (K := ℝ) vq vg
  have se : ∀ s ∈ ((h1.mul h2).sub g).p.syms, s ∈ t.tpol.p.syms ∨ s ∈ u.tpol.p.syms := fun s hs => by
    rcases mem_mergeSyms.1 (show s ∈ mergeSyms (h1.mul h2).p.syms g.p.syms from hs) with h | h
    · exact sq s h
    · rw [sg] at h
      exact sq s h
  have oe : ((h1.mul h2).sub g).order ≤ 62 := by
    change max (h1.mul h2).order g.order ≤ 62
    rw [oq, og]
    omega
  have hlow : ∀ e : String →₀ ℕ, e.degree < m + 1 → coeff e (((h1.mul h2).sub g).toMv () : MvPolynomial String ℝ) = 0 := by
    intro e he
    rw [GDual.toMv_sub (ι := Unit) (K := ℝ) vq vg, coeff_sub, cg]
    split_ifs with hn
    · exact sub_self _
    · have ht : t.tpol.order ≠ m := by omega
      have hu : u.tpol.order ≠ m := by omega
      have k1 := (hb.good.order.resolve_left ht) ()
      have k2 := (ub.good.order.resolve_left hu) ()
      have he0 : (0 : String →₀ ℕ) ≠ e := by
        rintro rfl
        simp at hn
      rw [GDual.coeff_mul' (ι := Unit) (K := ℝ) v1 v2, p1, p2, k1, k2, ← C_mul, coeff_C, if_neg he0, ite_self, sub_zero]
  obtain ⟨Ce, g1, g2⟩ := canon_small S hord ve (fun s hs => (se s hs).elim (hb.wf.names s) (ub.wf.names s)) oe hlow
  rw [bind_ok e1, bind_ok e2, bind_ok eg] at hr
  obtain ⟨_, -, hr⟩ := bind_ok_iff.1 hr
  obtain ⟨_, -, hr⟩ := bind_ok_iff.1 hr
  obtain ⟨eb, b1, hr⟩ := bind_ok_iff.1 hr
  obtain ⟨bt, b2, hr⟩ := bind_ok_iff.1 hr
  obtain ⟨bu, b3, hr⟩ := bind_ok_iff.1 hr
  refine ⟨Ce + bt.mag * C' + C * bu.mag + C * C', by have := mag_nonneg bt; have := mag_nonneg bu; positivity, fun i r' h' => ?_⟩
  obtain ⟨F', hs⟩ := (hT.finer i).small
  obtain ⟨G', us⟩ := (hU.finer i).small
  unfold TM.mul at h'
  rw [(hT.finer i).tpol, (hU.finer i).tpol, bind_ok z1, if_neg hz, bind_ok (hs.compatible us).commonExp, bind_ok (hs.compatible us).commonDom] at h'
  simp only [GDual.getOrder] at h'
  rw [bind_ok e1, bind_ok e2, bind_ok eg] at h'
  obtain ⟨_, -, h'⟩ := bind_ok_iff.1 h'
  obtain ⟨_, -, h'⟩ := bind_ok_iff.1 h'
  obtain ⟨eb', b1', h'⟩ := bind_ok_iff.1 h'
  obtain ⟨bt', b2', h'⟩ := bind_ok_iff.1 h'
  obtain ⟨bu', b3', h'⟩ := bind_ok_iff.1 h'
  have hp : 0 ≤ h i ^ (m + 1) := pow_nonneg (S.pos i) _
  have i1 : Small (Ce * h i ^ (m + 1)) eb' := by
    rw [truncation_canon hs us (by rw [(hT.finer i).tpol, (hU.finer i).tpol]; exact se)] at b1'
    split_ifs at b1' with hz
    · injection b1' with b1'
      subst b1'
      exact ⟨by rw [abs_zero]; positivity, by rw [abs_zero]; positivity⟩
    · exact g2 i eb' b1'
  have i2 : Small bt.mag bt' := by
    obtain ⟨B', k1, k2⟩ := (hT.finer i).bounds hord (S.ins i) (by omega) b2
    rw [k1] at b2'
    injection b2' with b2'
    exact b2' ▸ k2.small
  have i3 : Small bu.mag bu' := by
    obtain ⟨B', k1, k2⟩ := (hU.finer i).bounds hord (S.ins i) (by omega) b3
    rw [k1] at b3'
    injection b3' with b3'
    exact b3' ▸ k2.small
  rw [(make_fields h').2]
  refine (((i1.add (i2.mul (d2 i))).add ((c2 i).mul i3)).add ((c2 i).mul (d2 i))).mono ?_
  have h1 : h i ^ (m + 1) * h i ^ (m + 1) ≤ h i ^ (m + 1) := mul_le_of_le_one_right hp (pow_le_one₀ (S.pos i) (S.le i))
  have h2 := mul_le_mul_of_nonneg_left h1 (mul_nonneg c1 d1)
  nlinarith [h2]

/-! ### Quotient -/

theorem Fam.divST (S : Shrink E D D' h) (hord : ∀ l, (ord l).Perm l) (hm : m ≤ 62) (c : ℝ) (hT : Fam m E D D' h t T) (hr : TM.divST ord c t = .ok r) :
    ∃ T', (∀ i, TM.divST ord c (T i) = .ok (T' i)) ∧ Fam m E D D' h r T' := by
  refine Fam.lift (fun i => by
    obtain ⟨r', k1, k2, -⟩ := (hT.finer i).divST hord (S.ins i) hm c hr
    exact ⟨r', k1, k2⟩) ?_
  rcases isEmpty_or_nonempty ι with _ | ⟨⟨i0⟩⟩
  · exact ⟨0, le_rfl, fun i => isEmptyElim i⟩
  obtain ⟨F, hb⟩ := (hT.finer i0).big
  obtain ⟨C, c1, c2⟩ := hT.prologue S hord hm
  unfold TM.divST at hr
  obtain ⟨b, b1, hr⟩ := bind_ok_iff.1 hr
  split_ifs at hr with hz
  obtain ⟨x, x1, hr⟩ := bind_ok_iff.1 hr
  simp only at hr
  obtain ⟨fb, f1, hr⟩ := bind_ok_iff.1 hr
  obtain ⟨num, n1, hr⟩ := bind_ok_iff.1 hr
  obtain ⟨q, q1, hr⟩ := bind_ok_iff.1 hr
  obtain ⟨den, d1, hr⟩ := bind_ok_iff.1 hr
  refine ⟨C * |(-1) ^ (t.tpol.order + 1)| * |(x ^ (t.tpol.order + 2))⁻¹| * den.mag, by have := mag_nonneg den; positivity, fun i r' h' => ?_⟩
  have hf := hT.finer i
  unfold TM.divST at h'
  obtain ⟨b', -, h'⟩ := bind_ok_iff.1 h'
  split_ifs at h'
  rw [hf.tpol, bind_ok x1] at h'
  simp only at h'
  obtain ⟨fb', f2, f3⟩ := hf.getBounds hord (S.ins i) (GDual.Valid.subGS (ι := Unit) (K := ℝ) x hb.wf.valid) rfl (hb.good.le.trans hm) f1
  rw [bind_ok f2] at h'
  have j := f3.add hf.rem
  have hp : TM.prologue ord (T i) = .ok (x, fb'.add (T i).rem, t.tpol.order) := by
    unfold TM.prologue
    rw [hf.tpol, bind_ok x1, bind_ok f2]
    rfl
  obtain ⟨num', n2, h'⟩ := bind_ok_iff.1 h'
  obtain ⟨q', q2, q3⟩ := j.sdiv q1
  obtain ⟨den', d2, d3⟩ := (Inside.point 1).div (((Inside.point 1).add (q3.mul .unit)).pow _) d1
  rw [bind_ok q2, bind_ok d2] at h'
  obtain ⟨p, -, h'⟩ := bind_ok_iff.1 h'
  rw [(make_fields h').2]
  exact ((((c2 i _ _ _ hp).smul _).sdiv n2).mul d3.small).mono (le_of_eq (by simp only [GDual.getOrder]; ring))

theorem Fam.div (S : Shrink E D D' h) (hord : ∀ l, (ord l).Perm l) (hm : m ≤ 31) (hT : Fam m E D D' h t T) (hU : Fam m E D D' h u U)
    (ho : 1 ≤ t.order + u.order) (hr : TM.div ord t u = .ok r) : ∃ T', (∀ i, TM.div ord (T i) (U i) = .ok (T' i)) ∧ Fam m E D D' h r T' := by
  rcases isEmpty_or_nonempty ι with _ | ⟨⟨i0⟩⟩
  · exact ⟨fun i => isEmptyElim i, fun i => isEmptyElim i, fun i => isEmptyElim i, 0, le_rfl, fun i => isEmptyElim i⟩
  unfold TM.div at hr
  obtain ⟨q, q1, hr⟩ := bind_ok_iff.1 hr
  obtain ⟨-, -, -, q4⟩ := (hU.finer i0).divST hord (S.ins i0) (by omega) 1 q1
  obtain ⟨Q, q2, q3⟩ := hU.divST S hord (by omega) 1 q1
  obtain ⟨R, r2, r3⟩ := hT.mul S hord hm q3 (by omega) hr
  refine ⟨R, fun i => ?_, r3⟩
  unfold TM.div
  rw [bind_ok (q2 i), r2 i]

/-! ### Functions -/

theorem Fam.rexp (S : Shrink E D D' h) (hord : ∀ l, (ord l).Perm l) (hm : m ≤ 62) (hT : Fam m E D D' h t T) (hr : TM.rexp ord t = .ok r) :
    ∃ T', (∀ i, TM.rexp ord (T i) = .ok (T' i)) ∧ Fam m E D D' h r T' := by
  refine Fam.lift (fun i => (hT.finer i).rexp hord (S.ins i) hm hr) ?_
  obtain ⟨C, c1, c2⟩ := hT.prologue S hord hm
  unfold TM.rexp at hr
  obtain ⟨⟨c, B, k⟩, b1, hr⟩ := bind_ok_iff.1 hr
  simp only at hr
  obtain ⟨f1, f2, hr⟩ := bind_ok_iff.1 hr
  obtain ⟨p, p1, hr⟩ := bind_ok_iff.1 hr
  refine ⟨C * |Real.exp c * (1 / f1)| * (B.mul ⟨0, 1⟩).rexp.mag, by have := mag_nonneg (B.mul ⟨0, 1⟩).rexp; positivity, fun i r' h' => ?_⟩
  have hf := hT.finer i
  obtain ⟨B', b2, b3⟩ := hf.prologue hord (S.ins i) hm b1
  unfold TM.rexp at h'
  rw [bind_ok b2] at h'
  simp only at h'
  rw [bind_ok f2, hf.tpol, bind_ok p1] at h'
  rw [(make_fields h').2]
  exact (((c2 i _ _ _ b2).smul _).mul (b3.mul .unit).rexp.small).mono (le_of_eq (by ring))

theorem Fam.trig (S : Shrink E D D' h) (hord : ∀ l, (ord l).Perm l) (hm : m ≤ 62) (hT : Fam m E D D' h t T)
    {fn : GDual ℝ → Res (GDual ℝ)} {cond : ℕ → Itv ℝ → Itv ℝ} (hc : ∀ k a b, Inside a b → Inside (cond k a) (cond k b))
    (hr : TM.trig fn cond ord t = .ok r) : ∃ C, 0 ≤ C ∧ ∀ i r', TM.trig fn cond ord (T i) = .ok r' → Small (C * h i ^ (m + 1)) r'.rem := by
  obtain ⟨C, c1, c2⟩ := hT.prologue S hord hm
  unfold TM.trig at hr
  obtain ⟨⟨c, B, k⟩, b1, hr⟩ := bind_ok_iff.1 hr
  simp only at hr
  obtain ⟨f1, f2, hr⟩ := bind_ok_iff.1 hr
  obtain ⟨p, p1, hr⟩ := bind_ok_iff.1 hr
  refine ⟨|1 / (f1 : ℝ)| * (cond k (thetaArg c B)).mag * C, by have := mag_nonneg (cond k (thetaArg c B)); positivity, fun i r' h' => ?_⟩
  have hf := hT.finer i
  obtain ⟨B', b2, b3⟩ := hf.prologue hord (S.ins i) hm b1
  unfold TM.trig at h'
  rw [bind_ok b2] at h'
  simp only at h'
  rw [bind_ok f2, hf.tpol, bind_ok p1] at h'
  rw [(make_fields h').2]
  exact (((small_point _).mul (hc k _ _ (b3.thetaArg c)).small).mul (c2 i _ _ _ b2)).mono (le_of_eq (by ring))

theorem Fam.rsin (S : Shrink E D D' h) (hord : ∀ l, (ord l).Perm l) (hm : m ≤ 62) (hT : Fam m E D D' h t T) (hr : TM.rsin ord t = .ok r) :
    ∃ T', (∀ i, TM.rsin ord (T i) = .ok (T' i)) ∧ Fam m E D D' h r T' :=
  Fam.lift (fun i => by
    obtain ⟨r', k1, k2, -⟩ := (hT.finer i).rsin hord (S.ins i) hm hr
    exact ⟨r', k1, k2⟩) (hT.trig S hord hm (fun k _ _ i => i.sinCond k) hr)

theorem Fam.rcos (S : Shrink E D D' h) (hord : ∀ l, (ord l).Perm l) (hm : m ≤ 62) (hT : Fam m E D D' h t T) (hr : TM.rcos ord t = .ok r) :
    ∃ T', (∀ i, TM.rcos ord (T i) = .ok (T' i)) ∧ Fam m E D D' h r T' :=
  Fam.lift (fun i => by
    obtain ⟨r', k1, k2, -⟩ := (hT.finer i).rcos hord (S.ins i) hm hr
    exact ⟨r', k1, k2⟩) (hT.trig S hord hm (fun k _ _ i => i.cosCond k) hr)

theorem Fam.rsinh (S : Shrink E D D' h) (hord : ∀ l, (ord l).Perm l) (hm : m ≤ 62) (hT : Fam m E D D' h t T) (hr : TM.rsinh ord t = .ok r) :
    ∃ T', (∀ i, TM.rsinh ord (T i) = .ok (T' i)) ∧ Fam m E D D' h r T' :=
  Fam.lift (fun i => by
    obtain ⟨r', k1, k2, -⟩ := (hT.finer i).rsinh hord (S.ins i) hm hr
    exact ⟨r', k1, k2⟩) (hT.trig S hord hm (fun k _ _ i => i.sinhCond k) hr)

theorem Fam.rcosh (S : Shrink E D D' h) (hord : ∀ l, (ord l).Perm l) (hm : m ≤ 62) (hT : Fam m E D D' h t T) (hr : TM.rcosh ord t = .ok r) :
    ∃ T', (∀ i, TM.rcosh ord (T i) = .ok (T' i)) ∧ Fam m E D D' h r T' :=
  Fam.lift (fun i => by
    obtain ⟨r', k1, k2, -⟩ := (hT.finer i).rcosh hord (S.ins i) hm hr
    exact ⟨r', k1, k2⟩) (hT.trig S hord hm (fun k _ _ i => i.coshCond k) hr)

/-- Families without members. -/
theorem Fam.empty [IsEmpty ι] {f : ι → Res (TM ℝ)} : ∃ T', (∀ i, f i = .ok (T' i)) ∧ Fam m E D D' h r T' :=
  ⟨fun i => isEmptyElim i, fun i => isEmptyElim i, fun i => isEmptyElim i, 0, le_rfl, fun i => isEmptyElim i⟩

theorem Fam.rtan (S : Shrink E D D' h) (hord : ∀ l, (ord l).Perm l) (hm : m ≤ 31) (hT : Fam m E D D' h t T) (ho : 1 ≤ t.order)
    (hr : TM.rtan ord t = .ok r) : ∃ T', (∀ i, TM.rtan ord (T i) = .ok (T' i)) ∧ Fam m E D D' h r T' := by
  rcases isEmpty_or_nonempty ι with _ | ⟨⟨i0⟩⟩
  · exact Fam.empty
  unfold TM.rtan at hr ⊢
  obtain ⟨s, s1, hr⟩ := bind_ok_iff.1 hr
  obtain ⟨c, c1, hr⟩ := bind_ok_iff.1 hr
  obtain ⟨-, -, -, s4⟩ := (hT.finer i0).rsin hord (S.ins i0) (by omega) s1
  obtain ⟨s', s2, s3⟩ := hT.rsin S hord (by omega) s1
  obtain ⟨c', c2, c3⟩ := hT.rcos S hord (by omega) c1
  simp only [bind_ok (s2 _), bind_ok (c2 _)]
  exact s3.div S hord hm c3 (by omega) hr

theorem Fam.rtanh (S : Shrink E D D' h) (hord : ∀ l, (ord l).Perm l) (hm : m ≤ 31) (hT : Fam m E D D' h t T) (ho : 1 ≤ t.order)
    (hr : TM.rtanh ord t = .ok r) : ∃ T', (∀ i, TM.rtanh ord (T i) = .ok (T' i)) ∧ Fam m E D D' h r T' := by
  rcases isEmpty_or_nonempty ι with _ | ⟨⟨i0⟩⟩
  · exact Fam.empty
  unfold TM.rtanh at hr ⊢
  obtain ⟨s, s1, hr⟩ := bind_ok_iff.1 hr
  obtain ⟨c, c1, hr⟩ := bind_ok_iff.1 hr
  obtain ⟨-, -, -, s4⟩ := (hT.finer i0).rsinh hord (S.ins i0) (by omega) s1
  obtain ⟨s', s2, s3⟩ := hT.rsinh S hord (by omega) s1
  obtain ⟨c', c2, c3⟩ := hT.rcosh S hord (by omega) c1
  simp only [bind_ok (s2 _), bind_ok (c2 _)]
  exact s3.div S hord hm c3 (by omega) hr

theorem Fam.powHalf (S : Shrink E D D' h) (hord : ∀ l, (ord l).Perm l) (hm : m ≤ 62) (hT : Fam m E D D' h t T) (hr : TM.powHalf ord t = .ok r) :
    ∃ T', (∀ i, TM.powHalf ord (T i) = .ok (T' i)) ∧ Fam m E D D' h r T' := by
  refine Fam.lift (fun i => (hT.finer i).powHalf hord (S.ins i) hm hr) ?_
  obtain ⟨C, c1, c2⟩ := hT.prologue S hord hm
  unfold TM.powHalf at hr
  obtain ⟨⟨c, B, k⟩, b1, hr⟩ := bind_ok_iff.1 hr
  simp only at hr
  obtain ⟨_, a1, hr⟩ := bind_ok_iff.1 hr
  obtain ⟨q, q1, hr⟩ := bind_ok_iff.1 hr
  obtain ⟨den, d1, hr⟩ := bind_ok_iff.1 hr
  obtain ⟨f2, g2, hr⟩ := bind_ok_iff.1 hr
  obtain ⟨f1, g1, hr⟩ := bind_ok_iff.1 hr
  obtain ⟨num, n1, hr⟩ := bind_ok_iff.1 hr
  obtain ⟨rem, e1, hr⟩ := bind_ok_iff.1 hr
  have e0 := e1
  unfold Itv.div at e0
  obtain ⟨ci, ci1, -⟩ := bind_ok_iff.1 e0
  refine ⟨C * |(-1) ^ k * √c * ↑f2 / (f1 * 2 ^ (k + 1))| * |(c ^ (k + 1))⁻¹| * ci.mag, by have := mag_nonneg ci; positivity, fun i r' h' => ?_⟩
  have hf := hT.finer i
  obtain ⟨B', b2, b3⟩ := hf.prologue hord (S.ins i) hm b1
  unfold TM.powHalf at h'
  rw [bind_ok b2] at h'
  simp only at h'
  obtain ⟨_, -, h'⟩ := bind_ok_iff.1 h'
  obtain ⟨q', q2, q3⟩ := b3.sdiv q1
  obtain ⟨den', d2, d3⟩ := (((Inside.point 1).add (q3.mul .unit)).pow _).rsqrt (one_mem_theta _ _) zero_le_one d1
  rw [bind_ok q2, bind_ok d2, bind_ok g2, bind_ok g1] at h'
  obtain ⟨num', n2, h'⟩ := bind_ok_iff.1 h'
  obtain ⟨rem', e2, h'⟩ := bind_ok_iff.1 h'
  obtain ⟨p, -, h'⟩ := bind_ok_iff.1 h'
  have hrem : r'.rem = rem' := by
    obtain ⟨ne, -, h'⟩ := bind_ok_iff.1 h'
    obtain ⟨nd, -, h'⟩ := bind_ok_iff.1 h'
    exact (make_fields h').2
  rw [hrem]
  obtain ⟨ci', x1, x2⟩ := ((((c2 i _ _ _ b2).smul _).sdiv n2).mul (small_point (1 : ℝ))).div_inside d3 e1 e2
  rw [ci1] at x1
  injection x1 with x1
  subst x1
  refine x2.mono (le_of_eq ?_)
  rw [abs_one]
  ring

theorem Fam.powMinusHalf (S : Shrink E D D' h) (hord : ∀ l, (ord l).Perm l) (hm : m ≤ 62) (hT : Fam m E D D' h t T) (hr : TM.powMinusHalf ord t = .ok r) :
    ∃ T', (∀ i, TM.powMinusHalf ord (T i) = .ok (T' i)) ∧ Fam m E D D' h r T' := by
  refine Fam.lift (fun i => (hT.finer i).powMinusHalf hord (S.ins i) hm hr) ?_
  obtain ⟨C, c1, c2⟩ := hT.prologue S hord hm
  unfold TM.powMinusHalf at hr
  obtain ⟨⟨c, B, k⟩, b1, hr⟩ := bind_ok_iff.1 hr
  simp only at hr
  obtain ⟨_, a1, hr⟩ := bind_ok_iff.1 hr
  obtain ⟨q, q1, hr⟩ := bind_ok_iff.1 hr
  obtain ⟨den, d1, hr⟩ := bind_ok_iff.1 hr
  obtain ⟨f2, g2, hr⟩ := bind_ok_iff.1 hr
  obtain ⟨f1, g1, hr⟩ := bind_ok_iff.1 hr
  obtain ⟨num, n1, hr⟩ := bind_ok_iff.1 hr
  obtain ⟨rem, e1, hr⟩ := bind_ok_iff.1 hr
  have e0 := e1
  unfold Itv.div at e0
  obtain ⟨ci, ci1, -⟩ := bind_ok_iff.1 e0
  refine ⟨C * |(-1) ^ (k + 1) * (√c)⁻¹ * ↑f2 / f1 * 2 ^ (k + 1)| * |(c ^ (k + 1))⁻¹| * ci.mag, by have := mag_nonneg ci; positivity, fun i r' h' => ?_⟩
  have hf := hT.finer i
  obtain ⟨B', b2, b3⟩ := hf.prologue hord (S.ins i) hm b1
  unfold TM.powMinusHalf at h'
  rw [bind_ok b2] at h'
  simp only at h'
  obtain ⟨_, -, h'⟩ := bind_ok_iff.1 h'
  obtain ⟨q', q2, q3⟩ := b3.sdiv q1
  obtain ⟨den', d2, d3⟩ := (((Inside.point 1).add (q3.mul .unit)).pow _).rsqrt (one_mem_theta _ _) zero_le_one d1
  rw [bind_ok q2, bind_ok d2, bind_ok g2, bind_ok g1] at h'
  obtain ⟨num', n2, h'⟩ := bind_ok_iff.1 h'
  obtain ⟨rem', e2, h'⟩ := bind_ok_iff.1 h'
  obtain ⟨p, -, h'⟩ := bind_ok_iff.1 h'
  have hrem : r'.rem = rem' := by
    obtain ⟨ne, -, h'⟩ := bind_ok_iff.1 h'
    obtain ⟨nd, -, h'⟩ := bind_ok_iff.1 h'
    exact (make_fields h').2
  rw [hrem]
  obtain ⟨ci', x1, x2⟩ := ((((c2 i _ _ _ b2).smul _).sdiv n2).mul (small_point (1 : ℝ))).div_inside d3 e1 e2
  rw [ci1] at x1
  injection x1 with x1
  subst x1
  refine x2.mono (le_of_eq ?_)
  rw [abs_one]
  ring

theorem Fam.rlog (S : Shrink E D D' h) (hord : ∀ l, (ord l).Perm l) (hm : m ≤ 62) (hT : Fam m E D D' h t T) (hr : TM.rlog ord t = .ok r) :
    ∃ T', (∀ i, TM.rlog ord (T i) = .ok (T' i)) ∧ Fam m E D D' h r T' := by
  refine Fam.lift (fun i => (hT.finer i).rlog hord (S.ins i) hm hr) ?_
  obtain ⟨C, c1, c2⟩ := hT.prologue S hord hm
  unfold TM.rlog at hr
  obtain ⟨_, a1, hr⟩ := bind_ok_iff.1 hr
  obtain ⟨⟨c, B, k⟩, b1, hr⟩ := bind_ok_iff.1 hr
  simp only at hr
  obtain ⟨num, n1, hr⟩ := bind_ok_iff.1 hr
  obtain ⟨q, q1, hr⟩ := bind_ok_iff.1 hr
  obtain ⟨den, d1, hr⟩ := bind_ok_iff.1 hr
  refine ⟨C * |(-1) ^ (k + 2) * (1 / (k + 1 : ℝ))| * |(c ^ (k + 1))⁻¹| * (den.pow (k + 1)).mag, by have := mag_nonneg (den.pow (k + 1)); positivity, fun i r' h' => ?_⟩
  have hf := hT.finer i
  obtain ⟨B', b2, b3⟩ := hf.prologue hord (S.ins i) hm b1
  unfold TM.rlog at h'
  obtain ⟨_, -, h'⟩ := bind_ok_iff.1 h'
  rw [bind_ok b2] at h'
  simp only at h'
  obtain ⟨num', n2, h'⟩ := bind_ok_iff.1 h'
  obtain ⟨q', q2, q3⟩ := b3.sdiv q1
  obtain ⟨den', d2, d3⟩ := (Inside.point 1).div ((Inside.point 1).add (q3.mul .unit)) d1
  rw [bind_ok q2, bind_ok d2] at h'
  obtain ⟨p, -, h'⟩ := bind_ok_iff.1 h'
  rw [(make_fields h').2]
  exact ((((small_point _).mul (c2 i _ _ _ b2)).sdiv n2).mul (d3.pow (k + 1)).small).mono (le_of_eq (by ring))

/-! ### Powers -/

theorem Fam.powNat (S : Shrink E D D' h) (hord : ∀ l, (ord l).Perm l) (hm : m ≤ 31) (hT : Fam m E D D' h t T) (ho : 1 ≤ t.order) (n : ℕ)
    {p : TM ℝ} {P : ι → TM ℝ} (hp : Fam m E D D' h p P) (hr : (List.range n).foldlM (fun (p : TM ℝ) (_ : ℕ) => TM.mul ord p t) p = .ok r) :
    ∃ T', (∀ i, (List.range n).foldlM (fun (p : TM ℝ) (_ : ℕ) => TM.mul ord p (T i)) (P i) = .ok (T' i)) ∧ Fam m E D D' h r T' := by
  induction n generalizing r with
  | zero =>
    injection hr with hr
    subst hr
    exact ⟨P, fun i => rfl, hp⟩
  | succ n ih =>
    rw [List.range_succ, List.foldlM_append] at hr
    obtain ⟨q, q1, hr⟩ := bind_ok_iff.1 hr
    obtain ⟨q', q2, q3⟩ := ih q1
    change (do let q ← TM.mul ord q t; .ok q) = _ at hr
    obtain ⟨w, w1, hr⟩ := bind_ok_iff.1 hr
    injection hr with hr
    subst hr
    obtain ⟨w', w2, w3⟩ := q3.mul S hord hm hT (by omega) w1
    refine ⟨w', fun i => ?_, w3⟩
    rw [List.range_succ, List.foldlM_append, bind_ok (q2 i)]
    change (do let q ← TM.mul ord (q' i) (T i); .ok q) = _
    rw [bind_ok (w2 i)]

theorem Fam.powNeg (S : Shrink E D D' h) (hord : ∀ l, (ord l).Perm l) (hm : m ≤ 31) (hT : Fam m E D D' h t T) (ho : 1 ≤ t.order) (n : ℕ)
    {p : TM ℝ} {P : ι → TM ℝ} (hp : Fam m E D D' h p P) (hr : (List.range n).foldlM (fun (p : TM ℝ) (_ : ℕ) => do
      let q ← TM.mulTS p 1
      TM.div ord q t) p = .ok r) :
    ∃ T', (∀ i, (List.range n).foldlM (fun (p : TM ℝ) (_ : ℕ) => do
      let q ← TM.mulTS p 1
      TM.div ord q (T i)) (P i) = .ok (T' i)) ∧ Fam m E D D' h r T' := by
  induction n generalizing r with
  | zero =>
    injection hr with hr
    subst hr
    exact ⟨P, fun i => rfl, hp⟩
  | succ n ih =>
    rw [List.range_succ, List.foldlM_append] at hr
    obtain ⟨q, q1, hr⟩ := bind_ok_iff.1 hr
    obtain ⟨q', q2, q3⟩ := ih q1
    change (do let p ← (do let q' ← TM.mulTS q 1; TM.div ord q' t); .ok p) = _ at hr
    obtain ⟨w, w1, hr⟩ := bind_ok_iff.1 hr
    injection hr with hr
    subst hr
    obtain ⟨y, y1, w1⟩ := bind_ok_iff.1 w1
    obtain ⟨y', y2, y3⟩ := q3.mulTS 1 y1
    obtain ⟨w', w2, w3⟩ := y3.div S hord hm hT (by omega) w1
    refine ⟨w', fun i => ?_, w3⟩
    rw [List.range_succ, List.foldlM_append, bind_ok (q2 i)]
    change (do let p ← (do let y ← TM.mulTS (q' i) 1; TM.div ord y (T i)); .ok p) = _
    rw [bind_ok (y2 i), bind_ok (w2 i)]

theorem Fam.powInt (S : Shrink E D D' h) (hord : ∀ l, (ord l).Perm l) (hm : m ≤ 31) (hT : Fam m E D D' h t T) (ho : 1 ≤ t.order)
    {n : ℤ} (hn : n ≠ 0) (hr : TM.powInt ord t n = .ok r) : ∃ T', (∀ i, TM.powInt ord (T i) n = .ok (T' i)) ∧ Fam m E D D' h r T' := by
  unfold TM.powInt at hr ⊢
  rw [if_neg hn] at hr
  simp only [if_neg hn]
  split_ifs at hr ⊢ with h1 h2
  · injection hr with hr
    subst hr
    exact ⟨T, fun i => rfl, hT⟩
  · obtain ⟨p, p1, hr⟩ := bind_ok_iff.1 hr
    obtain ⟨p', p2, p3⟩ := hT.mulST 1 p1
    simp only [bind_ok (p2 _)]
    exact hT.powNat S hord hm ho _ p3 hr
  · obtain ⟨p, p1, hr⟩ := bind_ok_iff.1 hr
    obtain ⟨p', p2, p3⟩ := hT.divST S hord (by omega) 1 p1
    simp only [bind_ok (p2 _)]
    exact hT.powNeg S hord hm ho _ p3 hr

theorem Fam.rasinh (S : Shrink E D D' h) (hord : ∀ l, (ord l).Perm l) (hm : m ≤ 31) (hT : Fam m E D D' h t T) (ho : 1 ≤ t.order)
    (hr : TM.rasinh ord t = .ok r) : ∃ T', (∀ i, TM.rasinh ord (T i) = .ok (T' i)) ∧ Fam m E D D' h r T' := by
  unfold TM.rasinh at hr ⊢
  obtain ⟨s, s1, hr⟩ := bind_ok_iff.1 hr
  obtain ⟨s', s2, s3⟩ := hT.powInt S hord hm ho (by decide) s1
  obtain ⟨u, u1, hr⟩ := bind_ok_iff.1 hr
  obtain ⟨u', u2, u3⟩ := s3.addTS 1 u1
  obtain ⟨v, v1, hr⟩ := bind_ok_iff.1 hr
  obtain ⟨v', v2, v3⟩ := u3.powHalf S hord (by omega) v1
  obtain ⟨w, w1, hr⟩ := bind_ok_iff.1 hr
  obtain ⟨w', w2, w3⟩ := hT.add v3 w1
  have v2' : ∀ i, TM.sqrt ord (u' i) = .ok (v' i) := v2
  simp only [bind_ok (s2 _), bind_ok (u2 _), bind_ok (v2' _), bind_ok (w2 _)]
  exact w3.rlog S hord (by omega) hr

theorem Fam.racosh (S : Shrink E D D' h) (hord : ∀ l, (ord l).Perm l) (hm : m ≤ 31) (hT : Fam m E D D' h t T) (ho : 1 ≤ t.order)
    (hr : TM.racosh ord t = .ok r) : ∃ T', (∀ i, TM.racosh ord (T i) = .ok (T' i)) ∧ Fam m E D D' h r T' := by
  unfold TM.racosh at hr ⊢
  obtain ⟨s, s1, hr⟩ := bind_ok_iff.1 hr
  obtain ⟨s', s2, s3⟩ := hT.powInt S hord hm ho (by decide) s1
  obtain ⟨_, a1, hr⟩ := bind_ok_iff.1 hr
  have a2 := fun i => (s3.finer i).above hord (S.ins i) (by omega) a1
  obtain ⟨u, u1, hr⟩ := bind_ok_iff.1 hr
  obtain ⟨u', u2, u3⟩ := s3.subTS 1 u1
  obtain ⟨v, v1, hr⟩ := bind_ok_iff.1 hr
  obtain ⟨v', v2, v3⟩ := u3.powHalf S hord (by omega) v1
  obtain ⟨w, w1, hr⟩ := bind_ok_iff.1 hr
  obtain ⟨w', w2, w3⟩ := hT.add v3 w1
  have v2' : ∀ i, TM.sqrt ord (u' i) = .ok (v' i) := v2
  simp only [bind_ok (s2 _), bind_ok (a2 _), bind_ok (u2 _), bind_ok (v2' _), bind_ok (w2 _)]
  exact w3.rlog S hord (by omega) hr

theorem Fam.ratanh (S : Shrink E D D' h) (hord : ∀ l, (ord l).Perm l) (hm : m ≤ 31) (hT : Fam m E D D' h t T) (ho : 1 ≤ t.order)
    (hr : TM.ratanh ord t = .ok r) : ∃ T', (∀ i, TM.ratanh ord (T i) = .ok (T' i)) ∧ Fam m E D D' h r T' := by
  rcases isEmpty_or_nonempty ι with _ | ⟨⟨i0⟩⟩
  · exact Fam.empty
  obtain ⟨F, hb⟩ := (hT.finer i0).big
  unfold TM.ratanh at hr ⊢
  obtain ⟨n, n1, hr⟩ := bind_ok_iff.1 hr
  obtain ⟨n', n2, n3⟩ := hT.addST 1 n1
  obtain ⟨d, d1, hr⟩ := bind_ok_iff.1 hr
  obtain ⟨d', d2, d3⟩ := hT.subST 1 d1
  have on : n.order = t.order := (ok_unique (hb.addST 1) n1).2
  obtain ⟨q, q1, hr⟩ := bind_ok_iff.1 hr
  obtain ⟨q', q2, q3⟩ := n3.div S hord hm d3 (by omega) q1
  obtain ⟨l, l1, hr⟩ := bind_ok_iff.1 hr
  obtain ⟨l', l2, l3⟩ := q3.rlog S hord (by omega) l1
  simp only [bind_ok (n2 _), bind_ok (d2 _), bind_ok (q2 _), bind_ok (l2 _)]
  exact l3.mulST (1 / 2) hr

/-! ### Inverse trigonometric functions: the bounds are those of a model that vanishes at the expansion point -/

theorem Centred.constant {F : (String → ℝ) → ℝ} (h : Centred m E D F t) (hc : IsConst Unit t.tpol) : Centred m E D (fun _ => F (pt E)) t :=
  ⟨h.wf, h.exp, h.dom, ⟨h.good.valid, h.good.le, h.good.order, fun i => by
    obtain rfl : i = () := rfl
    rw [hc (), ← h.val]
    exact IsTaylor.const _⟩, h.zero⟩

theorem Centred.toMv_zero (h : Centred m E D (fun _ => 0) t) : (t.tpol.toMv () : MvPolynomial String ℝ) = 0 := by
  refine EqUpTo.eq_of_degLE (m := m) ((h.good.taylor ()).unique (by simpa using IsTaylor.const (0 : ℝ))) ?_ (fun e _ => by simp)
  exact fun e he => h.good.valid.degLE (K := ℝ) () e (lt_of_le_of_lt h.good.le he)

/-- Powers of the bounds of a model that vanishes at the expansion point. -/
theorem Fam.pow_bounds (S : Shrink E D D' h) (hord : ∀ l, (ord l).Perm l) (hm : m ≤ 62) {F : (String → ℝ) → ℝ} (hb : Centred m E D F t) (hF : F (pt E) = 0)
    {k : ℕ} (hk : k = m ∨ (t.tpol.toMv () : MvPolynomial String ℝ) = 0) (hT : Fam m E D D' h t T) :
    ∃ C, 0 ≤ C ∧ ∀ i B, TM.getBounds ord (T i).tpol (T i).exp (T i).dom = .ok B → Small (C * h i ^ (m + 1)) ((B.add (T i).rem).pow (k + 1)) := by
  obtain ⟨C, c1, c2⟩ := hT.pow_small S hord hb.wf.valid rfl (hb.good.le.trans hm) (hb.val.symm.trans hF) hk
  exact ⟨C, c1, fun i B hB => c2 i B (by rwa [(hT.finer i).tpol] at hB)⟩

theorem Fam.ratan (S : Shrink E D D' h) (hord : ∀ l, (ord l).Perm l) (hm : m ≤ 30) (hT : Fam m E D D' h t T) (ho : 1 ≤ t.order)
    (hr : TM.ratan ord t = .ok r) : ∃ T', (∀ i, TM.ratan ord (T i) = .ok (T' i)) ∧ Fam m E D D' h r T' := by
  refine Fam.lift (fun i => (hT.finer i).ratan hord (S.ins i) hm ho hr) ?_
  rcases isEmpty_or_nonempty ι with _ | ⟨⟨i0⟩⟩
  · exact ⟨0, le_rfl, fun i => isEmptyElim i⟩
  obtain ⟨F, hb⟩ := (hT.finer i0).big
  unfold TM.ratan at hr
  rw [bind_ok hb.constantCf] at hr
  obtain ⟨b, b1, hr⟩ := bind_ok_iff.1 hr
  obtain ⟨b', b2, b3⟩ := hT.subTS _ b1
  obtain ⟨bc, ob⟩ := ok_unique (hb.subTS (F (pt E))) b1
  obtain ⟨u, u1, hr⟩ := bind_ok_iff.1 hr
  obtain ⟨u', u2, u3⟩ := hT.mulST _ u1
  obtain ⟨uc, -⟩ := ok_unique (hb.mulST (F (pt E))) u1
  obtain ⟨d, d1, hr⟩ := bind_ok_iff.1 hr
  obtain ⟨d', d2, d3⟩ := u3.addST 1 d1
  obtain ⟨dc, -⟩ := ok_unique (uc.addST 1) d1
  obtain ⟨q, q1, hr⟩ := bind_ok_iff.1 hr
  obtain ⟨q', q2, q3⟩ := b3.div S hord (by omega) d3 (by omega) q1
  obtain ⟨-, qc⟩ := bc.div hord (by omega) dc (by omega) q1
  obtain ⟨B, B1, hr⟩ := bind_ok_iff.1 hr
  have hk : t.tpol.order = m ∨ (q.tpol.toMv () : MvPolynomial String ℝ) = 0 := by
    refine hb.good.order.imp_right fun hc => ?_
    have hb' := hb.constant hc
    obtain ⟨bc', -⟩ := ok_unique (hb'.subTS (F (pt E))) b1
    obtain ⟨uc', -⟩ := ok_unique (hb'.mulST (F (pt E))) u1
    obtain ⟨dc', -⟩ := ok_unique (uc'.addST 1) d1
    obtain ⟨-, qc'⟩ := bc'.div hord (by omega) dc' (by omega) q1
    exact (qc'.congr' (G := fun _ => 0) fun x => by rw [sub_self, _root_.zero_div]).toMv_zero
  obtain ⟨C, c1, c2⟩ := q3.pow_bounds S hord (by omega) qc (by rw [sub_self, _root_.zero_div]) hk
  let A := ((⟨0, 1⟩ : Itv ℝ).mul (B.add q.rem)).ratan
  refine ⟨|1 / ((t.tpol.order : ℝ) + 1)| * C * (A.rcos.pow (t.tpol.order + 1)).mag * ((Itv.point ((t.tpol.order : ℝ) + 1)).mul (A.add (Itv.point (Real.pi / 2)))).rsin.mag,
    by have := mag_nonneg (A.rcos.pow (t.tpol.order + 1)); have := mag_nonneg ((Itv.point ((t.tpol.order : ℝ) + 1)).mul (A.add (Itv.point (Real.pi / 2)))).rsin; positivity,
    fun i r' h' => ?_⟩
  have hf := hT.finer i
  unfold TM.ratan at h'
  rw [hf.tpol, bind_ok hb.constantCf, bind_ok (b2 i), bind_ok (u2 i), bind_ok (d2 i), bind_ok (q2 i)] at h'
  obtain ⟨B', B2, B3⟩ := (q3.finer i).bounds hord (S.ins i) (by omega) B1
  have B2' : TM.getBounds ord (q' i).tpol (q' i).exp (q' i).dom = .ok B' := B2
  rw [bind_ok B2'] at h'
  obtain ⟨p, -, h'⟩ := bind_ok_iff.1 h'
  rw [(make_fields h').2]
  have G := B3.add (q3.finer i).rem
  exact ((((small_point _).mul (c2 i B' B2')).mul ((Inside.unit.mul G).ratan.rcos.pow _).small).mul
    ((Inside.point _).mul ((Inside.unit.mul G).ratan.add (.point _))).rsin.small).mono (le_of_eq (by simp only [GDual.getOrder]; ring))

theorem Fam.rasin (S : Shrink E D D' h) (hord : ∀ l, (ord l).Perm l) (hm : m ≤ 30) (hT : Fam m E D D' h t T) (ho : 1 ≤ t.order)
    (hr : TM.rasin ord t = .ok r) : ∃ T', (∀ i, TM.rasin ord (T i) = .ok (T' i)) ∧ Fam m E D D' h r T' := by
  refine Fam.lift (fun i => (hT.finer i).rasin hord (S.ins i) hm ho hr) ?_
  rcases isEmpty_or_nonempty ι with _ | ⟨⟨i0⟩⟩
  · exact ⟨0, le_rfl, fun i => isEmptyElim i⟩
  obtain ⟨F, hb⟩ := (hT.finer i0).big
  unfold TM.rasin at hr
  obtain ⟨b, b1, hr⟩ := bind_ok_iff.1 hr
  split_ifs at hr with hc
  rw [bind_ok hb.constantCf] at hr
  obtain ⟨l, l1, hr⟩ := bind_ok_iff.1 hr
  obtain ⟨l', l2, l3⟩ := hT.mulTS _ l1
  obtain ⟨s, s1, hr⟩ := bind_ok_iff.1 hr
  obtain ⟨s', s2, s3⟩ := hT.powInt S hord (by omega) ho (by decide) s1
  obtain ⟨u, u1, hr⟩ := bind_ok_iff.1 hr
  obtain ⟨u', u2, u3⟩ := s3.subST 1 u1
  obtain ⟨v, v1, hr⟩ := bind_ok_iff.1 hr
  obtain ⟨v', v2, v3⟩ := u3.powHalf S hord (by omega) v1
  obtain ⟨w, w1, hr⟩ := bind_ok_iff.1 hr
  obtain ⟨w', w2, w3⟩ := v3.mulST _ w1
  obtain ⟨a, a1, hr⟩ := bind_ok_iff.1 hr
  obtain ⟨a', a2, a3⟩ := l3.sub w3 a1
  obtain ⟨B, B1, hr⟩ := bind_ok_iff.1 hr
  simp only at hr
  obtain ⟨dv, d1, hr⟩ := bind_ok_iff.1 hr
  obtain ⟨f1, g1, hr⟩ := bind_ok_iff.1 hr
  have inner : ∀ {H : (String → ℝ) → ℝ}, Centred m E D H t → H (pt E) = F (pt E) →
      Centred m E D (fun x => H x * √(1 - F (pt E) ^ 2) - F (pt E) * √(1 - H x ^ 2)) a := by
    intro H hH hv
    obtain ⟨lc, -⟩ := ok_unique (hH.mulTS (√(1 - F (pt E) ^ 2))) l1
    obtain ⟨sq, e1, sc⟩ := hH.square hord (by omega) ho
    rw [s1] at e1
    injection e1 with e1
    subst e1
    obtain ⟨uc, -⟩ := ok_unique (sc.subST 1) u1
    obtain ⟨-, vc, -⟩ := uc.powHalf hord (by omega) v1
    obtain ⟨wc, -⟩ := ok_unique (vc.mulST (F (pt E))) w1
    exact (ok_unique (lc.sub wc) a1).1
  have hk : t.tpol.order = m ∨ (a.tpol.toMv () : MvPolynomial String ℝ) = 0 := by
    refine hb.good.order.imp_right fun hc => ?_
    exact ((inner (hb.constant hc) rfl).congr' (G := fun _ => 0) fun x => sub_self _).toMv_zero
  obtain ⟨C, c1, c2⟩ := a3.pow_bounds S hord (by omega) (inner hb rfl) (sub_self _) hk
  refine ⟨|1 / f1| * C * dv.mag, by have := mag_nonneg dv; positivity, fun i r' h' => ?_⟩
  have hf := hT.finer i
  unfold TM.rasin at h'
  obtain ⟨b', -, h'⟩ := bind_ok_iff.1 h'
  split_ifs at h'
  have v2' : TM.sqrt ord (u' i) = .ok (v' i) := v2 i
  obtain ⟨B', B2, B3⟩ := (a3.finer i).bounds hord (S.ins i) (by omega) B1
  have B2' : TM.getBounds ord (a' i).tpol (a' i).exp (a' i).dom = .ok B' := B2
  rw [hf.tpol, bind_ok hb.constantCf, bind_ok (l2 i), bind_ok (s2 i), bind_ok (u2 i), bind_ok v2', bind_ok (w2 i), bind_ok (a2 i), bind_ok B2'] at h'
  simp only at h'
  have G := B3.add (a3.finer i).rem
  obtain ⟨dv', d2, d3⟩ := (Inside.unit.mul G).asinDerivative (Itv.zero_mul ⟨le_rfl, zero_le_one⟩ _) _ d1
  rw [bind_ok d2, bind_ok g1] at h'
  obtain ⟨p, -, h'⟩ := bind_ok_iff.1 h'
  rw [(make_fields h').2]
  exact (((small_point _).mul (c2 i B' B2')).mul d3.small).mono (le_of_eq (by ring))

theorem Fam.racos (S : Shrink E D D' h) (hord : ∀ l, (ord l).Perm l) (hm : m ≤ 30) (hT : Fam m E D D' h t T) (ho : 1 ≤ t.order)
    (hr : TM.racos ord t = .ok r) : ∃ T', (∀ i, TM.racos ord (T i) = .ok (T' i)) ∧ Fam m E D D' h r T' := by
  unfold TM.racos at hr ⊢
  obtain ⟨s, s1, hr⟩ := bind_ok_iff.1 hr
  obtain ⟨s', s2, s3⟩ := hT.rasin S hord hm ho s1
  simp only [bind_ok (s2 _)]
  exact s3.subST _ hr

theorem Fam.powT (S : Shrink E D D' h) (hord : ∀ l, (ord l).Perm l) (hm : m ≤ 31) (hT : Fam m E D D' h t T) (ho : 1 ≤ t.order)
    {α : ℚ} (h0 : α ≠ 0) (h2 : (α * 2).den = 1) (hr : TM.powT ord (1 / 2 ^ 52) t α = .ok r) :
    ∃ T', (∀ i, TM.powT ord (1 / 2 ^ 52) (T i) α = .ok (T' i)) ∧ Fam m E D D' h r T' := by
  obtain ⟨z, hz⟩ : ∃ z : ℤ, α * 2 = z := ⟨(α * 2).num, (Rat.den_eq_one_iff _).1 h2 |>.symm⟩
  unfold TM.powT at hr ⊢
  obtain ⟨⟨c, B, k⟩, b1, hr⟩ := bind_ok_iff.1 hr
  have hB := fun i => (hT.finer i).prologue hord (S.ins i) (by omega) b1
  choose B' b2 b3 using hB
  simp only [bind_ok (b2 _)]
  split_ifs at hr ⊢ with c1 c2 c3 c4
  · exact hT.powHalf S hord (by omega) hr
  · exact hT.powMinusHalf S hord (by omega) hr
  · obtain ⟨n, n1, hr⟩ := bind_ok_iff.1 hr
    simp only [bind_ok n1]
    exact hT.powInt S hord hm ho (truncQ_ne_zero h0 c3 ⟨z, hz⟩ n1) hr
  · obtain ⟨n, n1, hr⟩ := bind_ok_iff.1 hr
    simp only [bind_ok n1]
    obtain ⟨s, s1, hr⟩ := bind_ok_iff.1 hr
    obtain ⟨s', s2, s3⟩ := hT.powInt S hord hm ho (truncQ_ne_zero (mul_ne_zero h0 two_ne_zero) c4 ⟨z * 2, by rw [hz]; push_cast; ring⟩ n1) s1
    simp only [bind_ok (s2 _)]
    exact s3.powHalf S hord (by omega) hr

/-! ### Expressions -/

theorem Fam.fnTM (S : Shrink E D D' h) (hord : ∀ l, (ord l).Perm l) (hm : m ≤ 31) (hT : Fam m E D D' h t T) (f : Fn) (hmax : f.MaxOrder m)
    (hg : f.GoodExponent) (ho : f.Multiplies → 1 ≤ t.order) (hr : f.runTM ord t = .ok r) :
    ∃ T', (∀ i, f.runTM ord (T i) = .ok (T' i)) ∧ Fam m E D D' h r T' := by
  cases f with
  | exp => exact hT.rexp S hord (by omega) hr
  | log => exact hT.rlog S hord (by omega) hr
  | sqrt => exact hT.powHalf S hord (by omega) hr
  | cbrt => exact absurd hr (by simp [Fn.runTM])
  | sin => exact hT.rsin S hord (by omega) hr
  | cos => exact hT.rcos S hord (by omega) hr
  | tan => exact hT.rtan S hord hm (ho trivial) hr
  | sinh => exact hT.rsinh S hord (by omega) hr
  | cosh => exact hT.rcosh S hord (by omega) hr
  | tanh => exact hT.rtanh S hord hm (ho trivial) hr
  | asinh => exact hT.rasinh S hord hm (ho trivial) hr
  | acosh => exact hT.racosh S hord hm (ho trivial) hr
  | atanh => exact hT.ratanh S hord hm (ho trivial) hr
  | atan => exact hT.ratan S hord hmax (ho trivial) hr
  | asin => exact hT.rasin S hord hmax (ho trivial) hr
  | acos => exact hT.racos S hord hmax (ho trivial) hr
  | neg => exact hT.neg hr
  | powQ α => exact hT.powT S hord hm (ho trivial) hg.1 hg.2 hr
  | powInt z => exact hT.powInt S hord hm (ho trivial) hg.1 hr
  | powBase q => exact absurd hr (by simp [Fn.runTM])

/-- Evaluation over a family of boxes around the expansion point. -/
theorem runTM_fam (S : Shrink E D D' h) (hord : ∀ l, (ord l).Perm l) (hm : m ≤ 31) (hE : ∀ i s, InItv (D' i s) (E s)) {R : String → Itv ℝ}
    {R' : ι → String → Itv ℝ} (hR : ∀ i s, Inside (R' i s) (R s)) (h0 : ∀ i s, InItv (R' i s) 0)
    (hs : ∃ C, 0 ≤ C ∧ ∀ i s, Small (C * h i ^ (m + 1)) (R' i s)) :
    ∀ e : Expr ℝ, e.Legal m → e.Proper ord E D R m → ∀ r, e.runTM ord E D R m = .ok r →
      ∃ T, (∀ i, e.runTM ord E (D' i) (R' i) m = .ok (T i)) ∧ Fam m E D D' h r T := by
  intro e
  induction e with
  | var s =>
    intro hl hp r hr
    refine Fam.lift (fun i => runTM_finer hord hm (S.ins i) (hE i) (hR i) (h0 i) (.var s) hl hp r hr) ?_
    obtain ⟨C, c1, c2⟩ := hs
    refine ⟨C, c1, fun i r' h' => ?_⟩
    change (do let g ← GDual.mk3 (E s) s m; TM.make g (R' i s) [(s, E s)] [(s, D' i s)]) = _ at h'
    obtain ⟨g, -, h'⟩ := bind_ok_iff.1 h'
    rw [(make_fields h').2]
    exact c2 i s
  | const c =>
    intro hl hp r hr
    refine Fam.lift (fun i => runTM_finer hord hm (S.ins i) (hE i) (hR i) (h0 i) (.const c) hl hp r hr) ?_
    refine ⟨0, le_rfl, fun i r' h' => ?_⟩
    injection h' with h'
    subst h'
    rw [MulZeroClass.zero_mul]
    exact ⟨by simp [TM.ofConst], by simp [TM.ofConst]⟩
  | bin op e1 e2 ih1 ih2 =>
    intro hl hp r hr
    change (do op.runTM ord (← e1.runTM ord E D R m) (← e2.runTM ord E D R m)) = _ at hr
    change ∃ T, (∀ i, (do op.runTM ord (← e1.runTM ord E (D' i) (R' i) m) (← e2.runTM ord E (D' i) (R' i) m)) = _) ∧ _
    obtain ⟨a, a1, hr⟩ := bind_ok_iff.1 hr
    obtain ⟨b, b1, hr⟩ := bind_ok_iff.1 hr
    obtain ⟨a', a2, a3⟩ := ih1 hl.1 hp.1 a a1
    obtain ⟨b', b2, b3⟩ := ih2 hl.2 hp.2.1 b b1
    simp only [bind_ok (a2 _), bind_ok (b2 _)]
    have ho := hp.2.2
    cases op with
    | add => exact a3.add b3 hr
    | sub => exact a3.sub b3 hr
    | mul => exact a3.mul S hord hm b3 (by have := ho trivial a b a1 b1; omega) hr
    | div => exact a3.div S hord hm b3 (by have := ho trivial a b a1 b1; omega) hr
  | left op c e ih =>
    intro hl hp r hr
    change (do op.runTML ord c (← e.runTM ord E D R m)) = _ at hr
    change ∃ T, (∀ i, (do op.runTML ord c (← e.runTM ord E (D' i) (R' i) m)) = _) ∧ _
    obtain ⟨a, a1, hr⟩ := bind_ok_iff.1 hr
    obtain ⟨a', a2, a3⟩ := ih hl hp a a1
    simp only [bind_ok (a2 _)]
    cases op with
    | add => exact a3.addST c hr
    | sub => exact a3.subST c hr
    | mul => exact a3.mulST c hr
    | div => exact a3.divST S hord (by omega) c hr
  | right op e c ih =>
    intro hl hp r hr
    change (do op.runTMR (← e.runTM ord E D R m) c) = _ at hr
    change ∃ T, (∀ i, (do op.runTMR (← e.runTM ord E (D' i) (R' i) m) c) = _) ∧ _
    obtain ⟨a, a1, hr⟩ := bind_ok_iff.1 hr
    obtain ⟨a', a2, a3⟩ := ih hl hp a a1
    simp only [bind_ok (a2 _)]
    cases op with
    | add => exact a3.addTS c hr
    | sub => exact a3.subTS c hr
    | mul => exact a3.mulTS c hr
    | div => exact a3.divTS hr
  | fn f e ih =>
    intro hl hp r hr
    change (do f.runTM ord (← e.runTM ord E D R m)) = _ at hr
    change ∃ T, (∀ i, (do f.runTM ord (← e.runTM ord E (D' i) (R' i) m)) = _) ∧ _
    obtain ⟨a, a1, hr⟩ := bind_ok_iff.1 hr
    obtain ⟨a', a2, a3⟩ := ih hl.1 hp.1 a a1
    simp only [bind_ok (a2 _)]
    exact a3.fnTM S hord hm f hl.2 hp.2.1 (fun hf => hp.2.2 hf a a1) hr
  | pow e1 e2 => exact fun _ _ r hr => absurd hr (by simp [Expr.runTM])

end TM
end Audi
