import Verif.Proofs.TMProduct

/-!
# Proofs: products of Taylor models of order 0
-/

namespace Audi.TM
open MvPolynomial
variable {K : Type} [Field K] [LinearOrder K] [IsStrictOrderedRing K]
omit [IsStrictOrderedRing K] in
/-- Bringing a polynomial to order 0 loses it. -/
theorem increasedOrder_zero {p : GDual K} (hp : p.Valid) : increasedOrder p 0 = .ok ⟨⟨[], []⟩, 0⟩ := by
  obtain ⟨t, ht⟩ : ∃ t, GDual.mk3 (0 : K) "temp" 0 = .ok t := ⟨_, GDual.mk3_ok.2 ⟨by decide, ⟨'t', by decide, by decide⟩, rfl⟩⟩
  have hto : t.order = 0 := GDual.order_mk3 ht
  have htv : t.Valid := GDual.valid_mk3 (ι := Unit) (K := K) ht
  have hval := GDual.Valid.subs (ι := Unit) (K := K) htv hp "dtemp"
  have hmv : ((t.subs "dtemp" p).toMv () : MvPolynomial String K) = 0 := by
    ext m
    have hm3 := GDual.toMv_mk3 (K := K) ht ()
    rw [if_pos rfl] at hm3
    rw [GDual.coeff_subs htv hp, hm3, hto]
    have h0 : (Lanes.lane () (0 : K) : K) = 0 := rfl
    simp [h0, Poly.substMap]
  have hsy : (t.subs "dtemp" p).p.syms = [] := by
    refine List.eq_nil_iff_forall_not_mem.2 fun s hs => ?_
    have hw := (htv.wf.subsPoly hp.wf "dtemp").truncate t.order
    obtain ⟨m, h2, -⟩ := occurs_of_trimmed hw hs
    have h4 : Poly.toMv () (t.subs "dtemp" p).p = _ := (hw.trimSyms (ι := Unit) (K := K)).2 ()
    rw [← h4] at h2
    exact h2 (by change coeff m ((t.subs "dtemp" p).toMv () : MvPolynomial String K) = 0; rw [hmv, coeff_zero])
  have hte : (t.subs "dtemp" p).p.terms = [] := by
    have hev := eval_toMv hval fun _ => (0 : K)
    rw [hmv, map_zero, hsy] at hev
    have hlen : ∀ t' ∈ (t.subs "dtemp" p).p.terms, t'.1 = [] := fun t' h => List.length_eq_zero_iff.1 (by rw [hval.wf.len t' h, hsy]; rfl)
    have hnd := hval.wf.nodup
    have hnz := hval.wf.nz
    generalize (t.subs "dtemp" p).p.terms = l at hev hlen hnd hnz
    rcases l with _ | ⟨t1, _ | ⟨t2, l⟩⟩
    · rfl
    · have : ¬ t1.2 = 0 := decide_eq_false_iff_not.1 (hnz t1 (by simp))
      simp at hev
      exact absurd hev.symm this
    · simp [hlen t1 (by simp), hlen t2 (by simp)] at hnd
  unfold increasedOrder
  rw [bind_ok ht]
  have : t.subs "dtemp" p = ⟨⟨(t.subs "dtemp" p).p.syms, (t.subs "dtemp" p).p.terms⟩, (t.subs "dtemp" p).order⟩ := rfl
  rw [this, hsy, hte]
  rw [show (t.subs "dtemp" p).order = 0 from hto]

/-- The zero polynomial without symbols. -/
def noPoly : GDual K := ⟨⟨[], []⟩, 0⟩

omit [IsStrictOrderedRing K] in
theorem noPoly_valid : (noPoly : GDual K).Valid :=
  ⟨⟨List.Pairwise.nil, fun _ h => absurd h List.not_mem_nil, List.nodup_nil, fun _ h => absurd h List.not_mem_nil⟩, fun _ h => absurd h List.not_mem_nil⟩

omit [IsStrictOrderedRing K] in
theorem noPoly_toMv : ((noPoly : GDual K).toMv () : MvPolynomial String K) = 0 := rfl

omit [IsStrictOrderedRing K] in
theorem agreeable_noPoly : agreeable (noPoly : GDual K) 0 = .ok noPoly := by
  have h : GDual.ofCf (0 : K) = noPoly := by
    have h0 : Cf.isZero (0 : K) = true := decide_eq_true rfl
    simp [GDual.ofCf, Poly.const, Poly.insertTerm, noPoly, h0]
  unfold agreeable
  rw [h]
  rfl

/-- The product of two Taylor models of order 0: the polynomial is lost, only the products with the remainders are left. -/
theorem mul_order_zero {a b : TM K} {ord : List String → List String} (ha : a.WF) (hb : b.WF) (hc : Compatible a b)
    (hpa : (a.tpol.toMv () : MvPolynomial String K) ≠ 0) (hpb : (b.tpol.toMv () : MvPolynomial String K) ≠ 0) (h1 : a.order = 0) (h2 : b.order = 0)
    (hoa : ord (a.tpol.p.syms.map varName) = a.tpol.p.syms.map varName) (hob : ord (b.tpol.p.syms.map varName) = b.tpol.p.syms.map varName) :
    ∃ B1 B2, a.bounds ord = .ok B1 ∧ b.bounds ord = .ok B2 ∧
      mul ord a b = .ok ⟨noPoly, 0, 0, (((⟨0, 0⟩ : Itv K).add (B1.mul b.rem)).add (a.rem.mul B2)).add (a.rem.mul b.rem), [], []⟩ := by
  obtain ⟨z, hz⟩ : ∃ t, GDual.mk3 (0 : K) "irrelevant" 0 = .ok t :=
    ⟨_, GDual.mk3_ok.2 ⟨by decide, ⟨'i', by decide, by decide⟩, rfl⟩⟩
  have hao : a.tpol.order = 0 := by rw [← ha.order, h1]
  have hbo : b.tpol.order = 0 := by rw [← hb.order, h2]
  obtain ⟨B1, F1, F2, F3⟩ := bounds_encloses (ord := ord) ha (by omega) hoa
  obtain ⟨B2, G1, G2, G3⟩ := bounds_encloses (ord := ord) hb (by omega) hob
  refine ⟨B1, B2, F1, G1, ?_⟩
  unfold mul
  rw [bind_ok hz]
  have hcond : (a.tpol.eq z || b.tpol.eq z) = false := by
    rw [Bool.or_eq_false_iff, Bool.eq_false_iff, Bool.eq_false_iff, Ne, Ne, eq_zero_iff ha.valid hz, eq_zero_iff hb.valid hz]
    exact ⟨hpa, hpb⟩
  rw [hcond, if_neg (by simp), bind_ok hc.commonExp, bind_ok hc.commonDom]
  simp only [GDual.getOrder, hao, hbo]
  rw [bind_ok (increasedOrder_zero ha.valid), bind_ok (increasedOrder_zero hb.valid)]
  have hm : GDual.mul (⟨⟨[], []⟩, 0⟩ : GDual K) ⟨⟨[], []⟩, 0⟩ = noPoly := rfl
  rw [hm, max_self, bind_ok agreeable_noPoly,
    bind_ok (show trimMap (noPoly : GDual K).symbolSet (unionMap a.exp b.exp) = .ok [] from rfl),
    bind_ok (show trimMap (noPoly : GDual K).symbolSet (unionMap a.dom b.dom) = .ok [] from rfl),
    bind_ok (show truncationBounds ord ((noPoly : GDual K).sub noPoly) (unionMap a.exp b.exp) (unionMap a.dom b.dom) = .ok ⟨0, 0⟩ from rfl),
    bind_ok F1, bind_ok G1]
  have hr : ((((⟨0, 0⟩ : Itv K).add (B1.mul b.rem)).add (a.rem.mul B2)).add (a.rem.mul b.rem)).lo ≤
      ((((⟨0, 0⟩ : Itv K).add (B1.mul b.rem)).add (a.rem.mul B2)).add (a.rem.mul b.rem)).hi :=
    Itv.lo_le_hi_add (Itv.lo_le_hi_add (Itv.lo_le_hi_add le_rfl (Itv.lo_le_hi_mul _ _)) (Itv.lo_le_hi_mul _ _)) (Itv.lo_le_hi_mul _ _)
  exact (make_wf ⟨noPoly_valid, fun _ h => absurd h List.not_mem_nil, .refl _, .refl _, fun _ h => absurd h List.not_mem_nil, hr⟩).1

/-- The same for remainders {0}: the result is the constant 0. -/
theorem mul_order_zero_rem {a b : TM K} {ord : List String → List String} (ha : a.WF) (hb : b.WF) (hc : Compatible a b)
    (hpa : (a.tpol.toMv () : MvPolynomial String K) ≠ 0) (hpb : (b.tpol.toMv () : MvPolynomial String K) ≠ 0) (h1 : a.order = 0) (h2 : b.order = 0)
    (hoa : ord (a.tpol.p.syms.map varName) = a.tpol.p.syms.map varName) (hob : ord (b.tpol.p.syms.map varName) = b.tpol.p.syms.map varName)
    (hra : a.rem = ⟨0, 0⟩) (hrb : b.rem = ⟨0, 0⟩) : mul ord a b = .ok ⟨noPoly, 0, 0, ⟨0, 0⟩, [], []⟩ := by
  obtain ⟨B1, B2, -, -, h⟩ := mul_order_zero ha hb hc hpa hpb h1 h2 hoa hob
  rw [h, hra, hrb]
  simp [Itv.mul, Itv.add]

end Audi.TM
