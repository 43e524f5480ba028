import Verif.Proofs.BoundsCentre
import Verif.Proofs.TMPower

/-!
# Proofs: the remainder of the product of two Taylor models
-/

namespace Audi
namespace TM

open MvPolynomial Spec

variable {K : Type} [Field K] [LinearOrder K] [IsStrictOrderedRing K] {a b r : TM K} {ord : List String → List String}

/-- `R` bounds the distance of the variables of `a` from their expansion points. -/
def Radius (a : TM K) (R : String → K) : Prop :=
  ∀ s, ∀ e ∈ a.dom, e.1 = varName s → ∀ f ∈ a.exp, f.1 = varName s → |e.2.lo - f.2| ≤ R s ∧ |e.2.hi - f.2| ≤ R s

theorem absVal_nonneg {p : GDual K} {R : String → K} (hR : ∀ s ∈ p.p.syms, 0 ≤ R s) : 0 ≤ absVal R (p.toMv ()) := by
  unfold absVal
  refine Finset.sum_nonneg fun m hmm => ?_
  refine mul_nonneg (abs_nonneg _) (Finset.prod_nonneg fun s hs => pow_nonneg (hR s ?_) _)
  exact mem_supported.1 (toMv_mem_supported p () (S := {t | t ∈ p.p.syms}) fun s hs => hs) ((mem_vars_iff_mem_support s).2 ⟨m, hmm, hs⟩)

omit [IsStrictOrderedRing K] in
theorem isZeroTol_true {p : GDual K} (hp : p.Valid) (h : ∀ m, |coeff m (p.toMv () : MvPolynomial String K)| ≤ ((tiny : ℚ) : K)) : p.isZeroTol tiny = true := by
  unfold GDual.isZeroTol
  rw [List.all_eq_true]
  intro t ht
  have h1 : coeff (toExp p.p.syms t.1) (p.toMv () : MvPolynomial String K) = t.2 := Poly.coeff_toMv_of_mem (K := K) hp.wf (e := t.1) (c := t.2) ht ()
  have h2 := h (toExp p.p.syms t.1)
  rw [h1] at h2
  simp [CfOrd.absGt, h2]

theorem truncationBounds_abs (ha : a.WF) (hb : b.WF) (hc : Compatible a b) {q : GDual K} (hq : q.Valid) (h62 : q.order ≤ 62)
    (hs : ∀ s ∈ q.p.syms, s ∈ a.tpol.p.syms ∨ s ∈ b.tpol.p.syms)
    (hord : Faithful ord (a.tpol.p.syms.map varName ++ b.tpol.p.syms.map varName)) {R : String → K} (hRa : Radius a R) (hRb : Radius b R)
    {B : Itv K} (hB : truncationBounds ord q (unionMap a.exp b.exp) (unionMap a.dom b.dom) = .ok B) :
    |B.lo| ≤ absVal R (q.toMv ()) ∧ |B.hi| ≤ absVal R (q.toMv ()) := by
  have hn : ∀ s ∈ q.p.syms, ∃ v, s = "d" ++ v := fun s h => (hs s h).elim (ha.names s) (hb.names s)
  have hv : ∀ v ∈ q.p.syms.map varName, v ∈ a.tpol.p.syms.map varName ∨ v ∈ b.tpol.p.syms.map varName := by
    intro v h
    obtain ⟨s, h1, rfl⟩ := List.mem_map.1 h
    exact (hs s h1).imp List.mem_map_of_mem List.mem_map_of_mem
  have hrad : ∀ s ∈ q.p.syms, ∀ I x, (unionMap a.dom b.dom).lookup (varName s) = some I → (unionMap a.exp b.exp).lookup (varName s) = some x →
      |I.lo - x| ≤ R s ∧ |I.hi - x| ≤ R s := by
    intro s h I x h1 h2
    rcases hs s h with h' | h'
    · have h' := List.mem_map_of_mem (f := varName) h'
      rw [lookup_dom_left ha h'] at h1
      rw [lookup_exp_left ha h'] at h2
      exact hRa s _ (VMap.mem_of_lookup h1) rfl _ (VMap.mem_of_lookup h2) rfl
    · have h' := List.mem_map_of_mem (f := varName) h'
      rw [lookup_dom_right hc hb h'] at h1
      rw [lookup_exp_right hc hb h'] at h2
      exact hRb s _ (VMap.mem_of_lookup h1) rfl _ (VMap.mem_of_lookup h2) rfl
  have hR0 : ∀ s ∈ q.p.syms, 0 ≤ R s := fun s h => by
    obtain ⟨I, x, h1, h2, -⟩ := lookup_union ha hb hc (hv _ (List.mem_map_of_mem h))
    exact (abs_nonneg _).trans (hrad s h I x h1 h2).1
  unfold truncationBounds at hB
  split_ifs at hB with hz
  · injection hB with hB
    subst hB
    rw [abs_zero]
    exact ⟨absVal_nonneg hR0, absVal_nonneg hR0⟩
  · have hnd := nodup_varNames hq.wf.ndsyms hn
    have hl : ∀ {α : Type} (m : VMap α) (z : α) (v : String), v ∈ q.p.syms.map varName → v ∈ m.keys →
        (q.symbolSet.map fun v => (v, (m.lookup v).getD z)).lookup v = m.lookup v := by
      intro α m z v h1 h2
      obtain ⟨x, hx⟩ := VMap.lookup_isSome h2
      rw [hx]
      refine VMap.lookup_of_mem ?_ (List.mem_map.2 ⟨v, h1, by rw [hx]; rfl⟩)
      rw [List.map_map]
      simpa [Function.comp_def, symbolSet_eq] using hnd
    have hle : ∀ v ∈ q.p.syms.map varName, (q.symbolSet.map fun v => (v, ((unionMap a.exp b.exp).lookup v).getD 0)).lookup v =
        (unionMap a.exp b.exp).lookup v := fun v h => by
      obtain ⟨I, x, h1, h2, -⟩ := lookup_union ha hb hc (hv v h)
      exact hl _ _ v h (mem_keys_of_lookup h2)
    have hld : ∀ v ∈ q.p.syms.map varName, (q.symbolSet.map fun v => (v, ((unionMap a.dom b.dom).lookup v).getD ⟨0, 0⟩)).lookup v =
        (unionMap a.dom b.dom).lookup v := fun v h => by
      obtain ⟨I, x, h1, h2, -⟩ := lookup_union ha hb hc (hv v h)
      exact hl _ _ v h (mem_keys_of_lookup h1)
    refine getBounds_abs hq hn (fun t ht k hk => ((List.single_le_sum (by simp) _ hk).trans (hq.deg t ht)).trans h62) (fun v h => ?_)
      (hord _ hnd fun v h => List.mem_append.2 (hv v h)) hB fun s h I x h1 h2 => ?_
    · obtain ⟨I, x, e1, e2, e3⟩ := lookup_union ha hb hc (hv v h)
      exact ⟨I, x, by rw [hld v h, e1], by rw [hle v h, e2], e3.1.trans e3.2⟩
    · rw [hld _ (List.mem_map_of_mem h)] at h1
      rw [hle _ (List.mem_map_of_mem h)] at h2
      exact hrad s h I x h1 h2

/-- The remainder of a product: the bounds `E` of the part above the order, and the products with the remainders. -/
theorem mul_rem (ha : a.WF) (hb : b.WF) (hc : Compatible a b) (hpa : (a.tpol.toMv () : MvPolynomial String K) ≠ 0)
    (hpb : (b.tpol.toMv () : MvPolynomial String K) ≠ 0) (ho1 : 1 ≤ a.order + b.order) (ho2 : a.order + b.order ≤ 62)
    (hord : Faithful ord (a.tpol.p.syms.map varName ++ b.tpol.p.syms.map varName)) (h : mul ord a b = .ok r) :
    ∃ (E B1 B2 : Itv K) (H : MvPolynomial String K), a.bounds ord = .ok B1 ∧ b.bounds ord = .ok B2 ∧
      r.rem = ((E.add (B1.mul b.rem)).add (a.rem.mul B2)).add (a.rem.mul b.rem) ∧
      (∀ m, coeff m H = if m.degree ≤ max a.order b.order then 0 else coeff m (a.tpol.toMv () * b.tpol.toMv () : MvPolynomial String K)) ∧
      ((∀ m, |coeff m H| ≤ ((tiny : ℚ) : K)) → E = ⟨0, 0⟩) ∧
      ∀ R : String → K, Radius a R → Radius b R → |E.lo| ≤ absVal R H ∧ |E.hi| ≤ absVal R H := by
  have hu : (73 : ℕ) < UINT_MAX - 10 := by decide
  obtain ⟨z, hz⟩ : ∃ t, GDual.mk3 (0 : K) "irrelevant" 0 = .ok t :=
    ⟨_, GDual.mk3_ok.2 ⟨by omega, ⟨'i', by decide, by decide⟩, rfl⟩⟩
  have hao := ha.order
  have hbo := hb.order
  obtain ⟨h1, e1, v1, o1, p1, s1⟩ := increasedOrder_spec ha.valid (n := a.tpol.order + b.tpol.order) (by omega) (by omega) (by omega)
  obtain ⟨h2, e2, v2, o2, p2, s2⟩ := increasedOrder_spec hb.valid (n := a.tpol.order + b.tpol.order) (by omega) (by omega) (by omega)
  have vq := v1.mul v2
  have oq : (h1.mul h2).order = a.tpol.order + b.tpol.order := by
    change max h1.order h2.order = _
    rw [o1, o2, max_self]
  have pq : ((h1.mul h2).toMv () : MvPolynomial String K) = a.tpol.toMv () * b.tpol.toMv () := by
    refine Spec.EqUpTo.eq_of_degLE (m := a.tpol.order + b.tpol.order) ?_ ?_ ?_
    · have := GDual.toMv_mul (K := K) v1 v2 ()
      rw [o1, o2, max_self, p1, p2] at this
      exact this
    · have := GDual.Valid.degLE (ι := Unit) (K := K) vq ()
      rwa [oq] at this
    · exact degLE_mul (GDual.Valid.degLE (ι := Unit) (K := K) ha.valid ()) (GDual.Valid.degLE (ι := Unit) (K := K) hb.valid ())
  have sq : ∀ s ∈ (h1.mul h2).p.syms, s ∈ a.tpol.p.syms ∨ s ∈ b.tpol.p.syms := fun s hs =>
    (mem_mergeSyms.1 (show s ∈ mergeSyms h1.p.syms h2.p.syms from hs)).imp (s1 s) (s2 s)
  obtain ⟨g, eg, vg, og, sg, cg⟩ := agreeable_spec vq (n := max a.tpol.order b.tpol.order) (by rw [oq]; omega)
  have ve := GDual.Valid.sub (ι := Unit) (K := K) vq vg
  have pe : (((h1.mul h2).sub g).toMv () : MvPolynomial String K) = a.tpol.toMv () * b.tpol.toMv () - g.toMv () := by
    rw [GDual.toMv_sub vq vg, pq]
  have ce : ∀ m, coeff m (((h1.mul h2).sub g).toMv () : MvPolynomial String K) =
      if m.degree ≤ max a.tpol.order b.tpol.order then 0 else coeff m (a.tpol.toMv () * b.tpol.toMv () : MvPolynomial String K) := by
    intro m
    rw [pe, coeff_sub, cg, pq]
    split_ifs <;> simp
  have se : ∀ s ∈ ((h1.mul h2).sub g).p.syms, s ∈ a.tpol.p.syms ∨ s ∈ b.tpol.p.syms := fun s hs => by
    rcases mem_mergeSyms.1 (show s ∈ mergeSyms (h1.mul h2).p.syms g.p.syms from hs) with h | h
    · exact sq s h
    · rw [sg] at h
      exact sq s h
  have hcond : (a.tpol.eq z || b.tpol.eq z) = false := by
    rw [Bool.or_eq_false_iff, Bool.eq_false_iff, Bool.eq_false_iff, Ne, Ne, eq_zero_iff ha.valid hz, eq_zero_iff hb.valid hz]
    exact ⟨hpa, hpb⟩
  unfold mul at h
  rw [bind_ok hz, hcond, if_neg (by simp), bind_ok hc.commonExp, bind_ok hc.commonDom] at h
  simp only [GDual.getOrder] at h
  rw [bind_ok e1, bind_ok e2, bind_ok eg] at h
  obtain ⟨ne, -, h⟩ := bind_ok_iff.1 h
  obtain ⟨nd, -, h⟩ := bind_ok_iff.1 h
  obtain ⟨E, hE, h⟩ := bind_ok_iff.1 h
  obtain ⟨B1, hB1, h⟩ := bind_ok_iff.1 h
  obtain ⟨B2, hB2, h⟩ := bind_ok_iff.1 h
  unfold make at h
  obtain ⟨_, -, h⟩ := bind_ok_iff.1 h
  injection h with h
  refine ⟨E, B1, B2, ((h1.mul h2).sub g).toMv (), hB1, hB2, by rw [← h], by rw [hao, hbo]; exact ce, fun hm => ?_, fun R hRa hRb => ?_⟩
  · unfold truncationBounds at hE
    rw [if_pos (isZeroTol_true ve hm)] at hE
    exact (Except.ok.inj hE).symm
  · refine truncationBounds_abs ha hb hc ve ?_ se hord hRa hRb hE
    change max (h1.mul h2).order g.order ≤ 62
    rw [oq, og]
    omega

end TM
end Audi
