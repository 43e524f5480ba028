import Verif.Proofs.TMProductRem

/-!
# Proofs: sums of the absolute values of the terms of a polynomial
-/

namespace Audi
namespace TM

open MvPolynomial Spec

variable {K : Type} [Field K] [LinearOrder K] [IsStrictOrderedRing K] {R : String → K}

theorem absVal_eq_sum {f : MvPolynomial String K} {S : Finset (String →₀ ℕ)} (h : f.support ⊆ S) :
    absVal R f = ∑ m ∈ S, |coeff m f| * m.prod fun s k => R s ^ k := by
  unfold absVal
  refine Finset.sum_subset h fun m _ hm => ?_
  rw [notMem_support_iff.1 hm, abs_zero, zero_mul]

theorem mono_nonneg (hR : ∀ s, 0 ≤ R s) (m : String →₀ ℕ) : 0 ≤ m.prod fun s k => R s ^ k := Finset.prod_nonneg fun s _ => pow_nonneg (hR s) _

theorem absVal_add_le (hR : ∀ s, 0 ≤ R s) (f g : MvPolynomial String K) : absVal R (f + g) ≤ absVal R f + absVal R g := by
  classical
  rw [absVal_eq_sum (support_add (p := f) (q := g)), absVal_eq_sum (f := f) Finset.subset_union_left,
    absVal_eq_sum (f := g) Finset.subset_union_right, ← Finset.sum_add_distrib]
  refine Finset.sum_le_sum fun m _ => ?_
  rw [← add_mul, coeff_add]
  exact mul_le_mul_of_nonneg_right (abs_add_le _ _) (mono_nonneg hR m)

theorem absVal_sum_le (hR : ∀ s, 0 ≤ R s) {ι : Type} (S : Finset ι) (f : ι → MvPolynomial String K) : absVal R (∑ i ∈ S, f i) ≤ ∑ i ∈ S, absVal R (f i) := by
  classical
  induction S using Finset.induction_on with
  | empty => simp [absVal]
  | insert i S hi ih =>
    rw [Finset.sum_insert hi, Finset.sum_insert hi]
    exact (absVal_add_le hR _ _).trans (add_le_add le_rfl ih)

theorem absVal_monomial (m : String →₀ ℕ) (c : K) : absVal R (monomial m c) = |c| * m.prod fun s k => R s ^ k := by
  rw [absVal_eq_sum support_monomial_subset, Finset.sum_singleton, coeff_monomial, if_pos rfl]

omit [IsStrictOrderedRing K] in
theorem absVal_neg (f : MvPolynomial String K) : absVal R (-f) = absVal R f := by
  unfold absVal
  rw [support_neg]
  exact Finset.sum_congr rfl fun m _ => by rw [coeff_neg, abs_neg]

/-- The sum for a product is at most the product of the sums. -/
theorem absVal_mul_le (hR : ∀ s, 0 ≤ R s) (f g : MvPolynomial String K) : absVal R (f * g) ≤ absVal R f * absVal R g := by
  have e : f * g = ∑ m ∈ f.support, ∑ n ∈ g.support, monomial (m + n) (coeff m f * coeff n g) := by
    conv_lhs => rw [← support_sum_monomial_coeff f, ← support_sum_monomial_coeff g]
    rw [Finset.sum_mul_sum]
    exact Finset.sum_congr rfl fun m _ => Finset.sum_congr rfl fun n _ => monomial_mul
  rw [e]
  refine (absVal_sum_le hR _ _).trans ?_
  have e2 : absVal R f * absVal R g = ∑ m ∈ f.support, ∑ n ∈ g.support, (|coeff m f| * m.prod fun s k => R s ^ k) * (|coeff n g| * n.prod fun s k => R s ^ k) := by
    unfold absVal
    rw [Finset.sum_mul_sum]
  rw [e2]
  refine Finset.sum_le_sum fun m _ => (absVal_sum_le hR _ _).trans (Finset.sum_le_sum fun n _ => ?_)
  rw [absVal_monomial, abs_mul, Finsupp.prod_add_index' (fun _ => pow_zero _) fun _ _ _ => pow_add _ _ _]
  exact le_of_eq (by ring)

/-- The terms up to a degree and the terms above it. -/
theorem absVal_split {f g h : MvPolynomial String K} {n : ℕ} (hg : ∀ m, coeff m g = if m.degree ≤ n then coeff m f else 0)
    (hh : ∀ m, coeff m h = if m.degree ≤ n then 0 else coeff m f) : absVal R g + absVal R h = absVal R f := by
  have h1 : g.support ⊆ f.support := fun m hm => by
    rw [mem_support_iff, hg] at hm
    rw [mem_support_iff]
    split_ifs at hm
    · exact hm
    · exact absurd rfl hm
  have h2 : h.support ⊆ f.support := fun m hm => by
    rw [mem_support_iff, hh] at hm
    rw [mem_support_iff]
    split_ifs at hm
    · exact absurd rfl hm
    · exact hm
  rw [absVal_eq_sum h1, absVal_eq_sum h2, absVal_eq_sum (f := f) (Finset.Subset.refl _), ← Finset.sum_add_distrib]
  refine Finset.sum_congr rfl fun m _ => ?_
  rw [hg, hh]
  split_ifs <;> simp

variable {a : TM K} {ord : List String → List String}

/-- The bounds of a Taylor model and of its polynomial without the constant term. -/
theorem bounds_centre (ha : a.WF) (h62 : a.order ≤ 62) (ho : ord (a.tpol.p.syms.map varName) = a.tpol.p.syms.map varName) (hR : Radius a R)
    {c : K} (hc : coeff 0 (a.tpol.toMv () : MvPolynomial String K) = c) :
    (∀ b, a.bounds ord = .ok b → |b.lo - c| ≤ absVal R (a.tpol.toMv () - C c) ∧ |b.hi - c| ≤ absVal R (a.tpol.toMv () - C c)) ∧
      ∀ b, getBounds ord (a.tpol.subGS c) a.exp a.dom = .ok b → |b.lo| ≤ absVal R (a.tpol.toMv () - C c) ∧ |b.hi| ≤ absVal R (a.tpol.toMv () - C c) := by
  have hm : ∀ v ∈ a.tpol.p.syms.map varName, ∃ I x, a.dom.lookup v = some I ∧ a.exp.lookup v = some x ∧ I.lo ≤ I.hi := fun v hv => by
    obtain ⟨I, x, e1, e2, e3⟩ := ha.lookup hv
    exact ⟨I, x, e1, e2, e3.1.trans e3.2⟩
  have hrad : ∀ s ∈ a.tpol.p.syms, ∀ I x, a.dom.lookup (varName s) = some I → a.exp.lookup (varName s) = some x →
      |I.lo - x| ≤ R s ∧ |I.hi - x| ≤ R s := fun s _ I x h1 h2 => hR s _ (VMap.mem_of_lookup h1) rfl _ (VMap.mem_of_lookup h2) rfl
  have hd : ∀ (p : GDual K), p.Valid → p.order = a.order → ∀ t ∈ p.p.terms, ∀ k ∈ t.1, k ≤ 62 := fun p hp ho t ht k hk =>
    ((List.single_le_sum (by simp) _ hk).trans (hp.deg t ht)).trans (ho ▸ h62)
  refine ⟨fun b hb => ?_, fun b hb => ?_⟩
  · have := getBounds_centre ha.valid ha.names (hd _ ha.valid ha.order.symm) hm ho hb hrad
    rwa [hc] at this
  · have hv := GDual.Valid.subGS (ι := Unit) (K := K) c ha.valid
    have := getBounds_abs hv ha.names (hd _ hv ha.order.symm) hm ho hb hrad
    rwa [GDual.toMv_subGS c ha.valid ()] at this

/-- The bounds of a polynomial of degree at most 1 are values of that polynomial on the domain. -/
theorem bounds_attained (ha : a.WF) (hlin : DegLE 1 (a.tpol.toMv () : MvPolynomial String K))
    (ho : ord (a.tpol.p.syms.map varName) = a.tpol.p.syms.map varName) {b : Itv K} (hb : a.bounds ord = .ok b) :
    ∀ t, t = b.lo ∨ t = b.hi → ∃ x, a.InDom x ∧ a.polyAt x = t := fun t ht => by
  obtain ⟨x, e1, e2⟩ := getBounds_attained ha.valid ha.names (terms_lin ha.valid hlin) (fun v hv => by
    obtain ⟨I, x, e1, e2, e3⟩ := ha.lookup hv
    exact ⟨I, x, e1, e2, e3.1.trans e3.2⟩) ho hb t ht
  exact ⟨x, (inDom_iff ha x).2 e1, e2⟩

end TM
end Audi
