import Verif.Props.ExamplesTM
import Verif.Proofs.BoundsExact

/-! # C61: bounds of Taylor polynomials that have degree at most 1 in each variable -/

namespace Audi

open TM MvPolynomial

/-- **C61.** For a polynomial of degree at most 1 in each variable, of any order and any number of variables, `get_bounds` returns the range
of the polynomial over the domain: it contains all values and both ends are values. (The map is traversed in the order of insertion.) -/
theorem C61_bounds_exact {K : Type} [Field K] [LinearOrder K] [IsStrictOrderedRing K] {tm : TM K} (h : tm.WF) {ord : List String → List String}
    (ho : ord (tm.tpol.p.syms.map varName) = tm.tpol.p.syms.map varName)
    (hlin : ∀ m : String →₀ ℕ, coeff m (tm.tpol.toMv () : MvPolynomial String K) ≠ 0 → ∀ s, m s ≤ 1) :
    ∃ B, tm.bounds ord = .ok B ∧ (∀ x, tm.InDom x → Spec.InItv B (tm.polyAt x)) ∧ (∃ x, tm.InDom x ∧ tm.polyAt x = B.lo) ∧
      ∃ x, tm.InDom x ∧ tm.polyAt x = B.hi := by
  have hm : ∀ v ∈ tm.tpol.p.syms.map varName, ∃ I x, tm.dom.lookup v = some I ∧ tm.exp.lookup v = some x ∧ I.lo ≤ I.hi := fun v hv => by
    obtain ⟨I, x, e1, e2, e3⟩ := h.lookup hv
    exact ⟨I, x, e1, e2, e3.1.trans e3.2⟩
  have ht : ∀ t ∈ tm.tpol.p.terms, ∀ k ∈ t.1, k ≤ 1 := by
    intro t ht k hk
    have h1 := Poly.coeff_toMv_of_mem (K := K) h.valid.wf (e := t.1) (c := t.2) ht ()
    have h2 := hlin (toExp tm.tpol.p.syms t.1) (by
      rw [show coeff (toExp tm.tpol.p.syms t.1) (tm.tpol.toMv ()) = t.2 from h1]
      intro h0
      have := h.valid.wf.nz t ht
      simp [Cf.isZero, h0] at this)
    obtain ⟨i, hi, rfl⟩ := List.mem_iff_getElem.1 hk
    have hl := h.valid.wf.len t ht
    have h3 := h2 (tm.tpol.p.syms[i]'(by omega))
    rwa [toExp_apply h.valid.wf.ndsyms, expOf_getElem h.valid.wf.ndsyms hl] at h3
  obtain ⟨B, h1, -, h3⟩ := getBounds_encloses' h.valid h.names (fun t h1 k hk => (ht t h1 k hk).trans (by decide)) (exp := tm.exp) (dom := tm.dom) hm ho
  have h4 := getBounds_attained h.valid h.names ht hm ho h1
  refine ⟨B, h1, fun x hx => h3 x ((inDom_iff h x).1 hx), ?_, ?_⟩
  · obtain ⟨x, e1, e2⟩ := h4 _ (.inl rfl)
    exact ⟨x, (inDom_iff h x).2 e1, e2⟩
  · obtain ⟨x, e1, e2⟩ := h4 _ (.inr rfl)
    exact ⟨x, (inDom_iff h x).2 e1, e2⟩

/-- All hypotheses of `C61_bounds_exact` hold for the Taylor model of `x`. -/
example : ∃ B, Ex.tx.bounds id = .ok B ∧ (∀ x, Ex.tx.InDom x → Spec.InItv B (Ex.tx.polyAt x)) ∧ (∃ x, Ex.tx.InDom x ∧ Ex.tx.polyAt x = B.lo) ∧
    ∃ x, Ex.tx.InDom x ∧ Ex.tx.polyAt x = B.hi := by
  refine C61_bounds_exact Ex.tx_wf rfl fun m hm s => ?_
  have d1 : Spec.DegLE 1 (Ex.tx.tpol.toMv () : MvPolynomial String ℚ) :=
    GDual.Valid.degLE (ι := Unit) (K := ℚ) (d := ⟨Ex.tx.tpol.p, 1⟩) ⟨Ex.tx_wf.valid.wf, by decide⟩ ()
  by_contra hc
  exact hm (d1 m ((not_le.1 hc).trans_le (Finsupp.le_degree s m)))

end Audi
