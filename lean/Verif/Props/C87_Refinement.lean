import Verif.Props.C44_Bernstein
import Verif.Props.ExamplesTM
import Verif.Proofs.BoundsShrink

/-! # C87: the bounds of Taylor polynomials over smaller domains -/

namespace Audi

open TM MvPolynomial

section
variable {K : Type} [Field K] [LinearOrder K] [IsStrictOrderedRing K]

omit [IsStrictOrderedRing K] in
theorem covers_of_wf {tm : TM K} (h : tm.WF) : Covers (tm.tpol.p.syms.map varName) tm.exp tm.dom := fun v hv => by
  obtain ⟨I, x, e1, e2, e3⟩ := h.lookup hv
  exact ⟨I, x, e1, e2, e3.1.trans e3.2⟩

omit [IsStrictOrderedRing K] in
theorem exponents_le {tm : TM K} (h : tm.WF) (hord : tm.order ≤ 62) : ∀ t ∈ tm.tpol.p.terms, ∀ k ∈ t.1, k ≤ 62 := fun t ht _ hk =>
  ((List.single_le_sum (by simp) _ hk).trans (h.valid.deg t ht)).trans (h.order ▸ hord)

/-- **C87, order up to 62 (1).** Two Taylor models with the same polynomial and the same expansion point: when the domain of the second lies in that of the
first, the bounds of the second lie in those of the first. Missing: order above 62. (The map is traversed in the order of insertion.) -/
theorem C87_monotone_partial {tm sub : TM K} (h : tm.WF) (hs : sub.WF) (hp : sub.tpol = tm.tpol) (he : sub.exp = tm.exp) (hord : tm.order ≤ 62)
    {ord : List String → List String} (ho : ord (tm.tpol.p.syms.map varName) = tm.tpol.p.syms.map varName)
    (hd : ∀ e ∈ tm.dom, ∀ f ∈ sub.dom, e.1 = f.1 → e.2.lo ≤ f.2.lo ∧ f.2.hi ≤ e.2.hi) :
    ∃ B B', tm.bounds ord = .ok B ∧ sub.bounds ord = .ok B' ∧ B.lo ≤ B'.lo ∧ B'.hi ≤ B.hi := by
  have c1 := covers_of_wf h
  have c2 := covers_of_wf hs
  rw [hp, he] at c2
  obtain ⟨B, b1, -⟩ := getBounds_encloses' h.valid h.names (exponents_le h hord) c1 ho
  obtain ⟨B', b2, -⟩ := getBounds_encloses' h.valid h.names (exponents_le h hord) c2 ho
  refine ⟨B, B', b1, ?_, getBounds_shrink h.valid h.names (exponents_le h hord) (.of_eq ho) c1 c2 (fun v _ I J hI hJ => ?_) b1 b2⟩
  · unfold TM.bounds
    rw [hp, he]
    exact b2
  · exact hd _ (VMap.mem_of_lookup hI) _ (VMap.mem_of_lookup hJ) rfl

/-- **C87, order up to 62 (2).** How far the bounds can be from the range of the polynomial. For every polynomial and every `R` there is a constant `C`: for
all Taylor models with this polynomial whose domains stay within `R` of the expansion point and have width at most `h` in every variable, the bounds
contain all values of the polynomial and exceed values that it takes by at most `C h²`. Missing: order above 62. -/
theorem C87_quadratic_partial {p : GDual K} (hp : p.Valid) (hn : ∀ s ∈ p.p.syms, ∃ v, s = "d" ++ v) (hord : p.order ≤ 62)
    {ord : List String → List String} (ho : ord (p.p.syms.map varName) = p.p.syms.map varName) {R : K} (hR : 0 ≤ R) :
    ∃ C, 0 ≤ C ∧ ∀ (tm : TM K) (h : K), tm.WF → tm.tpol = p →
      (∀ e ∈ tm.dom, ∀ f ∈ tm.exp, e.1 = f.1 → |e.2.lo - f.2| ≤ R ∧ |e.2.hi - f.2| ≤ R ∧ e.2.hi - e.2.lo ≤ h) →
      ∃ B, tm.bounds ord = .ok B ∧ (∀ x, tm.InDom x → Spec.InItv B (tm.polyAt x)) ∧
        (∃ x, tm.InDom x ∧ tm.polyAt x - C * h ^ 2 ≤ B.lo) ∧ ∃ x, tm.InDom x ∧ B.hi ≤ tm.polyAt x + C * h ^ 2 := by
  have hdeg : ∀ t ∈ p.p.terms, ∀ k ∈ t.1, k ≤ 62 := fun t ht _ hk => ((List.single_le_sum (by simp) _ hk).trans (hp.deg t ht)).trans hord
  obtain ⟨C, hC, hall⟩ := getBounds_near hp hn hdeg ho hR
  refine ⟨C, hC, fun tm h hwf htp hb => ?_⟩
  subst htp
  have hc := covers_of_wf hwf
  obtain ⟨B, b1, -, b3⟩ := getBounds_encloses' hwf.valid hwf.names hdeg hc ho
  have hnear := hall tm.exp tm.dom h hc (fun v _ I x hI hx => hb _ (VMap.mem_of_lookup hI) _ (VMap.mem_of_lookup hx) rfl) B b1
  refine ⟨B, b1, fun x hx => b3 x ((inDom_iff hwf x).1 hx), ?_, ?_⟩
  · obtain ⟨x, e1, e2⟩ := hnear _ (.inl rfl)
    exact ⟨x, (inDom_iff hwf x).2 e1, by have := (abs_le.1 e2).1; unfold TM.polyAt; linarith⟩
  · obtain ⟨x, e1, e2⟩ := hnear _ (.inr rfl)
    exact ⟨x, (inDom_iff hwf x).2 e1, by have := (abs_le.1 e2).2; unfold TM.polyAt; linarith⟩

end

open Bounding in
/-- **C87 (counterexample).** For `x^63` the patch over the single point `[2, 2]` lies above the whole patch over `[1, 2]`. -/
theorem C87_monotone_counterexample : ∃ patch patch', bernsteinPatch x63.1 x63.2 [("x", ⟨1, 2⟩)] = .ok patch ∧
    bernsteinPatch x63.1 x63.2 [("x", ⟨2, 2⟩)] = .ok patch' ∧ ∃ v ∈ patch'.flatten, ∀ u ∈ patch.flatten, u < v := by
  refine ⟨_, _, patch_monomial 63 binomial63_ne_zero "x" ⟨1, 2⟩ (by norm_num), patch_monomial 63 binomial63_ne_zero "x" ⟨2, 2⟩ (by norm_num), _,
    mem_flatten_ofFn.2 ⟨0, by omega, 0, by omega, rfl⟩, fun u hu => ?_⟩
  obtain ⟨i, hi, j, -, rfl⟩ := mem_flatten_ofFn.1 hu
  have hall : ∀ i ∈ List.range 64, ((List.range 64).map fun (k : ℕ) => (if k ≤ i then (binomial i k : ℤ) else 0)).sum < 2 ^ 63 := by decide +kernel
  have hs : ((List.range 64).map fun (k : ℕ) => (if k ≤ i then (binomial i k : ℤ) else 0)).sum =
      ∑ k ∈ Finset.range (63 + 1), (if k ≤ i then (binomial i k : ℤ) else 0) := rfl
  have h1 := hall i (List.mem_range.2 hi)
  rw [hs] at h1
  have h2 : ((∑ k ∈ Finset.range (63 + 1), (if k ≤ i then (binomial i k : ℤ) else 0) : ℤ) : ℚ) < 2 ^ 63 := by exact_mod_cast h1
  have h3 : ∑ k ∈ Finset.range (63 + 1), (if k ≤ 0 then (binomial (0 : ℕ) k : ℚ) else 0) * ((2 - 2) / 2) ^ k = 1 := by decide +kernel
  dsimp only
  rw [h3]
  push_cast at h2
  norm_num at h2 ⊢
  exact h2

namespace Ex

/-- `x²` expanded at 2, over [1, 3]. -/
def sq : TM ℚ := ⟨⟨⟨["dx"], [([2], 1), ([1], 4), ([0], 4)]⟩, 2⟩, 2, 1, ⟨0, 0⟩, [("x", 2)], [("x", ⟨1, 3⟩)]⟩
/-- `x²` expanded at 2, over [3/2, 5/2]. -/
def sqSub : TM ℚ := { sq with dom := [("x", ⟨3 / 2, 5 / 2⟩)] }

theorem sq_wf : sq.WF := TM.wf_of_check (by decide +kernel)
theorem sqSub_wf : sqSub.WF := TM.wf_of_check (by decide +kernel)

end Ex

/-- All hypotheses of `C87_monotone_partial` hold for `x²` over `[1, 3]` and `[3/2, 5/2]`. -/
example : ∃ B B', Ex.sq.bounds id = .ok B ∧ Ex.sqSub.bounds id = .ok B' ∧ B.lo ≤ B'.lo ∧ B'.hi ≤ B.hi :=
  C87_monotone_partial Ex.sq_wf Ex.sqSub_wf rfl rfl (by decide) rfl (by decide +kernel)

/-- All hypotheses of `C87_quadratic_partial` hold for `x²`. -/
example : ∃ C : ℚ, 0 ≤ C ∧ ∃ B, Ex.sqSub.bounds id = .ok B ∧ (∀ x, Ex.sqSub.InDom x → Spec.InItv B (Ex.sqSub.polyAt x)) ∧
    (∃ x, Ex.sqSub.InDom x ∧ Ex.sqSub.polyAt x - C * 1 ^ 2 ≤ B.lo) ∧ ∃ x, Ex.sqSub.InDom x ∧ B.hi ≤ Ex.sqSub.polyAt x + C * 1 ^ 2 := by
  obtain ⟨C, hC, h⟩ := C87_quadratic_partial Ex.sq_wf.valid Ex.sq_wf.names (by decide) (ord := id) rfl (R := 1) zero_le_one
  exact ⟨C, hC, h Ex.sqSub 1 Ex.sqSub_wf rfl (by decide +kernel)⟩

end Audi
