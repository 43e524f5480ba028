import Verif.Props.C44_Bernstein
import Verif.Props.ExamplesTM
import Verif.Proofs.BoundsWidth
import Mathlib.Tactic.NormNum

/-! # C62: the bounds are not wider than those of interval arithmetic -/

namespace Audi

open TM MvPolynomial

section
variable {K : Type} [Field K] [LinearOrder K] [IsStrictOrderedRing K]

/-- **C62, exponents up to 62.** Every entry of the Bernstein patch lies in the interval that interval arithmetic gives for the polynomial, term by
term. So the bounds computed from the patch are never wider. Missing: exponents above 62. -/
theorem C62_patch_interval_partial {coeffs : List K} {exps : List (List ℕ)} {n : ℕ} (hn : 1 ≤ n) (hl : coeffs.length = exps.length)
    (hne : exps ≠ []) (hw : ∀ e ∈ exps, e.length = n) (hnd : exps.Nodup) (hdeg : ∀ e ∈ exps, ∀ k ∈ e, k ≤ 62)
    {domain : List (String × Itv K)} (hdom : domain.length = n) (hbox : ∀ e ∈ domain, e.2.lo ≤ e.2.hi) :
    ∃ patch, Bounding.bernsteinPatch coeffs exps domain = .ok patch ∧
      ∀ v ∈ patch.flatten, Spec.InItv (Spec.itvVal coeffs exps (domain.map Prod.snd)) v := by
  obtain ⟨patch, h1, -, h2⟩ := Bounding.patch_abs hn hl hne hw hnd hdeg hdom
  refine ⟨patch, h1, h2 fun I hI => ?_⟩
  obtain ⟨e, he, rfl⟩ := List.mem_map.1 hI
  exact hbox e he

/-- **C62 (counterexample).** The patch of `x^63` over `[-1, 1]` leaves the interval `[-1, 1]` that interval arithmetic gives. -/
theorem C62_patch_counterexample : ∃ patch, Bounding.bernsteinPatch x63.1 x63.2 [("x", ⟨-1, 1⟩)] = .ok patch ∧
    (Spec.itvVal x63.1 x63.2 [⟨-1, 1⟩]).lo = -1 ∧ (Spec.itvVal x63.1 x63.2 [⟨-1, 1⟩]).hi = 1 ∧
    ∃ v ∈ patch.flatten, ¬ Spec.InItv (Spec.itvVal x63.1 x63.2 [⟨-1, 1⟩]) v := by
  have h1 : (Spec.itvVal x63.1 x63.2 [⟨-1, 1⟩]).lo = -1 := by decide +kernel
  have h2 : (Spec.itvVal x63.1 x63.2 [⟨-1, 1⟩]).hi = 1 := by decide +kernel
  refine ⟨_, Bounding.patch_monomial 63 binomial63_ne_zero "x" ⟨-1, 1⟩ (by norm_num), h1, h2, _,
    Bounding.mem_flatten_ofFn.2 ⟨63, by omega, 0, by omega, rfl⟩, fun h => ?_⟩
  have hs : 1 < -((List.range 64).map fun (k : ℕ) => (if k ≤ 63 then (Bounding.binomial (63 : ℕ) k : ℤ) else 0) * (-2) ^ k).sum ∨
     -((List.range 64).map fun (k : ℕ) => (if k ≤ 63 then (Bounding.binomial (63 : ℕ) k : ℤ) else 0) * (-2) ^ k).sum < -1 := by decide +kernel
  have he : ((List.range 64).map fun (k : ℕ) => (if k ≤ 63 then (Bounding.binomial (63 : ℕ) k : ℤ) else 0) * (-2) ^ k).sum =
      ∑ k ∈ Finset.range (63 + 1), (if k ≤ 63 then (Bounding.binomial (63 : ℕ) k : ℤ) else 0) * (-2) ^ k := rfl
  have h3 := h.1
  have h4 := h.2
  rw [h1] at h3
  rw [h2] at h4
  have hq : ((-1 : ℚ)) ^ 63 * ∑ k ∈ Finset.range (63 + 1), (if k ≤ 63 then (Bounding.binomial (63 : ℕ) k : ℚ) else 0) * ((1 - -1) / -1) ^ k =
      ((-(∑ k ∈ Finset.range (63 + 1), (if k ≤ 63 then (Bounding.binomial (63 : ℕ) k : ℤ) else 0) * (-2) ^ k) : ℤ) : ℚ) := by
    push_cast
    norm_num
  simp only [hq] at h3 h4
  rw [he] at hs
  rcases hs with hs | hs
  · exact absurd (by exact_mod_cast h4) (not_le.2 hs)
  · exact absurd (by exact_mod_cast h3) (not_le.2 hs)

/-- For `x + y² - xy` over `[1,2] × [-1,3]`: the patch lies in `[-3, 7]`, interval arithmetic gives `[-8, 13]`. -/
example : Bounding.bernsteinPatch ([1, 1, -1] : List ℚ) [[1, 0], [0, 2], [1, 1]] [("x", ⟨1, 2⟩), ("y", ⟨-1, 3⟩)] = .ok [[3, -3, 7], [5, -3, 5]] ∧
    (Spec.itvVal ([1, 1, -1] : List ℚ) [[1, 0], [0, 2], [1, 1]] [⟨1, 2⟩, ⟨-1, 3⟩]).lo = -8 ∧
    (Spec.itvVal ([1, 1, -1] : List ℚ) [[1, 0], [0, 2], [1, 1]] [⟨1, 2⟩, ⟨-1, 3⟩]).hi = 13 := by decide +kernel

/-- **C62, order up to 62.** The bounds of a Taylor model of any order up to 62 in any number of variables: when `R` bounds the distance of each variable from
its expansion point, both bounds are in absolute value at most the sum of the absolute values of the terms at `R`. So narrow domains give narrow
bounds. (The map is traversed in the order of insertion.) -/
theorem C62_bounds_abs_partial {tm : TM K} (h : tm.WF) (hord : tm.order ≤ 62) {ord : List String → List String}
    (ho : ord (tm.tpol.p.syms.map varName) = tm.tpol.p.syms.map varName) {R : String → K}
    (hR : ∀ s, ∀ e ∈ tm.dom, e.1 = varName s → ∀ f ∈ tm.exp, f.1 = varName s → |e.2.lo - f.2| ≤ R s ∧ |e.2.hi - f.2| ≤ R s) :
    ∃ B, tm.bounds ord = .ok B ∧ (∀ x, tm.InDom x → Spec.InItv B (tm.polyAt x)) ∧
      |B.lo| ≤ Spec.absVal R (tm.tpol.toMv ()) ∧ |B.hi| ≤ Spec.absVal R (tm.tpol.toMv ()) := by
  have hm : ∀ v ∈ tm.tpol.p.syms.map varName, ∃ I x, tm.dom.lookup v = some I ∧ tm.exp.lookup v = some x ∧ I.lo ≤ I.hi := fun v hv => by
    obtain ⟨I, x, e1, e2, e3⟩ := h.lookup hv
    exact ⟨I, x, e1, e2, e3.1.trans e3.2⟩
  have hd : ∀ t ∈ tm.tpol.p.terms, ∀ k ∈ t.1, k ≤ 62 := fun t ht k hk =>
    ((List.single_le_sum (by simp) _ hk).trans (h.valid.deg t ht)).trans (h.order ▸ hord)
  obtain ⟨B, h1, -, h3⟩ := getBounds_encloses' h.valid h.names hd (exp := tm.exp) (dom := tm.dom) hm ho
  exact ⟨B, h1, fun x hx => h3 x ((inDom_iff h x).1 hx), getBounds_abs h.valid h.names hd hm ho h1 fun s _ I x e1 e2 =>
    hR s _ (VMap.mem_of_lookup e1) rfl _ (VMap.mem_of_lookup e2) rfl⟩

end

example : ∃ B, Ex.tx.bounds id = .ok B ∧ (∀ x, Ex.tx.InDom x → Spec.InItv B (Ex.tx.polyAt x)) ∧
    |B.lo| ≤ Spec.absVal (fun _ => (1 : ℚ)) (Ex.tx.tpol.toMv ()) ∧ |B.hi| ≤ Spec.absVal (fun _ => (1 : ℚ)) (Ex.tx.tpol.toMv ()) := by
  refine C62_bounds_abs_partial Ex.tx_wf (by decide) rfl fun s e he _ f hf _ => ?_
  obtain rfl : e = ("x", ⟨1, 3⟩) := by simpa [Ex.tx] using he
  obtain rfl : f = ("x", 2) := by simpa [Ex.tx] using hf
  norm_num

end Audi
