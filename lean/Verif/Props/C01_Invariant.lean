import Verif.Props.Examples

/-!
# C01: degree never exceeds the truncation order

`Reachable d`: `d` is the value of some finite program over the public operations of gdual. The theorem
says that the assertions of the destructor (gdual.hpp:322-326) hold for every such value.
-/

namespace Audi

open MvPolynomial Spec

/-- Gduals that can be obtained by finitely many public operations (gdual.hpp:276-866). -/
inductive Reachable {C : Type} [CfOrd C] : GDual C → Prop
  | ofCf (c : C) : Reachable (GDual.ofCf c)
  | mk3 {c : C} {s : String} {n : ℕ} {r : GDual C} : GDual.mk3 c s n = .ok r → Reachable r
  | extend {a r : GDual C} {l : List String} : Reachable a → a.extendSymbolSet l = .ok r → Reachable r
  | add {a b : GDual C} : Reachable a → Reachable b → Reachable (a.add b)
  | addSG {b : GDual C} (s : C) : Reachable b → Reachable (GDual.addSG s b)
  | addGS {a : GDual C} (s : C) : Reachable a → Reachable (a.addGS s)
  | sub {a b : GDual C} : Reachable a → Reachable b → Reachable (a.sub b)
  | subSG {b : GDual C} (s : C) : Reachable b → Reachable (GDual.subSG s b)
  | subGS {a : GDual C} (s : C) : Reachable a → Reachable (a.subGS s)
  | mul {a b : GDual C} : Reachable a → Reachable b → Reachable (a.mul b)
  | mulSG {b : GDual C} (s : C) : Reachable b → Reachable (GDual.mulSG s b)
  | mulGS {a : GDual C} (s : C) : Reachable a → Reachable (a.mulGS s)
  | neg {a : GDual C} : Reachable a → Reachable a.neg
  | div {a b r : GDual C} : Reachable a → Reachable b → a.div b = .ok r → Reachable r
  | divSG {b r : GDual C} {s : C} : Reachable b → GDual.divSG s b = .ok r → Reachable r
  | divGS {a r : GDual C} {s : C} : Reachable a → a.divGS s = .ok r → Reachable r
  | integrate {a r : GDual C} {s : String} : Reachable a → a.integrate s = .ok r → Reachable r
  | partial' {a r : GDual C} {s : String} : Reachable a → a.partial' s = .ok r → Reachable r
  | subsVal {a : GDual C} (s : String) (v : C) : Reachable a → Reachable (a.subsVal s v)
  | subs {a b : GDual C} (s : String) : Reachable a → Reachable b → Reachable (a.subs s b)
  | trim {a r : GDual C} {eps : ℚ} : Reachable a → a.trim eps = .ok r → Reachable r
  | extractTerms {a r : GDual C} {k : ℕ} : Reachable a → a.extractTerms k = .ok r → Reachable r

variable {C : Type} [CfOrd C] {ι : Type} {K : Type} [Field K] [Lanes C ι K]

include ι K in
theorem Reachable.valid {d : GDual C} (h : Reachable d) : d.Valid := by
  induction h with
  | ofCf c => exact GDual.valid_ofCf c
  | mk3 h => exact GDual.valid_mk3 (ι := ι) (K := K) h
  | extend _ h ih => exact ih.extendSymbolSet h
  | add _ _ h1 h2 => exact h1.add h2
  | addSG s _ h => exact h.addSG s
  | addGS s _ h => exact h.addGS s
  | sub _ _ h1 h2 => exact h1.sub (ι := ι) (K := K) h2
  | subSG s _ h => exact h.subSG (ι := ι) (K := K) s
  | subGS s _ h => exact h.subGS (ι := ι) (K := K) s
  | mul _ _ h1 h2 => exact h1.mul h2
  | mulSG s _ h => exact h.mulSG s
  | mulGS s _ h => exact h.mulGS s
  | neg _ h => exact h.neg (ι := ι) (K := K)
  | div _ _ h h1 h2 => exact h1.div (ι := ι) (K := K) h2 h
  | divSG _ h h1 => exact h1.divSG (ι := ι) (K := K) h
  | divGS _ h h1 => exact h1.divGS h
  | integrate _ h h1 => exact h1.integrate h
  | partial' _ h h1 => exact h1.partial' h
  | subsVal s v _ h => exact h.subsVal s v
  | subs s _ _ h1 h2 => exact h1.subs (ι := ι) (K := K) h2 s
  | trim _ h h1 => exact h1.trim h
  | extractTerms _ h h1 => exact h1.extractTerms h

include ι K in
/-- **C01.** For every value of every program: `degree() <= get_order()`, symbols sorted and without repetitions, one
exponent per symbol in each term, no repeated monomial, no zero coefficient. -/
theorem C01_degree_le_order {d : GDual C} (h : Reachable d) :
    d.degree ≤ d.getOrder ∧ d.p.syms.Pairwise (· < ·) ∧ (∀ t ∈ d.p.terms, t.1.length = d.p.syms.length) ∧
      (d.p.terms.map Prod.fst).Nodup ∧ ∀ t ∈ d.p.terms, ∃ i : ι, (Lanes.lane i t.2 : K) ≠ 0 := by
  have hv := h.valid (ι := ι) (K := K)
  exact ⟨Poly.degree_le hv.deg, hv.wf.sorted, hv.wf.len, hv.wf.nodup,
    fun t ht => Poly.exists_lane_ne (hv.wf.nz t ht)⟩

/-- The same in terms of the denoted polynomials: no coefficient above the order. -/
theorem C01_no_coefficient_above_order {d : GDual C} (h : Reachable d) (i : ι) (e : String →₀ ℕ)
    (he : d.getOrder < e.degree) : coeff e (d.toMv i) = (0 : K) :=
  (h.valid (ι := ι) (K := K)).degLE i e he

/-- Non-trivial case: the derivative of `y / x` with respect to `y`; its degree is 2, its order 3. -/
example : ∃ s : GDual ℚ, (Ex.y.div Ex.x >>= fun r => r.partial' "y") = .ok s ∧ Reachable s ∧
    s.degree = 2 ∧ s.getOrder = 3 := by
  have hx : Reachable Ex.x := Reachable.mk3 Ex.x_eq
  have hy : Reachable Ex.y := Reachable.mk3 Ex.y_eq
  have h : ((Ex.y.div Ex.x >>= fun r => r.partial' "y").map fun s => (s.degree, s.getOrder)) = .ok (2, 3) := by
    decide +kernel
  cases hs : Ex.y.div Ex.x >>= fun r => r.partial' "y" with
  | error e => rw [hs] at h; cases h
  | ok s =>
    rw [hs] at h
    injection h with h
    injection h with h1 h2
    obtain ⟨r, hr, hs'⟩ := bind_ok_iff.mp hs
    exact ⟨s, rfl, .partial' (.div hy hx hr) hs', h1, h2⟩

end Audi
