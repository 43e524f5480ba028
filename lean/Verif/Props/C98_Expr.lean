import Verif.Props.C98_Number
import Verif.Spec.RatExpr

/-! # C98 for whole expressions -/

namespace Audi
open Poly

theorem emb_ofCf (c : ℚ) : emb (GDual.ofCf c) = GDual.ofCf (toX c) := (toX_hom.ofCfOrder c 0).symm

theorem except_map_ok {α β : Type} {f : α → β} {x : Res α} {r : α} (h : x = .ok r) : x.map f = .ok (f r) := by rw [h]; rfl

/-- **C98** Expressions with the operators, `partial`, `integrate` and `subs`: if the exact model gives a result, the code on numbers with infinities and NaN gives that result, without inf or NaN. -/
theorem C98_expr {σ : String → GDual ℚ} (hσ : ∀ s, (σ s).Valid) (e : RatExpr ℚ) : ∀ {r : GDual ℚ}, e.eval σ = .ok r →
    r.Valid ∧ (e.map toX).eval (fun s => emb (σ s)) = .ok (emb r) ∧ ∀ E, ¬ HasAt NonFinite (emb r) E := by
  suffices H : ∀ {r : GDual ℚ}, e.eval σ = .ok r → r.Valid ∧ (e.map toX).eval (fun s => emb (σ s)) = .ok (emb r) from
    fun {_} h => ⟨(H h).1, (H h).2, emb_finite _⟩
  induction e with
  | var s => rintro r ⟨⟩; exact ⟨hσ s, rfl⟩
  | const c => rintro r ⟨⟩; exact ⟨GDual.valid_ofCf c, congrArg Except.ok (emb_ofCf c).symm⟩
  | add e1 e2 ih1 ih2 =>
    intro r h
    obtain ⟨a, ha, h⟩ := bind_ok_iff.1 h
    obtain ⟨b, hb, h⟩ := bind_ok_iff.1 h
    cases h
    obtain ⟨v1, h1⟩ := ih1 ha
    obtain ⟨v2, h2⟩ := ih2 hb
    refine ⟨v1.add v2, ?_⟩
    simp only [RatExpr.map, RatExpr.eval, h1, h2, Except.bind, Bind.bind]
    exact congrArg Except.ok (C98_ring a b 0).1
  | sub e1 e2 ih1 ih2 =>
    intro r h
    obtain ⟨a, ha, h⟩ := bind_ok_iff.1 h
    obtain ⟨b, hb, h⟩ := bind_ok_iff.1 h
    cases h
    obtain ⟨v1, h1⟩ := ih1 ha
    obtain ⟨v2, h2⟩ := ih2 hb
    refine ⟨v1.sub (ι := Unit) (K := ℚ) v2, ?_⟩
    simp only [RatExpr.map, RatExpr.eval, h1, h2, Except.bind, Bind.bind]
    exact congrArg Except.ok (C98_ring a b 0).2.1
  | mul e1 e2 ih1 ih2 =>
    intro r h
    obtain ⟨a, ha, h⟩ := bind_ok_iff.1 h
    obtain ⟨b, hb, h⟩ := bind_ok_iff.1 h
    cases h
    obtain ⟨v1, h1⟩ := ih1 ha
    obtain ⟨v2, h2⟩ := ih2 hb
    refine ⟨v1.mul v2, ?_⟩
    simp only [RatExpr.map, RatExpr.eval, h1, h2, Except.bind, Bind.bind]
    exact congrArg Except.ok (C98_ring a b 0).2.2.1
  | div e1 e2 ih1 ih2 =>
    intro r h
    obtain ⟨a, ha, h⟩ := bind_ok_iff.1 h
    obtain ⟨b, hb, h⟩ := bind_ok_iff.1 h
    obtain ⟨v1, h1⟩ := ih1 ha
    obtain ⟨v2, h2⟩ := ih2 hb
    refine ⟨v1.div (ι := Unit) (K := ℚ) v2 h, ?_⟩
    simp only [RatExpr.map, RatExpr.eval, h1, h2, Except.bind, Bind.bind]
    exact (C98_div v1 v2).1 r h
  | addR e c ih =>
    intro r h
    obtain ⟨a, ha, h⟩ := bind_ok_iff.1 h
    cases h
    obtain ⟨v, h1⟩ := ih ha
    refine ⟨v.addGS c, ?_⟩
    simp only [RatExpr.map, RatExpr.eval, h1, Except.bind, Bind.bind]
    exact congrArg Except.ok (C98_ring a a c).2.2.2.2.1
  | addL c e ih =>
    intro r h
    obtain ⟨a, ha, h⟩ := bind_ok_iff.1 h
    cases h
    obtain ⟨v, h1⟩ := ih ha
    refine ⟨v.addSG c, ?_⟩
    simp only [RatExpr.map, RatExpr.eval, h1, Except.bind, Bind.bind]
    exact congrArg Except.ok (C98_ring a a c).2.2.2.2.2.1
  | subR e c ih =>
    intro r h
    obtain ⟨a, ha, h⟩ := bind_ok_iff.1 h
    cases h
    obtain ⟨v, h1⟩ := ih ha
    refine ⟨v.subGS (ι := Unit) (K := ℚ) c, ?_⟩
    simp only [RatExpr.map, RatExpr.eval, h1, Except.bind, Bind.bind]
    exact congrArg Except.ok (C98_ring a a c).2.2.2.2.2.2.1
  | subL c e ih =>
    intro r h
    obtain ⟨a, ha, h⟩ := bind_ok_iff.1 h
    cases h
    obtain ⟨v, h1⟩ := ih ha
    refine ⟨v.subSG (ι := Unit) (K := ℚ) c, ?_⟩
    simp only [RatExpr.map, RatExpr.eval, h1, Except.bind, Bind.bind]
    exact congrArg Except.ok (C98_ring a a c).2.2.2.2.2.2.2.1
  | mulR e c ih =>
    intro r h
    obtain ⟨a, ha, h⟩ := bind_ok_iff.1 h
    cases h
    obtain ⟨v, h1⟩ := ih ha
    refine ⟨v.mulGS c, ?_⟩
    simp only [RatExpr.map, RatExpr.eval, h1, Except.bind, Bind.bind]
    exact congrArg Except.ok (C98_ring a a c).2.2.2.2.2.2.2.2.1
  | mulL c e ih =>
    intro r h
    obtain ⟨a, ha, h⟩ := bind_ok_iff.1 h
    cases h
    obtain ⟨v, h1⟩ := ih ha
    refine ⟨v.mulSG c, ?_⟩
    simp only [RatExpr.map, RatExpr.eval, h1, Except.bind, Bind.bind]
    exact congrArg Except.ok (C98_ring a a c).2.2.2.2.2.2.2.2.2
  | divR e c ih =>
    intro r h
    obtain ⟨a, ha, h⟩ := bind_ok_iff.1 h
    obtain ⟨v, h1⟩ := ih ha
    refine ⟨v.divGS h, ?_⟩
    simp only [RatExpr.map, RatExpr.eval, h1, Except.bind, Bind.bind]
    exact (C98_divGS v c).1 r h
  | divL c e ih =>
    intro r h
    obtain ⟨a, ha, h⟩ := bind_ok_iff.1 h
    obtain ⟨v, h1⟩ := ih ha
    refine ⟨v.divSG (ι := Unit) (K := ℚ) h, ?_⟩
    simp only [RatExpr.map, RatExpr.eval, h1, Except.bind, Bind.bind]
    exact (C98_divSG c v).1 r h
  | neg e ih =>
    intro r h
    obtain ⟨a, ha, h⟩ := bind_ok_iff.1 h
    cases h
    obtain ⟨v, h1⟩ := ih ha
    refine ⟨v.neg (ι := Unit) (K := ℚ), ?_⟩
    simp only [RatExpr.map, RatExpr.eval, h1, Except.bind, Bind.bind]
    exact congrArg Except.ok (C98_ring a a 0).2.2.2.1
  | diff e s ih =>
    intro r h
    obtain ⟨a, ha, h⟩ := bind_ok_iff.1 h
    obtain ⟨v, h1⟩ := ih ha
    refine ⟨v.partial' h, ?_⟩
    simp only [RatExpr.map, RatExpr.eval, h1, Except.bind, Bind.bind]
    rw [(C98_calculus a s 0 [] []).1]
    exact except_map_ok h
  | integ e s ih =>
    intro r h
    obtain ⟨a, ha, h⟩ := bind_ok_iff.1 h
    obtain ⟨v, h1⟩ := ih ha
    refine ⟨v.integrate h, ?_⟩
    simp only [RatExpr.map, RatExpr.eval, h1, Except.bind, Bind.bind]
    rw [(C98_calculus a s 0 [] []).2.1]
    exact except_map_ok h
  | subsV e s c ih =>
    intro r h
    obtain ⟨a, ha, h⟩ := bind_ok_iff.1 h
    cases h
    obtain ⟨v, h1⟩ := ih ha
    refine ⟨v.subsVal s c, ?_⟩
    simp only [RatExpr.map, RatExpr.eval, h1, Except.bind, Bind.bind]
    exact congrArg Except.ok (C98_calculus a s c [] []).2.2.1
  | subsG e s e' ih ih' =>
    intro r h
    obtain ⟨a, ha, h⟩ := bind_ok_iff.1 h
    obtain ⟨b, hb, h⟩ := bind_ok_iff.1 h
    cases h
    obtain ⟨v1, h1⟩ := ih ha
    obtain ⟨v2, h2⟩ := ih' hb
    refine ⟨v1.subs (ι := Unit) (K := ℚ) v2 s, ?_⟩
    simp only [RatExpr.map, RatExpr.eval, h1, h2, Except.bind, Bind.bind]
    exact congrArg Except.ok (C98_subs a b s 0 []).1

/-- **C98** (for expressions, the second half of the claim is false) If the exact model reports `nonFinite`, the result of the code can be free of inf and NaN: in `(1/x)*0` with `x` of value 0,
the product with the number 0 removes the infinite coefficients. -/
theorem C98_hidden_counterexample : ∃ (σ : String → GDual ℚ) (e : RatExpr ℚ), (∀ s, (σ s).Valid) ∧ e.eval σ = .error .nonFinite ∧
    ∃ r, (e.map toX).eval (fun s => emb (σ s)) = .ok r ∧ ∀ E, ¬ HasAt NonFinite r E := by
  refine ⟨fun _ => exX, .mulR (.divL 1 (.var "x")) 0, fun _ => exX_valid, rfl, ?_⟩
  obtain ⟨d, hd, -⟩ := ((C98_divSG 1 exX_valid).2 .nonFinite (by decide +kernel)).2
  refine ⟨d.mulGS (toX 0), ?_, ?_⟩
  · simp only [RatExpr.map, RatExpr.eval, hd, Except.bind, Bind.bind]
  · rintro E ⟨t, ht, -⟩
    rw [mulGS_zero d rfl] at ht
    exact absurd ht (by simp)

example : ∃ r, (RatExpr.div (.var "x") (.addR (.var "x") 1)).eval (fun _ => exX) = .ok r ∧
    ((RatExpr.div (.var "x") (.addR (.var "x") 1)).map toX).eval (fun _ => emb exX) = .ok (emb r) := by
  have h : ∃ r, (RatExpr.div (.var "x") (.addR (.var "x") 1)).eval (fun _ => exX) = .ok r := ⟨_, rfl⟩
  obtain ⟨r, hr⟩ := h
  exact ⟨r, hr, (C98_expr (fun _ => exX_valid) _ hr).2.1⟩

end Audi
