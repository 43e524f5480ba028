import Verif.Props.Examples

/-!
# C02, C03, C04, C16: ring operations and equality

`d.toMv i` is the Mathlib polynomial denoted by the gdual `d` in lane `i` (one lane for scalars).
-/

namespace Audi

open MvPolynomial Spec GDual

variable {C : Type} [Cf C] {ι : Type} {K : Type} [Field K] [Lanes C ι K] {a b c a' b' : GDual C}

/-! ### C02 -/

/-- **C02.** Sum: coefficient-wise for every monomial, maximal order, union of the symbol sets. -/
theorem C02_add (ha : a.Valid) (hb : b.Valid) :
    (∀ (i : ι) (e : String →₀ ℕ), (coeff e ((a.add b).toMv i) : K) = coeff e (a.toMv i) + coeff e (b.toMv i)) ∧
      (a.add b).getOrder = max a.getOrder b.getOrder ∧
      ∀ s, s ∈ (a.add b).p.syms ↔ s ∈ a.p.syms ∨ s ∈ b.p.syms :=
  ⟨fun i e => by rw [toMv_add ha hb, coeff_add], rfl, fun _ => mem_mergeSyms⟩

/-- **C02.** Difference. -/
theorem C02_sub (ha : a.Valid) (hb : b.Valid) :
    (∀ (i : ι) (e : String →₀ ℕ), (coeff e ((a.sub b).toMv i) : K) = coeff e (a.toMv i) - coeff e (b.toMv i)) ∧
      (a.sub b).getOrder = max a.getOrder b.getOrder ∧
      ∀ s, s ∈ (a.sub b).p.syms ↔ s ∈ a.p.syms ∨ s ∈ b.p.syms :=
  ⟨fun i e => by rw [toMv_sub ha hb, coeff_sub], rfl, fun _ => mem_mergeSyms⟩

/-- **C02.** Opposite. -/
theorem C02_neg (i : ι) (e : String →₀ ℕ) :
    (coeff e (a.neg.toMv i) : K) = -coeff e (a.toMv i) ∧ a.neg.getOrder = a.getOrder ∧ a.neg.p.syms = a.p.syms :=
  ⟨by rw [toMv_neg, coeff_neg], rfl, rfl⟩

/-- **C02.** Mixed forms `s + b`, `a + s`, `s - b`, `a - s`: only the constant coefficient is affected
by the scalar, the order is that of the gdual. -/
theorem C02_scalar (ha : a.Valid) (s : C) (i : ι) (e : String →₀ ℕ) :
    (coeff e ((addSG s a).toMv i) : K) = (if e = 0 then Lanes.lane i s else 0) + coeff e (a.toMv i) ∧
    (coeff e ((addGS a s).toMv i) : K) = coeff e (a.toMv i) + (if e = 0 then Lanes.lane i s else 0) ∧
    (coeff e ((subSG s a).toMv i) : K) = (if e = 0 then Lanes.lane i s else 0) - coeff e (a.toMv i) ∧
    (coeff e ((subGS a s).toMv i) : K) = coeff e (a.toMv i) - (if e = 0 then Lanes.lane i s else 0) ∧
    (addSG s a).getOrder = a.getOrder ∧ (addGS a s).getOrder = a.getOrder ∧
    (subSG s a).getOrder = a.getOrder ∧ (subGS a s).getOrder = a.getOrder := by
  refine ⟨?_, ?_, ?_, ?_, rfl, rfl, rfl, rfl⟩
  · rw [toMv_addSG s ha, coeff_add, coeff_C]; simp only [eq_comm]
  · rw [toMv_addGS s ha, coeff_add, coeff_C]; simp only [eq_comm]
  · rw [toMv_subSG s ha, coeff_sub, coeff_C]; simp only [eq_comm]
  · rw [toMv_subGS s ha, coeff_sub, coeff_C]; simp only [eq_comm]

/-- Different symbol sets and orders: `x` (order 3) and `z` (order 1). -/
example : (Ex.x.add Ex.z).p.syms = ["dx", "dz"] ∧ (Ex.x.add Ex.z).getOrder = 3 ∧
    coeff (toExp ["dx", "dz"] [0, 1]) ((Ex.x.add Ex.z).toMv ()) = (1 : ℚ) := by
  refine ⟨by decide +kernel, by decide +kernel, ?_⟩
  have h := lane_findCf (d := Ex.x.add Ex.z) (Ex.x_valid.add Ex.z_valid) (e := [0, 1]) (c := 1)
    (by decide +kernel) ()
  exact h.symm

/-! ### C03 -/

/-- **C03.** The coefficient of a monomial of degree at most the larger order is the convolution, other
coefficients are zero; the order is the maximum. -/
theorem C03_mul (ha : a.Valid) (hb : b.Valid) :
    (∀ (i : ι) (e : String →₀ ℕ), (coeff e ((a.mul b).toMv i) : K) =
      if e.degree ≤ max a.getOrder b.getOrder then
        ∑ p ∈ Finset.antidiagonal e, coeff p.1 (a.toMv i) * coeff p.2 (b.toMv i) else 0) ∧
      (a.mul b).getOrder = max a.getOrder b.getOrder ∧
      ∀ s, s ∈ (a.mul b).p.syms ↔ s ∈ a.p.syms ∨ s ∈ b.p.syms := by
  refine ⟨fun i e => ?_, rfl, fun _ => mem_mergeSyms⟩
  rw [coeff_mul' ha hb, coeff_mul]
  rfl

/-- **C03.** Mixed forms: multiplication by a scalar is exact on each coefficient and keeps the order. -/
theorem C03_scalar (ha : a.Valid) (s : C) (i : ι) (e : String →₀ ℕ) :
    (coeff e ((mulSG s a).toMv i) : K) = Lanes.lane i s * coeff e (a.toMv i) ∧
    (coeff e ((mulGS a s).toMv i) : K) = coeff e (a.toMv i) * Lanes.lane i s ∧
    (mulSG s a).getOrder = a.getOrder ∧ (mulGS a s).getOrder = a.getOrder := by
  refine ⟨?_, ?_, order_mulSG s a, order_mulGS s a⟩
  · rw [toMv_mulSG s ha, coeff_C_mul]
  · rw [toMv_mulGS s ha, mul_comm, coeff_C_mul, mul_comm]

/-- `(2 + dx)(5 + dy)` has the coefficient 1 for `dx dy`; `(1 + dz)(1 + dz)` at order 1 loses `dz²`. -/
example : (Ex.x.mul Ex.y).findCf [1, 1] = .ok 1 ∧ (Ex.z.mul Ex.z).p.terms = [([1], 2), ([0], 1)] := by
  decide +kernel

/-! ### C16 -/

/-- **C16.** `a == b` iff all coefficients agree, whatever the symbol sets and orders. -/
theorem C16_eq_iff (ha : a.Valid) (hb : b.Valid) :
    GDual.eq a b = true ↔ ∀ (i : ι) (e : String →₀ ℕ), (coeff e (a.toMv i) : K) = coeff e (b.toMv i) := by
  unfold GDual.eq
  rw [Poly.eq_iff (ι := ι) (K := K) ha.wf hb.wf]
  simp only [MvPolynomial.ext_iff, GDual.toMv]

include ι K in
theorem eq_of_toMv (ha : a.Valid) (hb : b.Valid) (h : ∀ i : ι, (a.toMv i : MvPolynomial String K) = b.toMv i) :
    GDual.eq a b = true := (C16_eq_iff (ι := ι) (K := K) ha hb).mpr fun i e => by rw [h]

theorem toMv_of_eq (ha : a.Valid) (hb : b.Valid) (h : GDual.eq a b = true) (i : ι) :
    (a.toMv i : MvPolynomial String K) = b.toMv i := MvPolynomial.ext _ _ ((C16_eq_iff ha hb).mp h i)

include ι K in
/-- **C16.** `==` is an equivalence relation on gduals and `!=` is its negation. -/
theorem C16_equivalence (ha : a.Valid) (hb : b.Valid) (hc : c.Valid) :
    GDual.eq a a = true ∧ (GDual.eq a b = true → GDual.eq b a = true) ∧
      (GDual.eq a b = true → GDual.eq b c = true → GDual.eq a c = true) ∧ GDual.ne a b = !GDual.eq a b := by
  refine ⟨eq_of_toMv (ι := ι) (K := K) ha ha fun _ => rfl,
    fun h => eq_of_toMv (ι := ι) (K := K) hb ha fun i => (toMv_of_eq ha hb h i).symm,
    fun h1 h2 => eq_of_toMv (ι := ι) (K := K) ha hc fun i => (toMv_of_eq ha hb h1 i).trans (toMv_of_eq hb hc h2 i), rfl⟩

include ι K in
/-- **C16.** The operations respect `==` (for the product, the operands must have the same orders). -/
theorem C16_congr (ha : a.Valid) (hb : b.Valid) (ha' : a'.Valid) (hb' : b'.Valid)
    (h1 : GDual.eq a a' = true) (h2 : GDual.eq b b' = true) :
    GDual.eq (a.add b) (a'.add b') = true ∧ GDual.eq (a.sub b) (a'.sub b') = true ∧
      GDual.eq a.neg a'.neg = true ∧
      (max a.getOrder b.getOrder = max a'.getOrder b'.getOrder → GDual.eq (a.mul b) (a'.mul b') = true) := by
  have e1 := fun i : ι => toMv_of_eq (K := K) ha ha' h1 i
  have e2 := fun i : ι => toMv_of_eq (K := K) hb hb' h2 i
  refine ⟨eq_of_toMv (ι := ι) (K := K) (ha.add hb) (ha'.add hb') fun i => ?_,
    eq_of_toMv (ha.sub (ι := ι) (K := K) hb) (ha'.sub (ι := ι) (K := K) hb') fun i => ?_,
    eq_of_toMv (ha.neg (ι := ι) (K := K)) (ha'.neg (ι := ι) (K := K)) fun i => ?_,
    fun ho => eq_of_toMv (ι := ι) (K := K) (ha.mul hb) (ha'.mul hb') fun i => ?_⟩
  · rw [toMv_add ha hb, toMv_add ha' hb', e1, e2]
  · rw [toMv_sub ha hb, toMv_sub ha' hb', e1, e2]
  · rw [toMv_neg, toMv_neg, e1]
  · ext m
    rw [coeff_mul' ha hb, coeff_mul' ha' hb', e1, e2]
    change (if m.degree ≤ max a.getOrder b.getOrder then _ else _) = if m.degree ≤ max a'.getOrder b'.getOrder then _ else _
    rw [ho]

/-- Equal polynomials over different symbol sets and orders compare equal; the order matters for the product. -/
example : GDual.eq (⟨⟨["dx", "dy"], [([1, 0], (1 : ℚ))]⟩, 5⟩) ⟨⟨["dx"], [([1], 1)]⟩, 2⟩ = true ∧
    GDual.eq Ex.x Ex.y = false ∧
    GDual.eq (GDual.mul (⟨⟨["dx"], [([1], (1 : ℚ))]⟩, 1⟩) ⟨⟨["dx"], [([1], 1)]⟩, 1⟩)
      (GDual.mul (⟨⟨["dx"], [([1], (1 : ℚ))]⟩, 2⟩) ⟨⟨["dx"], [([1], 1)]⟩, 2⟩) = false := by
  decide +kernel

/-! ### C04 -/

include ι K in
/-- **C04.** Commutative ring laws under `==` for gduals of one order. -/
theorem C04_ring (ha : a.Valid) (hb : b.Valid) (hc : c.Valid) (hab : a.order = b.order) (hbc : b.order = c.order) :
    GDual.eq (a.add b) (b.add a) = true ∧
    GDual.eq ((a.add b).add c) (a.add (b.add c)) = true ∧
    GDual.eq (a.add (ofRat 0)) a = true ∧
    GDual.eq (a.add a.neg) (ofRat 0) = true ∧
    GDual.eq (a.sub b) (a.add b.neg) = true ∧
    GDual.eq (a.mul b) (b.mul a) = true ∧
    GDual.eq ((a.mul b).mul c) (a.mul (b.mul c)) = true ∧
    GDual.eq (a.mul (ofRat 1)) a = true ∧
    GDual.eq (a.mul (b.add c)) ((a.mul b).add (a.mul c)) = true ∧
    GDual.eq (a.mul (b.sub c)) ((a.mul b).sub (a.mul c)) = true := by
  have v0 := valid_ofRat (C := C) 0
  have v1 := valid_ofRat (C := C) 1
  have vn := ha.neg (ι := ι) (K := K)
  have vnb := hb.neg (ι := ι) (K := K)
  have R := fun {d : GDual C} (h : d.Valid) => Rep.self (ι := ι) (K := K) h
  -- products of gduals of the common order, represented up to that order
  have ra : Rep a.order a (fun i : ι => (a.toMv i : MvPolynomial String K)) := R ha
  have rb : Rep a.order b (fun i : ι => (b.toMv i : MvPolynomial String K)) := hab ▸ R hb
  have rc : Rep a.order c (fun i : ι => (c.toMv i : MvPolynomial String K)) := (hab.trans hbc) ▸ R hc
  have fin : ∀ {g h : GDual C} {P : ι → MvPolynomial String K}, Rep a.order g P → Rep a.order h P →
      GDual.eq g h = true := by
    intro g h P hg hh
    refine eq_of_toMv (ι := ι) (K := K) hg.valid hh.valid fun i => ?_
    refine ((hg.eq i).trans (hh.eq i).symm).eq_of_degLE ?_ ?_
    · exact fun e he => hg.valid.degLE i e (lt_of_le_of_lt hg.order he)
    · exact fun e he => hh.valid.degLE i e (lt_of_le_of_lt hh.order he)
  refine ⟨fin (ra.add rb) ((rb.add ra).congr fun i => .of_eq (add_comm _ _)),
    fin ((ra.add rb).add rc) ((ra.add (rb.add rc)).congr fun i => .of_eq (add_assoc _ _ _).symm),
    fin ((ra.add (.ofRat 0)).congr fun i => .of_eq (by simp)) ra,
    fin ((ra.add ra.neg).congr fun i => .of_eq (by simp)) (Rep.ofRat 0),
    fin (ra.sub rb) ((ra.add rb.neg).congr fun i => .of_eq (sub_eq_add_neg _ _).symm),
    fin (ra.mul rb (.inl rfl)) ((rb.mul ra (.inr rfl)).congr fun i => .of_eq (mul_comm _ _)),
    fin ((ra.mul rb (.inl rfl)).mul rc (.inr (hab.trans hbc).symm))
      ((ra.mul (rb.mul rc (.inl hab.symm)) (.inl rfl)).congr fun i => .of_eq (mul_assoc _ _ _).symm),
    fin ((ra.mul (.ofRat 1) (.inl rfl)).congr fun i => .of_eq (by simp)) ra,
    fin (ra.mul (rb.add rc) (.inl rfl))
      (((ra.mul rb (.inl rfl)).add (ra.mul rc (.inl rfl))).congr fun i => .of_eq (mul_add _ _ _).symm),
    fin (ra.mul (rb.sub rc) (.inl rfl))
      (((ra.mul rb (.inl rfl)).sub (ra.mul rc (.inl rfl))).congr fun i => .of_eq (mul_sub _ _ _).symm)⟩

/-- Hypotheses of C04 are met by the two-variable case `x`, `y`, `x*y`. -/
example : GDual.eq ((Ex.x.mul Ex.y).mul Ex.xy) (Ex.x.mul (Ex.y.mul Ex.xy)) = true :=
  (C04_ring (ι := Unit) (K := ℚ) Ex.x_valid Ex.y_valid Ex.xy_valid rfl rfl).2.2.2.2.2.2.1

/-- **C04, mixed orders.** Associativity of `*` fails when the orders differ: with `a = dx`, `b = dy` of order 1 and
the constant `c = 1` of order 2, `(a*b)*c = 0` but `a*(b*c) = dx dy`. -/
theorem C04_mul_not_assoc_mixed_orders :
    ∃ a b c : GDual ℚ, a.Valid ∧ b.Valid ∧ c.Valid ∧ GDual.eq ((a.mul b).mul c) (a.mul (b.mul c)) = false := by
  refine ⟨⟨⟨["dx"], [([1], 1)]⟩, 1⟩, ⟨⟨["dy"], [([1], 1)]⟩, 1⟩, ⟨⟨[], [([], 1)]⟩, 2⟩, ?_, ?_, ?_, by decide +kernel⟩
  all_goals exact ⟨⟨by decide, by decide, by decide, by decide +kernel⟩, by decide⟩

end Audi
