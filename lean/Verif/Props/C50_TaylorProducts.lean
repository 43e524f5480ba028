import Verif.Props.ExamplesTM
import Verif.Props.C48_TaylorSums
import Verif.Proofs.TMProduct

/-! # C50, C51: products of Taylor models, operations with intervals -/

namespace Audi

open TM MvPolynomial

section
variable {K : Type} [Field K] [LinearOrder K] [IsStrictOrderedRing K]

/-- **C50.** The product of two Taylor models encloses the product of the functions, when: they agree on the variables they share, their
polynomials are not zero, the sum of the orders is between 1 and 62, the map in `get_bounds` is traversed in the order of insertion, and the part of the
product of the polynomials above the order either is zero or has a coefficient larger than `10⁻¹⁶`.
Missing: zero polynomials (`C50_zero_counterexample`), two constants of order 0 (`C50_order_zero_counterexample`), truncated parts with small
coefficients only (`C50_tiny_counterexample`), other iteration orders (`C46_iteration_order_counterexample`), orders above 62. -/
theorem C50_mul_partial {a b : TM K} {ord : List String → List String} (ha : a.WF) (hb : b.WF) (hc : Compatible a b)
    (hpa : (a.tpol.toMv () : MvPolynomial String K) ≠ 0) (hpb : (b.tpol.toMv () : MvPolynomial String K) ≠ 0)
    (ho1 : 1 ≤ a.order + b.order) (ho2 : a.order + b.order ≤ 62)
    (hord : Faithful ord (a.tpol.p.syms.map varName ++ b.tpol.p.syms.map varName))
    (ht : (∃ m : String →₀ ℕ, max a.order b.order < m.degree ∧
        ((1 / 10 ^ 16 : ℚ) : K) < |coeff m (a.tpol.toMv () * b.tpol.toMv () : MvPolynomial String K)|) ∨
      ∀ m : String →₀ ℕ, max a.order b.order < m.degree → coeff m (a.tpol.toMv () * b.tpol.toMv () : MvPolynomial String K) = 0) :
    Sound₂ a b (mul ord a b) fun y z => y * z := mul_sound ha hb hc hpa hpb ho1 ho2 hord ht

omit [IsStrictOrderedRing K] in
theorem mul_zero_poly {a b : TM K} (ha : a.tpol.Valid) (hb : b.tpol.Valid) (ord : List String → List String)
    (h : (a.tpol.toMv () : MvPolynomial String K) = 0 ∨ (b.tpol.toMv () : MvPolynomial String K) = 0) : mul ord a b = .ok (ofConst 0) := by
  have hu : (73 : ℕ) < UINT_MAX - 10 := by decide
  obtain ⟨z, hz⟩ : ∃ t, GDual.mk3 (0 : K) "irrelevant" 0 = .ok t :=
    ⟨_, GDual.mk3_ok.2 ⟨by omega, ⟨'i', by decide, by decide⟩, rfl⟩⟩
  unfold mul
  rw [bind_ok hz, if_pos]
  rcases h with h | h
  · rw [(eq_zero_iff ha hz).2 h]
    rfl
  · rw [(eq_zero_iff hb hz).2 h]
    simp

omit [IsStrictOrderedRing K] in
/-- **C50, zero polynomials.** When one of the polynomials is zero the product is the constant 0 with remainder 0: it is sound if the
remainder that belongs to the zero polynomial is {0}. Missing: other remainders, where it is not (`C50_zero_counterexample`). -/
theorem C50_mul_zero_partial {a b : TM K} (ha : a.WF) (hb : b.WF) (ord : List String → List String)
    (h : (a.tpol.toMv () : MvPolynomial String K) = 0 ∧ a.rem = ⟨0, 0⟩ ∨ (b.tpol.toMv () : MvPolynomial String K) = 0 ∧ b.rem = ⟨0, 0⟩) :
    ∃ r, mul ord a b = .ok r ∧ r.WF ∧ (∀ x, r.InDom x) ∧ ∀ x y z, a.Allows x y → b.Allows x z → r.Allows x (y * z) := by
  have hv : (GDual.ofCf (0 : K)).Valid := GDual.valid_ofCf (0 : K)
  refine ⟨ofConst 0, mul_zero_poly ha.valid hb.valid ord (h.imp And.left And.left),
    ⟨hv, fun s hs => absurd hs List.not_mem_nil, rfl, rfl, .refl _, .refl _, fun e he => absurd he List.not_mem_nil, le_refl _⟩,
    fun x e he => absurd he List.not_mem_nil, fun x y z hy hz => ?_⟩
  have h0 : (ofConst (0 : K)).polyAt x = 0 := by
    unfold polyAt ofConst
    rw [GDual.toMv_ofCf, eval_C]
    rfl
  have key : ∀ {t : TM K} {w : K}, (t.tpol.toMv () : MvPolynomial String K) = 0 → t.rem = ⟨0, 0⟩ → t.Allows x w → w = 0 := by
    intro t w h1 h2 h3
    unfold Allows polyAt at h3
    rw [h1, map_zero, sub_zero, h2] at h3
    exact le_antisymm h3.2 h3.1
  unfold Allows
  rw [h0, sub_zero]
  rcases h with ⟨h1, h2⟩ | ⟨h1, h2⟩
  · rw [key h1 h2 hy, zero_mul]
    exact ⟨le_refl _, le_refl _⟩
  · rw [key h1 h2 hz, mul_zero]
    exact ⟨le_refl _, le_refl _⟩

/-- A product that is not sound: `a` allows `y` and `b` allows `z` at a point of both domains, the product is well formed and does not
allow `y z`. -/
def UnsoundProduct (a b : TM K) (o : Res (TM K)) : Prop :=
  ∃ r x y z, o = .ok r ∧ r.WF ∧ a.InDom x ∧ b.InDom x ∧ a.Allows x y ∧ b.Allows x z ∧ ¬ r.Allows x (y * z)

end

/-- All hypotheses of `C50_mul_partial` hold for the Taylor models of `x` and `y`. -/
example : Sound₂ Ex.tx Ex.ty (mul id Ex.tx Ex.ty) fun y z => y * z := by
  have nz : ∀ {t : TM ℚ} (_ : t.WF) (x : String → ℚ), t.polyAtTable x ≠ 0 → (t.tpol.toMv () : MvPolynomial String ℚ) ≠ 0 := by
    intro t ht x h h0
    apply h
    rw [← polyAt_eq_table ht.valid]
    unfold polyAt
    rw [h0, map_zero]
  refine C50_mul_partial Ex.tx_wf Ex.ty_wf Ex.txy_compatible (nz Ex.tx_wf (fun _ => 2) (by decide +kernel)) (nz Ex.ty_wf (fun _ => 5) (by decide +kernel))
    (by decide) (by decide) (fun _ _ _ => rfl) (.inr fun m hm => ?_)
  have d1 : Spec.DegLE 1 (Ex.tx.tpol.toMv () : MvPolynomial String ℚ) :=
    GDual.Valid.degLE (ι := Unit) (K := ℚ) (d := ⟨Ex.tx.tpol.p, 1⟩) ⟨Ex.tx_wf.valid.wf, by decide⟩ ()
  have d2 : Spec.DegLE 1 (Ex.ty.tpol.toMv () : MvPolynomial String ℚ) :=
    GDual.Valid.degLE (ι := Unit) (K := ℚ) (d := ⟨Ex.ty.tpol.p, 1⟩) ⟨Ex.ty_wf.valid.wf, by decide⟩ ()
  exact degLE_mul d1 d2 m (by
    have : max Ex.tx.order Ex.ty.order = 3 := by decide
    omega)

/-- **C50.** The remainder is lost when one of the polynomials is zero. -/
theorem C50_zero_counterexample : ∃ a b : TM ℚ, a.WF ∧ b.WF ∧ Compatible a b ∧ UnsoundProduct a b (mul id a b) := by
  let a : TM ℚ := ⟨⟨⟨["dx"], []⟩, 2⟩, 2, 1, ⟨-1, 1⟩, [("x", 0)], [("x", ⟨-1, 1⟩)]⟩
  have ha : a.WF := wf_of_check (by decide +kernel)
  have hr : (ofConst (0 : ℚ)).WF := wf_of_check (by decide +kernel)
  refine ⟨a, Ex.ty, ha, Ex.ty_wf, by constructor <;> decide, ofConst 0, fun v => if v = "x" then 0 else 5, 1, 5, by decide +kernel, hr,
    by decide +kernel, by decide +kernel, ?_, ?_, ?_⟩
  · rw [allows_iff_table ha.valid]; decide +kernel
  · rw [allows_iff_table Ex.ty_wf.valid]; decide +kernel
  · rw [allows_iff_table hr.valid]; decide +kernel

/-- **C50.** The product of the constants 2 and 3 is 0: the polynomials are brought to order 0 by substitution into `0`, which loses them. -/
theorem C50_order_zero_counterexample :
    mul id (ofConst (2 : ℚ)) (ofConst 3) = .ok (ofConst 0) ∧ UnsoundProduct (ofConst (2 : ℚ)) (ofConst 3) (mul id (ofConst 2) (ofConst 3)) := by
  have h2 : (ofConst (2 : ℚ)).WF := wf_of_check (by decide +kernel)
  have h3 : (ofConst (3 : ℚ)).WF := wf_of_check (by decide +kernel)
  have hr : (ofConst (0 : ℚ)).WF := wf_of_check (by decide +kernel)
  refine ⟨by decide +kernel, ofConst 0, fun _ => 0, 2, 3, by decide +kernel, hr, by decide +kernel, by decide +kernel, ?_, ?_, ?_⟩
  · rw [allows_iff_table h2.valid]; decide +kernel
  · rw [allows_iff_table h3.valid]; decide +kernel
  · rw [allows_iff_table hr.valid]; decide +kernel

/-- **C50.** Truncated terms are dropped without a remainder when their coefficients are at most `10⁻¹⁶`, also when their values on the
domain are not small: the square of `10⁻⁹ x` over `[0, 10⁹]`, with order 1, is 0 although it takes the value 1. -/
theorem C50_tiny_counterexample : ∃ a : TM ℚ, a.WF ∧ UnsoundProduct a a (mul id a a) := by
  let a : TM ℚ := ⟨⟨⟨["dx"], [([1], 1 / 10 ^ 9)]⟩, 1⟩, 1, 1, ⟨0, 0⟩, [("x", 0)], [("x", ⟨0, 10 ^ 9⟩)]⟩
  let r : TM ℚ := ⟨⟨⟨["dx"], []⟩, 1⟩, 1, 1, ⟨0, 0⟩, [("x", 0)], [("x", ⟨0, 10 ^ 9⟩)]⟩
  have ha : a.WF := wf_of_check (by decide +kernel)
  have hr : r.WF := wf_of_check (by decide +kernel)
  refine ⟨a, ha, r, fun _ => 10 ^ 9, 1, 1, by decide +kernel, hr, by decide +kernel, by decide +kernel, ?_, ?_, ?_⟩
  · rw [allows_iff_table ha.valid]; decide +kernel
  · rw [allows_iff_table ha.valid]; decide +kernel
  · rw [allows_iff_table hr.valid]; decide +kernel

/-! ### C51 -/

section
variable {K : Type} [Field K] [LinearOrder K]

theorem make_count {p : GDual K} {rem : Itv K} {exp : VMap K} {dom : VMap (Itv K)} (h : dom.length ≠ p.p.syms.length) :
    make p rem exp dom = .error .invalidArgument := by
  have : ¬ checkInput p.symbolSetSize exp dom = .ok () := fun hc => h (checkInput_ok.1 hc).2.2
  unfold make
  rw [bind_error (checkInput_error this)]

/-- **C51.** Interval times Taylor model throws for every Taylor model that has a variable, and so does interval divided by Taylor model. -/
theorem C51_interval_mul_throws {a : TM K} (ha : a.WF) (h : 1 ≤ a.ndim) (ord : List String → List String) (J : Itv K) :
    mulIT ord J a = .error .invalidArgument ∧ divIT ord J a = .error .invalidArgument := by
  have hl : a.dom.length ≠ (GDual.ofCf (1 : K)).p.syms.length := by
    have h1 := ha.domKeys.length_eq
    rw [List.length_map, List.length_map, ← ha.ndim] at h1
    change a.dom.length ≠ 0
    omega
  have : mulIT ord J a = .error .invalidArgument := by
    unfold mulIT
    rw [bind_error (make_count hl)]
  exact ⟨this, this⟩

/-- **C51.** Taylor model times interval throws for every Taylor model that does not have exactly one variable, and so does
Taylor model divided by interval. -/
theorem C51_mul_interval_throws {a : TM K} (ha : a.WF) (h : a.ndim ≠ 1) (ord : List String → List String) (J : Itv K) :
    mulTI ord a J = .error .invalidArgument ∧ divTI ord a J = .error .invalidArgument := by
  have hu : (73 : ℕ) < UINT_MAX - 10 := by decide
  have this : mulTI ord a J = .error .invalidArgument := by
    obtain ⟨g, hg⟩ : ∃ t, GDual.mk3 (1 : K) "x" 0 = .ok t := ⟨_, GDual.mk3_ok.2 ⟨by omega, ⟨'x', by decide, by decide⟩, rfl⟩⟩
    have hgs : g.p.syms = ["dx"] := by
      obtain ⟨-, -, rfl⟩ := GDual.mk3_ok.1 hg
      rfl
    unfold mulTI
    rw [bind_ok hg, bind_error (make_count _)]
    have h1 := ha.domKeys.length_eq
    rw [List.length_map, List.length_map, ← ha.ndim] at h1
    rw [h1, hgs]
    exact h
  exact ⟨this, this⟩

example : Ex.tx.WF ∧ 1 ≤ Ex.tx.ndim ∧ (ofConst (2 : ℚ)).WF ∧ (ofConst (2 : ℚ)).ndim ≠ 1 :=
  ⟨Ex.tx_wf, by decide, wf_of_check (by decide +kernel), by decide⟩

end

/-- **C51.** Taylor model times interval: with one variable named `x`, it is 1 plus the interval that is multiplied. The Taylor model of `x`
allows the value 1 at `x = 1`, but its product with [3, 4] does not allow 3 · 1. For division by the interval, the
same result is returned, and 1 / 4 is not allowed. -/
theorem C51_mul_interval_counterexample :
    ∃ r, mulTI id Ex.tx ⟨3, 4⟩ = .ok r ∧ divTI id Ex.tx ⟨3, 4⟩ = .ok r ∧ ViolatedAt Ex.tx r (fun _ => 1) 1 (3 * 1) ∧ ViolatedAt Ex.tx r (fun _ => 1) 1 (1 / 4) := by
  let r : TM ℚ := ⟨⟨⟨["dx"], [([0], 2), ([1], 1)]⟩, 2⟩, 2, 1, ⟨3, 17⟩, [("x", 2)], [("x", ⟨1, 3⟩)]⟩
  have hr : r.WF := wf_of_check (by decide +kernel)
  refine ⟨r, by decide +kernel, by decide +kernel, ⟨by decide +kernel, ?_, hr, ?_⟩, by decide +kernel, ?_, hr, ?_⟩
  · rw [allows_iff_table Ex.tx_wf.valid]; decide +kernel
  · rw [allows_iff_table hr.valid]; decide +kernel
  · rw [allows_iff_table Ex.tx_wf.valid]; decide +kernel
  · rw [allows_iff_table hr.valid]; decide +kernel

/-- **C51.** With one variable named `y`, it throws. -/
theorem C51_mul_interval_name_counterexample : mulTI id Ex.ty ⟨3, 4⟩ = .error .outOfRange := by decide +kernel

/-- **C51.** Interval minus Taylor model keeps the polynomial instead of negating it: `[3, 4] - x` does not allow 3 - 1 at `x = 1`. -/
theorem C51_interval_sub_counterexample :
    ∃ r, subIT ⟨3, 4⟩ Ex.tx = .ok r ∧ ViolatedAt Ex.tx r (fun _ => 1) 1 (3 - 1) := by
  let r : TM ℚ := ⟨⟨⟨["dx"], [([1], 1), ([0], 2)]⟩, 2⟩, 2, 1, ⟨2, 4⟩, [("x", 2)], [("x", ⟨1, 3⟩)]⟩
  have hr : r.WF := wf_of_check (by decide +kernel)
  refine ⟨r, by decide +kernel, by decide +kernel, ?_, hr, ?_⟩
  · rw [allows_iff_table Ex.tx_wf.valid]; decide +kernel
  · rw [allows_iff_table hr.valid]; decide +kernel

/-- **C51.** Interval times Taylor model without variables: the constant 5 with order 1 times [3, 4] does not allow 3 · 5. -/
theorem C51_interval_mul_counterexample :
    ∃ a r : TM ℚ, a.WF ∧ mulIT id ⟨3, 4⟩ a = .ok r ∧ ViolatedAt a r (fun _ => 0) 5 (3 * 5) := by
  let a : TM ℚ := ⟨⟨⟨[], [([], 5)]⟩, 1⟩, 1, 0, ⟨0, 0⟩, [], []⟩
  let r : TM ℚ := ⟨⟨⟨[], [([], 5)]⟩, 1⟩, 1, 0, ⟨15, 20⟩, [], []⟩
  have ha : a.WF := wf_of_check (by decide +kernel)
  have hr : r.WF := wf_of_check (by decide +kernel)
  refine ⟨a, r, ha, by decide +kernel, by decide +kernel, ?_, hr, ?_⟩
  · rw [allows_iff_table ha.valid]; decide +kernel
  · rw [allows_iff_table hr.valid]; decide +kernel

end Audi
