import Verif.Props.C02_Ring
import Verif.Spec.Order
import Mathlib.Tactic.Linarith
import Mathlib.Tactic.Ring
import Mathlib.Algebra.Order.BigOperators.Group.Finset
import Mathlib.Algebra.Order.Ring.Abs

/-! # C13, C14, C15, C17, C18, C19, C20: terms, evaluation, constructors, ordering -/

namespace Audi

open MvPolynomial Spec GDual

section Trim

variable {C : Type} [CfOrd C] {ι : Type} {K : Type} [Field K] [LinearOrder K] [IsStrictOrderedRing K]
  [Lanes C ι K] [LanesOrd C ι K] {d r : GDual C} {eps : ℚ}

omit [LinearOrder K] [IsStrictOrderedRing K] [LanesOrd C ι K] in
/-- The coefficients of a filtered table, when the filter looks at the whole coefficient. -/
theorem coeff_filter_cf (hd : d.Valid) (keep : C → Bool) (i : ι) {e : List ℕ} (he : e.length = d.p.syms.length) :
    (coeff (toExp d.p.syms e) (Poly.toMv i (d.p.filter fun t => keep t.2)) : K) =
      match d.p.find? e with
      | none => 0
      | some c => if keep c then Lanes.lane i c else 0 := by
  have h0 := Poly.coeff_toMv_find? (K := K) (hd.wf.filter fun t => keep t.2) (e := e) he i
  refine h0.trans ?_
  cases h : d.p.find? e with
  | none =>
    cases h2 : (d.p.filter fun t => keep t.2).find? e with
    | none => rfl
    | some c =>
      have := List.mem_of_mem_filter (Poly.mem_of_find? h2)
      rw [Poly.find?_eq_some_of_mem hd.wf this] at h
      cases h
  | some c =>
    have hm := Poly.mem_of_find? h
    by_cases hk : keep c = true
    · have : (e, c) ∈ (d.p.filter fun t => keep t.2).terms := List.mem_filter.mpr ⟨hm, hk⟩
      rw [Poly.find?_eq_some_of_mem (hd.wf.filter _) this]
      simp [hk]
    · cases h2 : (d.p.filter fun t => keep t.2).find? e with
      | none => simp [hk]
      | some c' =>
        have h3 := List.mem_filter.mp (Poly.mem_of_find? h2)
        rw [Poly.find?_eq_some_of_mem hd.wf h3.1] at h
        injection h with h
        subst h
        exact absurd h3.2 hk

omit [IsStrictOrderedRing K] in
/-- **C13.** `trim` throws exactly for negative tolerances; otherwise a term survives, unchanged, iff some
lane of its coefficient is at least `eps` in absolute value; the symbols and the order do not change. -/
theorem C13_trim (hd : d.Valid) :
    (d.trim eps = .error .invalidArgument ↔ eps < 0) ∧
    (0 ≤ eps → ∃ r, d.trim eps = .ok r ∧ r.getOrder = d.getOrder ∧ r.p.syms = d.p.syms ∧ r.Valid ∧
      (∀ e : String →₀ ℕ, (∃ i : ι, (eps : K) ≤ |(coeff e (d.toMv i) : K)|) →
        ∀ i, (coeff e (r.toMv i) : K) = coeff e (d.toMv i)) ∧
      (∀ e : String →₀ ℕ, (∀ i : ι, |(coeff e (d.toMv i) : K)| < (eps : K)) →
        ∀ i, (coeff e (r.toMv i) : K) = 0)) := by
  constructor
  · unfold trim; split_ifs with h <;> simp [h]
  · intro h
    have ht : d.trim eps = .ok ⟨d.p.filter fun t => !CfOrd.absLt t.2 eps, d.order⟩ := by
      unfold trim; rw [if_neg (not_lt.mpr h)]
    refine ⟨_, ht, rfl, rfl, hd.trim ht, ?_⟩
    have key : ∀ (e : String →₀ ℕ), (∀ i : ι, (coeff e (d.toMv i) : K) = 0 ∧
        (coeff e (GDual.toMv i (⟨d.p.filter fun t => !CfOrd.absLt t.2 eps, d.order⟩ : GDual C)) : K) = 0) ∨
        ∃ c : C, ∀ i : ι, (coeff e (d.toMv i) : K) = Lanes.lane i c ∧
          (coeff e (GDual.toMv i (⟨d.p.filter fun t => !CfOrd.absLt t.2 eps, d.order⟩ : GDual C)) : K) =
            if CfOrd.absLt c eps then 0 else Lanes.lane i c := by
      intro e
      by_cases h1 : ∃ x : List ℕ, x.length = d.p.syms.length ∧ toExp d.p.syms x = e
      · obtain ⟨x, hx, rfl⟩ := h1
        cases hf : d.p.find? x with
        | none =>
          left; intro i
          have h2 := Poly.coeff_toMv_find? hd.wf hx i (K := K)
          have h3 := coeff_filter_cf (K := K) hd (fun c => !CfOrd.absLt c eps) i hx
          rw [hf] at h2 h3
          exact ⟨h2, h3⟩
        | some c =>
          right; refine ⟨c, fun i => ?_⟩
          have h2 := Poly.coeff_toMv_find? hd.wf hx i (K := K)
          have h3 := coeff_filter_cf (K := K) hd (fun c => !CfOrd.absLt c eps) i hx
          rw [hf] at h2 h3
          refine ⟨h2, h3.trans ?_⟩
          cases hb : CfOrd.absLt c eps <;> simp [hb]
      · left; intro i
        constructor
        · by_contra hne
          obtain ⟨t, ht1, ht2⟩ := Poly.exists_mem_of_coeff_ne (p := d.p) (i := i) hne
          exact h1 ⟨t.1, hd.wf.len t ht1, ht2⟩
        · by_contra hne
          obtain ⟨t, ht1, ht2⟩ := Poly.exists_mem_of_coeff_ne
            (p := d.p.filter fun t => !CfOrd.absLt t.2 eps) (i := i) hne
          exact h1 ⟨t.1, hd.wf.len t (List.mem_of_mem_filter ht1), ht2⟩
    constructor
    · rintro e ⟨j, hj⟩ i
      rcases key e with h1 | ⟨c, hc⟩
      · rw [(h1 i).1, (h1 i).2]
      · rw [(hc i).1, (hc i).2, if_neg]
        rw [LanesOrd.absLt_iff (ι := ι) (K := K)]
        intro h2
        have := h2 j
        rw [(hc j).1] at hj
        exact absurd this (not_lt.mpr hj)
    · intro e he i
      rcases key e with h1 | ⟨c, hc⟩
      · exact (h1 i).2
      · rw [(hc i).2, if_pos]
        rw [LanesOrd.absLt_iff (ι := ι) (K := K)]
        intro j
        rw [← (hc j).1]; exact he j

include ι K in
/-- **C13.** `trim(0)` returns the gdual itself. -/
theorem C13_trim_zero (d : GDual C) : d.trim 0 = .ok d := by
  have h : ∀ c : C, CfOrd.absLt c 0 = false := by
    intro c
    rw [Bool.eq_false_iff, Ne, LanesOrd.absLt_iff (ι := ι) (K := K)]
    obtain ⟨i⟩ := Lanes.nonempty C (ι := ι) (K := K)
    intro h
    have := h i
    rw [Rat.cast_zero] at this
    exact absurd this (not_lt.mpr (abs_nonneg _))
  unfold trim
  rw [if_neg (lt_irrefl _)]
  have h2 : (d.p.filter fun t => !CfOrd.absLt t.2 0) = d.p := by
    unfold Poly.filter
    simp [h]
  rw [h2]

/-- **C13.** `trim` is idempotent. -/
theorem C13_trim_idempotent (h : d.trim eps = .ok r) : r.trim eps = .ok r := by
  unfold trim at h ⊢
  split_ifs at h ⊢ with h0
  injection h with h
  subst h
  simp only [Poly.filter, List.filter_filter, Bool.and_self]

/-- Values of a filtered table on the unit box. -/
theorem eval_filter_bound (i : ι) (ss : List String) (L : List (List ℕ × C)) {x : String → K} (hx : ∀ s, |x s| ≤ 1) :
    |eval x (den i ss L) - eval x (den i ss (L.filter fun t => !CfOrd.absLt t.2 eps))| ≤
      (eps : K) * ((L.length : K) - ((L.filter fun t => !CfOrd.absLt t.2 eps).length : K)) := by
  have hm : ∀ (e : String →₀ ℕ), |e.prod fun s k => x s ^ k| ≤ 1 := by
    intro e
    unfold Finsupp.prod
    rw [Finset.abs_prod]
    refine Finset.prod_le_one (fun _ _ => abs_nonneg _) fun s _ => ?_
    rw [abs_pow]
    exact pow_le_one₀ (abs_nonneg _) (hx s)
  induction L with
  | nil => simp [den_nil]
  | cons t L ih =>
    by_cases hk : CfOrd.absLt t.2 eps = true
    · have hc := (LanesOrd.absLt_iff (ι := ι) (K := K) t.2 eps).mp hk i
      rw [List.filter_cons_of_neg (by simp [hk]), den_cons, map_add, eval_monomial, List.length_cons]
      have h1 : |(Lanes.lane i t.2 : K) * (toExp ss t.1).prod fun s k => x s ^ k| ≤ (eps : K) := by
        rw [abs_mul]
        calc _ ≤ |(Lanes.lane i t.2 : K)| * 1 := mul_le_mul_of_nonneg_left (hm _) (abs_nonneg _)
          _ ≤ _ := by rw [mul_one]; exact hc.le
      have h2 := abs_add_le ((Lanes.lane i t.2 : K) * (toExp ss t.1).prod fun s k => x s ^ k)
        (eval x (den i ss L) - eval x (den i ss (L.filter fun t => !CfOrd.absLt t.2 eps)))
      rw [add_sub_assoc]
      refine h2.trans ?_
      push_cast
      linarith
    · rw [List.filter_cons_of_pos (by simp [hk]), den_cons, den_cons, map_add, map_add, List.length_cons,
        List.length_cons]
      push_cast
      convert ih using 2 <;> ring

/-- **C13.** On every point of the unit box `trim` changes the value by at most `eps` times the number of removed terms. -/
theorem C13_trim_error (h : d.trim eps = .ok r) (i : ι) {x : String → K} (hx : ∀ s, |x s| ≤ 1) :
    |eval x (d.toMv i) - eval x (r.toMv i)| ≤ (eps : K) * ((d.p.terms.length : K) - (r.p.terms.length : K)) := by
  unfold trim at h
  split_ifs at h with h0
  injection h with h
  subst h
  exact eval_filter_bound i d.p.syms d.p.terms hx

/-- **C20 (partial).** The full claim is: `is_zero(tol)` iff every component of every coefficient is at most `tol` in
absolute value. It holds when there is one lane (scalar coefficients). It fails for vectorized
coefficients (`C20_vectorized_counterexample`), where only coefficients larger in *all* components are detected. -/
theorem C20_is_zero_partial [Subsingleton ι] (hd : d.Valid) {tol : ℚ} (ht : 0 ≤ tol) :
    d.isZeroTol tol = true ↔ ∀ (i : ι) (e : String →₀ ℕ), |(coeff e (d.toMv i) : K)| ≤ (tol : K) := by
  unfold isZeroTol
  rw [List.all_eq_true]
  constructor
  · intro h i e
    by_cases hne : (coeff e (d.toMv i) : K) = 0
    · rw [hne, abs_zero]; exact_mod_cast ht
    · obtain ⟨t, ht1, ht2⟩ := Poly.exists_mem_of_coeff_ne (p := d.p) (i := i) hne
      have h1 := h t ht1
      rw [← ht2, GDual.toMv, Poly.coeff_toMv_of_mem hd.wf ht1]
      by_contra hlt
      rw [not_le] at hlt
      have := (LanesOrd.absGt_iff (ι := ι) (K := K) t.2 tol).mpr fun j => by
        rw [Subsingleton.elim j i]; exact hlt
      rw [this] at h1
      cases h1
  · intro h t htm
    rw [Bool.not_eq_true', Bool.eq_false_iff, Ne, LanesOrd.absGt_iff (ι := ι) (K := K)]
    obtain ⟨i⟩ := Lanes.nonempty C (ι := ι) (K := K)
    intro h2
    have h3 := h i (toExp d.p.syms t.1)
    rw [GDual.toMv, Poly.coeff_toMv_of_mem hd.wf htm] at h3
    exact absurd (h2 i) (not_lt.mpr h3)

/-- **C20 (partial).** What `is_zero(tol)` decides for any number of lanes: no coefficient exceeds `tol` in all its
lanes at once. -/
theorem C20_is_zero_all_lanes_partial (hd : d.Valid) {tol : ℚ} (ht : 0 ≤ tol) :
    d.isZeroTol tol = true ↔ ∀ e : String →₀ ℕ, ∃ i : ι, |(coeff e (d.toMv i) : K)| ≤ (tol : K) := by
  unfold isZeroTol
  rw [List.all_eq_true]
  constructor
  · intro h e
    by_cases hne : ∃ i : ι, (coeff e (d.toMv i) : K) ≠ 0
    · obtain ⟨i, hne⟩ := hne
      obtain ⟨t, ht1, ht2⟩ := Poly.exists_mem_of_coeff_ne (p := d.p) (i := i) hne
      have h1 := h t ht1
      rw [Bool.not_eq_true', Bool.eq_false_iff, Ne, LanesOrd.absGt_iff (ι := ι) (K := K)] at h1
      push Not at h1
      obtain ⟨j, hj⟩ := h1
      refine ⟨j, ?_⟩
      rw [← ht2, GDual.toMv, Poly.coeff_toMv_of_mem hd.wf ht1]
      exact hj
    · push Not at hne
      obtain ⟨i⟩ := Lanes.nonempty C (ι := ι) (K := K)
      exact ⟨i, by rw [hne i, abs_zero]; exact_mod_cast ht⟩
  · intro h t htm
    rw [Bool.not_eq_true', Bool.eq_false_iff, Ne, LanesOrd.absGt_iff (ι := ι) (K := K)]
    obtain ⟨i, hi⟩ := h (toExp d.p.syms t.1)
    rw [GDual.toMv, Poly.coeff_toMv_of_mem hd.wf htm] at hi
    intro h2
    exact absurd (h2 i) (not_lt.mpr hi)

end Trim

/-- Trimming `10 + 2 dy + 5 dx + dx dy` at 3 keeps two of four terms. -/
example : Ex.xy.trim 3 = .ok ⟨⟨["dx", "dy"], [([1, 0], 5), ([0, 0], 10)]⟩, 3⟩ ∧ Ex.xy.p.terms.length = 4 := by
  constructor <;> decide +kernel

example : Ex.xy.isZeroTol 10 = true ∧ Ex.xy.isZeroTol 9 = false := by constructor <;> decide +kernel

section Extract

variable {C : Type} [Cf C] {ι : Type} {K : Type} [Field K] [Lanes C ι K] {d r a b : GDual C}

/-- **C14.** `extract_terms(k)` throws exactly when `k` is larger than the order; otherwise it contains exactly the
terms of total degree `k`. -/
theorem C14_extract_terms (hd : d.Valid) (k : ℕ) :
    (d.extractTerms k = .error .invalidArgument ↔ d.getOrder < k) ∧
    (k ≤ d.getOrder → ∃ r, d.extractTerms k = .ok r ∧ r.Valid ∧
      ∀ (i : ι) (e : String →₀ ℕ), (coeff e (r.toMv i) : K) = if e.degree = k then coeff e (d.toMv i) else 0) := by
  constructor
  · unfold extractTerms getOrder; split_ifs with h <;> simp [h]
  · intro h
    have ht : d.extractTerms k = .ok ⟨d.p.filter fun t => Poly.keyDegree t.1 = k, k⟩ := by
      unfold extractTerms; rw [if_neg (show ¬ k > d.order from not_lt.mpr h)]
    exact ⟨_, ht, hd.extractTerms ht, fun i e => coeff_extractTerms hd ht i e⟩

/-- Sum of a list of gduals, as a user would write it. -/
def sumGDual (l : List (GDual C)) : GDual C := l.foldl GDual.add (ofRat 0)

theorem sumGDual_spec (l : List (GDual C)) (h : ∀ g ∈ l, g.Valid) :
    (sumGDual l).Valid ∧ ∀ i : ι, ((sumGDual l).toMv i : MvPolynomial String K) = (l.map fun g => g.toMv i).sum := by
  have key : ∀ (l : List (GDual C)) (z : GDual C), z.Valid → (∀ g ∈ l, g.Valid) →
      (l.foldl GDual.add z).Valid ∧
      ∀ i : ι, ((l.foldl GDual.add z).toMv i : MvPolynomial String K) = z.toMv i + (l.map fun g => g.toMv i).sum := by
    intro l
    induction l with
    | nil => intro z hz _; exact ⟨hz, by simp⟩
    | cons g l ih =>
      intro z hz h
      simp only [List.forall_mem_cons] at h
      obtain ⟨h1, h2⟩ := ih (z.add g) (hz.add h.1) h.2
      refine ⟨h1, fun i => ?_⟩
      rw [List.foldl_cons, h2, toMv_add hz h.1, List.map_cons, List.sum_cons, add_assoc]
  obtain ⟨h1, h2⟩ := key l (ofRat 0) (valid_ofRat 0) h
  refine ⟨h1, fun i => ?_⟩
  have h3 := h2 i
  rw [toMv_ofRat] at h3
  rw [sumGDual, h3]; simp

include ι K in
/-- **C14.** The homogeneous parts of degree `0..order` add up to the gdual. -/
theorem C14_partition (hd : d.Valid) {part : ℕ → GDual C}
    (hp : ∀ k, k ≤ d.getOrder → d.extractTerms k = .ok (part k)) :
    GDual.eq (sumGDual ((List.range (d.getOrder + 1)).map part)) d = true := by
  have hv : ∀ g ∈ (List.range (d.getOrder + 1)).map part, g.Valid := by
    intro g hg
    obtain ⟨k, hk, rfl⟩ := List.mem_map.mp hg
    exact hd.extractTerms (hp k (by rw [List.mem_range] at hk; omega))
  obtain ⟨h1, h2⟩ := sumGDual_spec (ι := ι) (K := K) _ hv
  refine eq_of_toMv (ι := ι) (K := K) h1 hd fun i => ?_
  rw [h2, List.map_map]
  ext e
  have h3 : ((List.range (d.getOrder + 1)).map ((fun g => g.toMv i) ∘ part)).sum =
      ∑ k ∈ Finset.range (d.getOrder + 1), ((part k).toMv i : MvPolynomial String K) := by
    rw [← List.sum_toFinset _ List.nodup_range, List.toFinset_range]
    rfl
  rw [h3, coeff_sum]
  have h4 : ∀ k ∈ Finset.range (d.getOrder + 1), (coeff e ((part k).toMv i) : K) =
      if e.degree = k then coeff e (d.toMv i) else 0 := by
    intro k hk
    exact coeff_extractTerms hd (hp k (by rw [Finset.mem_range] at hk; omega)) i e
  rw [Finset.sum_congr rfl h4, Finset.sum_ite_eq]
  split_ifs with h5
  · rfl
  · rw [Finset.mem_range, not_lt] at h5
    exact (hd.degLE i e (by have : d.getOrder = d.order := rfl; omega)).symm

/-- The parts exist: the hypothesis of `C14_partition` can be met for every gdual. -/
example : ∃ part : ℕ → GDual ℚ, (∀ k, k ≤ Ex.xy.getOrder → Ex.xy.extractTerms k = .ok (part k)) ∧
    (part 1).p.terms = [([1, 0], 5), ([0, 1], 2)] := by
  refine ⟨fun k => ⟨Ex.xy.p.filter fun t => Poly.keyDegree t.1 = k, k⟩, fun k hk => ?_, by decide +kernel⟩
  unfold extractTerms
  rw [if_neg (show ¬ k > Ex.xy.order from not_lt.mpr hk)]

/-- **C14, the documentation is not followed.** gdual.hpp:488 documents that the order of the original gdual is preserved; the
order of the result is the requested degree. -/
theorem C14_order_not_preserved : ∃ d r : GDual ℚ, d.Valid ∧ d.extractTerms 1 = .ok r ∧ r.getOrder ≠ d.getOrder :=
  ⟨Ex.xy, _, Ex.xy_valid, rfl, by decide⟩

omit [Cf C] in
/-- **C14 (partial).** The order of the result is the requested degree (so it is preserved only for `k = order`). -/
theorem C14_order_partial {k : ℕ} (h : d.extractTerms k = .ok r) : r.getOrder = k := by
  unfold extractTerms at h
  split_ifs at h
  injection h with h
  rw [← h]; rfl

/-! ## C15 evaluation -/

/-- **C15.** `evaluate` succeeds iff the dictionary has a value for every symbol of the gdual, and throws
`std::invalid_argument` otherwise. -/
theorem C15_evaluate_throws (d : GDual C) (dict : List (String × C)) :
    ((∃ c, d.evaluate dict = .ok c) ↔ ∀ s ∈ d.p.syms, (dict.lookup s).isSome = true) ∧
    ((¬ ∀ s ∈ d.p.syms, (dict.lookup s).isSome = true) → d.evaluate dict = .error .invalidArgument) := by
  unfold GDual.evaluate Poly.evaluate
  constructor
  · constructor
    · rintro ⟨c, h⟩
      split_ifs at h with h1
      rwa [List.all_eq_true] at h1
    · intro h
      rw [if_pos (List.all_eq_true.mpr h)]
      exact ⟨_, rfl⟩
  · intro h
    rw [if_neg (by rwa [List.all_eq_true])]

/-- **C15.** The value is the value of the polynomial, in each lane. -/
theorem C15_evaluate_value {dict : List (String × C)} {c : C} (h : d.evaluate dict = .ok c) (i : ι) :
    (Lanes.lane i c : K) = eval (fun s => Lanes.lane i ((dict.lookup s).getD Cf.zero)) (d.toMv i) :=
  Poly.lane_evaluate h i

/-- **C15.** Evaluation is a homomorphism: when both operands can be evaluated so can the sum, difference,
opposite and product, with the expected values; for the product if `degree a + degree b` does not exceed the larger order. -/
theorem C15_homomorphism (ha : a.Valid) (hb : b.Valid) {dict : List (String × C)} {u v : C}
    (hu : a.evaluate dict = .ok u) (hv : b.evaluate dict = .ok v) :
    (∃ w, (a.add b).evaluate dict = .ok w ∧ ∀ i : ι, (Lanes.lane i w : K) = Lanes.lane i u + Lanes.lane i v) ∧
    (∃ w, (a.sub b).evaluate dict = .ok w ∧ ∀ i : ι, (Lanes.lane i w : K) = Lanes.lane i u - Lanes.lane i v) ∧
    (∃ w, a.neg.evaluate dict = .ok w ∧ ∀ i : ι, (Lanes.lane i w : K) = -Lanes.lane i u) ∧
    (a.degree + b.degree ≤ max a.getOrder b.getOrder →
      ∃ w, (a.mul b).evaluate dict = .ok w ∧ ∀ i : ι, (Lanes.lane i w : K) = Lanes.lane i u * Lanes.lane i v) := by
  have ha' := (C15_evaluate_throws a dict).1.mp ⟨u, hu⟩
  have hb' := (C15_evaluate_throws b dict).1.mp ⟨v, hv⟩
  have hm : ∀ s ∈ mergeSyms a.p.syms b.p.syms, (dict.lookup s).isSome = true := by
    intro s hs
    rcases mem_mergeSyms.mp hs with h | h
    · exact ha' s h
    · exact hb' s h
  refine ⟨?_, ?_, ?_, ?_⟩
  · obtain ⟨w, hw⟩ := (C15_evaluate_throws (a.add b) dict).1.mpr hm
    refine ⟨w, hw, fun i => ?_⟩
    rw [C15_evaluate_value hw, C15_evaluate_value hu, C15_evaluate_value hv, toMv_add ha hb, map_add]
  · obtain ⟨w, hw⟩ := (C15_evaluate_throws (a.sub b) dict).1.mpr hm
    refine ⟨w, hw, fun i => ?_⟩
    rw [C15_evaluate_value hw, C15_evaluate_value hu, C15_evaluate_value hv, toMv_sub ha hb, map_sub]
  · obtain ⟨w, hw⟩ := (C15_evaluate_throws a.neg dict).1.mpr ha'
    refine ⟨w, hw, fun i => ?_⟩
    rw [C15_evaluate_value hw, C15_evaluate_value hu, toMv_neg, map_neg]
  · intro hdeg
    obtain ⟨w, hw⟩ := (C15_evaluate_throws (a.mul b) dict).1.mpr hm
    refine ⟨w, hw, fun i => ?_⟩
    have h1 : ((a.mul b).toMv i : MvPolynomial String K) = a.toMv i * b.toMv i := by
      ext e
      rw [coeff_mul' ha hb]
      split_ifs with he
      · rfl
      · rw [coeff_mul]
        refine (Finset.sum_eq_zero fun x hx => ?_).symm
        rw [Finset.mem_antidiagonal] at hx
        have h2 : x.1.degree + x.2.degree = e.degree := by rw [← hx, map_add]
        rcases lt_or_ge a.degree x.1.degree with h3 | h3
        · rw [GDual.toMv, Poly.degLE_toMv ha.wf (fun t ht => Poly.le_degree ht) i x.1 h3, zero_mul]
        · have h4 : b.degree < x.2.degree := by
            have : max a.getOrder b.getOrder = max a.order b.order := rfl
            omega
          have h5 : coeff x.2 (b.toMv i) = (0 : K) :=
            Poly.degLE_toMv hb.wf (fun t ht => Poly.le_degree ht) i x.2 h4
          rw [h5, mul_zero]
    rw [C15_evaluate_value hw, C15_evaluate_value hu, C15_evaluate_value hv, h1, map_mul]

example : Ex.x.evaluate [("dy", 2), ("dx", 3)] = .ok 5 ∧ Ex.y.evaluate [("dy", 2), ("dx", 3)] = .ok 7 ∧
    Ex.xy.evaluate [("dy", 2), ("dx", 3)] = .ok 35 ∧ Ex.x.degree + Ex.y.degree ≤ max Ex.x.getOrder Ex.y.getOrder ∧
    Ex.x.evaluate [("dy", 2)] = .error .invalidArgument := by
  refine ⟨?_, ?_, ?_, ?_, ?_⟩ <;> decide +kernel

/-! ## C17 extension of the symbol set -/

/-- **C17.** If all the names begin with `d`, the call succeeds: coefficients and order do not change, the new symbol set is
the sorted union, and every evaluation that gave a value before gives the same value when the new symbols are given any
value. -/
theorem C17_extend (hd : d.Valid) (names : List String) (hn : ∀ s ∈ names, s.toList.head? = some 'd') :
    ∃ r, d.extendSymbolSet names = .ok r ∧ r.Valid ∧ r.getOrder = d.getOrder ∧
      r.p.syms.Pairwise (· < ·) ∧ (∀ s, s ∈ r.p.syms ↔ s ∈ d.p.syms ∨ s ∈ names) ∧
      (∀ (i : ι) (e : String →₀ ℕ), (coeff e (r.toMv i) : K) = coeff e (d.toMv i)) ∧
      GDual.eq r d = true ∧
      ∀ (dict : List (String × C)) (u : C), r.evaluate dict = .ok u →
        ∃ v, d.evaluate dict = .ok v ∧ ∀ i : ι, (Lanes.lane i u : K) = Lanes.lane i v := by
  have he := (extendSymbolSet_ok (d := d) (names := names)).mpr ⟨hn, rfl⟩
  have hv := hd.extendSymbolSet he
  have ht := fun i : ι => toMv_extendSymbolSet hd he i (K := K)
  have hs : ∀ s, s ∈ mergeSyms d.p.syms (mergeSyms [] names) ↔ s ∈ d.p.syms ∨ s ∈ names := by
    intro s; rw [mem_mergeSyms, mem_mergeSyms]; simp
  refine ⟨_, he, hv, rfl, hv.wf.sorted, hs, fun i e => by rw [ht], eq_of_toMv (ι := ι) (K := K) hv hd ht, ?_⟩
  intro dict u hu
  have h1 := (C15_evaluate_throws _ dict).1.mp ⟨u, hu⟩
  obtain ⟨v, hv⟩ := (C15_evaluate_throws d dict).1.mpr fun s hs' => h1 s ((hs s).mpr (Or.inl hs'))
  refine ⟨v, hv, fun i => ?_⟩
  rw [C15_evaluate_value hu, C15_evaluate_value hv, ht]

/-- **C17.** If a name is empty or does not begin with `d` the call throws (the polynomial is assigned only after all the
checks, so the object is left as it was). -/
theorem C17_extend_throws (d : GDual C) (names : List String) (hn : ∃ s ∈ names, s.toList.head? ≠ some 'd') :
    ∃ ex, d.extendSymbolSet names = .error ex := by
  cases h : d.extendSymbolSet names with
  | error ex => exact ⟨ex, rfl⟩
  | ok r =>
    obtain ⟨s, hs, h1⟩ := hn
    exact absurd ((extendSymbolSet_ok.mp h).1 s hs) h1

example : Ex.y.extendSymbolSet ["dz", "da", "dy"] = .ok ⟨⟨["da", "dy", "dz"], [([0, 1, 0], 1), ([0, 0, 0], 5)]⟩, 3⟩ ∧
    Ex.y.extendSymbolSet ["dz", "q"] = .error .invalidArgument := by
  constructor <;> decide +kernel

/-! ## C18 constructor -/

/-- **C18.** The constructor throws iff the order is at least `UINT_MAX - 10` or the name is empty or starts with `d`. -/
theorem C18_throws_iff (v : C) (name : String) (order : ℕ) :
    (∃ ex, mk3 v name order = .error ex) ↔
      4294967295 - 10 ≤ order ∨ name = "" ∨ name.toList.head? = some 'd' := by
  have h := fun r => mk3_ok (v := v) (s := name) (n := order) (r := r)
  have hU : UINT_MAX = 4294967295 := rfl
  rw [hU] at h
  have hempty : name = "" ↔ name.toList.head? = none := by
    rw [List.head?_eq_none_iff]
    constructor
    · rintro rfl; rfl
    · intro h; exact String.toList_inj.mp h
  rw [hempty]
  constructor
  · rintro ⟨ex, hex⟩
    by_contra hc
    push Not at hc
    obtain ⟨h1, h2, h3⟩ := hc
    obtain ⟨c, hc⟩ := Option.ne_none_iff_exists'.mp h2
    have := (h _).mpr ⟨h1, ⟨c, hc, fun e => h3 (e ▸ hc)⟩, rfl⟩
    rw [hex] at this
    cases this
  · intro hcases
    cases hm : mk3 v name order with
    | error ex => exact ⟨ex, rfl⟩
    | ok r =>
      obtain ⟨h1, ⟨c, hc, hd⟩, _⟩ := (h r).mp hm
      rcases hcases with h2 | h2 | h2
      · exact absurd h1 (not_lt.mpr h2)
      · rw [h2] at hc; cases hc
      · rw [h2] at hc; injection hc with hc; exact absurd hc.symm hd

include ι K in
/-- **C18.** When it does not throw: value `v`, symbol set `{name}`, the given order, derivative 1 with respect to the
variable if the order is at least 1, and degree 0 if the order is 0. -/
theorem C18_constructed {v : C} {name : String} {order : ℕ} (h : mk3 v name order = .ok r) :
    r.Valid ∧ r.getOrder = order ∧ r.symbolSet = [name] ∧
      (∃ c, r.constantCf = .ok c ∧ ∀ i : ι, (Lanes.lane i c : K) = Lanes.lane i v) ∧
      (1 ≤ order → ∃ c, r.getDerivative [1] = .ok c ∧ ∀ i : ι, (Lanes.lane i c : K) = 1) ∧
      (order = 0 → r.degree = 0) ∧
      (∀ (i : ι) (e : String →₀ ℕ), e ≠ 0 → e ≠ Finsupp.single ("d" ++ name) 1 → (coeff e (r.toMv i) : K) = 0) := by
  have hv := valid_mk3 (ι := ι) (K := K) h
  have ho := order_mk3 h
  have hs := syms_mk3 h
  have ht := fun i : ι => toMv_mk3 (K := K) h i
  refine ⟨hv, ho, ?_, ?_, ?_, ?_, ?_⟩
  · unfold symbolSet; rw [hs]
    simp
  · obtain ⟨c, hc⟩ := constantCf_isOk r
    refine ⟨c, hc, fun i => ?_⟩
    rw [lane_constantCf hv hc, ht, coeff_add, coeff_C, if_pos rfl]
    split_ifs
    · simp
    · simp
  · intro h1
    obtain ⟨c, hc⟩ := findCf_isOk (d := r) (e := [1]) (by simpa [ho] using h1) (by rw [hs]; rfl)
    have hg : r.getDerivative [1] = .ok (Cf.mul c (Cf.ofRat 1)) := by
      unfold getDerivative; rw [hc]; simp [bind, Except.bind]
    refine ⟨_, hg, fun i => ?_⟩
    rw [Lanes.lane_mul, Lanes.lane_ofRat, lane_findCf hv hc, ht, hs, if_neg (by omega)]
    have hne : (0 : String →₀ ℕ) ≠ Finsupp.single ("d" ++ name) 1 := fun h => by
      have := DFunLike.congr_fun h ("d" ++ name)
      simp at this
    simp [toExp, coeff_add, coeff_C, hne]
  · intro h0
    refine Nat.le_zero.mp ?_
    refine Poly.degree_le fun t ht' => ?_
    have := hv.deg t ht'
    rw [ho, h0] at this
    exact this
  · intro i e h1 h2
    rw [ht, coeff_add, coeff_C, if_neg (Ne.symm h1)]
    split_ifs
    · simp
    · simp [coeff_X, Ne.symm h2]

example : mk3 (2 : ℚ) "x" 3 = .ok Ex.x ∧ mk3 (2 : ℚ) "dx" 3 = .error .invalidArgument ∧
    mk3 (2 : ℚ) "" 3 = .error .outOfRange ∧ mk3 (2 : ℚ) "x" 4294967290 = .error .invalidArgument := by
  refine ⟨?_, ?_, ?_, ?_⟩ <;> decide +kernel

/-! ## C19 constant coefficient and ordering -/

/-- **C19.** `constant_cf` never throws, and equals the evaluation with all variations set to zero. -/
theorem C19_constant_cf (hd : d.Valid) :
    ∃ c, d.constantCf = .ok c ∧ (∀ i : ι, (Lanes.lane i c : K) = eval (fun _ => 0) (d.toMv i)) ∧
      ∃ v, d.evaluate (d.p.syms.map fun s => (s, Cf.zero)) = .ok v ∧
        ∀ i : ι, (Lanes.lane i c : K) = Lanes.lane i v := by
  obtain ⟨c, hc⟩ := constantCf_isOk d
  have h0 : ∀ i : ι, (Lanes.lane i c : K) = eval (fun _ => 0) (d.toMv i) := by
    intro i
    rw [lane_constantCf hd hc, ← constantCoeff_eq]
    rw [eval_zero']
  have hl : ∀ (l : List String) (s : String), ((l.map fun s => (s, (Cf.zero : C))).lookup s) =
      if s ∈ l then some Cf.zero else none := by
    intro l s
    induction l with
    | nil => simp
    | cons t l ih =>
      rw [List.map_cons, List.lookup_cons, ih]
      by_cases h : s = t
      · subst h; simp
      · have : (s == t) = false := beq_eq_false_iff_ne.mpr h
        simp [h, this]
  obtain ⟨v, hv⟩ := (C15_evaluate_throws d (d.p.syms.map fun s => (s, Cf.zero))).1.mpr fun s hs => by
    rw [hl, if_pos hs]; rfl
  refine ⟨c, hc, h0, v, hv, fun i => ?_⟩
  rw [h0, C15_evaluate_value hv]
  congr 2
  funext s
  rw [hl]
  split_ifs <;> simp [Poly.lane_zero]

end Extract

section Order

variable {K : Type} [Field K] [LinearOrder K] {a b c : GDual K}

/-- **C19.** For scalar coefficients `a < b`, `a > b` never throw and compare the values. -/
theorem C19_lt_gt (a b : GDual K) :
    ∃ u v, a.constantCf = .ok u ∧ b.constantCf = .ok v ∧ a.lt b = .ok (decide (u < v)) ∧
      a.gt b = .ok (decide (v < u)) := by
  obtain ⟨u, hu⟩ := constantCf_isOk a
  obtain ⟨v, hv⟩ := constantCf_isOk b
  refine ⟨u, v, hu, hv, ?_, ?_⟩
  · unfold GDual.lt; rw [hu, hv]; rfl
  · unfold GDual.gt; rw [hu, hv]; rfl

/-- **C19.** `<` is a strict weak order and `>` is its converse. -/
theorem C19_strict_weak_order (a b c : GDual K) :
    a.lt a = .ok false ∧ (a.lt b = .ok true → b.lt a = .ok false) ∧
    (a.lt b = .ok true → b.lt c = .ok true → a.lt c = .ok true) ∧
    (a.lt b = .ok false → b.lt c = .ok false → a.lt c = .ok false) ∧ a.gt b = b.lt a := by
  obtain ⟨u, hu⟩ := constantCf_isOk a
  obtain ⟨v, hv⟩ := constantCf_isOk b
  obtain ⟨w, hw⟩ := constantCf_isOk c
  have key : ∀ (x y : GDual K) (s t : K), x.constantCf = .ok s → y.constantCf = .ok t →
      x.lt y = .ok (decide (s < t)) ∧ x.gt y = .ok (decide (t < s)) := by
    intro x y s t h1 h2
    constructor
    · unfold GDual.lt; rw [h1, h2]; rfl
    · unfold GDual.gt; rw [h1, h2]; rfl
  rw [(key a a u u hu hu).1, (key a b u v hu hv).1, (key b a v u hv hu).1, (key b c v w hv hw).1,
    (key a c u w hu hw).1, (key a b u v hu hv).2]
  simp only [Except.ok.injEq, decide_eq_true_eq, decide_eq_false_iff_not, lt_irrefl, not_false_eq_true, not_lt,
    true_and, and_true]
  exact ⟨le_of_lt, lt_trans, fun h1 h2 => le_trans h2 h1⟩

end Order

example : Ex.x.lt Ex.y = .ok true ∧ Ex.x.gt Ex.y = .ok false := by constructor <;> decide +kernel

end Audi
