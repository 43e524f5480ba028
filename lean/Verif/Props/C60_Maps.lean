import Verif.Props.C13_Terms
import Verif.Proofs.InvertMap

/-! # C60: operators on Taylor maps -/

namespace Audi

open MvPolynomial Spec TMap

section gen
variable {C : Type} [Cf C] {ι : Type} {K : Type} [Field K] [Lanes C ι K] {A B : List (GDual C)}

/-- **C60.** The sum of two maps of the same size is made component by component. -/
theorem C60_add (hl : A.length = B.length) (hA : ∀ a ∈ A, a.Valid) (hB : ∀ b ∈ B, b.Valid) :
    ∃ R, TMap.add A B = .ok R ∧ R.length = A.length ∧ ∀ (k : ℕ) (a b : GDual C), A[k]? = some a → B[k]? = some b →
      ∃ r, R[k]? = some r ∧ r.Valid ∧ r.getOrder = max a.getOrder b.getOrder ∧
        ∀ i : ι, (r.toMv i : MvPolynomial String K) = a.toMv i + b.toMv i := by
  refine ⟨_, if_pos hl.ge, by rw [List.length_zipWith, hl, min_self], fun k a b ha hb => ⟨a.add b, ?_, ?_, rfl, fun i => ?_⟩⟩
  · rw [List.getElem?_zipWith, ha, hb]
  · exact (hA a (List.mem_of_getElem? ha)).add (hB b (List.mem_of_getElem? hb))
  · exact GDual.toMv_add (hA a (List.mem_of_getElem? ha)) (hB b (List.mem_of_getElem? hb)) i

/-- **C60.** The difference of two maps of the same size is made component by component. -/
theorem C60_sub (hl : A.length = B.length) (hA : ∀ a ∈ A, a.Valid) (hB : ∀ b ∈ B, b.Valid) :
    ∃ R, TMap.sub A B = .ok R ∧ R.length = A.length ∧ ∀ (k : ℕ) (a b : GDual C), A[k]? = some a → B[k]? = some b →
      ∃ r, R[k]? = some r ∧ r.Valid ∧ r.getOrder = max a.getOrder b.getOrder ∧
        ∀ i : ι, (r.toMv i : MvPolynomial String K) = a.toMv i - b.toMv i := by
  refine ⟨_, if_pos hl.ge, by rw [List.length_zipWith, hl, min_self], fun k a b ha hb => ⟨a.sub b, ?_, ?_, rfl, fun i => ?_⟩⟩
  · rw [List.getElem?_zipWith, ha, hb]
  · exact (hA a (List.mem_of_getElem? ha)).sub (hB b (List.mem_of_getElem? hb))
  · exact GDual.toMv_sub (hA a (List.mem_of_getElem? ha)) (hB b (List.mem_of_getElem? hb)) i

/-- **C60.** The multiple of a map by a scalar is made component by component. -/
theorem C60_smul (c : C) (hA : ∀ a ∈ A, a.Valid) :
    (TMap.smul c A).length = A.length ∧ ∀ (k : ℕ) (a : GDual C), A[k]? = some a →
      ∃ r, (TMap.smul c A)[k]? = some r ∧ r.Valid ∧ r.getOrder = a.getOrder ∧
        ∀ i : ι, (r.toMv i : MvPolynomial String K) = MvPolynomial.C (Lanes.lane i c) * a.toMv i := by
  refine ⟨by unfold TMap.smul; rw [List.length_map], fun k a ha => ⟨a.mulGS c, ?_, ?_, ?_, fun i => ?_⟩⟩
  · unfold TMap.smul; rw [List.getElem?_map, ha]; rfl
  · exact (hA a (List.mem_of_getElem? ha)).mulGS c
  · exact GDual.order_mulGS c a
  · rw [GDual.toMv_mulGS _ (hA a (List.mem_of_getElem? ha)), mul_comm]

/-- **C60.** Maps of different sizes: reading components that the first map does not have is undefined behaviour. -/
theorem C60_size (h : A.length < B.length) :
    TMap.add A B = .error .undefinedBehaviour ∧ TMap.sub A B = .error .undefinedBehaviour :=
  ⟨if_neg (by omega), if_neg (by omega)⟩

/-- **C60 (partial).** Composition is simultaneous substitution, up to the order of each component, when the maps do not share
variables and the components of `B` have no constant term. The full claim is for all maps without shared variables; it is false when `B`
has constant terms (`C60_compose_counterexample`). -/
theorem C60_compose_partial {a0 : GDual C} (h0 : A[0]? = some a0) (hA : ∀ a ∈ A, a.Valid) (hB : ∀ b ∈ B, b.Valid)
    (hn : ∀ s ∈ a0.p.syms, ∃ t, s = "d" ++ t) (hl : B.length ≤ a0.symbolSet.length) (hd : ∀ b ∈ B, ∀ s ∈ b.p.syms, s ∉ a0.p.syms)
    (hc : ∀ b ∈ B, ∀ i : ι, coeff 0 (b.toMv i : MvPolynomial String K) = 0) :
    ∃ R, TMap.compose A B = .ok R ∧ R.length = A.length ∧ ∀ (k : ℕ) (a : GDual C), A[k]? = some a →
      ∃ r, R[k]? = some r ∧ r.Valid ∧ r.getOrder = a.getOrder ∧
        ∀ i : ι, EqUpTo a.getOrder (r.toMv i : MvPolynomial String K) (substAt (a0.p.syms.zip (B.map fun b => b.toMv i)) (a.toMv i)) := by
  have hcomp : TMap.compose A B = .ok (A.map fun a => substAll a (a0.symbolSet.zip B)) := by
    cases A with
    | nil => exact absurd h0 (by simp)
    | cons a l =>
      obtain rfl : a = a0 := by simpa using h0
      exact if_pos hl
  have hz : ∀ x ∈ a0.symbolSet.zip B, x.1 ∈ a0.symbolSet ∧ x.2 ∈ B := fun x hx => List.of_mem_zip (a := x.1) (b := x.2) hx
  have hsy : (a0.symbolSet.map fun s => "d" ++ s) = a0.p.syms := by
    unfold GDual.symbolSet
    rw [List.map_map]
    conv_rhs => rw [← List.map_id a0.p.syms]
    refine List.map_congr_left fun s h => ?_
    obtain ⟨t, rfl⟩ := hn s h
    simp only [Function.comp, strip_d, id]
  refine ⟨_, hcomp, by rw [List.length_map], fun k a ha => ?_⟩
  have hav := hA a (List.mem_of_getElem? ha)
  have hv := valid_substAll (ι := ι) (K := K) (a0.symbolSet.zip B) hav fun x hx => hB _ (hz x hx).2
  refine ⟨substAll a (a0.symbolSet.zip B), by rw [List.getElem?_map, ha]; rfl, hv.1, hv.2, fun i => ?_⟩
  have h := substAll_spec (a0.symbolSet.zip B) hav (fun x hx => hB _ (hz x hx).2) i (fun x hx => hc _ (hz x hx).2 i)
    (List.pairwise_of_forall_mem_list fun x hx y hy => ⟨{t | t ∈ x.2.p.syms}, toMv_mem_supported _ i (fun _ h => h), fun hmem =>
      hd x.2 (hz x hx).2 _ hmem (by rw [← hsy]; exact List.mem_map.mpr ⟨y.1, (hz y hy).1, rfl⟩)⟩)
  have e : (pairs i (a0.symbolSet.zip B) : List (String × MvPolynomial String K)) = a0.p.syms.zip (B.map fun b => b.toMv i) := by
    rw [← hsy, List.zip_map]
    rfl
  rwa [e] at h

end gen

section trim
variable {C : Type} [CfOrd C] {ι : Type} {K : Type} [Field K] [LinearOrder K] [IsStrictOrderedRing K] [Lanes C ι K] [LanesOrd C ι K] {A : List (GDual C)}

omit [IsStrictOrderedRing K] in
include ι K in
/-- **C60.** `trim` acts on each component. -/
theorem C60_trim {eps : ℚ} (h0 : 0 ≤ eps) (hA : ∀ a ∈ A, a.Valid) :
    ∃ R, TMap.trim A eps = .ok R ∧ R.length = A.length ∧ ∀ (k : ℕ) (a : GDual C), A[k]? = some a →
      ∃ r, R[k]? = some r ∧ r.getOrder = a.getOrder ∧ r.p.syms = a.p.syms ∧ r.Valid ∧
      (∀ e : String →₀ ℕ, (∃ i : ι, (eps : K) ≤ |(coeff e (a.toMv i) : K)|) → ∀ i : ι, (coeff e (r.toMv i) : K) = coeff e (a.toMv i)) ∧
      (∀ e : String →₀ ℕ, (∀ i : ι, |(coeff e (a.toMv i) : K)| < (eps : K)) → ∀ i : ι, (coeff e (r.toMv i) : K) = 0) := by
  obtain ⟨R, h1, h2, h3⟩ := mapM_get (f := fun a : GDual C => a.trim eps) (l := A)
    (Q := fun k r => ∀ a, A[k]? = some a → r.getOrder = a.getOrder ∧ r.p.syms = a.p.syms ∧ r.Valid ∧
      (∀ e : String →₀ ℕ, (∃ i : ι, (eps : K) ≤ |(coeff e (a.toMv i) : K)|) → ∀ i : ι, (coeff e (r.toMv i) : K) = coeff e (a.toMv i)) ∧
      (∀ e : String →₀ ℕ, (∀ i : ι, |(coeff e (a.toMv i) : K)| < (eps : K)) → ∀ i : ι, (coeff e (r.toMv i) : K) = 0)) fun k hk => by
      obtain ⟨r, r1, r2⟩ := (C13_trim (ι := ι) (K := K) (eps := eps) (hA _ (List.getElem_mem hk))).2 h0
      refine ⟨r, r1, fun a ha => ?_⟩
      rw [List.getElem?_eq_getElem hk] at ha
      injection ha with ha
      subst ha
      exact r2
  refine ⟨R, h1, h2, fun k a ha => ?_⟩
  obtain ⟨hk, -⟩ := List.getElem?_eq_some_iff.mp ha
  have hk' : k < R.length := by rw [h2]; exact hk
  exact ⟨R[k], List.getElem?_eq_getElem hk', h3 k hk' a ha⟩

/-- **C60.** `trim` with a negative threshold throws. -/
theorem C60_trim_throws {eps : ℚ} (h0 : eps < 0) (hA : A ≠ []) : TMap.trim A eps = .error .invalidArgument := by
  cases A with
  | nil => exact absurd rfl hA
  | cons a l =>
    unfold TMap.trim
    rw [List.mapM_cons, bind_error (show a.trim eps = .error .invalidArgument from if_pos h0)]

end trim

/-! Examples. -/

/-- The map `(x, y) ↦ (x y, x + y²)` of order 2. -/
def mapA : List (GDual ℚ) := [⟨⟨["dx", "dy"], [([1, 1], 1)]⟩, 2⟩, ⟨⟨["dx", "dy"], [([1, 0], 1), ([0, 2], 1)]⟩, 2⟩]
/-- The map `(u, v) ↦ (u + v, v)` of order 2. -/
def mapB : List (GDual ℚ) := [⟨⟨["du", "dv"], [([1, 0], 1), ([0, 1], 1)]⟩, 2⟩, ⟨⟨["du", "dv"], [([0, 1], 1)]⟩, 2⟩]
/-- The map `(u, v) ↦ (u², 1 + v)` of order 2, with a constant term. -/
def mapC : List (GDual ℚ) := [⟨⟨["du", "dv"], [([2, 0], 1)]⟩, 2⟩, ⟨⟨["du", "dv"], [([0, 0], 1), ([0, 1], 1)]⟩, 2⟩]

theorem valid_mapA : ∀ a ∈ mapA, a.Valid := by
  have h : ∀ d ∈ mapA, (d.p.syms.Pairwise (· < ·) ∧ (∀ t ∈ d.p.terms, t.1.length = d.p.syms.length) ∧ (d.p.terms.map (·.1)).Nodup ∧
    (∀ t ∈ d.p.terms, Cf.isZero t.2 = false)) ∧ ∀ t ∈ d.p.terms, t.1.sum ≤ d.order := by decide +kernel
  intro d hd
  obtain ⟨⟨a, b, c, d'⟩, e⟩ := h d hd
  exact ⟨⟨a, b, c, d'⟩, e⟩

theorem valid_mapB : ∀ a ∈ mapB, a.Valid := by
  have h : ∀ d ∈ mapB, (d.p.syms.Pairwise (· < ·) ∧ (∀ t ∈ d.p.terms, t.1.length = d.p.syms.length) ∧ (d.p.terms.map (·.1)).Nodup ∧
    (∀ t ∈ d.p.terms, Cf.isZero t.2 = false)) ∧ ∀ t ∈ d.p.terms, t.1.sum ≤ d.order := by decide +kernel
  intro d hd
  obtain ⟨⟨a, b, c, d'⟩, e⟩ := h d hd
  exact ⟨⟨a, b, c, d'⟩, e⟩

theorem valid_mapC : ∀ a ∈ mapC, a.Valid := by
  have h : ∀ d ∈ mapC, (d.p.syms.Pairwise (· < ·) ∧ (∀ t ∈ d.p.terms, t.1.length = d.p.syms.length) ∧ (d.p.terms.map (·.1)).Nodup ∧
    (∀ t ∈ d.p.terms, Cf.isZero t.2 = false)) ∧ ∀ t ∈ d.p.terms, t.1.sum ≤ d.order := by decide +kernel
  intro d hd
  obtain ⟨⟨a, b, c, d'⟩, e⟩ := h d hd
  exact ⟨⟨a, b, c, d'⟩, e⟩

example : ∃ R, TMap.add mapA mapB = .ok R ∧ R.length = mapA.length ∧ ∀ (k : ℕ) (a b : GDual ℚ), mapA[k]? = some a → mapB[k]? = some b →
      ∃ r, R[k]? = some r ∧ r.Valid ∧ r.getOrder = max a.getOrder b.getOrder ∧
        ∀ i : Unit, (r.toMv i : MvPolynomial String ℚ) = a.toMv i + b.toMv i := C60_add rfl valid_mapA valid_mapB

example : ∃ R, TMap.sub mapA mapB = .ok R ∧ R.length = mapA.length ∧ ∀ (k : ℕ) (a b : GDual ℚ), mapA[k]? = some a → mapB[k]? = some b →
      ∃ r, R[k]? = some r ∧ r.Valid ∧ r.getOrder = max a.getOrder b.getOrder ∧
        ∀ i : Unit, (r.toMv i : MvPolynomial String ℚ) = a.toMv i - b.toMv i := C60_sub rfl valid_mapA valid_mapB

/-- `(x y, x + y²)` composed with `(u + v, v)` is `(u v + v², u + v + v²)`. -/
example : TMap.compose mapA mapB = .ok [⟨⟨["du", "dv"], [([1, 1], 1), ([0, 2], 1)]⟩, 2⟩, ⟨⟨["du", "dv"], [([1, 0], 1), ([0, 1], 1), ([0, 2], 1)]⟩, 2⟩] := by
  decide +kernel

theorem const_mapB : ∀ b ∈ mapB, ∀ i : Unit, coeff 0 (b.toMv i : MvPolynomial String ℚ) = 0 := by
  have h : ∀ b ∈ mapB, b.constantCf = .ok 0 := by decide +kernel
  have hl : ∀ b ∈ mapB, toExp b.p.syms (List.replicate b.symbolSetSize 0) = 0 := fun b _ => TMap.toExp_replicate _ _
  intro b hb i
  have := GDual.lane_findCf (ι := Unit) (K := ℚ) (valid_mapB b hb) (h b hb) i
  rw [hl b hb] at this
  exact this.symm

/-- The hypotheses of the composition theorem are met. -/
example : ∃ R, TMap.compose mapA mapB = .ok R ∧ R.length = mapA.length ∧ ∀ (k : ℕ) (a : GDual ℚ), mapA[k]? = some a →
      ∃ r, R[k]? = some r ∧ r.Valid ∧ r.getOrder = a.getOrder ∧
        ∀ i : Unit, EqUpTo a.getOrder (r.toMv i : MvPolynomial String ℚ) (substAt (["dx", "dy"].zip (mapB.map fun b => b.toMv i)) (a.toMv i)) :=
  C60_compose_partial (a0 := ⟨⟨["dx", "dy"], [([1, 1], 1)]⟩, 2⟩) rfl valid_mapA valid_mapB (by
    intro s hs
    simp only [List.mem_cons, List.not_mem_nil, or_false] at hs
    rcases hs with rfl | rfl
    exacts [⟨"x", rfl⟩, ⟨"y", rfl⟩]) (by decide +kernel) (by decide +kernel) const_mapB

example : ∃ R, TMap.trim mapA 2 = .ok R := (C60_trim (ι := Unit) (K := ℚ) (by norm_num) valid_mapA).imp fun _ h => h.1

/-- **C60, negation.** With constant terms in `B` terms are lost: `x y` composed with `(u², 1 + v)` at order 2 is `u²`, but `operator&`
returns 0, as the substitution of `x` alone gives `u² y`, of degree 3. The maps have no variable in common. -/
theorem C60_compose_counterexample :
    (∀ a ∈ mapA, a.Valid) ∧ (∀ b ∈ mapC, b.Valid) ∧ (∀ a ∈ mapA, ∀ b ∈ mapC, ∀ s ∈ b.p.syms, s ∉ a.p.syms) ∧
    ∃ R r, TMap.compose mapA mapC = .ok R ∧ R[0]? = some r ∧
      ¬ EqUpTo 2 (r.toMv () : MvPolynomial String ℚ) (substAt (["dx", "dy"].zip (mapC.map fun b => b.toMv ())) (X "dx" * X "dy")) := by
  refine ⟨valid_mapA, valid_mapC, by decide +kernel, [⟨⟨[], []⟩, 2⟩, ⟨⟨["du", "dv"], [([2, 0], 1), ([0, 0], 1), ([0, 1], 2), ([0, 2], 1)]⟩, 2⟩], ⟨⟨[], []⟩, 2⟩, by decide +kernel, rfl, fun h => ?_⟩
  have h1 := h (Finsupp.single "du" 2) (by simp)
  have e : (mapC.map fun b => (b.toMv () : MvPolynomial String ℚ)) = [X "du" ^ 2, 1 + X "dv"] := by
    unfold mapC GDual.toMv Poly.toMv den
    simp only [List.map_cons, List.map_nil, List.sum_cons, List.sum_nil, add_zero, toExp, Finsupp.single_zero, zero_add, X_pow_eq_monomial]
    rfl
  have r0 : replacement (["dx", "dy"].zip [(X "du" ^ 2 : MvPolynomial String ℚ), 1 + X "dv"]) "dx" = X "du" ^ 2 := rfl
  have r1 : replacement (["dx", "dy"].zip [(X "du" ^ 2 : MvPolynomial String ℚ), 1 + X "dv"]) "dy" = 1 + X "dv" := rfl
  rw [e] at h1
  unfold substAt at h1
  have e2 : (X "du" ^ 2 * (1 + X "dv") : MvPolynomial String ℚ) = monomial (Finsupp.single "du" 2) 1 + monomial (Finsupp.single "du" 2 + Finsupp.single "dv" 1) 1 := by
    rw [mul_add, mul_one, X_pow_eq_monomial, X, monomial_mul, one_mul]
  rw [map_mul, aeval_X, aeval_X, r0, r1, e2, coeff_add, coeff_monomial, coeff_monomial, if_pos rfl, if_neg] at h1
  · have h2 : coeff (Finsupp.single "du" 2) (GDual.toMv () (⟨⟨[], []⟩, 2⟩ : GDual ℚ) : MvPolynomial String ℚ) = 0 := by
      unfold GDual.toMv Poly.toMv den
      simp
    rw [h2] at h1
    norm_num at h1
  · intro h
    have := DFunLike.congr_fun h "dv"
    simp at this

end Audi
