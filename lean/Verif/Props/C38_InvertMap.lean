import Verif.Proofs.InvertMap
import Mathlib.Tactic.NormNum

/-! # C38, C39, C40, C60: Taylor maps and their inversion -/

namespace Audi

open MvPolynomial Spec

namespace TMap

section field
variable {K : Type} [Field K] [LinearOrder K] {f g : List (GDual K)} {xs : List String} {m : ℕ}

theorem polys_eq (f : List (GDual K)) : polys f = mapPolys f := rfl

theorem names_eq (hf : Admissible f) (hs : IsSquare xs m f) : ∃ ss : List String, xs = ss.map fun s => "d" ++ s := by
  obtain ⟨d, hd⟩ := List.exists_mem_of_ne_nil f hs.nonempty
  refine ⟨xs.map fun s => String.ofList (s.toList.drop 1), ?_⟩
  rw [List.map_map]
  conv_lhs => rw [← List.map_id xs]
  refine List.map_congr_left fun s h => ?_
  obtain ⟨t, rfl⟩ := hf.names d hd s (by rw [hs.syms d hd]; exact h)
  simp only [Function.comp, strip_d, id]

theorem square_of {ss : List String} (hf : Admissible f) (hs : IsSquare (ss.map fun s => "d" ++ s) m f) : Square f.length m ss f :=
  ⟨rfl, by rw [← hs.size, List.length_map], hf.valid, hs.order, hs.syms⟩

theorem jac_eq {ss : List String} {n : ℕ} (h : ss.length = n) : jac n ss f = linearMatrix n (ss.map fun s => "d" ++ s) (mapPolys f) := by
  ext i j
  have hj : (j : ℕ) < ss.length := by rw [h]; exact j.2
  unfold jac linearMatrix
  rw [List.getD_eq_getElem _ _ hj, List.getD_eq_getElem _ _ (by rw [List.length_map]; exact hj), List.getElem_map]
  rfl

omit [Field K] in
theorem check_ok (hs : IsSquare xs m f) : check f = .ok () := by
  obtain ⟨h0, h1, h2, h3⟩ := hs
  cases f with
  | nil => exact absurd rfl h0
  | cons f0 l =>
    have e1 : (f0 :: l).all (fun el => decide (el.getOrder = f0.getOrder)) = true := List.all_eq_true.mpr fun d hd =>
      decide_eq_true (by rw [h2 d hd, h2 f0 (by simp)])
    have e2 : (f0 :: l).all (fun el => decide (el.symbolSet = f0.symbolSet)) = true := List.all_eq_true.mpr fun d hd =>
      decide_eq_true (by unfold GDual.symbolSet; rw [h1 d hd, h1 f0 (by simp)])
    have e3 : f0.symbolSet.length = (f0 :: l).length := by
      unfold GDual.symbolSet; rw [List.length_map, h1 f0 (by simp), h3]
    unfold check
    simp only [e1, e2, e3, Bool.not_true, Bool.false_eq_true, if_false, ne_eq, not_true_eq_false]

theorem invert_eq {ss : List String} (hs : IsSquare (ss.map fun s => "d" ++ s) m f) : invert f = invertChecked f.length m ss f := by
  unfold invert
  rw [bind_ok (check_ok hs)]
  obtain ⟨h0, h1, h2, h3⟩ := hs
  cases f with
  | nil => exact absurd rfl h0
  | cons f0 l =>
    change invertChecked _ f0.getOrder f0.symbolSet _ = _
    rw [h2 f0 (by simp), symbolSet_of_syms (h1 f0 (by simp))]

/-- A map of order 0 has no linear part. -/
theorem det_order_zero (hf : Admissible f) (hs : IsSquare xs 0 f) (ys : List String) : (linearMatrix f.length ys (mapPolys f)).det = 0 := by
  have h0 : linearMatrix f.length ys (mapPolys f) = 0 := by
    ext i j
    have hi : (i : ℕ) < f.length := i.2
    unfold linearMatrix mapPolys
    rw [List.getD_eq_getElem (List.map _ f) _ (by simp), List.getElem_map]
    exact GDual.Valid.degLE (ι := Unit) (K := K) (hf.valid _ (List.getElem_mem hi)) () _ (by
      rw [show f[(i : ℕ)].order = 0 from hs.order _ (List.getElem_mem hi)]; simp)
  have : Nonempty (Fin f.length) := ⟨⟨0, List.length_pos_iff.mpr hs.nonempty⟩⟩
  rw [h0, Matrix.det_zero]

theorem getD_polys {r : List (GDual K)} (i : ℕ) : (mapPolys r).getD i 0 = polyAt r i := rfl

theorem getD_dropConst (i : ℕ) : (dropConst (mapPolys f)).getD i 0 = polyAt f i - MvPolynomial.C (coeff 0 (polyAt f i)) := by
  by_cases h : i < f.length
  · rw [polyAt_eq h]
    unfold dropConst mapPolys
    rw [List.getD_eq_getElem _ _ (by simpa using h)]
    simp only [List.getElem_map]
  · have h1 : polyAt f i = 0 := by
      unfold polyAt polys
      exact List.getD_eq_default _ _ (by simpa using h)
    rw [h1, List.getD_eq_default _ _ (by unfold dropConst mapPolys; simpa using h)]
    simp

variable [IsStrictOrderedRing K]

theorem order_pos (hf : Admissible f) (hs : IsSquare xs m f) {ys : List String}
    (hdet : ((1 / 10 ^ 10 : ℚ) : K) ≤ |(linearMatrix f.length ys (mapPolys f)).det|) : 1 ≤ m := by
  by_contra h
  obtain rfl : m = 0 := by omega
  rw [det_order_zero hf hs, abs_zero] at hdet
  exact absurd hdet (not_le.mpr (by exact_mod_cast (by norm_num : (0 : ℚ) < 1 / 10 ^ 10)))

/-- Everything about the result for a square map. -/
theorem invert_square (hf : Admissible f) (hs : IsSquare xs m f)
    (hdet : ((1 / 10 ^ 10 : ℚ) : K) ≤ |(linearMatrix f.length xs (mapPolys f)).det|) :
    ∃ g, invert f = .ok g ∧ Inv1 f.length m g ∧ (2 ≤ m → Trimmed g) ∧ (m = 1 → ∀ d ∈ g, ∀ s, s ∈ d.p.syms ↔ s ∈ invNames f.length) ∧
      ((∀ s ∈ xs.tail, s ∉ inverseSymbols f.length) → Inv0 f.length m g ∧
        (∃ B, linearMatrix f.length xs (mapPolys f) * B = 1 ∧ B * linearMatrix f.length xs (mapPolys f) = 1 ∧
          ((m = 1 ∨ ∀ j < f.length, pos f.length j = j) → ∀ i : Fin f.length, polyAt g i - ∑ j : Fin f.length, MvPolynomial.C (B i j) *
              X ("d" ++ ("p" ++ toString (j : ℕ))) ∈ (idealOfVars String K) ^ 2) ∧
          (2 ≤ m → ∀ i : Fin f.length, polyAt g i - ∑ j : Fin f.length, MvPolynomial.C (B i j) *
              X ("d" ++ ("p" ++ toString (pos f.length j))) ∈ (idealOfVars String K) ^ 2)) ∧
        ((m = 1 ∨ ∀ j < f.length, pos f.length j = j) → ∀ i : Fin f.length,
          EqUpTo m (substAt (xs.zip (mapPolys g)) (polyAt f i - MvPolynomial.C (coeff 0 (polyAt f i)))) (X ("d" ++ ("p" ++ toString (i : ℕ)))))) := by
  have hm0 := order_pos hf hs hdet
  obtain ⟨ss, rfl⟩ := names_eq hf hs
  have hsq := square_of hf hs
  have hn : f.length ≠ 0 := fun h => hs.nonempty (List.length_eq_zero_iff.mp h)
  have hm : m < UINT_MAX - 10 := by
    obtain ⟨d, hd⟩ := List.exists_mem_of_ne_nil f hs.nonempty
    have := hf.order d hd
    rwa [hs.order d hd] at this
  rw [← jac_eq hsq.ssLen] at *
  obtain ⟨r, r1, r2, r3, r4, r5⟩ := (invertChecked_spec hn hm0 hm hsq).2 (not_lt.mpr hdet)
  obtain ⟨hAB, hBA⟩ := inverse_mul (not_lt.mpr hdet)
  refine ⟨r, (invert_eq hs).trans r1, r2, r3, r4, fun hdis => ?_⟩
  obtain ⟨k1, k2, k3, k4⟩ := r5 fun s h => hdis _ (by
    rw [← List.map_tail]; exact List.mem_map.mpr ⟨s, h, rfl⟩)
  refine ⟨k1, ⟨_, hAB, hBA, fun h i => ?_, k3⟩, k4 hAB hBA⟩
  rcases h with h | h
  · rw [k2 h, sub_self]; exact zero_mem _
  · by_cases h1 : m = 1
    · rw [k2 h1, sub_self]; exact zero_mem _
    · have := k3 (by omega) i
      convert this using 8 with j
      exact (h j j.2).symm

end field
end TMap

open TMap

section C38
variable {K : Type} [Field K] [LinearOrder K] [IsStrictOrderedRing K] {f g : List (GDual K)} {xs : List String} {m : ℕ}

/-! ## C38 -/

/-- **C38 (partial).** If the linear part is invertible, substituting the result of `invert_map` in the map without its constant part gives
the identity up to the order. The full claim is for every number of variables and all names: it is false from 11 variables on
(`C38_eleven_counterexample`) and when the names of the variables of the map are those of the inverse (`C38_names_counterexample`). -/
theorem C38_inverse_partial (hf : Admissible f) (hs : IsSquare xs m f)
    (hdet : ((1 / 10 ^ 10 : ℚ) : K) ≤ |(linearMatrix f.length xs (mapPolys f)).det|) (hn : f.length ≤ 10 ∨ m = 1)
    (hdis : ∀ s ∈ xs.tail, s ∉ inverseSymbols f.length) :
    ∃ g, invert f = .ok g ∧ g.length = f.length ∧ (∀ d ∈ g, d.Valid ∧ d.getOrder = m) ∧
      ∀ i < f.length, EqUpTo m (substAt (xs.zip (mapPolys g)) ((dropConst (mapPolys f)).getD i 0)) (X ("dp" ++ toString i)) := by
  obtain ⟨g, g1, -, -, -, g5⟩ := invert_square hf hs hdet
  obtain ⟨k1, -, k3⟩ := g5 hdis
  refine ⟨g, g1, k1.len, fun d hd => ⟨k1.valid d hd, k1.order d hd⟩, fun i hi => ?_⟩
  rw [getD_dropConst, dp_eq]
  exact k3 (hn.symm.imp id fun h j hj => pos_eq h hj) ⟨i, hi⟩

/-- **C38 (partial).** The result is also an inverse on the other side: substituting the map without its constant part in the result gives
the variables of the map. Same restrictions. -/
theorem C38_left_inverse_partial (hf : Admissible f) (hs : IsSquare xs m f)
    (hdet : ((1 / 10 ^ 10 : ℚ) : K) ≤ |(linearMatrix f.length xs (mapPolys f)).det|) (hn : f.length ≤ 10 ∨ m = 1)
    (hdis : ∀ s ∈ xs.tail, s ∉ inverseSymbols f.length) (h : invert f = .ok g) (i : ℕ) (hi : i < f.length) :
    EqUpTo m (substAt ((inverseSymbols f.length).zip (dropConst (mapPolys f))) ((mapPolys g).getD i 0)) (X (xs.getD i "")) := by
  obtain ⟨g', g1, -, -, -, g5⟩ := invert_square hf hs hdet
  obtain rfl : g' = g := by rw [h] at g1; injection g1 with g1; exact g1.symm
  obtain ⟨k1, ⟨B, -, hBA, hlin, -⟩, k3⟩ := g5 hdis
  obtain ⟨ss, rfl⟩ := names_eq hf hs
  have hcond : m = 1 ∨ ∀ j < f.length, pos f.length j = j := hn.symm.imp id fun h j hj => pos_eq h hj
  have hn0 : f.length ≠ 0 := by omega
  have hsq := square_of hf hs
  have hnd := hsq.nodup hn0
  have hj' : ∀ j : Fin f.length, (j : ℕ) < ss.length := fun j => by rw [hsq.ssLen]; exact j.2
  have hinj : Function.Injective fun j : Fin f.length => "d" ++ ("p" ++ toString (j : ℕ)) := fun a b h =>
    Fin.ext (toString_nat_inj (append_left_inj' (d_append_inj h)))
  have hndp : (inverseSymbols f.length).Nodup := by
    unfold inverseSymbols
    refine List.nodup_range.map fun a b h => ?_
    exact toString_nat_inj (append_left_inj' h)
  have key := left_inverse (m := m) (A := linearMatrix f.length (ss.map fun s => "d" ++ s) (mapPolys f)) (B := B)
    (x := fun j : Fin f.length => "d" ++ ss.getD j "") (p := fun j : Fin f.length => "d" ++ ("p" ++ toString (j : ℕ)))
    (F := fun j : Fin f.length => polyAt f j - MvPolynomial.C (coeff 0 (polyAt f j))) (G := fun j : Fin f.length => polyAt g' j)
    (s := replacement ((ss.map fun s => "d" ++ s).zip (mapPolys g'))) (u := replacement ((inverseSymbols f.length).zip (dropConst (mapPolys f))))
    hinj hBA (fun j => ?_) (fun j => ?_) (hlin hcond) (fun j => ?_) (replacement_ideal k1 _) (fun j => ?_) (fun j => ?_) (k3 hcond) ⟨i, hi⟩
  · rw [List.getD_eq_getElem (ss.map fun s => "d" ++ s) _ (by rw [List.length_map]; exact hj' ⟨i, hi⟩), List.getElem_map]
    have e := hj' ⟨i, hi⟩
    simp only [List.getD_eq_getElem _ _ e] at key
    exact key
  · have hj : (j : ℕ) < f.length := j.2
    refine sub_mem ?_ (Subalgebra.algebraMap_mem _ _)
    rw [polyAt_eq hj]
    refine toMv_mem_supported _ () fun s hs' => ?_
    rw [hs.syms _ (List.getElem_mem hj)] at hs'
    obtain ⟨t, ht, rfl⟩ := List.mem_map.mp hs'
    obtain ⟨k, hk, rfl⟩ := List.getElem_of_mem ht
    exact ⟨⟨k, by rw [← hsq.ssLen]; exact hk⟩, by simp only [List.getD_eq_getElem _ _ hk]⟩
  · have hj : (j : ℕ) < g'.length := by rw [k1.len]; exact j.2
    rw [polyAt_eq hj]
    refine supported_mono ?_ (k1.supp _ (List.getElem_mem hj))
    intro t ht
    obtain ⟨k, hk, rfl⟩ := mem_invNames.mp ht
    exact ⟨⟨k, hk⟩, rfl⟩
  · rw [mem_ideal_iff]; simp
  · have := replacement_polys (r := g') hnd hsq.ssLen k1.len j
    simp only [List.getD_eq_getElem _ _ (hj' j)]
    exact this
  · have h1 : (j : ℕ) < (inverseSymbols f.length).length := by unfold inverseSymbols; simp
    have h2 : (j : ℕ) < (dropConst (mapPolys f)).length := by unfold dropConst mapPolys; simp
    have := replacement_zip (K := K) hndp h1 h2
    have e : (inverseSymbols f.length)[(j : ℕ)] = "d" ++ ("p" ++ toString (j : ℕ)) := by
      rw [← dp_eq]; unfold inverseSymbols; simp
    rw [e] at this
    rw [this, ← getD_dropConst, List.getD_eq_getElem _ _ h2]

/-- **C38, negation.** From 11 variables on and for orders at least 2, `invert_map` never returns the inverse: the auxiliary symbol
`pdummy10` is sorted before `pdummy2`, so that the variables of the result are permuted. -/
theorem C38_eleven_counterexample (hf : Admissible f) (hs : IsSquare xs m f)
    (hdet : ((1 / 10 ^ 10 : ℚ) : K) ≤ |(linearMatrix f.length xs (mapPolys f)).det|) (hn : 11 ≤ f.length) (hm : 2 ≤ m)
    (hdis : ∀ s ∈ xs.tail, s ∉ inverseSymbols f.length) :
    ∃ g, invert f = .ok g ∧
      ¬ ∀ i < f.length, EqUpTo m (substAt (xs.zip (mapPolys g)) ((dropConst (mapPolys f)).getD i 0)) (X ("dp" ++ toString i)) := by
  obtain ⟨g, g1, -, -, -, g5⟩ := invert_square hf hs hdet
  obtain ⟨k1, ⟨B, hAB, -, -, hlin⟩, -⟩ := g5 hdis
  refine ⟨g, g1, fun hall => pos_ne hn fun i hi => ?_⟩
  obtain ⟨ss, rfl⟩ := names_eq hf hs
  have hsq := square_of hf hs
  have hnd := hsq.nodup (by omega)
  have h1 := hall i hi
  rw [getD_dropConst, dp_eq, eqUpTo_iff_mem] at h1
  have h2 := Ideal.pow_le_pow_right (show 2 ≤ m + 1 by omega) h1
  -- the map is its linear part up to degree 1
  set F := polyAt f i with hF
  have hFs : F ∈ supported K {t | t ∈ ss.map fun s => "d" ++ s} := by
    rw [hF, polyAt_eq hi]
    exact toMv_mem_supported _ () fun s hs' => by
      rw [hs.syms _ (List.getElem_mem hi)] at hs'; exact hs'
  let N : MvPolynomial String K := (F - MvPolynomial.C (coeff 0 F)) - ∑ j : Fin f.length, MvPolynomial.C (coeff (Finsupp.single ("d" ++ ss.getD j "") 1) F) * X ("d" ++ ss.getD j "")
  have hNlow : N ∈ (idealOfVars String K) ^ 2 := by
    obtain ⟨N', hN'⟩ : ∃ N' : MvPolynomial String K, ∀ e, coeff e N' = if 2 ≤ e.degree then coeff e F else 0 := by
      classical
      refine ⟨∑ e ∈ F.support.filter (fun e => 2 ≤ e.degree), monomial e (coeff e F), fun e => ?_⟩
      rw [coeff_sum]
      simp only [coeff_monomial]
      rw [Finset.sum_ite_eq']
      by_cases h : 2 ≤ e.degree
      · by_cases h' : coeff e F = 0
        · simp [h']
        · rw [if_pos (by simp [h, h']), if_pos h]
      · rw [if_neg (by simp [h]), if_neg h]
    have := decompose (n := f.length) hnd hsq.ssLen hFs hN'
    have e : N = N' := by
      simp only [N]
      rw [this, add_sub_cancel_left]
    rw [e, mem_pow_idealOfVars_iff']
    intro e he
    rw [hN', if_neg (by omega)]
  have hdec : F - MvPolynomial.C (coeff 0 F) = (∑ j : Fin f.length, MvPolynomial.C (coeff (Finsupp.single ("d" ++ ss.getD j "") 1) F) * X ("d" ++ ss.getD j "")) + N := by
    simp only [N]; ring
  rw [hdec, map_add, map_sum] at h2
  have h3 := aeval_mem_pow (replacement_ideal k1 (ss.map fun s => "d" ++ s)) hNlow
  rw [polys_eq] at h3
  have h4 : (∑ j : Fin f.length, MvPolynomial.C (linearMatrix f.length (ss.map fun s => "d" ++ s) (mapPolys f) ⟨i, hi⟩ j) * polyAt g j) -
      X ("d" ++ ("p" ++ toString i)) ∈ (idealOfVars String K) ^ 2 := by
    have := sub_mem h2 h3
    convert this using 1
    unfold substAt
    rw [add_sub_right_comm, add_sub_cancel_right]
    congr 1
    refine Finset.sum_congr rfl fun j _ => ?_
    have hj : (j : ℕ) < ss.length := by rw [hsq.ssLen]; exact j.2
    rw [map_mul, aeval_X, algHom_C, algebraMap_eq]
    have := replacement_polys (r := g) hnd hsq.ssLen k1.len j
    rw [polys_eq] at this
    rw [List.getD_eq_getElem _ _ hj, this]
    unfold linearMatrix
    rw [List.getD_eq_getElem (ss.map fun s => "d" ++ s) _ (by rw [List.length_map]; exact hj), List.getElem_map]
    rfl
  have h5 := sum_mul_mem (A := linearMatrix f.length (ss.map fun s => "d" ++ s) (mapPolys f)) (k := 2)
    (u := fun j : Fin f.length => polyAt g j) (v := fun j => ∑ l : Fin f.length, MvPolynomial.C (B j l) * X ("d" ++ ("p" ++ toString (pos f.length l))))
    (hlin hm) ⟨i, hi⟩
  rw [mulVec_cancel hAB (fun l : Fin f.length => X ("d" ++ ("p" ++ toString (pos f.length l))))] at h5
  have h6 := sub_mem h4 h5
  rw [sub_sub_sub_cancel_left] at h6
  have h7 := (mem_pow_idealOfVars_iff' 2 _).mp h6 (Finsupp.single ("d" ++ ("p" ++ toString i)) 1) (by simp)
  rw [coeff_sub, coeff_X, coeff_X, if_pos rfl] at h7
  by_contra hc
  rw [if_neg, zero_sub, neg_eq_zero] at h7
  · exact one_ne_zero h7
  · intro he
    exact hc (toString_nat_inj (append_left_inj' (d_append_inj (Finsupp.single_left_injective one_ne_zero he))))

/-! Examples. -/

/-- The identity map in the symbols `xs`. -/
def idMap (xs : List String) (m : ℕ) : List (GDual ℚ) := (List.range xs.length).map fun i => ⟨⟨xs, [(unitExp xs.length i, 1)]⟩, m⟩

theorem idMap_poly (xs : List String) (m i : ℕ) (hi : i < xs.length) : (mapPolys (idMap xs m)).getD i 0 = X (xs.getD i "") := by
  unfold mapPolys idMap
  rw [List.getD_eq_getElem _ _ (by simpa using hi), List.getD_eq_getElem _ _ hi]
  simp only [List.getElem_map, List.getElem_range]
  unfold GDual.toMv Poly.toMv den
  simp only [List.map_cons, List.map_nil, List.sum_cons, List.sum_nil, add_zero]
  rw [toExp_unitExp xs i hi]
  rfl

theorem idMap_matrix (xs : List String) (m : ℕ) (hx : xs.Nodup) {n : ℕ} (hn : n = xs.length) : linearMatrix n xs (mapPolys (idMap xs m)) = 1 := by
  subst hn
  ext i j
  unfold linearMatrix
  rw [idMap_poly xs m i i.2, coeff_X, Matrix.one_apply, List.getD_eq_getElem _ _ i.2, List.getD_eq_getElem _ _ j.2]
  refine if_congr ⟨fun h => ?_, fun h => by rw [h]⟩ rfl rfl
  exact Fin.ext ((List.Nodup.getElem_inj_iff hx).mp (Finsupp.single_left_injective one_ne_zero h))

/-- Eleven variables. -/
def eleven : List String := ["da", "db", "dc", "de", "df", "dg", "dh", "di", "dj", "dk", "dl"]

theorem eleven_names : ∀ s ∈ eleven, ∃ t, s = "d" ++ t := by
  intro s hs
  simp only [eleven, List.mem_cons, List.not_mem_nil, or_false] at hs
  rcases hs with rfl | rfl | rfl | rfl | rfl | rfl | rfl | rfl | rfl | rfl | rfl
  exacts [⟨"a", rfl⟩, ⟨"b", rfl⟩, ⟨"c", rfl⟩, ⟨"e", rfl⟩, ⟨"f", rfl⟩, ⟨"g", rfl⟩, ⟨"h", rfl⟩, ⟨"i", rfl⟩, ⟨"j", rfl⟩, ⟨"k", rfl⟩, ⟨"l", rfl⟩]

/-- The identity map in 11 variables of order 2 is not inverted. -/
example : ∃ g, invert (idMap eleven 2) = .ok g ∧
    ¬ ∀ i < 11, EqUpTo 2 (substAt (eleven.zip (mapPolys g)) ((dropConst (mapPolys (idMap eleven 2))).getD i 0)) (X ("dp" ++ toString i)) :=
  C38_eleven_counterexample (f := idMap eleven 2) (xs := eleven) (m := 2)
    ⟨fun d hd => by
      have h : ∀ d ∈ idMap eleven 2, (d.p.syms.Pairwise (· < ·) ∧ (∀ t ∈ d.p.terms, t.1.length = d.p.syms.length) ∧ (d.p.terms.map (·.1)).Nodup ∧
        (∀ t ∈ d.p.terms, Cf.isZero t.2 = false)) ∧ ∀ t ∈ d.p.terms, t.1.sum ≤ d.order := by decide +kernel
      obtain ⟨⟨a, b, c, d'⟩, e⟩ := h d hd
      exact ⟨⟨a, b, c, d'⟩, e⟩, fun d hd s hs => eleven_names s (by
        have h : ∀ d ∈ idMap eleven 2, d.p.syms = eleven := by decide +kernel
        rwa [h d hd] at hs), by decide +kernel⟩
    ⟨by decide +kernel, by decide +kernel, by decide +kernel, by decide +kernel⟩
    (by rw [idMap_matrix eleven 2 (by decide +kernel) (by decide +kernel), Matrix.det_one]; norm_num) (by decide +kernel) le_rfl (by decide +kernel)

/-- The map `(x, y) ↦ (x + y², y)`. -/
def shear : List (GDual ℚ) := [⟨⟨["dx", "dy"], [([1, 0], 1), ([0, 2], 1)]⟩, 2⟩, ⟨⟨["dx", "dy"], [([0, 1], 1)]⟩, 2⟩]

/-- The map `(p0, p1) ↦ (p1 + p0², p0)`. -/
def swap : List (GDual ℚ) := [⟨⟨["dp0", "dp1"], [([0, 1], 1), ([2, 0], 1)]⟩, 2⟩, ⟨⟨["dp0", "dp1"], [([1, 0], 1)]⟩, 2⟩]

theorem valid_of_check (d : GDual ℚ) (h : (d.p.syms.Pairwise (· < ·) ∧ (∀ t ∈ d.p.terms, t.1.length = d.p.syms.length) ∧ (d.p.terms.map (·.1)).Nodup ∧
    (∀ t ∈ d.p.terms, Cf.isZero t.2 = false)) ∧ ∀ t ∈ d.p.terms, t.1.sum ≤ d.order) : d.Valid :=
  ⟨⟨h.1.1, h.1.2.1, h.1.2.2.1, h.1.2.2.2⟩, h.2⟩

theorem shear_admissible : Admissible shear := ⟨by
    intro d hd
    refine valid_of_check d ?_
    revert d hd
    decide +kernel, fun d hd s hs => by
    have h : ∀ d ∈ shear, ∀ s ∈ d.p.syms, s = "dx" ∨ s = "dy" := by decide +kernel
    rcases h d hd s hs with rfl | rfl
    exacts [⟨"x", rfl⟩, ⟨"y", rfl⟩], by decide +kernel⟩

theorem shear_square : IsSquare ["dx", "dy"] 2 shear := ⟨by decide +kernel, by decide +kernel, by decide +kernel, by decide +kernel⟩

theorem swap_admissible : Admissible swap := ⟨by
    intro d hd
    refine valid_of_check d ?_
    revert d hd
    decide +kernel, fun d hd s hs => by
    have h : ∀ d ∈ swap, ∀ s ∈ d.p.syms, s = "dp0" ∨ s = "dp1" := by decide +kernel
    rcases h d hd s hs with rfl | rfl
    exacts [⟨"p0", rfl⟩, ⟨"p1", rfl⟩], by decide +kernel⟩

theorem swap_square : IsSquare ["dp0", "dp1"] 2 swap := ⟨by decide +kernel, by decide +kernel, by decide +kernel, by decide +kernel⟩

theorem mapPolys_shear : mapPolys shear = [X "dx" + X "dy" ^ 2, X "dy"] := by
  unfold mapPolys shear GDual.toMv Poly.toMv den
  simp only [List.map_cons, List.map_nil, List.sum_cons, List.sum_nil, add_zero, toExp, Finsupp.single_zero, zero_add, X_pow_eq_monomial]
  rfl

theorem mapPolys_swap : mapPolys swap = [X "dp1" + X "dp0" ^ 2, X "dp0"] := by
  unfold mapPolys swap GDual.toMv Poly.toMv den
  simp only [List.map_cons, List.map_nil, List.sum_cons, List.sum_nil, add_zero, toExp, Finsupp.single_zero, zero_add, X_pow_eq_monomial]
  rfl

theorem shear_det : ((1 / 10 ^ 10 : ℚ) : ℚ) ≤ |(linearMatrix shear.length ["dx", "dy"] (mapPolys shear)).det| := by
  have h : (linearMatrix shear.length ["dx", "dy"] (mapPolys shear)).det = 1 := by
    change (linearMatrix 2 _ _).det = 1
    rw [Matrix.det_fin_two, mapPolys_shear]
    simp [linearMatrix, coeff_X, coeff_X_pow, Finsupp.single_left_inj, Finsupp.single_eq_single_iff]
  rw [h]; norm_num

theorem swap_det : ((1 / 10 ^ 10 : ℚ) : ℚ) ≤ |(linearMatrix swap.length ["dp0", "dp1"] (mapPolys swap)).det| := by
  have h : (linearMatrix swap.length ["dp0", "dp1"] (mapPolys swap)).det = -1 := by
    change (linearMatrix 2 _ _).det = -1
    rw [Matrix.det_fin_two, mapPolys_swap]
    simp [linearMatrix, coeff_X, coeff_X_pow, Finsupp.single_left_inj, Finsupp.single_eq_single_iff]
  rw [h]; norm_num

/-- The map `(x + y², y)` satisfies the hypotheses of C38. -/
example : ∃ g, invert shear = .ok g ∧ g.length = 2 ∧ (∀ d ∈ g, d.Valid ∧ d.getOrder = 2) ∧
    ∀ i < 2, EqUpTo 2 (substAt (["dx", "dy"].zip (mapPolys g)) ((dropConst (mapPolys shear)).getD i 0)) (X ("dp" ++ toString i)) :=
  C38_inverse_partial shear_admissible shear_square shear_det (Or.inl (by decide)) (by decide +kernel)

/-- Its inverse is `(p0 - p1², p1)`. -/
theorem invert_shear : invert shear = .ok [⟨⟨["dp0", "dp1"], [([1, 0], 1), ([0, 2], -1)]⟩, 2⟩, ⟨⟨["dp1"], [([1], 1)]⟩, 2⟩] := by decide +kernel

example : EqUpTo 2 (substAt (["dp0", "dp1"].zip (dropConst (mapPolys shear))) ((mapPolys (K := ℚ) [⟨⟨["dp0", "dp1"], [([1, 0], 1), ([0, 2], -1)]⟩, 2⟩, ⟨⟨["dp1"], [([1], 1)]⟩, 2⟩]).getD 0 0)) (X "dx") :=
  C38_left_inverse_partial shear_admissible shear_square shear_det (Or.inl (by decide)) (by decide +kernel) invert_shear 0 (by decide)

/-- The inverse of `(p1 + p0², p0)` is `(p1, p0 - p1²)`; `invert_map` returns `(p1, p0 - p0²)`. -/
theorem invert_swap : invert swap = .ok [⟨⟨["dp1"], [([1], 1)]⟩, 2⟩, ⟨⟨["dp0"], [([1], 1), ([2], -1)]⟩, 2⟩] := by decide +kernel

/-- **C38, negation.** A map in the variables `p0`, `p1` (as made by `invert_map` itself) is not inverted: the variables of the map are
confused with those of the inverse. -/
theorem C38_names_counterexample : Admissible swap ∧ IsSquare ["dp0", "dp1"] 2 swap ∧
    ((1 / 10 ^ 10 : ℚ) : ℚ) ≤ |(linearMatrix swap.length ["dp0", "dp1"] (mapPolys swap)).det| ∧
    ∃ g, invert swap = .ok g ∧
      ¬ EqUpTo 2 (substAt (["dp0", "dp1"].zip (mapPolys g)) ((dropConst (mapPolys swap)).getD 0 0)) (X "dp0") := by
  refine ⟨swap_admissible, swap_square, swap_det, _, invert_swap, fun h => ?_⟩
  have h1 := h (Finsupp.single "dp1" 2) (by simp)
  have e : mapPolys (K := ℚ) [⟨⟨["dp1"], [([1], 1)]⟩, 2⟩, ⟨⟨["dp0"], [([1], 1), ([2], -1)]⟩, 2⟩] = [X "dp1", X "dp0" + monomial (Finsupp.single "dp0" 2) (-1)] := by
    unfold mapPolys GDual.toMv Poly.toMv den
    simp only [List.map_cons, List.map_nil, List.sum_cons, List.sum_nil, add_zero, toExp]
    rfl
  have e0 : (dropConst (mapPolys swap)).getD 0 0 = X "dp1" + X "dp0" ^ 2 := by
    rw [mapPolys_swap]
    change X "dp1" + X "dp0" ^ 2 - MvPolynomial.C (coeff 0 (X "dp1" + X "dp0" ^ 2 : MvPolynomial String ℚ)) = _
    rw [coeff_add, coeff_X_pow, coeff_X, if_neg (by simp), if_neg (by simp), add_zero, map_zero, sub_zero]
  have r0 : replacement (["dp0", "dp1"].zip [X "dp1", (X "dp0" + monomial (Finsupp.single "dp0" 2) (-1) : MvPolynomial String ℚ)]) "dp0" = X "dp1" := rfl
  have r1 : replacement (["dp0", "dp1"].zip [X "dp1", (X "dp0" + monomial (Finsupp.single "dp0" 2) (-1) : MvPolynomial String ℚ)]) "dp1" = X "dp0" + monomial (Finsupp.single "dp0" 2) (-1) := rfl
  rw [e, e0] at h1
  unfold substAt at h1
  rw [map_add, map_pow, aeval_X, aeval_X, r0, r1] at h1
  simp [coeff_X, coeff_X_pow, Finsupp.single_eq_single_iff] at h1

/-! ## C39 -/

/-- **C39 (partial).** The inverse has as many components as the map, and for all names and any number of variables its symbols are among
`p0`, ..., `p(n-1)`; for order 1 every component has all of them; for larger orders every component has exactly those that occur in it. The
full claim, that every component has all of them, is false: `C39_symbols_counterexample`. -/
theorem C39_symbols_partial (hf : Admissible f) (hs : IsSquare xs m f)
    (hdet : ((1 / 10 ^ 10 : ℚ) : K) ≤ |(linearMatrix f.length xs (mapPolys f)).det|) :
    ∃ g, invert f = .ok g ∧ g.length = f.length ∧ ∀ d ∈ g, (∀ s ∈ d.p.syms, s ∈ inverseSymbols f.length) ∧
      (m = 1 → ∀ s, s ∈ d.p.syms ↔ s ∈ inverseSymbols f.length) ∧
      (2 ≤ m → ∀ s, s ∈ d.p.syms ↔ s ∈ (d.toMv () : MvPolynomial String K).vars) := by
  obtain ⟨g, g1, g2, g3, g4, -⟩ := invert_square hf hs hdet
  have hm0 := order_pos hf hs hdet
  have hvar : ∀ d ∈ g, 2 ≤ m → ∀ s, s ∈ d.p.syms ↔ s ∈ (d.toMv () : MvPolynomial String K).vars := fun d hd h s =>
    ⟨g3 h d hd s, fun hs' => mem_supported.mp (toMv_mem_supported d () (S := {t | t ∈ d.p.syms}) fun _ h => h) hs'⟩
  refine ⟨g, g1, g2.len, fun d hd => ⟨fun s hs' => ?_, fun h => g4 h d hd, hvar d hd⟩⟩
  by_cases h : m = 1
  · exact (g4 h d hd s).mp hs'
  · exact mem_supported.mp (g2.supp d hd) ((hvar d hd (by omega) s).mp hs')

example : ∃ g, invert swap = .ok g ∧ g.length = swap.length ∧ ∀ d ∈ g, (∀ s ∈ d.p.syms, s ∈ inverseSymbols swap.length) ∧
      (2 = 1 → ∀ s, s ∈ d.p.syms ↔ s ∈ inverseSymbols swap.length) ∧
      (2 ≤ 2 → ∀ s, s ∈ d.p.syms ↔ s ∈ (d.toMv () : MvPolynomial String ℚ).vars) :=
  C39_symbols_partial swap_admissible swap_square swap_det

/-- **C39, negation.** The second component of the inverse of `(x + y², y)` does not have `p0` in its symbol set. -/
theorem C39_symbols_counterexample : Admissible shear ∧ IsSquare ["dx", "dy"] 2 shear ∧
    ((1 / 10 ^ 10 : ℚ) : ℚ) ≤ |(linearMatrix shear.length ["dx", "dy"] (mapPolys shear)).det| ∧
    ∃ g d, invert shear = .ok g ∧ d ∈ g ∧ d.symbolSet = ["p1"] :=
  ⟨shear_admissible, shear_square, shear_det, _, ⟨⟨["dp1"], [([1], 1)]⟩, 2⟩, invert_shear, by simp, by decide +kernel⟩

/-! ## C40 -/

/-- **C40.** `invert_map` throws `invalid_argument` for an empty map, different orders, different symbol sets, a number of variables
different from the size of the map, and a determinant smaller than 10⁻¹⁰; otherwise it succeeds, the components of the result being valid
gduals of the same order. -/
theorem C40_rejects (hf : Admissible f) :
    (f = [] ∨ (∃ a ∈ f, ∃ b ∈ f, a.getOrder ≠ b.getOrder) ∨ (∃ a ∈ f, ∃ b ∈ f, a.symbolSet ≠ b.symbolSet) ∨
        (∃ a ∈ f, a.symbolSet.length ≠ f.length) ∨
        (∃ a ∈ f, |(linearMatrix f.length a.p.syms (mapPolys f)).det| < ((1 / 10 ^ 10 : ℚ) : K)) → invert f = .error .invalidArgument) ∧
    (f ≠ [] → (∀ a ∈ f, ∀ b ∈ f, a.getOrder = b.getOrder) → (∀ a ∈ f, ∀ b ∈ f, a.symbolSet = b.symbolSet) →
        (∀ a ∈ f, a.symbolSet.length = f.length) →
        (∀ a ∈ f, ((1 / 10 ^ 10 : ℚ) : K) ≤ |(linearMatrix f.length a.p.syms (mapPolys f)).det|) →
      ∃ g, invert f = .ok g ∧ g.length = f.length ∧ ∀ a ∈ f, ∀ d ∈ g, d.Valid ∧ d.getOrder = a.getOrder) := by
  have hsy : ∀ a ∈ f, ∃ ss : List String, a.p.syms = ss.map (fun s => "d" ++ s) ∧ a.symbolSet = ss := fun a ha => by
    refine ⟨a.symbolSet, ?_, rfl⟩
    unfold GDual.symbolSet
    rw [List.map_map]
    conv_lhs => rw [← List.map_id a.p.syms]
    refine List.map_congr_left fun s h => ?_
    obtain ⟨t, rfl⟩ := hf.names a ha s h
    simp only [Function.comp, strip_d, id]
  have hsq : f ≠ [] → (∀ a ∈ f, ∀ b ∈ f, a.getOrder = b.getOrder) → (∀ a ∈ f, ∀ b ∈ f, a.symbolSet = b.symbolSet) →
      (∀ a ∈ f, a.symbolSet.length = f.length) → ∀ a ∈ f, IsSquare a.p.syms a.getOrder f := fun h0 h1 h2 h3 a ha => by
    refine ⟨h0, fun d hd => ?_, fun d hd => h1 d hd a ha, ?_⟩
    · obtain ⟨s1, e1, e2⟩ := hsy d hd
      obtain ⟨s2, e3, e4⟩ := hsy a ha
      rw [e1, e3, ← e2, ← e4, h2 d hd a ha]
    · rw [← h3 a ha]; unfold GDual.symbolSet; rw [List.length_map]
  constructor
  · intro h
    by_cases h0 : f = []
    · subst h0; rfl
    by_cases h1 : ∀ a ∈ f, ∀ b ∈ f, a.getOrder = b.getOrder
    · by_cases h2 : ∀ a ∈ f, ∀ b ∈ f, a.symbolSet = b.symbolSet
      · by_cases h3 : ∀ a ∈ f, a.symbolSet.length = f.length
        · obtain ⟨a, ha, hdet⟩ : ∃ a ∈ f, |(linearMatrix f.length a.p.syms (mapPolys f)).det| < ((1 / 10 ^ 10 : ℚ) : K) := by
            rcases h with h | ⟨a, ha, b, hb, h⟩ | ⟨a, ha, b, hb, h⟩ | ⟨a, ha, h⟩ | h
            · exact absurd h h0
            · exact absurd (h1 a ha b hb) h
            · exact absurd (h2 a ha b hb) h
            · exact absurd (h3 a ha) h
            · exact h
          have hs := hsq h0 h1 h2 h3 a ha
          obtain ⟨ss, e1, -⟩ := hsy a ha
          rw [e1] at hs hdet
          rw [invert_eq hs]
          have hq := square_of hf hs
          by_cases hm : a.getOrder = 0
          · -- the linear part cannot be extracted
            have hM : f.mapM (linearPart (K := K) (ss.map fun s => "d" ++ s)) = .error .invalidArgument := by
              cases hc : f with
              | nil => exact absurd hc h0
              | cons f0 l =>
                have : linearPart (K := K) (ss.map fun s => "d" ++ s) f0 = .error .invalidArgument := by
                  unfold linearPart
                  have : f0.extractTerms 1 = .error .invalidArgument := if_pos (by
                    have : f0.order = a.getOrder := h1 f0 (by rw [hc]; simp) a ha
                    omega)
                  rw [bind_error this]
                rw [List.mapM_cons, bind_error this]
            obtain ⟨I, i1, -⟩ := mapM_get (f := identityAt (K := K) (invNames f.length) a.getOrder) (l := List.range f.length) (Q := fun _ _ => True)
              fun j hj => by
                rw [List.getElem_range]
                obtain ⟨d, h1, _⟩ := identityAt_spec (K := K) (n := f.length) (hf.order a ha) j (by simpa using hj)
                exact ⟨d, h1, trivial⟩
            unfold invertChecked
            rw [bind_ok i1, bind_error hM]
          · refine (invertChecked_spec (fun h => h0 (List.length_eq_zero_iff.mp h)) (by omega) (hf.order a ha) hq).1 ?_
            rw [jac_eq hq.ssLen]
            exact hdet
        · have : check f = .error .invalidArgument := by
            cases f with
            | nil => exact absurd rfl h0
            | cons f0 l =>
              unfold check
              have e1 : (f0 :: l).all (fun el => decide (el.getOrder = f0.getOrder)) = true := List.all_eq_true.mpr fun d hd =>
                decide_eq_true (h1 d hd f0 (by simp))
              have e2 : (f0 :: l).all (fun el => decide (el.symbolSet = f0.symbolSet)) = true := List.all_eq_true.mpr fun d hd =>
                decide_eq_true (h2 d hd f0 (by simp))
              have e3 : f0.symbolSet.length ≠ (f0 :: l).length := fun e => h3 fun a ha => by rw [h2 a ha f0 (by simp), e]
              simp only [e1, e2, Bool.not_true, Bool.false_eq_true, if_false, if_pos e3]
          unfold invert
          rw [bind_error this]
      · have : check f = .error .invalidArgument := by
          cases f with
          | nil => exact absurd rfl h0
          | cons f0 l =>
            unfold check
            have e1 : (f0 :: l).all (fun el => decide (el.getOrder = f0.getOrder)) = true := List.all_eq_true.mpr fun d hd =>
              decide_eq_true (h1 d hd f0 (by simp))
            have e2 : (f0 :: l).all (fun el => decide (el.symbolSet = f0.symbolSet)) = false := by
              rw [Bool.eq_false_iff]
              intro e
              rw [List.all_eq_true] at e
              refine h2 fun a ha b hb => ?_
              rw [of_decide_eq_true (e a ha), of_decide_eq_true (e b hb)]
            simp only [e1, e2, Bool.not_true, Bool.not_false, Bool.false_eq_true, if_false, if_true]
        unfold invert
        rw [bind_error this]
    · have : check f = .error .invalidArgument := by
        cases f with
        | nil => exact absurd rfl h0
        | cons f0 l =>
          unfold check
          have e1 : (f0 :: l).all (fun el => decide (el.getOrder = f0.getOrder)) = false := by
            rw [Bool.eq_false_iff]
            intro e
            rw [List.all_eq_true] at e
            refine h1 fun a ha b hb => ?_
            rw [of_decide_eq_true (e a ha), of_decide_eq_true (e b hb)]
          simp only [e1, Bool.not_false, if_true]
      unfold invert
      rw [bind_error this]
  · intro h0 h1 h2 h3 hdet
    obtain ⟨a, ha⟩ := List.exists_mem_of_ne_nil f h0
    obtain ⟨g, g1, g2, -⟩ := invert_square hf (hsq h0 h1 h2 h3 a ha) (hdet a ha)
    exact ⟨g, g1, g2.len, fun b hb d hd => ⟨g2.valid d hd, (g2.order d hd).trans (h1 a ha b hb)⟩⟩

/-- A map with a singular linear part, `(x + y², y²)`: rejected. -/
example : invert ([⟨⟨["dx", "dy"], [([1, 0], 1), ([0, 2], 1)]⟩, 2⟩, ⟨⟨["dx", "dy"], [([0, 2], 1)]⟩, 2⟩] : List (GDual ℚ)) = .error .invalidArgument := by
  decide +kernel

example : ∃ g, invert shear = .ok g ∧ g.length = shear.length ∧ ∀ a ∈ shear, ∀ d ∈ g, d.Valid ∧ d.getOrder = a.getOrder :=
  (C40_rejects shear_admissible).2 (by decide +kernel) (by decide +kernel) (by decide +kernel) (by decide +kernel) (fun a ha => by
    rw [shear_square.syms a ha]; exact shear_det)

end C38

end Audi
