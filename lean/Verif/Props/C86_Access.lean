import Verif.Props.C06_Coefficients
import Verif.Proofs.Access

/-!
# C86: coefficients and derivatives with machine integers

`L` is the largest exponent that fits in an obake key, a parameter: obake is not part of the repository.
-/

namespace Audi

open MvPolynomial Spec GDual

variable {C : Type} [Cf C] {ι : Type} {K : Type} [Field K] [Lanes C ι K] {d : GDual C} {L : ℕ}

/-- **C86**, part that holds for `find_cf`. For every list of `int` or `unsigned` exponents, with `L` times the number of
symbols below 2^32: (1) exponents from 0 to `L`, one per symbol, with total within the order give the coefficient;
(2) whenever a value is returned, the exponents were such and the value is the coefficient; (3) otherwise
`std::invalid_argument` or `std::overflow_error` is thrown. The documentation promises `std::invalid_argument` for every
list beyond the order: see `C86_find_cf_counterexample`. -/
theorem C86_find_cf_partial (hd : d.Valid) (hn : d.symbolSetSize * L < 4294967296) (e : List ℤ) :
    ((∀ k ∈ e, 0 ≤ k ∧ k ≤ (L : ℤ)) → e.sum ≤ d.getOrder → e.length = d.symbolSetSize →
      ∃ c, d.findCfU L e = .ok c) ∧
    (∀ c, d.findCfU L e = .ok c → (∀ k ∈ e, 0 ≤ k ∧ k ≤ (L : ℤ)) ∧ e.sum ≤ d.getOrder ∧ e.length = d.symbolSetSize ∧
      ∀ i : ι, (Lanes.lane i c : K) = coeff (toExp d.p.syms (e.map Int.toNat)) (d.toMv i)) ∧
    (∀ x, d.findCfU L e = .error x → x = .invalidArgument ∨ x = .overflowError) := by
  refine ⟨fun h1 h2 h3 => ?_, fun c h => ?_, fun x h => ?_⟩
  · have he : e = (e.map Int.toNat).map (fun n : ℕ => (n : ℤ)) := by
      rw [List.map_map]
      conv_lhs => rw [← List.map_id e]
      refine List.map_congr_left fun k hk => ?_
      have := h1 k hk
      simp only [Function.comp_apply, id]
      omega
    have hl : ∀ k ∈ e.map Int.toNat, k ≤ L := by
      intro k hk
      obtain ⟨j, hj, rfl⟩ := List.mem_map.mp hk
      have := h1 j hj
      omega
    have hs : (e.map Int.toNat).sum ≤ d.order := by
      have : e.sum = (((e.map Int.toNat).sum : ℕ) : ℤ) := by
        conv_lhs => rw [he]
        exact sum_cast _
      rw [this] at h2
      exact_mod_cast h2
    have hlen : (e.map Int.toNat).length = d.symbolSetSize := by rw [List.length_map, h3]
    have hlt : (e.map Int.toNat).sum < 4294967296 :=
      lt_of_le_of_lt (hlen ▸ sum_le_of_le hl) hn
    rw [he, findCfU_cast hl hlt]
    exact findCf_isOk hs hlen
  · obtain ⟨k, he, hk, hc⟩ := findCfU_ok hn h
    obtain ⟨h1, h2⟩ := findCf_ok hc
    have hmap : e.map Int.toNat = k := by
      rw [he, List.map_map]
      conv_rhs => rw [← List.map_id k]
      exact List.map_congr_left fun j _ => by simp
    refine ⟨fun j hj => ?_, ?_, ?_, fun i => ?_⟩
    · rw [he] at hj
      obtain ⟨n, hn', rfl⟩ := List.mem_map.mp hj
      have := hk n hn'
      omega
    · rw [he, sum_cast]
      exact_mod_cast h1
    · rw [he, List.length_map]; exact h2
    · rw [hmap]; exact lane_findCf hd hc i
  · by_cases h1 : expSumU e > d.order
    · unfold findCfU at h
      rw [if_pos h1] at h
      cases h
      exact Or.inl rfl
    · by_cases h2 : e.length ≠ d.symbolSetSize
      · unfold findCfU at h
        rw [if_neg h1, if_pos h2] at h
        cases h
        exact Or.inl rfl
      · exact Or.inr (findCfU_error h1 h2 h)

/-- A list of exponents with total 2^32, beyond the order 3, is not rejected with `std::invalid_argument`, whatever the
largest exponent of a key: the sum is 0 in `unsigned`. -/
theorem C86_find_cf_counterexample :
    Ex.xy.Valid ∧ Ex.xy.getOrder < 4294967296 ∧ Ex.xy.symbolSetSize = 2 ∧
      ∀ L, Ex.xy.findCfU L [2147483648, 2147483648] ≠ .error .invalidArgument := by
  refine ⟨Ex.xy_valid, by decide +kernel, by decide +kernel, fun L h => ?_⟩
  cases findCfU_error (by decide +kernel) (by decide +kernel) h

/-- **C86.** `constant_cf` is not affected by the sizes of the integers. -/
theorem C86_constant_cf (d : GDual C) (L : ℕ) : d.constantCfU L = d.constantCf := by
  have h := findCfU_cast (d := d) (L := L) (e := List.replicate d.symbolSetSize 0)
    (fun k hk => by rw [List.eq_of_mem_replicate hk]; exact Nat.zero_le _) (by simp)
  unfold constantCfU constantCf
  rw [← h, List.map_replicate]
  rfl

/-- **C86**, part that holds for `get_derivative`: all its outcomes for fewer than 2^24 exponents of type `int` or
`unsigned` and keys with exponents up to 170 at least. (1) An exponent that is not from 0 to 170 gives
`std::overflow_error`, before the order and the length are looked at. With all exponents from 0 to 170: (2) beyond the
order, or with a length that is not the number of symbols, `std::invalid_argument`; (3) else, with a product of factorials
below 2^1024, the coefficient times that product; (4) else a value that is not finite. -/
theorem C86_get_derivative_partial (hd : d.Valid) (hL : 170 ≤ L) (e : List ℤ) (hlen : e.length < 16777216)
    (ht : ∀ k ∈ e, -2147483648 ≤ k ∧ k < 4294967296) :
    ((∃ k ∈ e, k < 0 ∨ 170 < k) → d.getDerivativeU L e = .error .overflowError) ∧
    ((∀ k ∈ e, 0 ≤ k ∧ k ≤ 170) →
      (¬(e.sum ≤ d.getOrder ∧ e.length = d.symbolSetSize) → d.getDerivativeU L e = .error .invalidArgument) ∧
      (e.sum ≤ d.getOrder ∧ e.length = d.symbolSetSize →
        ((e.map fun k => k.toNat.factorial).prod < 2 ^ 1024 →
          ∃ c, d.getDerivativeU L e = .ok c ∧ ∀ i : ι, (Lanes.lane i c : K) =
            coeff (toExp d.p.syms (e.map Int.toNat)) (d.toMv i) *
              (((e.map fun k => k.toNat.factorial).prod : ℕ) : K)) ∧
        (2 ^ 1024 ≤ (e.map fun k => k.toNat.factorial).prod → d.getDerivativeU L e = .error .nonFinite))) := by
  constructor
  · rintro ⟨k, hk, h⟩
    unfold getDerivativeU
    have : 170 < toUnsigned k := by
      have := ht k hk
      unfold toUnsigned
      omega
    rw [cumfact_big ⟨k, hk, this⟩]
    rfl
  · intro h
    have he : e = (e.map Int.toNat).map (fun n : ℕ => (n : ℤ)) := by
      rw [List.map_map]
      conv_lhs => rw [← List.map_id e]
      refine List.map_congr_left fun k hk => ?_
      have := h k hk
      simp only [Function.comp_apply, id]
      omega
    have h170 : ∀ k ∈ e.map Int.toNat, k ≤ 170 := by
      intro k hk
      obtain ⟨j, hj, rfl⟩ := List.mem_map.mp hk
      have := h j hj
      omega
    have hsum : (e.map Int.toNat).sum < 4294967296 := by
      refine lt_of_le_of_lt (sum_le_of_le h170) ?_
      rw [List.length_map]
      omega
    have hS : e.sum ≤ (d.getOrder : ℤ) ↔ (e.map Int.toNat).sum ≤ d.getOrder := by
      have : e.sum = (((e.map Int.toNat).sum : ℕ) : ℤ) := by
        conv_lhs => rw [he]
        exact sum_cast _
      rw [this]
      exact_mod_cast Iff.rfl
    have hP : (e.map fun k => k.toNat.factorial).prod = ((e.map Int.toNat).map Nat.factorial).prod := by
      rw [List.map_map]; rfl
    have hlen' : e.length = (e.map Int.toNat).length := (List.length_map _).symm
    have key := getDerivativeU_cast (d := d) (L := L) h170 (fun k hk => (h170 k hk).trans hL) hsum
    rw [← he] at key
    have hc := C07_get_derivative (ι := ι) (K := K) hd (e.map Int.toNat)
    rw [hS, hlen', hP, key]
    refine ⟨fun hno => ?_, fun hyes => ⟨fun hp => ?_, fun hp => ?_⟩⟩
    · split_ifs
      · exact hc.2 hno
      · rw [(C06_find_cf (ι := ι) (K := K) hd _).2 hno]; rfl
    · rw [if_pos (show _ < doubleLimit from hp)]
      exact hc.1 hyes
    · rw [if_neg (show ¬ _ < doubleLimit from not_lt.mpr hp)]
      obtain ⟨c, hc', -⟩ := (C06_find_cf (ι := ι) (K := K) hd _).1 hyes
      rw [hc']
      rfl

/-- The third derivative of a gdual of order 3 is given with keys up to 255; the product `4!` of the exponents is small. -/
example : (Ex.xy.mul Ex.xy).getDerivativeU 255 [1, 2] = .ok 8 := by decide +kernel

/-- A derivative beyond the order is documented to give `std::invalid_argument`; beyond 170 it does not. -/
theorem C86_get_derivative_counterexample :
    Ex.xy.Valid ∧ Ex.xy.symbolSetSize = 2 ∧ Ex.xy.getOrder < 171 ∧
      ∀ L, Ex.xy.getDerivativeU L [171, 0] = .error .overflowError := by
  refine ⟨Ex.xy_valid, by decide +kernel, by decide +kernel, fun L => ?_⟩
  unfold getDerivativeU
  rw [cumfact_big ⟨171, by simp, by decide +kernel⟩]
  rfl

/-- A derivative of order 171 that the expansion contains is not given: a variable at order 171. -/
theorem C86_high_order_counterexample :
    ∃ d : GDual ℚ, d.Valid ∧ d.getOrder = 171 ∧ d.symbolSetSize = 1 ∧ d.findCf [171] = .ok 0 ∧
      ∀ L, d.getDerivativeU L [171] = .error .overflowError := by
  refine ⟨⟨Ex.x.p, 171⟩, ⟨Ex.x_valid.wf, Ex.x_valid.mono_deg (by decide +kernel)⟩, rfl, rfl, by decide +kernel,
    fun L => ?_⟩
  unfold getDerivativeU
  rw [cumfact_big ⟨171, by simp, by decide +kernel⟩]
  rfl

/-- A mixed derivative whose coefficient is zero is not finite when the product of the factorials overflows. -/
theorem C86_product_counterexample :
    ∃ d : GDual ℚ, d.Valid ∧ d.getOrder = 340 ∧ d.symbolSetSize = 2 ∧ d.findCf [170, 170] = .ok 0 ∧
      d.getDerivativeU 255 [170, 170] = .error .nonFinite := by
  refine ⟨⟨Ex.xy.p, 340⟩, ⟨Ex.xy_valid.wf, (Ex.xy_valid.mono_deg (by decide +kernel))⟩, rfl, by decide +kernel,
    by decide +kernel, by decide +kernel⟩

/-- **C86.** The dictionary form is the vector form with the missing symbols set to 0, with the same outcomes. -/
theorem C86_dict_form (hd : d.Valid) {dict : List (String × ℕ)} (hk : (dict.map (·.1)).Nodup)
    (hmem : ∀ p ∈ dict, p.1 ∈ d.p.syms) :
    d.getDerivativeDictU L dict =
      d.getDerivativeU L (d.p.syms.map fun s => (((dict.lookup s).getD 0 : ℕ) : ℤ)) := by
  unfold getDerivativeDictU
  have h := dictCoeff_isSome (e := List.replicate d.symbolSetSize 0) |>.mpr hmem
  obtain ⟨r, hr⟩ := Option.isSome_iff_exists.mp h
  rw [hr]
  obtain ⟨h1, h2⟩ := dictCoeff_spec hd.wf.ndsyms hk (by simp [symbolSetSize]) hr
  simp only
  congr 1
  rw [eq_map_expOf hd.wf.ndsyms h1, List.map_map]
  refine List.map_congr_left fun s hs => ?_
  simp only [Function.comp_apply]
  rw [h2 s hs, expOf_replicate]

end Audi
