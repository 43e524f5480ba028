import Verif.Props.Examples
import Verif.Proofs.Combinations
import Verif.Proofs.GetPoly
import Verif.Proofs.Binomial
import Verif.Proofs.GDualOps

/-! # C41, C42, C43: combinations, terms of a polynomial, binomial coefficients -/

namespace Audi

open MvPolynomial Bounding

/-! ### C41 -/

/-- **C41.** `generate_combinations(limits, cap_sum_indices)`: a vector is returned iff it has one entry for each limit, none larger
than its limit, and, when the sum is capped, a sum not larger than some (the largest) limit. The vectors are returned in strictly
increasing lexicographic order; in particular each one once. -/
theorem C41_combinations {limits : List ℤ} (hne : limits ≠ []) (capSum : Bool) :
    (∀ e : List ℕ, e ∈ generateCombinations limits capSum ↔
      List.Forall₂ (fun (l : ℤ) (k : ℕ) => (k : ℤ) ≤ l) limits e ∧ (capSum = true → ∃ l ∈ limits, (e.sum : ℤ) ≤ l)) ∧
    (generateCombinations limits capSum).Pairwise (· < ·) := by
  obtain ⟨cap, hc, hmax, h⟩ := combInv_generate hne capSum
  refine ⟨fun e => (h.mem e).trans (and_congr Iff.rfl (imp_congr Iff.rfl ⟨fun hs => ⟨cap, hc, hs⟩, ?_⟩)), h.sorted⟩
  rintro ⟨l, hl, hs⟩
  exact hs.trans (hmax l hl)

/-- **C41.** Without limits nothing is returned. -/
theorem C41_no_limits (capSum : Bool) : generateCombinations [] capSum = [] := rfl

/-- **C41.** Each vector is returned once. -/
theorem C41_nodup (limits : List ℤ) (capSum : Bool) : (generateCombinations limits capSum).Nodup := by
  rcases eq_or_ne limits [] with rfl | h
  · exact List.nodup_nil
  · exact (C41_combinations h capSum).2.imp fun hlt => ne_of_lt hlt

/-- **C41.** The number of vectors: the product of the limits increased by one. -/
theorem C41_count {limits : List ℕ} (hne : limits ≠ []) :
    (generateCombinations (limits.map Int.ofNat) false).length = (limits.map (· + 1)).prod := by
  have key : ∀ (cap : ℤ) (ls : List ℕ) (R : List (List ℕ)),
      ((ls.map Int.ofNat).foldl (genStep false cap) R).length = R.length * (ls.map (· + 1)).prod := by
    intro cap ls
    induction ls with
    | nil => intro R; simp
    | cons l ls ih =>
      intro R
      rw [List.map_cons, List.foldl_cons, ih, List.map_cons, List.prod_cons, ← mul_assoc]
      congr 1
      unfold genStep
      rw [List.length_flatMap]
      have : ∀ comb : List ℕ, ((List.map (fun i => comb ++ [i]) (List.range (Int.ofNat l + 1).toNat)).filter
          fun copy => (decide ((copy.sum : ℤ) ≤ cap) && false) || !false).length = l + 1 := by
        intro comb
        rw [List.filter_eq_self.2 (by simp), List.length_map, List.length_range]
        simp only [Int.ofNat_eq_natCast]
        omega
      rw [List.map_congr_left fun c _ => this c, List.map_const', List.sum_replicate, smul_eq_mul]
  cases limits with
  | nil => exact absurd rfl hne
  | cons l ls =>
    have := key ((ls.map Int.ofNat).foldl max (Int.ofNat l)) (l :: ls) [[]]
    rw [List.length_singleton, one_mul] at this
    exact this

example : generateCombinations [1, 2] false = [[0, 0], [0, 1], [0, 2], [1, 0], [1, 1], [1, 2]] := by decide
example : generateCombinations [1, 2] true = [[0, 0], [0, 1], [0, 2], [1, 0], [1, 1]] := by decide
example : ([1, 2] : List ℤ) ≠ [] := by decide

/-! ### C42 -/

section C42
variable {C : Type} [Cf C] {ι : Type} {K : Type} [Field K] [Lanes C ι K] {d : GDual C}

omit [Cf C] [Lanes C ι K] [Field K] in
variable (ι K) in
/-- **C42.** `get_poly` of a gdual with at least one symbol does not throw and returns as many coefficients as exponents. An exponent
vector is listed iff the polynomial has a non-zero coefficient there, and it is listed with that coefficient; the exponents are in strictly
increasing lexicographic order, so none is listed twice. -/
theorem C42_get_poly [Cf C] [Field K] [Lanes C ι K] {d : GDual C} (hd : d.Valid) (hs : d.symbolSetSize ≠ 0) :
    ∃ coeffs exps, getPoly d = .ok (coeffs, exps) ∧ coeffs.length = exps.length ∧ exps.Pairwise (· < ·) ∧
      (∀ e ∈ exps, e.length = d.symbolSetSize) ∧
      (∀ e : List ℕ, e.length = d.symbolSetSize → (e ∈ exps ↔ ∃ i : ι, (coeff (toExp d.p.syms e) (d.toMv i) : K) ≠ 0)) ∧
      (∀ x ∈ exps.zip coeffs, ∀ i : ι, (Lanes.lane i x.2 : K) = coeff (toExp d.p.syms x.1) (d.toMv i)) := by
  obtain ⟨coeffs, exps, h1, h2, h3, h4⟩ := getPoly_spec (ι := ι) (K := K) hd (Nat.one_le_iff_ne_zero.2 hs)
  have hexps : ∀ e, e ∈ exps ↔ ∃ c, (e, c) ∈ d.p.terms := by
    intro e
    have hm : exps = (exps.zip coeffs).map Prod.fst := (List.map_fst_zip (by rw [h2])).symm
    rw [hm, List.mem_map]
    constructor
    · rintro ⟨⟨e', c⟩, hx, rfl⟩
      exact ⟨c, h3.mem_iff.1 hx⟩
    · rintro ⟨c, hc⟩
      exact ⟨(e, c), h3.mem_iff.2 hc, rfl⟩
  refine ⟨coeffs, exps, h1, h2, h4, fun e he => ?_, fun e _ => ?_, fun x hx i => ?_⟩
  · obtain ⟨c, hc⟩ := (hexps e).1 he
    exact hd.wf.len _ hc
  · rw [hexps]
    constructor
    · rintro ⟨c, hc⟩
      by_contra hcon
      push Not at hcon
      have hz : Cf.isZero c = true := (Lanes.isZero_iff (ι := ι) (K := K) c).2 fun i => by
        rw [← Poly.coeff_toMv_of_mem hd.wf hc i]
        exact hcon i
      rw [hd.wf.nz _ hc] at hz
      cases hz
    · rintro ⟨i, hi⟩
      have hlen : e.length = d.p.syms.length := by assumption
      have := Poly.coeff_toMv_find? (K := K) hd.wf hlen i
      cases hf : d.p.find? e with
      | none =>
        rw [hf] at this
        exact absurd this hi
      | some c => exact ⟨c, Poly.mem_of_find? hf⟩
  · exact (Poly.coeff_toMv_of_mem hd.wf (h3.mem_iff.1 hx) i).symm

/-- **C42.** The sum of the monomials returned by `get_poly` is the polynomial. -/
theorem C42_rebuild (hd : d.Valid) (hs : d.symbolSetSize ≠ 0) {coeffs : List C} {exps : List (List ℕ)}
    (h : getPoly d = .ok (coeffs, exps)) (i : ι) :
    ((exps.zip coeffs).map fun x => monomial (toExp d.p.syms x.1) (Lanes.lane i x.2 : K)).sum = d.toMv i := by
  obtain ⟨coeffs', exps', h1, h2, h3, h4⟩ := getPoly_spec (ι := ι) (K := K) hd (Nat.one_le_iff_ne_zero.2 hs)
  rw [h1] at h
  injection h with h
  injection h with ha hb
  subst ha; subst hb
  exact (h3.map _).sum_eq

/-- **C42.** A gdual without symbols is a constant; `get_poly` lists nothing for it, not even the constant. -/
theorem C42_no_symbols (hs : d.symbolSetSize = 0) : getPoly d = .ok ([], []) := getPoly_no_symbols hs

end C42

example : Ex.xy.Valid ∧ Ex.xy.symbolSetSize ≠ 0 := ⟨Ex.xy_valid, by decide +kernel⟩
example : getPoly Ex.xy = .ok ([10, 2, 5, 1], [[0, 0], [0, 1], [1, 0], [1, 1]]) := by decide +kernel
example : (GDual.ofCf (7 : ℚ)).symbolSetSize = 0 ∧ getPoly (GDual.ofCf (7 : ℚ)) = .ok ([], []) := by decide +kernel

/-- **C42.** `get_coefficient` of the listed polynomial is the coefficient, zero when the exponents are not listed. -/
theorem C42_get_coefficient {K : Type} [Field K] {coeffs : List K} {exps : List (List ℕ)} (hl : coeffs.length = exps.length)
    (hnd : exps.Nodup) (comb : List ℕ) :
    (comb ∉ exps → getCoefficient comb coeffs exps = .ok 0) ∧
    (∀ c, (comb, c) ∈ exps.zip coeffs → getCoefficient comb coeffs exps = .ok c) := by
  induction exps generalizing coeffs with
  | nil => cases coeffs <;> simp [getCoefficient]
  | cons e es ih =>
    cases coeffs with
    | nil => simp at hl
    | cons c cs =>
      rw [List.nodup_cons] at hnd
      obtain ⟨i1, i2⟩ := ih (by simpa using hl) hnd.2
      refine ⟨fun hc => ?_, fun c' hc' => ?_⟩
      · rw [List.mem_cons, not_or] at hc
        rw [getCoefficient, if_neg (Ne.symm hc.1)]
        exact i1 hc.2
      · rw [List.zip_cons_cons, List.mem_cons] at hc'
        rcases hc' with hc' | hc'
        · injection hc' with a b
          subst a; subst b
          rw [getCoefficient, if_pos rfl]
        · have : comb ∈ es := (List.of_mem_zip hc').1
          rw [getCoefficient, if_neg fun (hh : e = comb) => hnd.1 (hh ▸ this)]
          exact i2 c' hc'

example : ([[0, 0], [0, 1]] : List (List ℕ)).Nodup ∧ ([10, 2] : List ℚ).length = ([[0, 0], [0, 1]] : List (List ℕ)).length := by decide

/-- **C42.** `get_max_degrees`: in each variable the largest exponent, attained by some term. -/
theorem C42_max_degrees {exps : List (List ℕ)} {n : ℕ} (hn : 1 ≤ n) (hne : exps ≠ []) (hw : ∀ e ∈ exps, e.length = n) :
    ∃ md, getMaxDegrees exps n = .ok md ∧ md.length = n ∧
      (∀ e ∈ exps, List.Forall₂ (· ≤ ·) e md) ∧ ∀ k : ℕ, k < n → ∃ e ∈ exps, e[k]? = md[k]? := by
  obtain ⟨md, h1, h2, h3, h4⟩ := getMaxDegrees_ok hn hne hw
  refine ⟨md, h1, h2, fun e he => ?_, fun k hk => ?_⟩
  · rw [List.forall₂_iff_get]
    refine ⟨(hw e he).trans h2.symm, fun i a b => ?_⟩
    have := h3 e he i (h2 ▸ b)
    simpa [List.getD, a, b] using this
  · obtain ⟨e, he, hek⟩ := h4 k hk
    have a : k < e.length := by rw [hw e he]; exact hk
    have b : k < md.length := by rw [h2]; exact hk
    refine ⟨e, he, ?_⟩
    simp only [List.getD, List.getElem?_eq_getElem a, List.getElem?_eq_getElem b, Option.getD_some] at hek ⊢
    rw [hek]

/-- **C42.** `get_ndim`: the common number of exponents; throws iff the numbers of coefficients and exponents differ or the exponents
have different lengths (0 when there is nothing). -/
theorem C42_ndim {K : Type} {coeffs : List K} {exps : List (List ℕ)} (hc : coeffs ≠ []) (hne : exps ≠ []) :
    (∀ n, getNdim coeffs exps = .ok n ↔ coeffs.length = exps.length ∧ ∀ e ∈ exps, e.length = n) ∧
    (getNdim coeffs exps = .error .invalidArgument ↔ ¬ (coeffs.length = exps.length ∧ ∃ n, ∀ e ∈ exps, e.length = n)) := by
  cases exps with
  | nil => exact absurd rfl hne
  | cons e0 es =>
    cases coeffs with
    | nil => exact absurd rfl hc
    | cons c cs =>
      have hall : ((e0 :: es).all fun row => decide (row.length = e0.length)) = true ↔ ∀ e ∈ e0 :: es, e.length = e0.length := by
        simp
      by_cases h1 : (c :: cs).length = (e0 :: es).length
      · by_cases h2 : ∀ e ∈ e0 :: es, e.length = e0.length
        · have hv : getNdim (c :: cs) (e0 :: es) = .ok e0.length := getNdim_ok h1 hne h2
          rw [hv]
          refine ⟨fun n => ⟨fun h => ?_, fun h => ?_⟩, ⟨fun h => (nomatch h), fun h => absurd ⟨h1, _, h2⟩ h⟩⟩
          · injection h with h
            exact ⟨h1, h ▸ h2⟩
          · rw [h.2 e0 List.mem_cons_self]
        · have hv : getNdim (c :: cs) (e0 :: es) = .error .invalidArgument := by
            unfold getNdim
            simp only
            rw [if_neg (not_not.2 h1), if_neg fun hh => h2 (hall.1 hh)]
          rw [hv]
          have hno : ∀ n, ¬ ∀ e ∈ e0 :: es, e.length = n := fun n hn =>
            h2 fun e he => (hn e he).trans (hn e0 List.mem_cons_self).symm
          exact ⟨fun n => ⟨fun h => (nomatch h), fun h => absurd h.2 (hno n)⟩,
            ⟨fun _ ⟨_, n, hn⟩ => hno n hn, fun _ => rfl⟩⟩
      · have hv : getNdim (c :: cs) (e0 :: es) = .error .invalidArgument := by
          unfold getNdim
          simp only
          rw [if_pos h1]
        rw [hv]
        exact ⟨fun n => ⟨fun h => (nomatch h), fun h => absurd h.1 h1⟩, ⟨fun _ ⟨h, _⟩ => h1 h, fun _ => rfl⟩⟩

/-! ### C43 -/

/-- **C43.** `binomial(n, k)` is the binomial coefficient as long as `min(k, n-k)` times it fits into 64 bits. -/
theorem C43_binomial {n k : ℕ} (hk : k ≤ n) (hov : min k (n - k) * Nat.choose n k < 2 ^ 64) : binomial n k = Nat.choose n k :=
  binomial_eq hk hov

/-- **C43.** No overflow for `n ≤ 62`: the result is exact for all `k`, also outside the range, where it is 0. -/
theorem C43_binomial_small {n k : ℕ} (hn : n ≤ 62) : binomial n k = Nat.choose n k := by
  rcases le_or_gt k n with h | h
  · exact binomial_small h hn
  · rw [Nat.choose_eq_zero_of_lt h]
    unfold binomial
    rw [if_pos (Or.inr (by omega))]

/-- **C43.** Outside the range the result is 0. -/
theorem C43_out_of_range {n k : ℤ} (h : k < 0 ∨ n < k) : binomial n k = 0 := by
  unfold binomial
  rw [if_pos h]

/-- **C43.** The result is symmetric, also when the computation overflows. -/
theorem C43_symm (n k : ℤ) : binomial n (n - k) = binomial n k := by
  unfold binomial
  rw [sub_sub_cancel]
  split_ifs <;> first | rfl | omega | (congr 1; omega)

theorem binomialLoop_lt (n k : ℕ) : binomialLoop n k < 2 ^ 64 := by
  have key : ∀ (l : List ℕ) (r : ℕ), r < 2 ^ 64 → l.foldl (fun res i => res * (n - (k - i)) % 2 ^ 64 / i) r < 2 ^ 64 := by
    intro l
    induction l with
    | nil => exact fun r h => h
    | cons i l ih => exact fun r _ => ih _ ((Nat.div_le_self _ _).trans_lt (Nat.mod_lt _ (by decide)))
  exact key _ _ (by decide)

/-- **C43 (counterexample).** The bound 62 is sharp: `binomial(n, 31)` is wrong for every `n` from 63 on. For `n = 63` the binomial
coefficient itself fits into 64 bits. -/
theorem C43_overflow_counterexample : Nat.choose 63 31 < 2 ^ 64 ∧ ∀ n : ℕ, 63 ≤ n → binomial n 31 ≠ Nat.choose n 31 := by
  refine ⟨by decide +kernel, fun n hn => ?_⟩
  rcases Nat.lt_or_ge n 68 with h | h
  · have : ∀ n : ℕ, n < 68 → 63 ≤ n → binomial n 31 ≠ Nat.choose n 31 := by decide +kernel
    exact this n h hn
  · have h1 : Nat.choose 68 31 ≤ Nat.choose n 31 := Nat.choose_le_choose 31 h
    have h2 : 2 ^ 64 < Nat.choose 68 31 := by decide +kernel
    have h3 : binomial n 31 < 2 ^ 64 := by
      unfold binomial
      split_ifs
      · decide
      · decide
      · exact binomialLoop_lt _ _
      · exact binomialLoop_lt _ _
    omega

example : (3 : ℕ) ≤ 7 ∧ min 3 (7 - 3) * Nat.choose 7 3 < 2 ^ 64 := by decide
example : binomial 62 31 = 465428353255261088 := by decide +kernel

/-- **C43.** `binom_product` throws iff the lengths differ; otherwise it is the product of the binomial coefficients modulo 2^64, when each
of them is exact. -/
theorem C43_binom_product {n k : List ℕ} (hl : n.length = k.length)
    (h : ∀ x ∈ n.zip k, x.1 ≤ 62) :
    binomProduct (n.map Int.ofNat) (k.map Int.ofNat) = .ok ((List.zipWith Nat.choose n k).prod % 2 ^ 64) := by
  unfold binomProduct
  rw [if_neg (by simp [hl])]
  congr 1
  have key : ∀ (n k : List ℕ) (a b : ℕ), (∀ x ∈ n.zip k, x.1 ≤ 62) → a % 2 ^ 64 = b % 2 ^ 64 → a < 2 ^ 64 →
      ((n.map Int.ofNat).zip (k.map Int.ofNat)).foldl (fun r x => r * binomial x.1 x.2 % 2 ^ 64) a =
        b * (List.zipWith Nat.choose n k).prod % 2 ^ 64 := by
    intro n
    induction n with
    | nil => intro k a b _ h1 h2; rw [← Nat.mod_eq_of_lt h2, h1]; simp
    | cons m n ih =>
      intro k a b hx h1 h2
      cases k with
      | nil => rw [← Nat.mod_eq_of_lt h2, h1]; simp
      | cons j k =>
        rw [List.map_cons, List.map_cons, List.zip_cons_cons, List.foldl_cons, List.zipWith_cons_cons, List.prod_cons, ← mul_assoc]
        refine ih k _ _ (fun x hx' => hx x (by rw [List.zip_cons_cons]; exact List.mem_cons_of_mem _ hx')) ?_ (Nat.mod_lt _ (by decide))
        have hm : binomial (Int.ofNat m) (Int.ofNat j) = Nat.choose m j := C43_binomial_small (hx (m, j) (by
          rw [List.zip_cons_cons]; exact List.mem_cons_self))
        rw [hm, Nat.mod_mod, Nat.mul_mod, h1, ← Nat.mul_mod]
  have := key n k 1 1 h rfl (by decide)
  rwa [one_mul] at this

/-- **C43.** `binom_product` throws for vectors of different lengths. -/
theorem C43_binom_product_throws {n k : List ℤ} (hl : n.length ≠ k.length) : binomProduct n k = .error .runtimeError := by
  unfold binomProduct
  rw [if_pos hl]

example : binomProduct [4, 5] [2, 2] = .ok 60 := by decide

end Audi
