import Verif.Proofs.BernsteinCorners
import Verif.Proofs.BernsteinOneDim
import Mathlib.Tactic.Linarith

/-! # C44, C45, C61: Bernstein coefficients -/

namespace Audi

open Bounding Finset

section
variable {K : Type} [Field K] [LinearOrder K] [IsStrictOrderedRing K]

/-! ### C44 -/

omit [LinearOrder K] [IsStrictOrderedRing K] in
/-- **C44.** `matmul` is the matrix product, for matrices of any size that fit. -/
theorem C44_matmul {m p n : ℕ} (hm : 0 < m) (hp : 0 < p) (A B : ℕ → ℕ → K) :
    matmul (Mat.ofFn m p A) (Mat.ofFn p n B) = .ok (Mat.ofFn m n fun i j => ∑ k ∈ range p, A i k * B k j) :=
  matmul_ofFn hm hp A B

omit [Field K] [LinearOrder K] [IsStrictOrderedRing K] in
/-- **C44.** `transpose` exchanges rows and columns. -/
theorem C44_transpose {m n : ℕ} (hm : 0 < m) (A : ℕ → ℕ → K) :
    transpose (Mat.ofFn m n A) = .ok (Mat.ofFn n m fun i j => A j i) := transpose_ofFn hm A

omit [IsStrictOrderedRing K] in
/-- **C44, degrees up to 62.** The matrix `Q` of dimension `dim` maps the coefficients of a polynomial to those of the polynomial in the variable
that runs from 0 to 1 when the original one runs from the lower to the upper end point, also when the lower end point is 0.
Missing: larger degrees, where the Pascal matrix overflows (`C44_overflow_counterexample`). -/
theorem C44_change_of_variable_partial {md : List ℕ} {dim n : ℕ} (hdim : md[dim]? = some n) (hn : n ≤ 62)
    {domain : List (String × Itv K)} {s : String} {ab : Itv K} (hdom : domain[dim]? = some (s, ab)) :
    ∃ Q : ℕ → ℕ → K, getQ md domain dim = .ok (Mat.ofFn (n + 1) (n + 1) Q) ∧
      ∀ (c : ℕ → K) (t : K), ∑ i ∈ range (n + 1), (∑ j ∈ range (n + 1), Q i j * c j) * t ^ i =
        ∑ j ∈ range (n + 1), c j * (ab.lo + (ab.hi - ab.lo) * t) ^ j := by
  have hd : dim < md.length := (List.getElem?_eq_some_iff.1 hdim).1
  have hg : md.getD dim 0 = n := by simp [List.getD, hdim]
  refine ⟨qEntry ab.lo ab.hi, ?_, fun c t => ?_⟩
  · rw [getQ_eq hd (by rw [hg]; exact hn) hdom, hg]
  · simp only [sum_mul]
    rw [sum_comm]
    refine sum_congr rfl fun j hj => ?_
    rw [← sum_qEntry ab.lo ab.hi t (Nat.lt_succ_iff.1 (mem_range.1 hj)), mul_sum]
    exact sum_congr rfl fun i _ => by ring

omit [IsStrictOrderedRing K] in
/-- **C44.** When the lower end point is 0 the change of variable is correct for every degree. -/
theorem C44_change_of_variable_zero {md : List ℕ} {dim n : ℕ} (hdim : md[dim]? = some n)
    {domain : List (String × Itv K)} {s : String} {ab : Itv K} (hdom : domain[dim]? = some (s, ab)) (h0 : ab.lo = 0) :
    ∃ Q : ℕ → ℕ → K, getQ md domain dim = .ok (Mat.ofFn (n + 1) (n + 1) Q) ∧
      ∀ (c : ℕ → K) (t : K), ∑ i ∈ range (n + 1), (∑ j ∈ range (n + 1), Q i j * c j) * t ^ i =
        ∑ j ∈ range (n + 1), c j * (ab.hi * t) ^ j := by
  have hd : dim < md.length := (List.getElem?_eq_some_iff.1 hdim).1
  have hg : md.getD dim 0 = n := by simp [List.getD, hdim]
  refine ⟨fun i j => if i = j then ab.hi ^ i else 0, ?_, fun c t => ?_⟩
  · unfold getQ
    rw [if_pos hd, hdom]
    simp only
    rw [if_pos h0, getD_eq hd, hg]
  · refine sum_congr rfl fun i hi => ?_
    simp only
    rw [sum_eq_single i (fun j _ hj => by rw [if_neg (Ne.symm hj), zero_mul]) (fun h => absurd hi h), if_pos rfl]
    ring

omit [LinearOrder K] [IsStrictOrderedRing K] in
/-- **C44, degrees up to 62.** The accumulated diagonal matrix followed by the lower Pascal matrix turns coefficients `c` into Bernstein
coefficients: the combination of the Bernstein polynomials with these coefficients is the polynomial.
Missing: larger degrees (`C44_overflow_counterexample`). -/
theorem C44_bernstein_coefficients_partial [CharZero K] {md : List ℕ} {dim n : ℕ} (hdim : md[dim]? = some n) (hn : n ≤ 62) :
    ∃ A P : ℕ → ℕ → K, getDAcc md dim = .ok (Mat.ofFn (n + 1) (n + 1) A) ∧ getPascal md dim = .ok (Mat.ofFn (n + 1) (n + 1) P) ∧
      ∀ (c : ℕ → K) (t : K),
        ∑ i ∈ range (n + 1), (∑ j ∈ range (n + 1), P i j * ∑ k ∈ range (n + 1), A j k * c k) *
          ((Nat.choose n i : K) * t ^ i * (1 - t) ^ (n - i)) = ∑ k ∈ range (n + 1), c k * t ^ k := by
  have hd : dim < md.length := (List.getElem?_eq_some_iff.1 hdim).1
  have hg : md.getD dim 0 = n := by simp [List.getD, hdim]
  have e1 := getDAcc_eq (K := K) hd (by rw [hg]; exact hn)
  have e2 := getPascal_eq (K := K) hd (by rw [hg]; exact hn)
  rw [hg] at e1 e2
  refine ⟨_, _, e1, e2, fun c t => ?_⟩
  have h1 : ∀ j ∈ range (n + 1), ∑ k ∈ range (n + 1), (if j = k then 1 / (Nat.choose n j : K) else 0) * c k = c j / (Nat.choose n j : K) := by
    intro j hj
    rw [sum_eq_single j (fun k _ hk => by rw [if_neg (Ne.symm hk), zero_mul]) (fun h => absurd hj h), if_pos rfl]
    ring
  simp only [sum_mul]
  rw [sum_comm]
  refine sum_congr rfl fun j hj => ?_
  rw [h1 j hj]
  have hjn : j ≤ n := Nat.lt_succ_iff.1 (mem_range.1 hj)
  have hc : (Nat.choose n j : K) ≠ 0 := Nat.cast_ne_zero.2 (Nat.choose_pos hjn).ne'
  have h2 := sum_choose_bern (K := K) n j hjn t
  unfold bern at h2
  have : c j * t ^ j = c j / (Nat.choose n j : K) * ((Nat.choose n j : K) * t ^ j) := by field_simp
  rw [this, ← h2, mul_sum]
  exact sum_congr rfl fun i _ => by ring

example : ([2, 1] : List ℕ)[0]? = some 2 ∧ (2 : ℕ) ≤ 62 ∧
    ([("x", ⟨1, 2⟩), ("y", ⟨0, 3⟩)] : List (String × Itv ℚ))[0]? = some ("x", ⟨1, 2⟩) := by decide
example : ([2, 1] : List ℕ)[1]? = some 1 ∧
    ([("x", ⟨1, 2⟩), ("y", ⟨0, 3⟩)] : List (String × Itv ℚ))[1]? = some ("y", ⟨0, 3⟩) := by decide

/-! ### C45 -/

/-- **C45, exponents up to 62.** For a polynomial given by distinct exponent vectors in `n ≥ 1` variables and a box with one interval for each
variable, in the order of the variables: the patch is computed without exception or out-of-bounds access, and for every point of the box
some entry of the patch is not larger and some entry is not smaller than the value of the polynomial.
Missing: exponents above 62 (`C45_overflow_counterexample`). -/
theorem C45_patch_encloses_partial {coeffs : List K} {exps : List (List ℕ)} {n : ℕ} (hn : 1 ≤ n) (hl : coeffs.length = exps.length)
    (hne : exps ≠ []) (hw : ∀ e ∈ exps, e.length = n) (hnd : exps.Nodup) (hdeg : ∀ e ∈ exps, ∀ k ∈ e, k ≤ 62)
    {domain : List (String × Itv K)} (hdom : domain.length = n) :
    ∃ patch, bernsteinPatch coeffs exps domain = .ok patch ∧
      ∀ x, Spec.InBox (domain.map Prod.snd) x →
        (∃ v ∈ patch.flatten, v ≤ Spec.polyVal coeffs exps x) ∧ ∃ v ∈ patch.flatten, Spec.polyVal coeffs exps x ≤ v := by
  obtain ⟨patch, h1, -, h2⟩ := patch_encloses hn hl hne hw hnd hdeg hdom
  exact ⟨patch, h1, h2⟩

example : ([1, 1, -1] : List ℚ).length = ([[1, 0], [0, 2], [1, 1]] : List (List ℕ)).length ∧
    ([[1, 0], [0, 2], [1, 1]] : List (List ℕ)).Nodup ∧ (∀ e ∈ ([[1, 0], [0, 2], [1, 1]] : List (List ℕ)), e.length = 2) ∧
    (∀ e ∈ ([[1, 0], [0, 2], [1, 1]] : List (List ℕ)), ∀ k ∈ e, k ≤ 62) ∧
    ([("x", ⟨1, 2⟩), ("y", ⟨-1, 3⟩)] : List (String × Itv ℚ)).length = 2 := by decide
example : bernsteinPatch ([1, 1, -1] : List ℚ) [[1, 0], [0, 2], [1, 1]] [("x", ⟨1, 2⟩), ("y", ⟨-1, 3⟩)] =
    .ok [[3, -3, 7], [5, -3, 5]] := by decide +kernel

/-! ### C61 -/

/-- **C61.** The value of the polynomial at each corner of the box is an entry of the patch. So the bounds are attained whenever the extreme
entries are at corners. -/
theorem C61_corner_values_partial {coeffs : List K} {exps : List (List ℕ)} {n : ℕ} (hn : 1 ≤ n) (hl : coeffs.length = exps.length)
    (hne : exps ≠ []) (hw : ∀ e ∈ exps, e.length = n) (hnd : exps.Nodup) (hdeg : ∀ e ∈ exps, ∀ k ∈ e, k ≤ 62)
    {domain : List (String × Itv K)} (hdom : domain.length = n) :
    ∃ patch, bernsteinPatch coeffs exps domain = .ok patch ∧
      ∀ x, List.Forall₂ (fun (I : Itv K) x => x = I.lo ∨ x = I.hi) (domain.map Prod.snd) x →
        Spec.polyVal coeffs exps x ∈ patch.flatten := by
  obtain ⟨patch, h1, h2, -⟩ := patch_corners hn hl hne hw hnd hdeg hdom
  exact ⟨patch, h1, h2⟩

/-- **C61.** The bounds of a polynomial of degree at most 1 in each variable are exact: every entry of the patch is the value of the polynomial
at some corner of the box. -/
theorem C61_multilinear_exact {coeffs : List K} {exps : List (List ℕ)} {n : ℕ} (hn : 1 ≤ n) (hl : coeffs.length = exps.length)
    (hne : exps ≠ []) (hw : ∀ e ∈ exps, e.length = n) (hnd : exps.Nodup) (hdeg : ∀ e ∈ exps, ∀ k ∈ e, k ≤ 1)
    {domain : List (String × Itv K)} (hdom : domain.length = n) :
    ∃ patch, bernsteinPatch coeffs exps domain = .ok patch ∧
      ∀ v ∈ patch.flatten, ∃ x, List.Forall₂ (fun (I : Itv K) x => x = I.lo ∨ x = I.hi) (domain.map Prod.snd) x ∧
        Spec.polyVal coeffs exps x = v := by
  obtain ⟨patch, h1, -, h2⟩ := patch_corners hn hl hne hw hnd (fun e he k hk => (hdeg e he k hk).trans (by decide)) hdom
  exact ⟨patch, h1, h2 hdeg⟩

example : ([2, 1] : List ℚ).length = ([[1, 0], [1, 1]] : List (List ℕ)).length ∧ ([[1, 0], [1, 1]] : List (List ℕ)).Nodup ∧
    (∀ e ∈ ([[1, 0], [1, 1]] : List (List ℕ)), ∀ k ∈ e, k ≤ 1) := by decide
example : bernsteinPatch ([2, 1] : List ℚ) [[1, 0], [1, 1]] [("x", ⟨1, 2⟩), ("y", ⟨-1, 3⟩)] = .ok [[1, 5], [2, 10]] := by decide +kernel

end

/-! ### Failure for larger exponents -/

/-- Coefficients of a polynomial of degree 63. -/
def overflowPoly (k : ℕ) : ℚ := (-1) ^ k * (binomial 63 k : ℚ)

/-- **C44 (counterexample).** The Pascal matrix of every degree from 63 on is wrong. -/
theorem C44_overflow_counterexample {md : List ℕ} {dim n : ℕ} (hdim : md[dim]? = some n) (hn : 63 ≤ n) :
    ∃ M : Mat ℚ, getPascal md dim = .ok M ∧ M.at 63 31 ≠ .ok (Nat.choose 63 31 : ℚ) := by
  have hd : degAt md dim = .ok n := by unfold degAt; rw [hdim]
  refine ⟨Mat.ofFn (n + 1) (n + 1) fun i j => if j ≤ i then (binomial i j : ℚ) else 0, by unfold getPascal; rw [bind_ok hd], ?_⟩
  rw [at_ofFn _ (by omega) (by omega)]
  intro h
  injection h with h
  rw [if_pos (by decide)] at h
  exact C43_over (Nat.cast_injective h)
where
  C43_over : ¬ binomial (63 : ℕ) (31 : ℕ) = Nat.choose 63 31 := by decide +kernel

example : ([2, 70] : List ℕ)[1]? = some 70 ∧ 63 ≤ 70 := by decide

/-- **C45.** The bounds are wrong for degree 63: all entries of the patch lie between 0 and 1, but the value of the polynomial at 1/2 does not. -/
theorem C45_overflow_counterexample :
    ∃ patch, bernsteinPatch ((List.range 64).map overflowPoly) ((List.range 64).map fun k => [k]) [("x", ⟨0, 1⟩)] = .ok patch ∧
      (∀ v ∈ patch.flatten, 0 ≤ v ∧ v ≤ 1) ∧
      1 < Spec.polyVal ((List.range 64).map overflowPoly) ((List.range 64).map fun k => [k]) [1 / 2] := by
  have hb : ∀ k : ℕ, k ≤ 63 → binomial (63 : ℕ) k ≠ 0 := by
    have : ∀ k ∈ List.range 64, binomial (63 : ℕ) (k : ℕ) ≠ 0 := by decide +kernel
    exact fun k hk => this k (List.mem_range.2 (by omega))
  refine ⟨_, patch_one_dim 63 overflowPoly hb "x", fun v hv => ?_, ?_⟩
  · obtain ⟨i, hi, j, _, rfl⟩ := mem_flatten_ofFn.1 hv
    have hterm : ∀ k ∈ range (63 + 1), (if k ≤ i then (binomial i k : ℚ) else 0) * (1 / (binomial (63 : ℕ) k : ℚ) * overflowPoly k) =
        (((if k ≤ i then (binomial i k : ℤ) else 0) * (-1) ^ k : ℤ) : ℚ) := by
      intro k hk
      have h0 : (binomial (63 : ℕ) k : ℚ) ≠ 0 := Nat.cast_ne_zero.2 (hb k (Nat.lt_succ_iff.1 (mem_range.1 hk)))
      unfold overflowPoly
      have hc : 1 / (binomial (63 : ℕ) k : ℚ) * ((-1) ^ k * (binomial 63 k : ℚ)) = (-1) ^ k := by
        have : (binomial 63 k : ℚ) = (binomial (63 : ℕ) k : ℚ) := rfl
        rw [this]
        field_simp
      rw [hc]
      push_cast
      rfl
    rw [sum_congr rfl hterm, ← Int.cast_sum]
    have hall : ∀ i ∈ List.range 64, 0 ≤ ((List.range 64).map fun (k : ℕ) => (if k ≤ i then (binomial i k : ℤ) else 0) * (-1) ^ k).sum ∧
        ((List.range 64).map fun (k : ℕ) => (if k ≤ i then (binomial i k : ℤ) else 0) * (-1) ^ k).sum ≤ 1 := by decide +kernel
    have := hall i (List.mem_range.2 hi)
    have hs : ((List.range 64).map fun (k : ℕ) => (if k ≤ i then (binomial i k : ℤ) else 0) * (-1) ^ k).sum =
      ∑ k ∈ range (63 + 1), (if k ≤ i then (binomial i k : ℤ) else 0) * (-1) ^ k := rfl
    rw [hs] at this
    exact ⟨by exact_mod_cast this.1, by exact_mod_cast this.2⟩
  · decide +kernel

/-- The coefficients and exponents of `x^63`. -/
def x63 : List ℚ × List (List ℕ) := ((List.range 64).map fun k => if k = 63 then 1 else 0, (List.range 64).map fun k => [k])

theorem binomial63_ne_zero : ∀ k : ℕ, k ≤ 63 → binomial (63 : ℕ) k ≠ 0 := by
  have : ∀ k ∈ List.range 64, binomial (63 : ℕ) (k : ℕ) ≠ 0 := by decide +kernel
  exact fun k hk => this k (List.mem_range.2 (by omega))

/-- **C61 (counterexample).** The patch of `x^63` over `[1, 2]` does not contain the value `2^63` at the corner 2. -/
theorem C61_corner_counterexample : ∃ patch, bernsteinPatch x63.1 x63.2 [("x", ⟨1, 2⟩)] = .ok patch ∧
    Spec.polyVal x63.1 x63.2 [2] = 2 ^ 63 ∧ Spec.polyVal x63.1 x63.2 [2] ∉ patch.flatten := by
  have hv : Spec.polyVal x63.1 x63.2 [2] = 2 ^ 63 := by decide +kernel
  refine ⟨_, patch_monomial 63 binomial63_ne_zero "x" ⟨1, 2⟩ (by norm_num), hv, fun h => ?_⟩
  obtain ⟨i, hi, j, -, hij⟩ := mem_flatten_ofFn.1 h
  rw [hv] at hij
  have hall : ∀ i ∈ List.range 64, ((List.range 64).map fun (k : ℕ) => (if k ≤ i then (binomial i k : ℤ) else 0)).sum ≠ 2 ^ 63 := by decide +kernel
  have hs : ((List.range 64).map fun (k : ℕ) => (if k ≤ i then (binomial i k : ℤ) else 0)).sum =
      ∑ k ∈ range (63 + 1), (if k ≤ i then (binomial i k : ℤ) else 0) := rfl
  have h1 := hall i (List.mem_range.2 hi)
  rw [hs] at h1
  apply h1
  have h2 : ((∑ k ∈ range (63 + 1), (if k ≤ i then (binomial i k : ℤ) else 0) : ℤ) : ℚ) = 2 ^ 63 := by
    rw [← hij]
    push_cast
    norm_num
  exact_mod_cast h2

end Audi
