import Verif.Proofs.Bernstein

/-!
# Proofs: the Bernstein patch on the unit interval, for any degree

Here the binomial coefficients are those computed by the program, which may have overflowed.
-/

namespace Audi.Bounding

open Finset

variable {K : Type} [Field K] [LinearOrder K]

/-- The patch of a polynomial in one variable, whatever `binomial` returns and for any box whose matrix `Q` is known. -/
theorem patch_one_dim_box (n : ℕ) (c : ℕ → K) (hb : ∀ k, k ≤ n → binomial n k ≠ 0) (s : String) (I : Itv K) (Q : ℕ → ℕ → K)
    (hQ : getQ [n] [(s, I)] 0 = .ok (Mat.ofFn (n + 1) (n + 1) Q)) :
    bernsteinPatch ((List.range (n + 1)).map c) ((List.range (n + 1)).map fun k => [k]) [(s, I)] =
      .ok (Mat.ofFn (n + 1) 1 fun i _ => ∑ k ∈ range (n + 1), (if k ≤ i then (binomial i k : K) else 0) *
        ∑ l ∈ range (n + 1), 1 / (binomial n k : K) * Q k l * c l) := by
  set coeffs := (List.range (n + 1)).map c with hcoeffs
  set exps := (List.range (n + 1)).map fun k => [k] with hexps
  have hl : coeffs.length = exps.length := by simp [hcoeffs, hexps]
  have hne : exps ≠ [] := by simp [hexps]
  have hw : ∀ e ∈ exps, e.length = 1 := by
    intro e he
    obtain ⟨k, _, rfl⟩ := List.mem_map.1 he
    rfl
  have hnd : exps.Nodup := List.nodup_range.map fun a b h => by injection h
  obtain ⟨md, h1, h2, h3, h4⟩ := getMaxDegrees_ok le_rfl hne hw
  obtain ⟨m, rfl⟩ := List.length_eq_one_iff.1 h2
  have hm : m = n := by
    refine le_antisymm ?_ ?_
    · obtain ⟨e, he, hek⟩ := h4 0 (by omega)
      obtain ⟨k, hk, rfl⟩ := List.mem_map.1 he
      have := List.mem_range.1 hk
      simp at hek
      omega
    · have := h3 [n] (List.mem_map.2 ⟨n, List.mem_range.2 (by omega), rfl⟩) 0 (by omega)
      simpa using this
  subst hm
  have hbel : ∀ e ∈ exps, Below [m] e := fun e he => below_of_getD (hw e he) fun k hk => h3 e he k hk
  have hA : getAMatrix coeffs exps = .ok (Mat.ofFn (m + 1) 1 fun i _ => c i) := by
    rw [getAMatrix_ok hl hne hw hnd h1 rfl hbel]
    refine congrArg Except.ok (ofFn_congr fun i hi j hj => ?_)
    obtain rfl : j = 0 := by simpa using hj
    unfold aEntry
    rw [hcoeffs, hexps, List.zipWith_map, List.zipWith_self]
    have : (List.range (m + 1)).map (fun x => if ([x] : List ℕ).headD 0 = i ∧ colIndex [m] [x] = 0 then c x else 0) =
        (List.range (m + 1)).map fun x => if x = i then c x else 0 := by
      refine List.map_congr_left fun x _ => ?_
      have : colIndex [m] [x] = 0 := rfl
      simp [this]
    rw [this]
    have hs : ((List.range (m + 1)).map fun x => if x = i then c x else 0).sum = ∑ x ∈ range (m + 1), if x = i then c x else 0 := rfl
    rw [hs, Finset.sum_ite_eq' , if_pos (mem_range.2 hi)]
  have hdacc : getDAcc (K := K) [m] 0 = .ok (Mat.ofFn (m + 1) (m + 1) fun i j => if i = j then 1 / (binomial m i : K) else 0) := by
    unfold getDAcc
    simp only [List.getElem?_cons_zero]
    rw [if_neg]
    rw [Bool.not_eq_true, List.any_eq_false]
    intro k hk
    have := hb k (by have := List.mem_range.1 hk; omega)
    simpa using this
  have hP : getPascal (K := K) [m] 0 = .ok (Mat.ofFn (m + 1) (m + 1) fun i j => if j ≤ i then (binomial i j : K) else 0) := rfl
  have hlam : lambdaStep [m] [(s, I)] (Mat.ofFn (m + 1) 1 fun i _ => c i) 0 =
      .ok (Mat.ofFn (m + 1) 1 fun i _ => ∑ l ∈ range (m + 1), 1 / (binomial m i : K) * Q i l * c l) := by
    unfold lambdaStep
    rw [bind_ok hdacc, bind_ok hQ, bind_ok (matmul_ofFn (by omega) (by omega) _ _), bind_ok (matmul_ofFn (by omega) (by omega) _ _),
      cycle_one rfl (by omega)]
    refine congrArg Except.ok (ofFn_congr fun i hi j _ => ?_)
    refine sum_congr rfl fun l _ => ?_
    congr 1
    rw [sum_eq_single i]
    · rw [if_pos rfl]
    · intro b _ hb'
      rw [if_neg (Ne.symm hb'), zero_mul]
    · intro h
      exact absurd (mem_range.2 hi) h
  unfold bernsteinPatch baseLambda
  rw [bind_ok (getNdim_ok hl hne hw), bind_ok (getNdim_ok hl hne hw), bind_ok hA, bind_ok h1]
  simp only [List.range_one, List.foldlM_cons, List.foldlM_nil]
  rw [bind_ok hlam]
  change ((Except.ok _ : Res (Mat K)) >>= _) = _
  rw [bind_ok rfl, bind_ok h1]
  unfold patchStep
  rw [bind_ok hP, bind_ok (matmul_ofFn (by omega) (by omega) _ _), cycle_one rfl (by omega)]
  rfl

/-- The matrix `Q`, whatever `binomial` returns, when the lower end point is not 0. -/
theorem getQ_raw (n : ℕ) (s : String) (I : Itv K) (h0 : I.lo ≠ 0) : getQ [n] [(s, I)] 0 = .ok (Mat.ofFn (n + 1) (n + 1) fun i j =>
    ((I.hi - I.lo) / I.lo) ^ i * (if i ≤ j then (binomial j i : K) else 0) * I.lo ^ j) := by
  have hP : getPascal (K := K) [n] 0 = .ok (Mat.ofFn (n + 1) (n + 1) fun i j => if j ≤ i then (binomial i j : K) else 0) := rfl
  have hD : ∀ t : K, getD [n] 0 t = .ok (Mat.ofFn (n + 1) (n + 1) fun i j => if i = j then t ^ i else 0) := fun t =>
    getD_eq (md := [n]) (d := 0) (by simp) t
  unfold getQ
  rw [if_pos (by simp)]
  simp only [List.getElem?_cons_zero]
  rw [if_neg h0, bind_ok (hD _), bind_ok hP, bind_ok (hD _), bind_ok (transpose_ofFn (by omega) _),
    bind_ok (matmul_ofFn (by omega) (by omega) _ _), matmul_ofFn (by omega) (by omega)]
  refine congrArg Except.ok (ofFn_congr fun i hi j hj => ?_)
  rw [Finset.sum_eq_single j, Finset.sum_eq_single i]
  · simp only [if_true]
  · intro l _ hl
    rw [if_neg (Ne.symm hl), zero_mul]
  · intro h
    exact absurd (mem_range.2 hi) h
  · intro l _ hl
    rw [if_neg hl, mul_zero]
  · intro h
    exact absurd (mem_range.2 hj) h

theorem patch_one_dim (n : ℕ) (c : ℕ → K) (hb : ∀ k, k ≤ n → binomial n k ≠ 0) (s : String) :
    bernsteinPatch ((List.range (n + 1)).map c) ((List.range (n + 1)).map fun k => [k]) [(s, ⟨0, 1⟩)] =
      .ok (Mat.ofFn (n + 1) 1 fun i _ => ∑ k ∈ range (n + 1), (if k ≤ i then (binomial i k : K) else 0) * (1 / (binomial n k : K) * c k)) := by
  have hQ : getQ [n] [(s, (⟨0, 1⟩ : Itv K))] 0 = .ok (Mat.ofFn (n + 1) (n + 1) fun i j => if i = j then 1 else 0) := by
    unfold getQ
    rw [if_pos (by simp)]
    simp only [List.getElem?_cons_zero, if_true]
    rw [getD_eq (by simp)]
    refine congrArg Except.ok (ofFn_congr fun i _ j _ => ?_)
    rw [one_pow]
  rw [patch_one_dim_box n c hb s _ _ hQ]
  refine congrArg Except.ok (ofFn_congr fun i _ j _ => sum_congr rfl fun k hk => ?_)
  rw [sum_eq_single k (fun l _ hl => by rw [if_neg (Ne.symm hl)]; ring) (fun h => absurd hk h), if_pos rfl, mul_one]

/-- The patch of the monomial `x^n` over a box whose lower end point is not 0. -/
theorem patch_monomial (n : ℕ) (hb : ∀ k, k ≤ n → binomial n k ≠ 0) [CharZero K] (s : String) (I : Itv K) (h0 : I.lo ≠ 0) :
    bernsteinPatch ((List.range (n + 1)).map fun k => if k = n then 1 else 0) ((List.range (n + 1)).map fun k => [k]) [(s, I)] =
      .ok (Mat.ofFn (n + 1) 1 fun i _ => I.lo ^ n * ∑ k ∈ range (n + 1), (if k ≤ i then (binomial i k : K) else 0) *
        ((I.hi - I.lo) / I.lo) ^ k) := by
  rw [patch_one_dim_box n _ hb s _ _ (getQ_raw n s I h0)]
  refine congrArg Except.ok (ofFn_congr fun i _ j _ => ?_)
  rw [mul_sum]
  refine sum_congr rfl fun k hk => ?_
  have hk' : k ≤ n := Nat.lt_succ_iff.1 (mem_range.1 hk)
  have hc : (binomial n k : K) ≠ 0 := Nat.cast_ne_zero.2 (hb k hk')
  rw [sum_eq_single n (fun l _ hl => by rw [if_neg hl, mul_zero]) (fun h => absurd (mem_range.2 (by omega)) h), if_pos rfl, if_pos hk']
  field_simp

end Audi.Bounding
