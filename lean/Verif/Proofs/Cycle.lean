import Verif.Proofs.Matrices
import Mathlib.Algebra.BigOperators.Group.List.Basic
import Mathlib.Algebra.BigOperators.Group.Finset.Piecewise
import Mathlib.Algebra.Order.BigOperators.Group.Finset
import Mathlib.Tactic.Ring
import Mathlib.Tactic.LinearCombination

/-!
# Proofs: cycling the dimensions keeps the weighted sum of the entries
-/

namespace Audi.Bounding

open Finset

/-- A dimension: number of indices and the weight of each index. -/
abbrev Dim (K : Type) := ℕ × (ℕ → K)

section
variable {K : Type} [Field K]

/-- Number of entries. -/
def tot (ds : List (Dim K)) : ℕ := (ds.map Prod.fst).prod

/-- Weight of a column: product of the weights of its indices, the first dimension varies fastest. -/
def W : List (Dim K) → ℕ → K
  | [], _ => 1
  | (N, φ) :: ds, j => φ (j % N) * W ds (j / N)

/-- Weighted sum of the entries of a matrix; the rows are the first dimension. -/
def wsum : List (Dim K) → (ℕ → ℕ → K) → K
  | [], _ => 0
  | (N, φ) :: ds, f => ∑ i ∈ range N, ∑ j ∈ range (tot ds), f i j * (φ i * W ds j)

theorem sum_range_mul' (f : ℕ → K) (a b : ℕ) : ∑ j ∈ range (a * b), f j = ∑ y ∈ range b, ∑ x ∈ range a, f (x + a * y) := by
  induction b with
  | zero => simp
  | succ b ih =>
    rw [Nat.mul_succ, sum_range_add, ih, sum_range_succ]
    congr 1
    exact sum_congr rfl fun x _ => by rw [add_comm]

omit [Field K] in
theorem tot_cons (d : Dim K) (ds : List (Dim K)) : tot (d :: ds) = d.1 * tot ds := by simp [tot]

omit [Field K] in
theorem tot_append (ds es : List (Dim K)) : tot (ds ++ es) = tot ds * tot es := by simp [tot]

omit [Field K] in
theorem tot_singleton (d : Dim K) : tot [d] = d.1 := by simp [tot]

theorem W_append (ds : List (Dim K)) (hpos : ∀ d ∈ ds, 0 < d.1) (N : ℕ) (φ : ℕ → K) {i j : ℕ} (hi : i < N) (hj : j < tot ds) :
    W (ds ++ [(N, φ)]) (j + tot ds * i) = W ds j * φ i := by
  induction ds generalizing j with
  | nil =>
    simp only [tot, List.map_nil, List.prod_nil, Nat.lt_one_iff] at hj
    subst hj
    simp [W, tot, Nat.mod_eq_of_lt hi]
  | cons d ds ih =>
    obtain ⟨M, ψ⟩ := d
    have hM : 0 < M := hpos _ List.mem_cons_self
    rw [tot_cons] at hj ⊢
    simp only at hj ⊢
    rw [List.cons_append, W, W]
    have h1 : (j + M * tot ds * i) % M = j % M := by
      rw [mul_assoc, Nat.add_mul_mod_self_left]
    have h2 : (j + M * tot ds * i) / M = j / M + tot ds * i := by
      rw [mul_assoc, Nat.add_mul_div_left _ _ hM]
    rw [h1, h2, ih (fun d hd => hpos d (List.mem_cons_of_mem _ hd)) (Nat.div_lt_of_lt_mul hj)]
    ring

/-- The entries after cycling. -/
def cycled (N' S : ℕ) (f : ℕ → ℕ → K) (i j : ℕ) : K := f (j / S) (i + N' * (j % S))

theorem wsum_cycled (N N' : ℕ) (φ φ' : ℕ → K) (ds : List (Dim K)) (hN' : 0 < N') (hpos : ∀ d ∈ ds, 0 < d.1) (f : ℕ → ℕ → K) :
    wsum ((N', φ') :: (ds ++ [(N, φ)])) (cycled N' (tot ds) f) = wsum ((N, φ) :: (N', φ') :: ds) f := by
  simp only [wsum]
  rw [tot_append, tot_singleton, tot_cons]
  simp only
  have hS : 0 < tot ds := by
    unfold tot
    exact List.prod_pos fun a ha => by
      obtain ⟨d, hd, rfl⟩ := List.mem_map.1 ha
      exact hpos d hd
  have h1 : ∀ i' ∈ range N', ∑ j ∈ range (tot ds * N), cycled N' (tot ds) f i' j * (φ' i' * W (ds ++ [(N, φ)]) j) =
      ∑ i ∈ range N, ∑ y ∈ range (tot ds), f i (i' + N' * y) * (φ' i' * (W ds y * φ i)) := by
    intro i' _
    rw [sum_range_mul']
    refine sum_congr rfl fun i hi => sum_congr rfl fun y hy => ?_
    rw [mem_range] at hi hy
    rw [W_append ds hpos N φ hi hy, cycled, Nat.add_mul_div_left _ _ hS, Nat.div_eq_of_lt hy, zero_add, Nat.add_mul_mod_self_left,
      Nat.mod_eq_of_lt hy]
  rw [sum_congr rfl h1, sum_comm]
  refine sum_congr rfl fun i _ => ?_
  rw [sum_range_mul', sum_comm]
  refine sum_congr rfl fun y _ => sum_congr rfl fun x hx => ?_
  rw [mem_range] at hx
  rw [W, Nat.add_mul_mod_self_left, Nat.mod_eq_of_lt hx, Nat.add_mul_div_left _ _ hN', Nat.div_eq_of_lt hx, zero_add]
  ring

/-- A matrix applied to the rows. -/
theorem wsum_matmul (N : ℕ) (φ ψ : ℕ → K) (ds : List (Dim K)) (A f : ℕ → ℕ → K)
    (h : ∀ k, k < N → ∑ i ∈ range N, A i k * ψ i = φ k) :
    wsum ((N, ψ) :: ds) (fun i j => ∑ k ∈ range N, A i k * f k j) = wsum ((N, φ) :: ds) f := by
  simp only [wsum]
  rw [sum_comm, sum_comm (s := range N)]
  refine sum_congr rfl fun j _ => ?_
  calc ∑ i ∈ range N, (∑ k ∈ range N, A i k * f k j) * (ψ i * W ds j)
      = ∑ i ∈ range N, ∑ k ∈ range N, (A i k * ψ i) * (f k j * W ds j) := by
        refine sum_congr rfl fun i _ => ?_
        rw [sum_mul]
        exact sum_congr rfl fun k _ => by ring
    _ = ∑ k ∈ range N, (∑ i ∈ range N, A i k * ψ i) * (f k j * W ds j) := by
        rw [sum_comm]
        exact sum_congr rfl fun k _ => by rw [sum_mul]
    _ = _ := sum_congr rfl fun k hk => by rw [h k (mem_range.1 hk)]; ring

theorem sum_W (ds : List (Dim K)) (hpos : ∀ d ∈ ds, 0 < d.1) :
    ∑ j ∈ range (tot ds), W ds j = (ds.map fun d => ∑ i ∈ range d.1, d.2 i).prod := by
  induction ds with
  | nil => simp [tot, W]
  | cons d ds ih =>
    obtain ⟨N, φ⟩ := d
    have hN : 0 < N := hpos _ List.mem_cons_self
    rw [tot_cons, sum_range_mul', List.map_cons, List.prod_cons, ← ih fun d hd => hpos d (List.mem_cons_of_mem _ hd), mul_sum]
    refine sum_congr rfl fun y _ => ?_
    rw [sum_mul]
    refine sum_congr rfl fun x hx => ?_
    rw [mem_range] at hx
    rw [W, Nat.add_mul_mod_self_left, Nat.mod_eq_of_lt hx, Nat.add_mul_div_left _ _ hN, Nat.div_eq_of_lt hx, zero_add]

end

/-! ### Sizes -/

theorem sizeProd_eq (md : List ℕ) (keep : ℕ → Bool) :
    sizeProd md keep = ∏ m ∈ (range md.length).filter fun m => keep m = true, (md.getD m 0 + 1) := by
  unfold sizeProd
  have : ∀ n, (List.range n).foldl (fun l m => if keep m then l * (md.getD m 0 + 1) else l) 1 =
      ∏ m ∈ (range n).filter fun m => keep m = true, (md.getD m 0 + 1) := by
    intro n
    induction n with
    | zero => simp
    | succ n ih =>
      rw [List.range_succ, List.foldl_append, ih, range_add_one, filter_insert]
      simp only [List.foldl_cons, List.foldl_nil]
      split_ifs with h
      · rw [prod_insert (by simp), mul_comm]
      · rfl
  exact this _

theorem prod_sizes (md : List ℕ) : ∏ m ∈ range md.length, (md.getD m 0 + 1) = (md.map (· + 1)).prod := by
  rw [Finset.prod_range]
  conv_rhs => rw [← List.ofFn_getElem (xs := md)]
  rw [List.map_ofFn, List.prod_ofFn]
  refine Finset.prod_congr rfl fun i _ => ?_
  simp

theorem sizeProd_next {md : List ℕ} {a : ℕ} (ha : a < md.length) :
    (md.getD a 0 + 1) * sizeProd md (fun m => m ≠ a) = (md.map (· + 1)).prod := by
  rw [sizeProd_eq, ← prod_sizes, ← mul_prod_erase (range md.length) (fun m => md.getD m 0 + 1) (mem_range.2 ha)]
  congr 1
  refine prod_congr ?_ fun _ _ => rfl
  ext m
  simp [and_comm]

theorem sizeProd_two {md : List ℕ} {a b : ℕ} (ha : a < md.length) (hb : b < md.length) (hab : a ≠ b) :
    (md.getD a 0 + 1) * ((md.getD b 0 + 1) * sizeProd md (fun m => m ≠ a && m ≠ b)) = (md.map (· + 1)).prod := by
  rw [sizeProd_eq, ← prod_sizes, ← mul_prod_erase (range md.length) (fun m => md.getD m 0 + 1) (mem_range.2 ha),
    ← mul_prod_erase ((range md.length).erase a) (fun m => md.getD m 0 + 1) (mem_erase.2 ⟨hab.symm, mem_range.2 hb⟩)]
  congr 2
  refine prod_congr ?_ fun _ _ => rfl
  ext m
  simp only [mem_filter, mem_erase, Bool.and_eq_true, decide_eq_true_eq]
  tauto

variable {K : Type} [Zero K]

theorem cycle_ofFn {md : List ℕ} {d : ℕ} (hd : d < md.length) (h2 : 2 ≤ md.length) {N N' S : ℕ} (hN : N = md.getD d 0 + 1)
    (hN' : N' = md.getD ((d + 1) % md.length) 0 + 1) (hS : N * (N' * S) = (md.map (· + 1)).prod) (f : ℕ → ℕ → K) :
    cycle (Mat.ofFn N (N' * S) f) md d = .ok (Mat.ofFn N' (S * N) (cycled N' S f)) := by
  have hnext : (d + 1) % md.length < md.length := Nat.mod_lt _ (by omega)
  have hne : d ≠ (d + 1) % md.length := by
    rcases Nat.lt_or_ge (d + 1) md.length with h | h
    · rw [Nat.mod_eq_of_lt h]; omega
    · have : d + 1 = md.length := by omega
      rw [this, Nat.mod_self]; omega
  have hNpos : 0 < N := by omega
  have hN'pos : 0 < N' := by omega
  have e2 : sizeProd md (fun m => m ≠ d % md.length && m ≠ (d + 1) % md.length) = S := by
    rw [Nat.mod_eq_of_lt hd]
    have := sizeProd_two hd hnext hne
    rw [← hN, ← hN', ← hS] at this
    exact Nat.eq_of_mul_eq_mul_left hN'pos (Nat.eq_of_mul_eq_mul_left hNpos this)
  have e1 : sizeProd md (fun m => m ≠ (d + 1) % md.length) = S * N := by
    have := sizeProd_next hnext
    rw [← hN', ← hS] at this
    refine Nat.eq_of_mul_eq_mul_left hN'pos (this.trans ?_)
    ring
  have hprod : 0 < (md.map (· + 1)).prod := List.prod_pos (by simp)
  have hSpos : 0 < S := by
    rcases Nat.eq_zero_or_pos S with h | h
    · rw [h] at hS; simp at hS; omega
    · exact h
  unfold cycle
  rw [bind_ok (cols_ofFn f hNpos)]
  simp only
  rw [if_neg (by omega), if_neg (by omega), e1, e2, length_ofFn, replicate_eq_ofFn, ← hN']
  refine foldlM_set _ (fun ij : ℕ × ℕ => ij.2 % N') (fun ij : ℕ × ℕ => ij.2 / N' + ij.1 * S) (fun ij : ℕ × ℕ => Mat.at (Mat.ofFn N (N' * S) f) ij.1 ij.2)
    _ _ ?_ ?_
  · rintro ⟨i, j⟩ hp
    simp only [List.mem_flatMap, List.mem_map, List.mem_range, Prod.mk.injEq] at hp
    obtain ⟨i', hi', j', hj', rfl, rfl⟩ := hp
    have hj2 : j' / N' < S := Nat.div_lt_of_lt_mul hj'
    refine ⟨Nat.mod_lt _ hN'pos, ?_, ?_⟩
    · calc j' / N' + i' * S < S + i' * S := by omega
        _ = (i' + 1) * S := by ring
        _ ≤ N * S := Nat.mul_le_mul_right _ hi'
        _ = S * N := by ring
    · rw [at_ofFn f hi' hj', cycled]
      congr 2
      · rw [Nat.add_mul_div_right _ _ hSpos, Nat.div_eq_of_lt hj2, zero_add]
      · rw [Nat.add_mul_mod_self_right, Nat.mod_eq_of_lt hj2]
        exact (Nat.mod_add_div j' N').symm
  · intro a ha b hb
    have hb1 : b / S < N := Nat.div_lt_of_lt_mul hb
    have hb2 : b % S < S := Nat.mod_lt _ hSpos
    refine ⟨(b / S, a + N' * (b % S)), ?_, ?_, ?_⟩
    · simp only [List.mem_flatMap, List.mem_map, List.mem_range, Prod.mk.injEq]
      refine ⟨b / S, hb1, _, ?_, rfl, rfl⟩
      calc a + N' * (b % S) < N' + N' * (b % S) := by omega
        _ = N' * (b % S + 1) := by ring
        _ ≤ N' * S := Nat.mul_le_mul_left _ hb2
    · simp [Nat.add_mul_mod_self_left, Nat.mod_eq_of_lt ha]
    · simp only
      rw [Nat.add_mul_div_left _ _ hN'pos, Nat.div_eq_of_lt ha, zero_add, mul_comm (b / S)]
      exact Nat.mod_add_div b S

theorem cycle_one {md : List ℕ} {d : ℕ} (h1 : md.length = 1) {m n : ℕ} (hm : 0 < m) (f : ℕ → ℕ → K) :
    cycle (Mat.ofFn m n f) md d = .ok (Mat.ofFn m n f) := by
  unfold cycle
  rw [bind_ok (cols_ofFn f hm)]
  simp only [h1, if_true]

end Audi.Bounding
