import Verif.Model.Access
import Verif.Proofs.GDual
import Mathlib.Algebra.Order.BigOperators.Group.List
import Mathlib.Data.Nat.Factorial.Basic
import Mathlib.Tactic.NormNum
import Mathlib.Tactic.Ring

/-! # The machine integers of `find_cf` and `get_derivative` -/

namespace Audi.GDual

variable {C : Type} [Cf C] {d : GDual C} {L : ℕ}

theorem toUnsigned_cast {k : ℕ} (h : k < 4294967296) : toUnsigned (k : ℤ) = k := by
  unfold toUnsigned; omega

theorem toUnsigned_lt (k : ℤ) : toUnsigned k < 4294967296 := by
  unfold toUnsigned; omega

/-- An `int` or `unsigned` whose conversion to `unsigned` is small was not negative. -/
theorem eq_cast_of_toUnsigned {k : ℤ} (h1 : -2147483648 ≤ k) (h2 : k < 4294967296) (h : toUnsigned k ≤ 170) :
    k = ((toUnsigned k : ℕ) : ℤ) := by
  unfold toUnsigned at *; omega

theorem foldl_toUnsigned (e : List ℤ) (a : ℕ) (ha : a < 4294967296) :
    e.foldl (fun acc k => toUnsigned ((acc : ℤ) + k)) a = toUnsigned ((a : ℤ) + e.sum) := by
  induction e generalizing a with
  | nil => simp [toUnsigned_cast ha]
  | cons k e ih =>
    rw [List.foldl_cons, ih _ (toUnsigned_lt _), List.sum_cons]
    unfold toUnsigned
    omega

theorem expSumU_eq (e : List ℤ) : expSumU e = toUnsigned e.sum := by
  unfold expSumU
  rw [foldl_toUnsigned e 0 (by norm_num)]
  simp

theorem sum_cast (e : List ℕ) : (e.map fun k : ℕ => (k : ℤ)).sum = ((e.sum : ℕ) : ℤ) := by
  induction e with
  | nil => rfl
  | cons k e ih => rw [List.map_cons, List.sum_cons, List.sum_cons, ih, Nat.cast_add]

theorem expSumU_cast {e : List ℕ} (h : e.sum < 4294967296) : expSumU (e.map fun k : ℕ => (k : ℤ)) = e.sum := by
  rw [expSumU_eq, sum_cast, toUnsigned_cast h]

theorem mkKey_cast {e : List ℕ} (h : ∀ k ∈ e, k ≤ L) : mkKey L (e.map fun k : ℕ => (k : ℤ)) = .ok e := by
  unfold mkKey
  rw [if_pos]
  · simp [Function.comp_def]
  · rw [List.all_eq_true]
    intro x hx
    obtain ⟨k, hk, rfl⟩ := List.mem_map.mp hx
    have := h k hk
    simp [this]

/-- Exponents that fit are their own keys. -/
theorem mkKey_ok {e : List ℤ} {k : List ℕ} (h : mkKey L e = .ok k) :
    e = k.map (fun n : ℕ => (n : ℤ)) ∧ ∀ n ∈ k, n ≤ L := by
  unfold mkKey at h
  split_ifs at h with h1
  rw [List.all_eq_true] at h1
  simp only [Except.ok.injEq] at h
  subst h
  constructor
  · rw [List.map_map]
    symm
    conv_rhs => rw [← List.map_id e]
    refine List.map_congr_left fun x hx => ?_
    have := of_decide_eq_true (h1 x hx)
    simp only [Function.comp_apply, id]
    omega
  · intro n hn
    obtain ⟨x, hx, rfl⟩ := List.mem_map.mp hn
    have := of_decide_eq_true (h1 x hx)
    omega

/-- In range, the C++ `find_cf` is the idealised one. -/
theorem findCfU_cast {e : List ℕ} (hL : ∀ k ∈ e, k ≤ L) (hs : e.sum < 4294967296) :
    d.findCfU L (e.map fun k : ℕ => (k : ℤ)) = d.findCf e := by
  unfold findCfU findCf
  rw [expSumU_cast hs, mkKey_cast hL, List.length_map]
  rfl

theorem sum_le_of_le {e : List ℕ} (h : ∀ k ∈ e, k ≤ L) : e.sum ≤ e.length * L := by
  have := List.sum_le_card_nsmul e L h
  simpa using this

/-- Whatever the C++ `find_cf` returns is what the idealised one returns, unless the sum of exponents that fit in a key
can reach 2^32. -/
theorem findCfU_ok {e : List ℤ} {c : C} (hn : d.symbolSetSize * L < 4294967296) (h : d.findCfU L e = .ok c) :
    ∃ k : List ℕ, e = k.map (fun n : ℕ => (n : ℤ)) ∧ (∀ n ∈ k, n ≤ L) ∧ d.findCf k = .ok c := by
  have h0 := h
  unfold findCfU at h
  split_ifs at h with h1 h2
  cases hk : mkKey L e with
  | error x => rw [hk] at h; cases h
  | ok k =>
    obtain ⟨he, hle⟩ := mkKey_ok hk
    refine ⟨k, he, hle, ?_⟩
    rw [← h0, he]
    refine (findCfU_cast hle ?_).symm
    have h3 : k.length = d.symbolSetSize := by
      rw [← not_not.mp h2, he, List.length_map]
    exact lt_of_le_of_lt (h3 ▸ sum_le_of_le hle) hn

/-- After the two tests, only the construction of the key throws. -/
theorem findCfU_error {e : List ℤ} {x : Exn} (h1 : ¬ expSumU e > d.order) (h2 : ¬ e.length ≠ d.symbolSetSize)
    (h : d.findCfU L e = .error x) : x = .overflowError := by
  unfold findCfU at h
  rw [if_neg h1, if_neg h2] at h
  cases hk : mkKey L e with
  | error y =>
    rw [hk] at h
    unfold mkKey at hk
    split_ifs at hk
    cases hk
    cases h
    rfl
  | ok k =>
    rw [hk] at h
    have : ∀ o : Option C, (match o with | none => (.ok Cf.zero : Res C) | some c => .ok c) ≠ .error x := by
      intro o; cases o <;> simp
    exact absurd h (this _)

/-! The product of the factorials -/

theorem factorialD_of_le {k : ℕ} (h : k ≤ 170) : factorialD k = .ok k.factorial := by
  unfold factorialD; rw [if_neg (by omega)]

theorem factorialD_of_gt {k : ℕ} (h : 170 < k) : factorialD k = .error .overflowError := by
  unfold factorialD; rw [if_pos h]

theorem one_lt_doubleLimit : 1 < doubleLimit := by
  rw [doubleLimit]; exact Nat.one_lt_two_pow (Nat.succ_ne_zero 1023)

attribute [local irreducible] doubleLimit

theorem mulD_none (f : ℕ) : mulD none f = none := rfl

theorem foldlM_cumfact_none (e : List ℕ) (h : ∀ k ∈ e, k ≤ 170) :
    (e.map fun k : ℕ => (k : ℤ)).foldlM (fun acc k => do
      let f ← factorialD (toUnsigned k)
      (.ok (mulD acc f) : Res (Option ℕ))) none = .ok none := by
  induction e with
  | nil => rfl
  | cons k e ih =>
    rw [List.map_cons, List.foldlM_cons, toUnsigned_cast (by have := h k (by simp); omega),
      factorialD_of_le (h k (by simp))]
    exact ih fun j hj => h j (by simp [hj])

theorem prod_factorial_pos (e : List ℕ) : 0 < (e.map Nat.factorial).prod :=
  List.prod_pos fun x hx => by
    obtain ⟨k, -, rfl⟩ := List.mem_map.mp hx
    exact Nat.factorial_pos k

theorem foldlM_cumfact (e : List ℕ) (h : ∀ k ∈ e, k ≤ 170) (a : ℕ) (ha : a < doubleLimit) :
    (e.map fun k : ℕ => (k : ℤ)).foldlM (fun acc k => do
      let f ← factorialD (toUnsigned k)
      (.ok (mulD acc f) : Res (Option ℕ))) (some a) =
    .ok (if a * (e.map Nat.factorial).prod < doubleLimit then some (a * (e.map Nat.factorial).prod) else none) := by
  induction e generalizing a with
  | nil => simp [ha]; rfl
  | cons k e ih =>
    rw [List.map_cons, List.foldlM_cons, toUnsigned_cast (by have := h k (by simp); omega),
      factorialD_of_le (h k (by simp))]
    have hm : mulD (some a) k.factorial =
        if a * k.factorial < doubleLimit then some (a * k.factorial) else none := by
      simp only [mulD, Option.bind_some]
    have hb : ∀ x y : ℕ, (do
        let f ← (.ok x : Res ℕ)
        (.ok (mulD (some y) f) : Res (Option ℕ))) = .ok (mulD (some y) x) := fun _ _ => rfl
    rw [hb, hm, List.map_cons, List.prod_cons, ← mul_assoc]
    split_ifs with h1 h2 h3
    · have := ih (fun j hj => h j (by simp [hj])) _ h1
      rw [if_pos h2] at this
      exact this
    · have := ih (fun j hj => h j (by simp [hj])) _ h1
      rw [if_neg h2] at this
      exact this
    · exact absurd (lt_of_le_of_lt (Nat.le_mul_of_pos_right _ (prod_factorial_pos e)) h3) h1
    · exact foldlM_cumfact_none e fun j hj => h j (by simp [hj])

theorem cumfact_cast {e : List ℕ} (h : ∀ k ∈ e, k ≤ 170) :
    cumfact (e.map fun k : ℕ => (k : ℤ)) =
      .ok (if (e.map Nat.factorial).prod < doubleLimit then some (e.map Nat.factorial).prod else none) := by
  have := foldlM_cumfact e h 1 one_lt_doubleLimit
  rw [one_mul] at this
  exact this

theorem foldlM_cumfact_big {e : List ℤ} (h : ∃ k ∈ e, 170 < toUnsigned k) (a : Option ℕ) :
    e.foldlM (fun acc k => do
      let f ← factorialD (toUnsigned k)
      (.ok (mulD acc f) : Res (Option ℕ))) a = .error .overflowError := by
  induction e generalizing a with
  | nil => obtain ⟨k, hk, -⟩ := h; cases hk
  | cons k e ih =>
    rw [List.foldlM_cons]
    by_cases h1 : 170 < toUnsigned k
    · rw [factorialD_of_gt h1]; rfl
    · rw [factorialD_of_le (not_lt.mp h1)]
      refine ih ?_ _
      obtain ⟨j, hj, hj'⟩ := h
      rcases List.mem_cons.mp hj with rfl | hj
      · exact absurd hj' h1
      · exact ⟨j, hj, hj'⟩

theorem cumfact_big {e : List ℤ} (h : ∃ k ∈ e, 170 < toUnsigned k) : cumfact e = .error .overflowError :=
  foldlM_cumfact_big h _

/-- The exponents of a list with small conversions. -/
theorem eq_map_cast {e : List ℤ} (ht : ∀ k ∈ e, -2147483648 ≤ k ∧ k < 4294967296)
    (h : ∀ k ∈ e, toUnsigned k ≤ 170) :
    e = (e.map toUnsigned).map fun n : ℕ => (n : ℤ) := by
  rw [List.map_map]
  conv_lhs => rw [← List.map_id e]
  refine List.map_congr_left fun k hk => ?_
  exact eq_cast_of_toUnsigned (ht k hk).1 (ht k hk).2 (h k hk)

theorem prod_factorial_cast (e : List ℕ) :
    (((e.map Nat.factorial).prod : ℕ) : ℚ) = (e.map fun k => (Nat.factorial k : ℚ)).prod := by
  induction e with
  | nil => simp
  | cons k e ih => simp [ih]

/-- `get_derivative` with exponents up to 170. -/
theorem getDerivativeU_cast {e : List ℕ} (h : ∀ k ∈ e, k ≤ 170) (hL : ∀ k ∈ e, k ≤ L) (hs : e.sum < 4294967296) :
    d.getDerivativeU L (e.map fun k : ℕ => (k : ℤ)) =
      if (e.map Nat.factorial).prod < doubleLimit then d.getDerivative e
      else d.findCf e >>= fun _ => .error .nonFinite := by
  unfold getDerivativeU getDerivative
  rw [cumfact_cast h, findCfU_cast hL hs]
  split_ifs
  · rw [← prod_factorial_cast]
    rfl
  · rfl

end Audi.GDual
