import Verif.Spec.Exact
import Verif.Proofs.CfHom
import Verif.Proofs.GDualOps
import Mathlib.Tactic.NormNum
import Mathlib.Tactic.Linarith
import Mathlib.Algebra.BigOperators.Ring.List

/-! Integers up to 2^53 are calculated exactly on `double`: the operations on tables, polynomials and gduals with integer coefficients whose absolute values have a sum of at most 2^53. -/

namespace Audi
open Poly

/-- The rounding of a number to `double`. -/
abbrev toD (q : ℚ) : XF .binary64 := XF.round .binary64 q

/-- The number is an integer. -/
def IsInt (q : ℚ) : Prop := ∃ n : ℤ, q = n

namespace IsInt
variable {a b : ℚ}

theorem add (ha : IsInt a) (hb : IsInt b) : IsInt (a + b) := by
  obtain ⟨m, rfl⟩ := ha
  obtain ⟨n, rfl⟩ := hb
  exact ⟨m + n, by push_cast; rfl⟩

theorem mul (ha : IsInt a) (hb : IsInt b) : IsInt (a * b) := by
  obtain ⟨m, rfl⟩ := ha
  obtain ⟨n, rfl⟩ := hb
  exact ⟨m * n, by push_cast; rfl⟩

theorem neg (ha : IsInt a) : IsInt (-a) := by
  obtain ⟨m, rfl⟩ := ha
  exact ⟨-m, by push_cast; rfl⟩

end IsInt

/-- The largest number up to which all integers are numbers of the format. -/
abbrev maxZ : ℚ := 2 ^ 53

theorem round64_int {n : ℤ} (h : |(n : ℚ)| ≤ maxZ) : round64 n = n := by
  have h0 : |n| ≤ 2 ^ 53 := by unfold maxZ at h; exact_mod_cast h
  have h1 := nearest_of_digits (K := ℚ) (p := 53) (by norm_num) h0 0
  rw [zpow_zero, mul_one] at h1
  unfold round64
  split_ifs with h2
  · have h3 : n = 0 := by
      by_contra hn
      have h4 : (1 : ℚ) ≤ |(n : ℚ)| := by exact_mod_cast Int.one_le_abs hn
      have h5 : (2 : ℚ) ^ (-1022 : ℤ) ≤ 1 := zpow_le_one_of_nonpos₀ (by norm_num) (by norm_num)
      linarith
    subst h3
    have h4 : nearestInt (0 : ℚ) = 0 := by
      have := nearestInt_int (K := ℚ) 0
      simpa using this
    rw [Int.cast_zero, zero_mul, h4, Int.cast_zero, zero_mul]
  · exact h1

theorem toD_v {q : ℚ} (hq : IsInt q) (h : |q| ≤ maxZ) : (toD q).v = .fin q := by
  obtain ⟨n, rfl⟩ := hq
  change rnd64 _ = _
  rw [rnd64, round64_int h, if_pos]
  exact h.trans_lt (pow_lt_pow_right₀ (by norm_num) (by norm_num))

theorem toD_add {a b : ℚ} (ia : IsInt a) (ib : IsInt b) (ha : |a| ≤ maxZ) (hb : |b| ≤ maxZ) : Cf.add (toD a) (toD b) = toD (a + b) :=
  XF.ext (XF.add_fin (toD_v ia ha) (toD_v ib hb))

theorem toD_mul {a b : ℚ} (ia : IsInt a) (ib : IsInt b) (ha : |a| ≤ maxZ) (hb : |b| ≤ maxZ) : Cf.mul (toD a) (toD b) = toD (a * b) :=
  XF.ext (XF.mul_fin (toD_v ia ha) (toD_v ib hb))

theorem toD_neg {a : ℚ} (ia : IsInt a) (ha : |a| ≤ maxZ) : Cf.neg (toD a) = toD (-a) :=
  XF.ext ((XF.neg_fin (toD_v ia ha)).trans (toD_v ia.neg (by rwa [abs_neg])).symm)

theorem toD_isZero {a : ℚ} (ia : IsInt a) (ha : |a| ≤ maxZ) : Cf.isZero (toD a) = Cf.isZero a := by
  change decide ((toD a).v = .fin 0) = decide (a = 0)
  rw [toD_v ia ha]
  simp

/-! ### Tables -/

/-- The sum of the absolute values of the coefficients. -/
def norm1 (t : List (List ℕ × ℚ)) : ℚ := (t.map fun x => |x.2|).sum

/-- All coefficients are integers. -/
def Ints (t : List (List ℕ × ℚ)) : Prop := ∀ x ∈ t, IsInt x.2

theorem norm1_cons (x : List ℕ × ℚ) (t : List (List ℕ × ℚ)) : norm1 (x :: t) = |x.2| + norm1 t := by simp [norm1]

theorem norm1_nonneg (t : List (List ℕ × ℚ)) : 0 ≤ norm1 t := List.sum_nonneg fun x hx => by
  obtain ⟨y, -, rfl⟩ := List.mem_map.mp hx
  exact abs_nonneg _

theorem abs_le_norm1 {t : List (List ℕ × ℚ)} {x : List ℕ × ℚ} (hx : x ∈ t) : |x.2| ≤ norm1 t :=
  List.single_le_sum (fun y hy => by obtain ⟨z, -, rfl⟩ := List.mem_map.mp hy; exact abs_nonneg _) _ (List.mem_map_of_mem (f := fun x : List ℕ × ℚ => |x.2|) hx)

theorem Ints.insertTerm {e : List ℕ} {c : ℚ} {t : List (List ℕ × ℚ)} (ht : Ints t) (hc : IsInt c) : Ints (Poly.insertTerm e c t) ∧ norm1 (Poly.insertTerm e c t) ≤ norm1 t + |c| := by
  induction t with
  | nil =>
    unfold Poly.insertTerm
    split_ifs
    · exact ⟨ht, by simp [norm1]⟩
    · exact ⟨fun x hx => by rw [List.mem_singleton.mp hx]; exact hc, by simp [norm1]⟩
  | cons y t ih =>
    obtain ⟨e', c'⟩ := y
    have h1 : IsInt c' := ht (e', c') (by simp)
    have h2 : Ints t := fun x hx => ht x (List.mem_cons_of_mem _ hx)
    have h4 : (Cf.add c' c : ℚ) = c' + c := rfl
    unfold Poly.insertTerm
    rw [h4]
    split_ifs with h3 h5
    · exact ⟨h2, by rw [norm1_cons]; have := abs_nonneg c'; have := abs_nonneg c; linarith⟩
    · refine ⟨fun x hx => ?_, ?_⟩
      · rcases List.mem_cons.mp hx with rfl | hx
        · exact h1.add hc
        · exact h2 x hx
      · rw [norm1_cons, norm1_cons]
        have := abs_add_le c' c
        simp only
        linarith
    · obtain ⟨h6, h7⟩ := ih h2
      refine ⟨fun x hx => ?_, ?_⟩
      · rcases List.mem_cons.mp hx with rfl | hx
        · exact h1
        · exact h6 x hx
      · rw [norm1_cons, norm1_cons]
        linarith

theorem toD_insertTerm {e : List ℕ} {c : ℚ} {t : List (List ℕ × ℚ)} (ht : Ints t) (hc : IsInt c) (hM : norm1 t + |c| ≤ maxZ) :
    Poly.insertTerm e (toD c) (mapT toD t) = mapT toD (Poly.insertTerm e c t) := by
  have hc' : |c| ≤ maxZ := by have := norm1_nonneg t; linarith
  induction t with
  | nil =>
    unfold Poly.insertTerm mapT
    rw [List.map_nil, toD_isZero hc hc']
    simp only
    split_ifs <;> rfl
  | cons y t ih =>
    obtain ⟨e', c'⟩ := y
    rw [norm1_cons] at hM
    simp only at hM
    have h0 := norm1_nonneg t
    have h1 : IsInt c' := ht (e', c') (by simp)
    have h2 : Ints t := fun x hx => ht x (List.mem_cons_of_mem _ hx)
    have h3 : |c'| ≤ maxZ := by have := abs_nonneg c; linarith
    change Poly.insertTerm e (toD c) ((e', toD c') :: mapT toD t) = _
    unfold Poly.insertTerm
    rw [toD_add h1 hc h3 hc', toD_isZero (h1.add hc) (by have := abs_add_le c' c; linarith), ih h2 (by have := abs_nonneg c'; linarith)]
    change (if e = e' then if Cf.isZero (Cf.add c' c) = true then _ else _ else _) = _
    split_ifs <;> rfl

theorem toD_insertTerms {t new : List (List ℕ × ℚ)} (ht : Ints t) (hn : Ints new) (hM : norm1 t + norm1 new ≤ maxZ) :
    Poly.insertTerms (mapT toD t) (mapT toD new) = mapT toD (Poly.insertTerms t new) ∧ Ints (Poly.insertTerms t new) ∧ norm1 (Poly.insertTerms t new) ≤ norm1 t + norm1 new := by
  unfold Poly.insertTerms
  induction new generalizing t with
  | nil => exact ⟨rfl, ht, by simp [norm1]⟩
  | cons y new ih =>
    rw [norm1_cons] at hM ⊢
    have h0 := norm1_nonneg new
    have hy : IsInt y.2 := hn y (by simp)
    obtain ⟨h1, h2⟩ := ht.insertTerm (e := y.1) hy
    change List.foldl _ (Poly.insertTerm y.1 (toD y.2) (mapT toD t)) (mapT toD new) = _ ∧ _
    rw [toD_insertTerm ht hy (by linarith)]
    obtain ⟨h3, h4, h5⟩ := ih h1 (fun x hx => hn x (List.mem_cons_of_mem _ hx)) (by linarith)
    exact ⟨h3, h4, h5.trans (by linarith)⟩

/-! ### Polynomials and gduals -/

/-- Integer coefficients, the sum of their absolute values is at most `B`. -/
structure Fits (B : ℕ) (t : List (List ℕ × ℚ)) : Prop where
  ints : Ints t
  norm : norm1 t ≤ B

theorem Fits.mono {B B' : ℕ} {t : List (List ℕ × ℚ)} (h : Fits B t) (hB : B ≤ B') : Fits B' t := ⟨h.ints, h.norm.trans (by exact_mod_cast hB)⟩

theorem Fits.abs_le {B : ℕ} (hB : B ≤ 2 ^ 53) {t : List (List ℕ × ℚ)} (h : Fits B t) {x : List ℕ × ℚ} (hx : x ∈ t) : |x.2| ≤ maxZ :=
  (abs_le_norm1 hx).trans (h.norm.trans (by unfold maxZ; exact_mod_cast hB))

theorem Fits.addSymbols {B : ℕ} {p : Poly ℚ} (h : Fits B p.terms) (ss : List String) : Fits B (p.addSymbols ss).terms := by
  refine ⟨fun x hx => ?_, ?_⟩
  · obtain ⟨y, hy, rfl⟩ := List.mem_map.mp hx
    exact h.ints y hy
  · have : norm1 (p.addSymbols ss).terms = norm1 p.terms := by simp [norm1, Poly.addSymbols, Function.comp_def]
    rw [this]
    exact h.norm

variable {A B : ℕ} {p q : Poly ℚ}

theorem toD_padd (hp : Fits A p.terms) (hq : Fits B q.terms) (hM : A + B ≤ 2 ^ 53) : (p.mapP toD).add (q.mapP toD) = (p.add q).mapP toD ∧ Fits (A + B) (p.add q).terms := by
  have hM' : ((A : ℚ) + B) ≤ maxZ := by unfold maxZ; exact_mod_cast hM
  have h1 := mapP_addSymbols toD p q.syms
  have h2 := mapP_addSymbols toD q p.syms
  have h3 := hp.addSymbols q.syms
  have h4 := hq.addSymbols p.syms
  obtain ⟨h5, h6, h7⟩ := toD_insertTerms h3.ints h4.ints ((add_le_add h3.norm h4.norm).trans hM')
  refine ⟨?_, h6, h7.trans ((add_le_add h3.norm h4.norm).trans (by push_cast; rfl))⟩
  unfold Poly.add
  simp only [show (q.mapP toD).syms = q.syms from rfl, show (p.mapP toD).syms = p.syms from rfl, h1, h2]
  simp only [Poly.mapP]
  rw [h5]

theorem toD_pneg (hp : Fits A p.terms) (hM : A ≤ 2 ^ 53) : (p.mapP toD).neg = p.neg.mapP toD ∧ Fits A p.neg.terms := by
  refine ⟨?_, fun x hx => ?_, ?_⟩
  · simp only [Poly.neg, Poly.mapP, mapT, List.map_map]
    congr 1
    refine List.map_congr_left fun x hx => ?_
    simp only [Function.comp]
    rw [toD_neg (hp.ints x hx) (hp.abs_le hM hx)]
    rfl
  · obtain ⟨y, hy, rfl⟩ := List.mem_map.mp hx
    exact (hp.ints y hy).neg
  · have : norm1 p.neg.terms = norm1 p.terms := by
      simp only [norm1, Poly.neg, List.map_map, Function.comp_def]
      congr 1
      refine List.map_congr_left fun x _ => ?_
      exact abs_neg x.2
    rw [this]
    exact hp.norm

theorem toD_psub (hp : Fits A p.terms) (hq : Fits B q.terms) (hM : A + B ≤ 2 ^ 53) : (p.mapP toD).sub (q.mapP toD) = (p.sub q).mapP toD ∧ Fits (A + B) (p.sub q).terms := by
  obtain ⟨h1, h2⟩ := toD_pneg hq (by omega)
  unfold Poly.sub
  rw [h1]
  exact toD_padd hp h2 hM

theorem toD_const {c : ℤ} (hc : sizeZ c ≤ 2 ^ 53) : Poly.const (dbl c) = (Poly.const (c : ℚ)).mapP toD ∧ Fits (sizeZ c) (Poly.const (c : ℚ)).terms := by
  have h0 : |(c : ℚ)| ≤ sizeZ c := by
    have : |c| ≤ (sizeZ c : ℤ) := by rw [Int.abs_eq_natAbs]; exact_mod_cast le_max_right _ _
    exact_mod_cast this
  have h1 : |(c : ℚ)| ≤ maxZ := h0.trans (by unfold maxZ; exact_mod_cast hc)
  have hn : norm1 [] + |(c : ℚ)| ≤ maxZ := by simpa [norm1] using h1
  obtain ⟨h2, h3⟩ := Ints.insertTerm (e := []) (t := []) (fun x hx => by simp at hx) ⟨c, rfl⟩
  refine ⟨?_, h2, h3.trans (by simpa [norm1] using h0)⟩
  unfold Poly.const Poly.mapP
  simp only
  rw [← toD_insertTerm (fun x hx => by simp at hx) ⟨c, rfl⟩ hn]
  rfl

theorem norm1_append (t u : List (List ℕ × ℚ)) : norm1 (t ++ u) = norm1 t + norm1 u := by simp [norm1]

theorem norm1_filter (t : List (List ℕ × ℚ)) (f : List ℕ × ℚ → Bool) : norm1 (t.filter f) ≤ norm1 t := by
  induction t with
  | nil => exact le_rfl
  | cons x t ih =>
    have := abs_nonneg x.2
    by_cases h : f x = true
    · rw [List.filter_cons_of_pos h, norm1_cons, norm1_cons]; linarith
    · rw [List.filter_cons_of_neg h, norm1_cons]; linarith

/-- The products of the terms of two tables. -/
theorem norm1_products (keep : List ℕ → Bool) (T U : List (List ℕ × ℚ)) :
    norm1 (T.flatMap fun t => (U.map fun u => (List.zipWith (· + ·) t.1 u.1, Cf.mul t.2 u.2)).filter fun v => keep v.1) ≤ norm1 T * norm1 U := by
  induction T with
  | nil => simp [norm1]
  | cons t T ih =>
    rw [List.flatMap_cons, norm1_append, norm1_cons, add_mul]
    refine add_le_add ((norm1_filter _ _).trans (le_of_eq ?_)) ih
    simp only [norm1, List.map_map, Function.comp_def]
    rw [← List.sum_map_mul_left]
    congr 1
    refine List.map_congr_left fun x _ => ?_
    exact abs_mul t.2 x.2

theorem toD_mulBy {keep : List ℕ → Bool} (hp : Fits A p.terms) (hq : Fits B q.terms) (hA : A ≤ 2 ^ 53) (hB : B ≤ 2 ^ 53) (hM : A * B ≤ 2 ^ 53) :
    Poly.mulBy keep (p.mapP toD) (q.mapP toD) = (Poly.mulBy keep p q).mapP toD ∧ Fits (A * B) (Poly.mulBy keep p q).terms := by
  have hM' : ((A : ℚ) * B) ≤ maxZ := by unfold maxZ; exact_mod_cast hM
  have h3 := hp.addSymbols q.syms
  have h4 := hq.addSymbols p.syms
  have hn := (norm1_products keep (p.addSymbols q.syms).terms (q.addSymbols p.syms).terms).trans
    (mul_le_mul h3.norm h4.norm (norm1_nonneg _) (Nat.cast_nonneg A))
  have hi : Ints ((p.addSymbols q.syms).terms.flatMap fun t => ((q.addSymbols p.syms).terms.map fun u => (List.zipWith (· + ·) t.1 u.1, Cf.mul t.2 u.2)).filter fun v => keep v.1) := by
    intro x hx
    obtain ⟨t, ht, hx⟩ := List.mem_flatMap.mp hx
    obtain ⟨u, hu, rfl⟩ := List.mem_map.mp (List.mem_filter.mp hx).1
    exact (h3.ints t ht).mul (h4.ints u hu)
  obtain ⟨h5, h6, h7⟩ := toD_insertTerms (t := []) (fun x hx => by simp at hx) hi (by
    have : norm1 [] = 0 := rfl
    rw [this, zero_add]
    exact hn.trans hM')
  refine ⟨?_, h6, h7.trans ?_⟩
  · unfold Poly.mulBy
    simp only [show (q.mapP toD).syms = q.syms from rfl, show (p.mapP toD).syms = p.syms from rfl, mapP_addSymbols]
    simp only [Poly.mapP]
    rw [← h5]
    refine congrArg (fun l => (⟨_, Poly.insertTerms [] l⟩ : Poly (XF .binary64))) ?_
    simp only [mapT, List.flatMap_map, List.map_flatMap]
    refine List.flatMap_congr fun t ht => ?_
    rw [List.map_map, List.filter_map, List.filter_map, List.map_map]
    refine List.map_congr_left fun u hu => ?_
    have hu' := (List.mem_filter.mp hu).1
    simp only [Function.comp]
    rw [toD_mul (h3.ints t ht) (h4.ints u hu') (h3.abs_le hA ht) (h4.abs_le hB hu')]
    rfl
  · have : norm1 [] = 0 := rfl
    rw [this, zero_add]
    push_cast
    exact hn

variable {a b : GDual ℚ}

theorem toD_gmul (ha : Fits A a.p.terms) (hb : Fits B b.p.terms) (hA : 1 ≤ A) (hB : 1 ≤ B) (hM : A * B ≤ 2 ^ 53) :
    (a.mapG toD).mul (b.mapG toD) = (a.mul b).mapG toD ∧ Fits (A * B) (a.mul b).p.terms := by
  have h := toD_mulBy (keep := fun e => keyDegree e ≤ max a.order b.order) ha hb ((Nat.le_mul_of_pos_right A hB).trans hM) ((Nat.le_mul_of_pos_left B hA).trans hM) hM
  exact ⟨congrArg (fun p => (⟨p, max a.order b.order⟩ : GDual (XF .binary64))) h.1, h.2⟩

theorem sizeZ_pos (c : ℤ) : 1 ≤ sizeZ c := le_max_left _ _

theorem AOp.one_le_size {op : AOp} (hA : 1 ≤ A) (hB : 1 ≤ B) : 1 ≤ op.size A B := by
  cases op
  · exact hA.trans (Nat.le_add_right _ _)
  · exact hA.trans (Nat.le_add_right _ _)
  · exact Nat.mul_pos hA hB

theorem AOp.le_size {op : AOp} (hA : 1 ≤ A) (hB : 1 ≤ B) : A ≤ op.size A B ∧ B ≤ op.size A B := by
  cases op
  · exact ⟨Nat.le_add_right _ _, Nat.le_add_left _ _⟩
  · exact ⟨Nat.le_add_right _ _, Nat.le_add_left _ _⟩
  · exact ⟨Nat.le_mul_of_pos_right _ hB, Nat.le_mul_of_pos_left _ hA⟩

theorem toD_run (op : AOp) (ha : Fits A a.p.terms) (hb : Fits B b.p.terms) (hA : 1 ≤ A) (hB : 1 ≤ B) (hM : op.size A B ≤ 2 ^ 53) :
    op.run (a.mapG toD) (b.mapG toD) = (op.run a b).mapG toD ∧ Fits (op.size A B) (op.run a b).p.terms := by
  cases op with
  | add =>
    have h := toD_padd ha hb hM
    exact ⟨congrArg (fun p => (⟨p, max a.order b.order⟩ : GDual (XF .binary64))) h.1, h.2⟩
  | sub =>
    have h := toD_psub ha hb hM
    exact ⟨congrArg (fun p => (⟨p, max a.order b.order⟩ : GDual (XF .binary64))) h.1, h.2⟩
  | mul => exact toD_gmul ha hb hA hB hM

theorem toD_ofCfOrder {c : ℤ} (hc : sizeZ c ≤ 2 ^ 53) (n : ℕ) : GDual.ofCfOrder (dbl c) n = (GDual.ofCfOrder (c : ℚ) n).mapG toD := by
  unfold GDual.ofCfOrder
  rw [(toD_const hc).1]
  rfl

theorem toD_runL (op : AOp) {c : ℤ} (ha : Fits A a.p.terms) (hA : 1 ≤ A) (hM : op.size (sizeZ c) A ≤ 2 ^ 53) :
    op.runL (dbl c) (a.mapG toD) = (op.runL (c : ℚ) a).mapG toD ∧ Fits (op.size (sizeZ c) A) (op.runL (c : ℚ) a).p.terms := by
  have hc : sizeZ c ≤ 2 ^ 53 := (AOp.le_size (op := op) (sizeZ_pos c) hA).1.trans hM
  obtain ⟨h1, h2⟩ := toD_const hc
  cases op with
  | add =>
    have h := toD_padd h2 ha hM
    rw [← h1] at h
    exact ⟨congrArg (fun p => (⟨p, a.order⟩ : GDual (XF .binary64))) h.1, h.2⟩
  | sub =>
    have h := toD_psub h2 ha hM
    rw [← h1] at h
    exact ⟨congrArg (fun p => (⟨p, a.order⟩ : GDual (XF .binary64))) h.1, h.2⟩
  | mul =>
    have h := toD_gmul (a := GDual.ofCfOrder (c : ℚ) a.order) h2 ha (sizeZ_pos c) hA hM
    rw [← toD_ofCfOrder hc] at h
    exact h

theorem toD_runR (op : AOp) {c : ℤ} (ha : Fits A a.p.terms) (hA : 1 ≤ A) (hM : op.size A (sizeZ c) ≤ 2 ^ 53) :
    op.runR (a.mapG toD) (dbl c) = (op.runR a (c : ℚ)).mapG toD ∧ Fits (op.size A (sizeZ c)) (op.runR a (c : ℚ)).p.terms := by
  have hc : sizeZ c ≤ 2 ^ 53 := (AOp.le_size (op := op) hA (sizeZ_pos c)).2.trans hM
  obtain ⟨h1, h2⟩ := toD_const hc
  cases op with
  | add =>
    have h := toD_padd h2 ha (by rw [add_comm]; exact hM)
    rw [← h1, add_comm] at h
    exact ⟨congrArg (fun p => (⟨p, a.order⟩ : GDual (XF .binary64))) h.1, h.2⟩
  | sub =>
    have h := toD_psub ha h2 hM
    rw [← h1] at h
    exact ⟨congrArg (fun p => (⟨p, a.order⟩ : GDual (XF .binary64))) h.1, h.2⟩
  | mul =>
    have h := toD_gmul (b := GDual.ofCfOrder (c : ℚ) a.order) ha h2 hA (sizeZ_pos c) hM
    rw [← toD_ofCfOrder hc] at h
    exact h

theorem toD_one : (Cf.one : XF .binary64) = toD Cf.one := rfl

theorem toD_mk3 {c : ℤ} {s : String} {m : ℕ} (hM : c.natAbs + 1 ≤ 2 ^ 53) {r : GDual ℚ} (hr : GDual.mk3 (c : ℚ) s m = .ok r) :
    GDual.mk3 (dbl c) s m = .ok (r.mapG toD) ∧ Fits (c.natAbs + 1) r.p.terms := by
  obtain ⟨h1, h2, rfl⟩ := GDual.mk3_ok.mp hr
  have h0 : |(c : ℚ)| = c.natAbs := by rw [← Int.cast_abs, Int.abs_eq_natAbs, Int.cast_natCast]
  have hc : sizeZ c ≤ 2 ^ 53 := max_le (by omega) (by omega)
  obtain ⟨h3, h4⟩ := toD_const hc
  have h5 : Fits c.natAbs (Poly.const (c : ℚ)).terms := by
    refine ⟨h4.ints, ?_⟩
    have := (Ints.insertTerm (e := []) (t := []) (fun x hx => by simp at hx) ⟨c, rfl⟩ : _ ∧ norm1 (Poly.insertTerm [] (c : ℚ) []) ≤ _).2
    have h9 : norm1 [] = 0 := rfl
    rw [h0, h9, zero_add] at this
    exact this
  have h6 : Fits 1 (if m = 0 then ⟨["d" ++ s], []⟩ else Poly.var ("d" ++ s) : Poly ℚ).terms := by
    split_ifs
    · exact ⟨fun x hx => by simp at hx, by simp [norm1]⟩
    · refine ⟨fun x hx => ?_, ?_⟩
      · rw [List.mem_singleton.mp hx]
        exact ⟨1, by simp [Cf.one, Cf.ofRat]⟩
      · simp [norm1, Poly.var, Cf.one, Cf.ofRat]
  obtain ⟨h7, h8⟩ := toD_padd h6 h5 (by omega)
  refine ⟨GDual.mk3_ok.mpr ⟨h1, h2, ?_⟩, by rw [add_comm]; exact h8⟩
  have h9 : (if m = 0 then ⟨["d" ++ s], []⟩ else Poly.var ("d" ++ s) : Poly (XF .binary64)) = (if m = 0 then ⟨["d" ++ s], []⟩ else Poly.var ("d" ++ s) : Poly ℚ).mapP toD := by
    split_ifs
    · rfl
    · simp [Poly.var, Poly.mapP, mapT, toD_one]
  simp only [GDual.mapG, ← h7, h9, h3]

namespace AExpr

theorem one_le_size {v : String → ℤ} {e : AExpr ℤ} : 1 ≤ e.size v := by
  induction e with
  | var s => exact Nat.le_add_left _ _
  | const c => exact sizeZ_pos c
  | bin op e1 e2 h1 h2 => exact AOp.one_le_size h1 h2
  | left op c e h => exact AOp.one_le_size (sizeZ_pos c) h
  | right op e c h => exact AOp.one_le_size h (sizeZ_pos c)
  | divc e c h => exact h
  | neg e h => exact h

/-- Evaluation with integers, and on `double`. -/
theorem toD_run {v : String → ℤ} {m : ℕ} (hm : m < UINT_MAX - 10) {e : AExpr ℤ} (hl : e.Legal fun _ => True) (hM : e.size v ≤ 2 ^ 53) :
    ∃ r, (e.map fun c : ℤ => (c : ℚ)).run (fun s => (v s : ℚ)) m = .ok r ∧ (e.map dbl).run (fun s => dbl (v s)) m = .ok (r.mapG toD) ∧ Fits (e.size v) r.p.terms := by
  induction e with
  | var s =>
    have hr : GDual.mk3 (v s : ℚ) s m = .ok _ := GDual.mk3_ok.mpr ⟨hm, hl, rfl⟩
    obtain ⟨h1, h2⟩ := toD_mk3 hM hr
    exact ⟨_, hr, h1, h2⟩
  | const c =>
    obtain ⟨h1, h2⟩ := toD_const hM
    refine ⟨_, rfl, ?_, h2⟩
    simp only [AExpr.map, AExpr.run, GDual.ofCf, h1]
    rfl
  | bin op e1 e2 h1 h2 =>
    have hs := AOp.le_size (op := op) (one_le_size (v := v) (e := e1)) (one_le_size (v := v) (e := e2))
    obtain ⟨r1, a1, b1, f1⟩ := h1 hl.1 (hs.1.trans hM)
    obtain ⟨r2, a2, b2, f2⟩ := h2 hl.2 (hs.2.trans hM)
    obtain ⟨h3, h4⟩ := Audi.toD_run op f1 f2 one_le_size one_le_size hM
    exact ⟨_, bind_ok_iff.mpr ⟨r1, a1, bind_ok_iff.mpr ⟨r2, a2, rfl⟩⟩, bind_ok_iff.mpr ⟨_, b1, bind_ok_iff.mpr ⟨_, b2, congrArg Except.ok h3⟩⟩, h4⟩
  | left op c e h1 =>
    have hs := AOp.le_size (op := op) (sizeZ_pos c) (one_le_size (v := v) (e := e))
    obtain ⟨r1, a1, b1, f1⟩ := h1 hl (hs.2.trans hM)
    obtain ⟨h3, h4⟩ := toD_runL op f1 one_le_size hM
    exact ⟨_, bind_ok_iff.mpr ⟨r1, a1, rfl⟩, bind_ok_iff.mpr ⟨_, b1, congrArg Except.ok h3⟩, h4⟩
  | right op e c h1 =>
    have hs := AOp.le_size (op := op) (one_le_size (v := v) (e := e)) (sizeZ_pos c)
    obtain ⟨r1, a1, b1, f1⟩ := h1 hl (hs.1.trans hM)
    obtain ⟨h3, h4⟩ := toD_runR op f1 one_le_size hM
    exact ⟨_, bind_ok_iff.mpr ⟨r1, a1, rfl⟩, bind_ok_iff.mpr ⟨_, b1, congrArg Except.ok h3⟩, h4⟩
  | divc e c h1 => exact absurd trivial hl.2
  | neg e h1 =>
    obtain ⟨r1, a1, b1, f1⟩ := h1 hl hM
    obtain ⟨h3, h4⟩ := toD_pneg f1 hM
    refine ⟨_, bind_ok_iff.mpr ⟨r1, a1, rfl⟩, bind_ok_iff.mpr ⟨_, b1, ?_⟩, h4⟩
    exact congrArg (fun p => Except.ok (⟨p, r1.order⟩ : GDual (XF .binary64))) h3

end AExpr
end Audi
