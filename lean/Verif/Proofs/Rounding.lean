import Verif.Spec.Rounding
import Verif.Proofs.GDual
import Mathlib.Tactic.Linarith
import Mathlib.Tactic.Positivity
import Mathlib.Algebra.Order.BigOperators.Group.List

/-! Lemmas on rounded coefficients: tables, sums and products. -/

namespace Audi

open MvPolynomial Spec

section
variable {K : Type} [Field K] [LinearOrder K] [IsStrictOrderedRing K] {R : Rounding K}

namespace Rounding

theorem rnd_zero (R : Rounding K) : R.rnd 0 = 0 := by
  have h := R.err 0
  simpa using h

theorem u_nonneg (R : Rounding K) : 0 ≤ R.u := by
  have h := R.err 1
  rw [R.rnd_one] at h
  simpa using h

theorem rnd_eq_zero (R : Rounding K) {x : K} (h : R.rnd x = 0) : x = 0 := by
  by_contra hx
  have h1 := R.err x
  rw [h, zero_sub, abs_neg] at h1
  have h2 : R.u * |x| < 1 * |x| := mul_lt_mul_of_pos_right R.u_lt_one (abs_pos.mpr hx)
  linarith

theorem abs_rnd (R : Rounding K) (x : K) : |R.rnd x| ≤ (1 + R.u) * |x| := by
  have h := R.err x
  have h1 : |R.rnd x| ≤ |R.rnd x - x| + |x| := by
    have := abs_add_le (R.rnd x - x) x
    rwa [sub_add_cancel] at this
  linarith

/-- The factor `(1 + u)^n`. -/
theorem one_le_pow (R : Rounding K) (n : ℕ) : 1 ≤ (1 + R.u) ^ n := one_le_pow₀ (by linarith [R.u_nonneg])

theorem pow_mono (R : Rounding K) {m n : ℕ} (h : m ≤ n) : (1 + R.u) ^ m ≤ (1 + R.u) ^ n :=
  pow_le_pow_right₀ (by linarith [R.u_nonneg]) h

/-- A value `c` with relative error against the magnitude `X` of `x`. -/
def Near (R : Rounding K) (k : ℕ) (c x X : K) : Prop := |c - x| ≤ ((1 + R.u) ^ k - 1) * X ∧ |x| ≤ X

namespace Near
variable {k l : ℕ} {c d x y X Y : K}

theorem nonneg (h : R.Near k c x X) : 0 ≤ X := (abs_nonneg x).trans h.2

theorem abs_le (h : R.Near k c x X) : |c| ≤ (1 + R.u) ^ k * X := by
  have h1 : |c| ≤ |c - x| + |x| := by
    have := abs_add_le (c - x) x
    rwa [sub_add_cancel] at this
  linarith [h.1, h.2]

theorem mono (h : R.Near k c x X) (hkl : k ≤ l) : R.Near l c x X :=
  ⟨h.1.trans (mul_le_mul_of_nonneg_right (by linarith [R.pow_mono hkl]) h.nonneg), h.2⟩

theorem refl (R : Rounding K) (k : ℕ) (x : K) : R.Near k x x |x| :=
  ⟨by rw [sub_self, abs_zero]; exact mul_nonneg (by linarith [R.one_le_pow k]) (abs_nonneg x), le_rfl⟩

theorem zero (R : Rounding K) (k : ℕ) : R.Near k (0 : K) 0 0 := by simpa using refl R k (0 : K)

omit [IsStrictOrderedRing K] in
theorem neg (h : R.Near k c x X) : R.Near k (-c) (-x) X :=
  ⟨by rw [← abs_neg, show -(-c - -x) = c - x by ring]; exact h.1, by rw [abs_neg]; exact h.2⟩

/-- One rounding more. -/
theorem rnd (h : R.Near k c x X) : R.Near (k + 1) (R.rnd c) x X := by
  refine ⟨?_, h.2⟩
  have h1 := R.err c
  have h2 : |R.rnd c - x| ≤ |R.rnd c - c| + |c - x| := by
    have := abs_add_le (R.rnd c - c) (c - x)
    rwa [sub_add_sub_cancel] at this
  have h3 : R.u * |c| ≤ R.u * ((1 + R.u) ^ k * X) := mul_le_mul_of_nonneg_left h.abs_le R.u_nonneg
  have h4 := h.1
  have h5 : ((1 + R.u) ^ (k + 1) - 1) * X = ((1 + R.u) ^ k - 1) * X + R.u * ((1 + R.u) ^ k * X) := by ring
  rw [h5]
  linarith

theorem add (h : R.Near k c x X) (h' : R.Near k d y Y) : R.Near k (c + d) (x + y) (X + Y) := by
  refine ⟨?_, (abs_add_le x y).trans (add_le_add h.2 h'.2)⟩
  have h1 : |c + d - (x + y)| ≤ |c - x| + |d - y| := by
    rw [show c + d - (x + y) = (c - x) + (d - y) by ring]
    exact abs_add_le _ _
  rw [mul_add]
  linarith [h.1, h'.1]

theorem mul (h : R.Near k c x X) (h' : R.Near l d y Y) : R.Near (k + l) (c * d) (x * y) (X * Y) := by
  have hX := h.nonneg
  have hY := h'.nonneg
  refine ⟨?_, by rw [abs_mul]; exact mul_le_mul h.2 h'.2 (abs_nonneg _) hX⟩
  have h1 : |c * d - x * y| ≤ |c - x| * |d| + |x| * |d - y| := by
    rw [show c * d - x * y = (c - x) * d + x * (d - y) by ring, ← abs_mul, ← abs_mul]
    exact abs_add_le _ _
  have h2 : |c - x| * |d| ≤ (((1 + R.u) ^ k - 1) * X) * ((1 + R.u) ^ l * Y) :=
    mul_le_mul h.1 h'.abs_le (abs_nonneg _) (mul_nonneg (by linarith [R.one_le_pow k]) hX)
  have h3 : |x| * |d - y| ≤ X * (((1 + R.u) ^ l - 1) * Y) := mul_le_mul h.2 h'.1 (abs_nonneg _) hX
  have h4 : ((1 + R.u) ^ (k + l) - 1) * (X * Y) =
      (((1 + R.u) ^ k - 1) * X) * ((1 + R.u) ^ l * Y) + X * (((1 + R.u) ^ l - 1) * Y) := by rw [pow_add]; ring
  rw [h4]
  linarith

theorem sum {ι : Type*} (s : Finset ι) {c x X : ι → K} (h : ∀ i ∈ s, R.Near k (c i) (x i) (X i)) :
    R.Near k (∑ i ∈ s, c i) (∑ i ∈ s, x i) (∑ i ∈ s, X i) := by
  classical
  induction s using Finset.induction_on with
  | empty => simpa using zero R k
  | insert a s ha ih =>
    rw [Finset.sum_insert ha, Finset.sum_insert ha, Finset.sum_insert ha]
    exact (h a (Finset.mem_insert_self a s)).add (ih fun i hi => h i (Finset.mem_insert_of_mem hi))

end Near

/-- Rounded summation. -/
theorem rsum_err (R : Rounding K) (l : List (Fl R)) (a : K) :
    |l.foldl (fun acc x => R.rnd (acc + x.val)) a - (a + (l.map Fl.val).sum)| ≤
      ((1 + R.u) ^ l.length - 1) * (|a| + (l.map fun x => |x.val|).sum) := by
  induction l generalizing a with
  | nil => simp
  | cons c l ih =>
    simp only [List.foldl_cons, List.map_cons, List.sum_cons, List.length_cons]
    have h1 := ih (R.rnd (a + c.val))
    set F := l.foldl (fun acc x => R.rnd (acc + x.val)) (R.rnd (a + c.val))
    set S := (l.map Fl.val).sum
    set T := (l.map fun x => |x.val|).sum with hT
    have hT0 : 0 ≤ T := List.sum_nonneg (by simp)
    set n := l.length
    have h2 := R.err (a + c.val)
    have h3 := R.abs_rnd (a + c.val)
    have h4 := abs_add_le a c.val
    have hn := R.one_le_pow n
    have hu := R.u_nonneg
    have h5 : |F - (a + (c.val + S))| ≤ |F - (R.rnd (a + c.val) + S)| + |R.rnd (a + c.val) - (a + c.val)| := by
      rw [show F - (a + (c.val + S)) = (F - (R.rnd (a + c.val) + S)) + (R.rnd (a + c.val) - (a + c.val)) by ring]
      exact abs_add_le _ _
    have hac : R.u * |a + c.val| ≤ R.u * (|a| + |c.val|) := mul_le_mul_of_nonneg_left h4 hu
    have hac' : (1 + R.u) * |a + c.val| ≤ (1 + R.u) * (|a| + |c.val|) := mul_le_mul_of_nonneg_left h4 (by linarith)
    have h6 : ((1 + R.u) ^ n - 1) * (|R.rnd (a + c.val)| + T) ≤ ((1 + R.u) ^ n - 1) * ((1 + R.u) * (|a| + |c.val|) + T) :=
      mul_le_mul_of_nonneg_left (by linarith) (by linarith)
    have h7 : ((1 + R.u) ^ n - 1) * T ≤ ((1 + R.u) ^ (n + 1) - 1) * T :=
      mul_le_mul_of_nonneg_right (sub_le_sub_right (R.pow_mono (Nat.le_succ n)) 1) hT0
    have h8 : ((1 + R.u) ^ (n + 1) - 1) * (|a| + (|c.val| + T)) =
        ((1 + R.u) ^ n - 1) * ((1 + R.u) * (|a| + |c.val|)) + R.u * (|a| + |c.val|) + ((1 + R.u) ^ (n + 1) - 1) * T := by ring
    rw [h8]
    rw [mul_add] at h6
    linarith

/-- Rounded summation that starts with 0: the first addition is exact. -/
theorem rsum_zero_err (R : Rounding K) (l : List (Fl R)) :
    |l.foldl (fun acc x => R.rnd (acc + x.val)) 0 - (l.map Fl.val).sum| ≤
      ((1 + R.u) ^ (l.length - 1) - 1) * (l.map fun x => |x.val|).sum := by
  cases l with
  | nil => simp
  | cons c l =>
    have h := R.rsum_err l c.val
    simp only [List.foldl_cons, List.map_cons, List.sum_cons, List.length_cons, zero_add, c.repr, Nat.add_sub_cancel]
    exact h

end Rounding

/-! ### Tables -/

/-- Coefficient of a monomial in a table. -/
def tc : List (List ℕ × Fl R) → List ℕ → K
  | [], _ => 0
  | x :: t, e => if e = x.1 then x.2.val else tc t e

omit [IsStrictOrderedRing K] in
theorem tc_of_notMem {t : List (List ℕ × Fl R)} {e : List ℕ} (h : e ∉ t.map (·.1)) : tc t e = 0 := by
  induction t with
  | nil => rfl
  | cons x t ih =>
    simp only [List.map_cons, List.mem_cons, not_or] at h
    rw [tc, if_neg h.1, ih h.2]

omit [IsStrictOrderedRing K] in
theorem tc_of_mem {t : List (List ℕ × Fl R)} (hn : (t.map (·.1)).Nodup) {x : List ℕ × Fl R} (h : x ∈ t) : tc t x.1 = x.2.val := by
  induction t with
  | nil => simp at h
  | cons y t ih =>
    simp only [List.map_cons, List.nodup_cons] at hn
    rcases List.mem_cons.mp h with rfl | h
    · simp [tc]
    · rw [tc, if_neg, ih hn.2 h]
      intro h1
      exact hn.1 (h1 ▸ List.mem_map_of_mem h)

theorem tc_insertTerm {t : List (List ℕ × Fl R)} (hn : (t.map (·.1)).Nodup) (e e' : List ℕ) (c : Fl R) :
    tc (Poly.insertTerm e c t) e' = if e' = e then R.rnd (tc t e + c.val) else tc t e' := by
  induction t with
  | nil =>
    unfold Poly.insertTerm
    by_cases hz : c.val = 0
    · have : Cf.isZero c = true := by simp [Cf.isZero, hz]
      rw [if_pos this]
      simp [tc, hz, R.rnd_zero]
    · have : ¬ Cf.isZero c = true := by simp [Cf.isZero, hz]
      rw [if_neg this]
      simp [tc, c.repr]
  | cons x t ih =>
    obtain ⟨e₁, c₁⟩ := x
    simp only [List.map_cons, List.nodup_cons] at hn
    unfold Poly.insertTerm
    by_cases h1 : e = e₁
    · subst h1
      rw [if_pos rfl]
      by_cases hz : Cf.isZero (Cf.add c₁ c) = true
      · rw [if_pos hz]
        have hz' : R.rnd (c₁.val + c.val) = 0 := of_decide_eq_true hz
        by_cases h2 : e' = e
        · subst h2
          simp [tc, hz', tc_of_notMem hn.1]
        · simp [tc, h2]
      · rw [if_neg hz]
        by_cases h2 : e' = e
        · subst h2; simp [tc, Cf.add, Fl.round]
        · simp [tc, h2]
    · rw [if_neg h1]
      by_cases h2 : e' = e₁
      · subst h2; simp [tc, Ne.symm h1]
      · simp only [tc, if_neg h2, if_neg h1]
        rw [ih hn.2]

theorem tc_insertTerms {t : List (List ℕ × Fl R)} (hn : (t.map (·.1)).Nodup) (new : List (List ℕ × Fl R)) (e : List ℕ) :
    tc (Poly.insertTerms t new) e =
      ((new.filter fun x => x.1 = e).map (·.2)).foldl (fun acc x => R.rnd (acc + x.val)) (tc t e) := by
  unfold Poly.insertTerms
  induction new generalizing t with
  | nil => rfl
  | cons x new ih =>
    rw [List.foldl_cons, ih (nodup_insertTerm hn), tc_insertTerm hn]
    by_cases h : x.1 = e
    · subst h; simp
    · simp [h, Ne.symm h]

omit [IsStrictOrderedRing K] in
theorem filter_key {t : List (List ℕ × Fl R)} (hn : (t.map (·.1)).Nodup) {x : List ℕ × Fl R} (h : x ∈ t) :
    t.filter (fun y => y.1 = x.1) = [x] := by
  induction t with
  | nil => simp at h
  | cons y t ih =>
    simp only [List.map_cons, List.nodup_cons] at hn
    rcases List.mem_cons.mp h with rfl | h
    · have h1 : t.filter (fun y => y.1 = x.1) = [] := by
        rw [List.filter_eq_nil_iff]
        intro z hz hzx
        exact hn.1 (List.mem_map.mpr ⟨z, hz, by simpa using hzx⟩)
      simp [h1]
    · have h1 : y.1 ≠ x.1 := fun h1 => hn.1 (h1 ▸ List.mem_map_of_mem h)
      rw [List.filter_cons_of_neg (by simpa using h1), ih hn.2 h]

theorem rnd_tc (t : List (List ℕ × Fl R)) (e : List ℕ) : R.rnd (tc t e) = tc t e := by
  induction t with
  | nil => exact R.rnd_zero
  | cons x t ih =>
    rw [tc]
    split_ifs
    · exact x.2.repr
    · exact ih

/-! ### Coefficients -/

namespace Poly
variable {p q : Poly (Fl R)}

omit [IsStrictOrderedRing K] in
theorem WF.exact (h : p.WF) : p.exact.WF where
  sorted := h.sorted
  len := by
    intro t ht
    obtain ⟨u, hu, rfl⟩ := List.mem_map.mp ht
    exact h.len u hu
  nodup := by
    simp only [Poly.exact, List.map_map]
    exact h.nodup
  nz := by
    intro t ht
    obtain ⟨u, hu, rfl⟩ := List.mem_map.mp ht
    exact h.nz u hu

omit [IsStrictOrderedRing K] in
theorem exact_addSymbols (p : Poly (Fl R)) (ss : List String) : (p.addSymbols ss).exact = p.exact.addSymbols ss := by
  simp [Poly.exact, Poly.addSymbols, Function.comp_def]

/-- The coefficient of a monomial in a polynomial with rounded coefficients. -/
noncomputable def cof (p : Poly (Fl R)) (E : String →₀ ℕ) : K := (p.exact.toMv ()).coeff E

omit [IsStrictOrderedRing K] in
theorem cof_addSymbols (h : p.WF) (ss : List String) (E : String →₀ ℕ) : (p.addSymbols ss).cof E = p.cof E := by
  rw [cof, exact_addSymbols, toMv_addSymbols h.exact, cof]

omit [IsStrictOrderedRing K] in
theorem coeff_den {ss : List String} (hs : ss.Nodup) {t : List (List ℕ × Fl R)} (hl : ∀ x ∈ t, x.1.length = ss.length)
    (hn : (t.map (·.1)).Nodup) {e : List ℕ} (he : e.length = ss.length) :
    (den (K := K) () ss (t.map fun x => (x.1, x.2.val))).coeff (toExp ss e) = tc t e := by
  induction t with
  | nil => simp [den_nil, tc]
  | cons x t ih =>
    simp only [List.map_cons, List.nodup_cons] at hn
    rw [List.map_cons, den_cons, coeff_add, coeff_monomial, ih (fun y hy => hl y (List.mem_cons_of_mem _ hy)) hn.2, tc]
    by_cases h : e = x.1
    · subst h
      simp [tc_of_notMem hn.1, Lanes.lane]
    · have : toExp ss x.1 ≠ toExp ss e := fun hc => h (toExp_inj hs (hl x List.mem_cons_self) he hc).symm
      simp [h, this]

omit [IsStrictOrderedRing K] in
theorem cof_toExp (h : p.WF) {e : List ℕ} (he : e.length = p.syms.length) : p.cof (toExp p.syms e) = tc p.terms e :=
  coeff_den h.ndsyms h.len h.nodup he

omit [IsStrictOrderedRing K] in
theorem cof_ne_zero {E : String →₀ ℕ} (hE : p.cof E ≠ 0) :
    ∃ t ∈ p.terms, toExp p.syms t.1 = E := by
  obtain ⟨t, ht, hte⟩ := exists_mem_of_coeff_ne hE
  obtain ⟨u, hu, rfl⟩ := List.mem_map.mp ht
  exact ⟨u, hu, hte⟩

/-- The coefficients of a sum are the rounded sums of the coefficients. -/
theorem cof_add (hp : p.WF) (hq : q.WF) (E : String →₀ ℕ) : (p.add q).cof E = R.rnd (p.cof E + q.cof E) := by
  have hp' := hp.addSymbols q.syms
  have hq' := hq.addSymbols p.syms
  have hs := syms_swap hp hq
  by_cases hE : ∃ e : List ℕ, e.length = (p.add q).syms.length ∧ toExp (p.add q).syms e = E
  · obtain ⟨e, he, rfl⟩ := hE
    rw [cof_toExp (hp.add hq) he, ← cof_addSymbols hp q.syms, ← cof_addSymbols hq p.syms]
    have h1 : (p.addSymbols q.syms).cof (toExp (p.add q).syms e) = tc (p.addSymbols q.syms).terms e := cof_toExp hp' he
    have h2 : (q.addSymbols p.syms).cof (toExp (p.add q).syms e) = tc (q.addSymbols p.syms).terms e := by
      have h3 : (p.add q).syms = (q.addSymbols p.syms).syms := hs
      rw [h3]
      exact cof_toExp hq' (h3 ▸ he)
    rw [h1, h2]
    change tc (insertTerms (p.addSymbols q.syms).terms (q.addSymbols p.syms).terms) e = _
    rw [tc_insertTerms hp'.nodup]
    set U := (q.addSymbols p.syms).terms
    by_cases hmem : e ∈ U.map (·.1)
    · obtain ⟨x, hx, rfl⟩ := List.mem_map.mp hmem
      rw [filter_key hq'.nodup hx, tc_of_mem hq'.nodup hx]
      rfl
    · have h4 : U.filter (fun x => x.1 = e) = [] := by
        rw [List.filter_eq_nil_iff]
        intro x hx hxe
        exact hmem (List.mem_map.mpr ⟨x, hx, by simpa using hxe⟩)
      rw [h4, tc_of_notMem hmem, add_zero, rnd_tc]
      rfl
  · have h0 : ∀ r : Poly (Fl R), r.WF → r.syms = (p.add q).syms → r.cof E = 0 := fun r hr hrs => by
      by_contra hne
      obtain ⟨t, ht, hte⟩ := cof_ne_zero hne
      exact hE ⟨t.1, by rw [← hrs]; exact hr.len t ht, by rw [← hrs]; exact hte⟩
    rw [h0 _ (hp.add hq) rfl, ← cof_addSymbols hp q.syms, ← cof_addSymbols hq p.syms, h0 _ hp' rfl, h0 _ hq' hs.symm, add_zero, R.rnd_zero]

omit [IsStrictOrderedRing K] in
/-- Sums over the products of terms that give the monomial `e`. -/
theorem sum_products {N : Type*} [AddCommMonoid N] (F : Fl R → N) (keep : List ℕ → Bool) (T U : List (List ℕ × Fl R)) {e : List ℕ}
    (hk : keep e = true) :
    ((((T.flatMap fun t => (U.map fun u => (List.zipWith (· + ·) t.1 u.1, Cf.mul t.2 u.2)).filter fun v => keep v.1).filter
      fun x => x.1 = e).map (·.2)).map F).sum =
    (T.map fun t => (U.map fun u => if List.zipWith (· + ·) t.1 u.1 = e then F (Cf.mul t.2 u.2) else 0).sum).sum := by
  induction T with
  | nil => simp
  | cons t T ih =>
    rw [List.flatMap_cons, List.filter_append, List.map_append, List.map_append, List.sum_append, ih, List.map_cons, List.sum_cons]
    congr 1
    clear ih
    induction U with
    | nil => simp
    | cons u U ih =>
      rw [List.map_cons, List.map_cons, List.sum_cons, ← ih]
      by_cases h : List.zipWith (· + ·) t.1 u.1 = e
      · rw [List.filter_cons_of_pos (by simp [h, hk]), List.filter_cons_of_pos (by simp [h])]
        simp [h]
      · rw [if_neg h, zero_add]
        by_cases h2 : keep (List.zipWith (· + ·) t.1 u.1) = true
        · rw [List.filter_cons_of_pos (by simpa using h2), List.filter_cons_of_neg (by simpa using h)]
        · rw [List.filter_cons_of_neg (by simpa using h2)]

section
variable {T U : List (List ℕ × Fl R)} {e : List ℕ}
open Classical in
/-- The pairs of terms that give the monomial `e`. -/
noncomputable def pairs (T U : List (List ℕ × Fl R)) (e : List ℕ) : Finset ((List ℕ × Fl R) × (List ℕ × Fl R)) :=
  (T.toFinset ×ˢ U.toFinset).filter fun x => List.zipWith (· + ·) x.1.1 x.2.1 = e

omit [IsStrictOrderedRing K] in
theorem mem_pairs {x : (List ℕ × Fl R) × (List ℕ × Fl R)} :
    x ∈ pairs T U e ↔ (x.1 ∈ T ∧ x.2 ∈ U) ∧ List.zipWith (· + ·) x.1.1 x.2.1 = e := by
  classical
  simp [pairs]

omit [IsStrictOrderedRing K] in
theorem sum_pairs {N : Type*} [AddCommMonoid N] (F : Fl R → N) (hT : (T.map (·.1)).Nodup) (hU : (U.map (·.1)).Nodup) :
    (T.map fun t => (U.map fun u => if List.zipWith (· + ·) t.1 u.1 = e then F (Cf.mul t.2 u.2) else 0).sum).sum =
      ∑ x ∈ pairs T U e, F (Cf.mul x.1.2 x.2.2) := by
  classical
  rw [pairs, Finset.sum_filter, Finset.sum_product, ← List.sum_toFinset _ (List.Nodup.of_map _ hT)]
  refine Finset.sum_congr rfl fun t _ => ?_
  rw [← List.sum_toFinset _ (List.Nodup.of_map _ hU)]

omit [IsStrictOrderedRing K] in
theorem key_inj (hT : (T.map (·.1)).Nodup) {x y : List ℕ × Fl R} (hx : x ∈ T) (hy : y ∈ T) (h : x.1 = y.1) : x = y :=
  (List.nodup_map_iff_inj_on (List.Nodup.of_map _ hT)).mp hT x hx y hy h

variable {ss : List String}

omit [IsStrictOrderedRing K] in
theorem toExp_pairs (lT : ∀ x ∈ T, x.1.length = ss.length) (lU : ∀ x ∈ U, x.1.length = ss.length)
    {x : (List ℕ × Fl R) × (List ℕ × Fl R)} (hx : x ∈ pairs T U e) : toExp ss x.1.1 + toExp ss x.2.1 = toExp ss e := by
  obtain ⟨⟨h1, h2⟩, h3⟩ := mem_pairs.mp hx
  rw [← h3, toExp_zipWith_add (lT _ h1) (lU _ h2)]

omit [IsStrictOrderedRing K] in
theorem pairs_injOn (hs : ss.Nodup) (lT : ∀ x ∈ T, x.1.length = ss.length) (lU : ∀ x ∈ U, x.1.length = ss.length)
    (hT : (T.map (·.1)).Nodup) (hU : (U.map (·.1)).Nodup) :
    Set.InjOn (fun x : (List ℕ × Fl R) × (List ℕ × Fl R) => (toExp ss x.1.1, toExp ss x.2.1)) (pairs T U e) := by
  intro x hx y hy h
  obtain ⟨⟨h1, h2⟩, -⟩ := mem_pairs.mp hx
  obtain ⟨⟨h3, h4⟩, -⟩ := mem_pairs.mp hy
  simp only [Prod.mk.injEq] at h
  exact Prod.ext (key_inj hT h1 h3 (toExp_inj hs (lT _ h1) (lT _ h3) h.1)) (key_inj hU h2 h4 (toExp_inj hs (lU _ h2) (lU _ h4) h.2))

omit [IsStrictOrderedRing K] in
/-- The number of products that are summed up for one coefficient. -/
theorem card_pairs (hs : ss.Nodup) (lT : ∀ x ∈ T, x.1.length = ss.length) (lU : ∀ x ∈ U, x.1.length = ss.length)
    (hT : (T.map (·.1)).Nodup) (hU : (U.map (·.1)).Nodup) :
    (pairs T U e).card ≤ (Finset.antidiagonal (toExp ss e)).card ∧ (pairs T U e).card ≤ T.length ∧ (pairs T U e).card ≤ U.length := by
  classical
  refine ⟨Finset.card_le_card_of_injOn _ (fun x hx => ?_) (pairs_injOn hs lT lU hT hU), ?_, ?_⟩
  · rw [Finset.mem_coe, Finset.mem_antidiagonal]
    exact toExp_pairs lT lU hx
  · refine (Finset.card_le_card_of_injOn (t := T.toFinset) Prod.fst (fun x hx => ?_) fun x hx y hy h => ?_).trans (List.toFinset_card_le T)
    · simpa using (mem_pairs.mp hx).1.1
    · refine pairs_injOn hs lT lU hT hU hx hy (Prod.ext (by simp only [h]) ?_)
      have h1 := toExp_pairs lT lU hx
      rw [← toExp_pairs lT lU hy, h] at h1
      exact add_left_cancel h1
  · refine (Finset.card_le_card_of_injOn (t := U.toFinset) Prod.snd (fun x hx => ?_) fun x hx y hy h => ?_).trans (List.toFinset_card_le U)
    · simpa using (mem_pairs.mp hx).1.2
    · refine pairs_injOn hs lT lU hT hU hx hy (Prod.ext ?_ (by simp only [h]))
      have h1 := toExp_pairs lT lU hx
      rw [← toExp_pairs lT lU hy, h] at h1
      exact add_right_cancel h1
end

/-- Error of the coefficients of a truncated product: `k` and `l` roundings in the factors, one for each product that contributes to the coefficient and one for each
addition. -/
theorem near_truncMul (hp : p.WF) (hq : q.WF) {n : ℕ} {E : String →₀ ℕ} (hE : E.degree ≤ n) {x X y Y : (String →₀ ℕ) → K} {k l N : ℕ}
    (h1 : ∀ d ∈ Finset.antidiagonal E, R.Near k (p.cof d.1) (x d.1) (X d.1))
    (h2 : ∀ d ∈ Finset.antidiagonal E, R.Near l (q.cof d.2) (y d.2) (Y d.2)) (hN : 1 ≤ N)
    (hN' : (Finset.antidiagonal E).card ≤ N ∨ p.terms.length ≤ N ∨ q.terms.length ≤ N) :
    R.Near (k + l + N) ((truncMul p q n).cof E) (∑ d ∈ Finset.antidiagonal E, x d.1 * y d.2)
      (∑ d ∈ Finset.antidiagonal E, X d.1 * Y d.2) := by
  classical
  set c : (String →₀ ℕ) × (String →₀ ℕ) → K := fun d => R.rnd (p.cof d.1 * q.cof d.2) with hc
  have hnear : ∀ d ∈ Finset.antidiagonal E, R.Near (k + l + 1) (c d) (x d.1 * y d.2) (X d.1 * Y d.2) := fun d hd => ((h1 d hd).mul (h2 d hd)).rnd
  have hsum := Rounding.Near.sum (R := R) (Finset.antidiagonal E) hnear
  have key : |(truncMul p q n).cof E - ∑ d ∈ Finset.antidiagonal E, c d| ≤ ((1 + R.u) ^ (N - 1) - 1) * ∑ d ∈ Finset.antidiagonal E, |c d| := by
    have hp' := hp.addSymbols q.syms
    have hq' := hq.addSymbols p.syms
    have hs := syms_swap hp hq
    have hwf := hp.truncMul hq n
    have lq : ∀ t ∈ (q.addSymbols p.syms).terms, t.1.length = (p.addSymbols q.syms).syms.length := by rw [hs]; exact hq'.len
    by_cases hEx : ∃ e : List ℕ, e.length = (p.addSymbols q.syms).syms.length ∧ toExp (p.addSymbols q.syms).syms e = E
    · obtain ⟨e, he, rfl⟩ := hEx
      set ss := (p.addSymbols q.syms).syms
      set T := (p.addSymbols q.syms).terms with hT
      set U := (q.addSymbols p.syms).terms with hU
      have hk : (fun e : List ℕ => decide (keyDegree e ≤ n)) e = true := by
        rw [degree_toExp he] at hE
        exact decide_eq_true hE
      have hV : (truncMul p q n).cof (toExp ss e) = _ := cof_toExp hwf he
      rw [hV]
      change |tc (insertTerms [] _) e - _| ≤ _
      rw [tc_insertTerms (by simp)]
      have hF : ∀ {M : Type} [AddCommMonoid M] (F : Fl R → M), _ = ∑ x ∈ pairs T U e, F (Cf.mul x.1.2 x.2.2) := fun F =>
        (sum_products F (fun e => decide (keyDegree e ≤ n)) T U hk).trans (sum_pairs F hp'.nodup hq'.nodup)
      set L := ((T.flatMap fun t => (U.map fun u => (List.zipWith (· + ·) t.1 u.1, Cf.mul t.2 u.2)).filter fun v =>
        decide (keyDegree v.1 ≤ n)).filter fun x => x.1 = e).map (·.2) with hL
      have hlen : L.length ≤ N := by
        have h3 := hF (M := ℕ) fun _ => 1
        simp only [List.map_const', List.sum_replicate, smul_eq_mul, mul_one, Finset.sum_const] at h3
        have h4 := card_pairs (e := e) hp'.ndsyms hp'.len lq hp'.nodup hq'.nodup
        have h5 : T.length = p.terms.length := by simp [hT, addSymbols]
        have h6 : U.length = q.terms.length := by simp [hU, addSymbols]
        rw [h3]
        rcases hN' with h | h | h
        · exact h4.1.trans h
        · exact h4.2.1.trans (h5 ▸ h)
        · exact h4.2.2.trans (h6 ▸ h)
      have hG : ∀ (G : K → K), G 0 = 0 → (L.map fun x => G x.val).sum = ∑ d ∈ Finset.antidiagonal (toExp ss e), G (c d) := fun G hG => by
        rw [hF fun x => G x.val]
        refine Finset.sum_of_injOn (fun x => (toExp ss x.1.1, toExp ss x.2.1)) (pairs_injOn hp'.ndsyms hp'.len lq hp'.nodup hq'.nodup)
          (fun x hx => ?_) (fun d hd hne => ?_) fun x hx => ?_
        · rw [Finset.mem_coe, Finset.mem_antidiagonal]
          exact toExp_pairs hp'.len lq hx
        · suffices h : p.cof d.1 = 0 ∨ q.cof d.2 = 0 by
            rcases h with h | h <;> simp [hc, h, R.rnd_zero, hG]
          by_contra hcon
          push Not at hcon
          rw [← cof_addSymbols hp q.syms, ← cof_addSymbols hq p.syms] at hcon
          obtain ⟨t, ht, hte⟩ := cof_ne_zero hcon.1
          obtain ⟨u, hu, hue⟩ := cof_ne_zero hcon.2
          rw [← hs] at hue
          refine hne ⟨(t, u), ?_, Prod.ext hte hue⟩
          refine mem_pairs.mpr ⟨⟨ht, hu⟩, toExp_inj hp'.ndsyms ?_ he ?_⟩
          · rw [List.length_zipWith, hp'.len t ht, lq u hu, min_self]
          · rw [toExp_zipWith_add (hp'.len t ht) (lq u hu), hte, hue]
            exact Finset.mem_antidiagonal.mp hd
        · obtain ⟨⟨h3, h4⟩, -⟩ := mem_pairs.mp hx
          have h5 : p.cof (toExp ss x.1.1) = x.1.2.val := by
            rw [← cof_addSymbols hp q.syms, cof_toExp hp' (hp'.len _ h3)]
            exact tc_of_mem hp'.nodup h3
          have h6 : q.cof (toExp ss x.2.1) = x.2.2.val := by
            have : ss = (q.addSymbols p.syms).syms := hs
            rw [← cof_addSymbols hq p.syms, this, cof_toExp hq' (hq'.len _ h4)]
            exact tc_of_mem hq'.nodup h4
          simp only [hc, h5, h6]
          rfl
      have h3 := R.rsum_zero_err L
      have h4 := hG id rfl
      have h5 := hG (fun z => |z|) abs_zero
      simp only [id] at h4
      rw [h4, h5] at h3
      refine h3.trans (mul_le_mul_of_nonneg_right (sub_le_sub_right (R.pow_mono (by omega)) 1) (Finset.sum_nonneg fun d _ => abs_nonneg _))
    · have hz : ∀ d ∈ Finset.antidiagonal E, c d = 0 := fun d hd => by
        suffices h : p.cof d.1 = 0 ∨ q.cof d.2 = 0 by
          rcases h with h | h <;> simp [hc, h, R.rnd_zero]
        by_contra hcon
        push Not at hcon
        rw [← cof_addSymbols hp q.syms, ← cof_addSymbols hq p.syms] at hcon
        obtain ⟨t, ht, hte⟩ := cof_ne_zero hcon.1
        obtain ⟨u, hu, hue⟩ := cof_ne_zero hcon.2
        rw [← hs] at hue
        refine hEx ⟨List.zipWith (· + ·) t.1 u.1, ?_, ?_⟩
        · rw [List.length_zipWith, hp'.len t ht, lq u hu, min_self]
        · rw [toExp_zipWith_add (hp'.len t ht) (lq u hu), hte, hue]
          exact Finset.mem_antidiagonal.mp hd
      have hV : (truncMul p q n).cof E = 0 := by
        by_contra hne
        obtain ⟨t, ht, hte⟩ := cof_ne_zero hne
        exact hEx ⟨t.1, hwf.len t ht, hte⟩
      rw [hV, Finset.sum_eq_zero hz, Finset.sum_eq_zero fun d hd => by rw [hz d hd, abs_zero]]
      simp
  refine ⟨?_, hsum.2⟩
  have habs : ∑ d ∈ Finset.antidiagonal E, |c d| ≤ (1 + R.u) ^ (k + l + 1) * ∑ d ∈ Finset.antidiagonal E, X d.1 * Y d.2 := by
    rw [Finset.mul_sum]
    exact Finset.sum_le_sum fun d hd => (hnear d hd).abs_le
  have h3 : |(truncMul p q n).cof E - ∑ d ∈ Finset.antidiagonal E, x d.1 * y d.2| ≤
      |(truncMul p q n).cof E - ∑ d ∈ Finset.antidiagonal E, c d| + |∑ d ∈ Finset.antidiagonal E, c d - ∑ d ∈ Finset.antidiagonal E, x d.1 * y d.2| := by
    have := abs_add_le ((truncMul p q n).cof E - ∑ d ∈ Finset.antidiagonal E, c d) (∑ d ∈ Finset.antidiagonal E, c d - ∑ d ∈ Finset.antidiagonal E, x d.1 * y d.2)
    rwa [sub_add_sub_cancel] at this
  have h4 := mul_le_mul_of_nonneg_left habs (show 0 ≤ (1 + R.u) ^ (N - 1) - 1 by linarith [R.one_le_pow (N - 1)])
  have h5 := hsum.1
  set S := ∑ d ∈ Finset.antidiagonal E, X d.1 * Y d.2
  have h6 : ((1 + R.u) ^ (k + l + N) - 1) * S =
      ((1 + R.u) ^ (N - 1) - 1) * ((1 + R.u) ^ (k + l + 1) * S) + ((1 + R.u) ^ (k + l + 1) - 1) * S := by
    rw [show k + l + N = (N - 1) + (k + l + 1) by omega, pow_add]
    ring
  rw [h6]
  linarith

end Poly

end
end Audi
