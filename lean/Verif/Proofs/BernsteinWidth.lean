import Verif.Proofs.BernsteinCorners
import Verif.Proofs.Interval

/-!
# Proofs: the entries of the Bernstein patch are not larger than the values of interval arithmetic
-/

namespace Audi.Bounding

open Finset Spec

variable {K : Type} [Field K]

/-- Bernstein coefficient `j` of `x^k` over `[a, b]` at degree `n`. -/
def monoCoef (a b : K) (n j k : ℕ) : K := ∑ i ∈ range (n + 1), 1 / (Nat.choose n i : K) * qEntry a b i k * (Nat.choose j i : K)

theorem monoCoef_self [CharZero K] (a b : K) {j k : ℕ} (h : j ≤ k) : monoCoef a b k j k = b ^ j * a ^ (k - j) := by
  have e : monoCoef a b k j k = ∑ i ∈ range (k + 1), (Nat.choose j i : K) * (b - a) ^ i * a ^ (k - i) := by
    refine sum_congr rfl fun i hi => ?_
    have : (Nat.choose k i : K) ≠ 0 := Nat.cast_ne_zero.2 (Nat.choose_pos (Nat.lt_succ_iff.1 (mem_range.1 hi))).ne'
    unfold qEntry
    field_simp
  rw [e, ← sum_subset (s₁ := range (j + 1)) (range_subset_range.2 (by omega))]
  · have h2 := add_pow (b - a) a j
    rw [sub_add_cancel] at h2
    rw [h2, sum_mul]
    refine sum_congr rfl fun i hi => ?_
    rw [mem_range] at hi
    rw [show k - i = (j - i) + (k - j) by omega, pow_add]
    ring
  · intro i _ hi
    rw [mem_range] at hi
    rw [Nat.choose_eq_zero_of_lt (by omega)]
    simp

theorem choose_step [CharZero K] (m i : ℕ) : ((m + 1 : ℕ) : K) * Nat.choose m i = (((m + 1 : ℕ) : K) - i) * Nat.choose (m + 1) i := by
  rcases Nat.lt_or_ge (m + 1) i with h | h
  · rw [Nat.choose_eq_zero_of_lt h, Nat.choose_eq_zero_of_lt (by omega)]
    simp
  · have := Nat.choose_mul_succ_eq m i
    have h2 : ((m.choose i * (m + 1) : ℕ) : K) = (((m + 1).choose i * (m + 1 - i) : ℕ) : K) := by rw [this]
    rw [Nat.cast_mul, Nat.cast_mul, Nat.cast_sub h] at h2
    rw [mul_comm, h2, mul_comm]

theorem monoCoef_succ [CharZero K] (a b : K) {n j k : ℕ} (hk : k ≤ n) :
    monoCoef a b (n + 1) j k = (j / (n + 1) : K) * monoCoef a b n (j - 1) k + (1 - j / (n + 1) : K) * monoCoef a b n j k := by
  have hlast : monoCoef a b (n + 1) j k = ∑ i ∈ range (n + 1), 1 / (Nat.choose (n + 1) i : K) * qEntry a b i k * (Nat.choose j i : K) := by
    unfold monoCoef
    rw [sum_range_succ, show qEntry a b (n + 1) k = 0 by unfold qEntry; rw [Nat.choose_eq_zero_of_lt (by omega)]; simp]
    ring
  rw [hlast, monoCoef, monoCoef, mul_sum, mul_sum, ← sum_add_distrib]
  refine sum_congr rfl fun i hi => ?_
  have hin : i ≤ n := Nat.lt_succ_iff.1 (mem_range.1 hi)
  have h1 : (Nat.choose n i : K) ≠ 0 := Nat.cast_ne_zero.2 (Nat.choose_pos hin).ne'
  have h2 : (Nat.choose (n + 1) i : K) ≠ 0 := Nat.cast_ne_zero.2 (Nat.choose_pos (by omega)).ne'
  have h3 : ((n : K) + 1) ≠ 0 := by exact_mod_cast Nat.succ_ne_zero n
  have h4 : ((n : K) + 1) * Nat.choose n i = ((n : K) + 1 - i) * Nat.choose (n + 1) i := by
    have := choose_step (K := K) n i
    push_cast at this
    exact this
  have h5 : (j : K) * Nat.choose (j - 1) i = ((j : K) - i) * Nat.choose j i := by
    cases j with
    | zero =>
      rcases Nat.eq_zero_or_pos i with rfl | h
      · simp
      · rw [Nat.choose_eq_zero_of_lt h]; simp
    | succ m => exact choose_step m i
  have h6 : ((n : K) + 1 - i) ≠ 0 := by
    rw [sub_ne_zero]
    exact_mod_cast (by omega : n + 1 ≠ i)
  have h7 : (Nat.choose (n + 1) i : K) = ((n : K) + 1) * Nat.choose n i / ((n : K) + 1 - i) := by
    rw [h4]
    field_simp
  rw [h7]
  field_simp
  linear_combination -(qEntry a b i k) * h5

/-- The coefficients lie in every convex set that contains the products of `k` end points. -/
theorem monoCoef_mem [LinearOrder K] [IsStrictOrderedRing K] (a b : K) (S : K → Prop)
    (hS : ∀ x y t, S x → S y → 0 ≤ t → t ≤ 1 → S (t * x + (1 - t) * y)) {k : ℕ} (h0 : ∀ j, j ≤ k → S (b ^ j * a ^ (k - j))) {n : ℕ} (hk : k ≤ n) :
    ∀ j, j ≤ n → S (monoCoef a b n j k) := by
  induction n, hk using Nat.le_induction with
  | base => exact fun j hj => monoCoef_self a b hj ▸ h0 j hj
  | succ n hn ih =>
    intro j hj
    rw [monoCoef_succ a b hn]
    have hp : (0 : K) < n + 1 := by positivity
    have hj' : (j : K) ≤ n + 1 := by exact_mod_cast hj
    rcases Nat.lt_or_ge n j with h | h
    · have e : (j : K) / (n + 1) = 1 := by
        obtain rfl : j = n + 1 := by omega
        push_cast
        exact div_self hp.ne'
      rw [e, one_mul, sub_self, zero_mul, add_zero]
      exact ih _ (by omega)
    · exact hS _ _ _ (ih _ (by omega)) (ih _ h) (by positivity) ((div_le_one hp).2 hj')

theorem monoCoef_abs [LinearOrder K] [IsStrictOrderedRing K] {a b r : K} (ha : |a| ≤ r) (hb : |b| ≤ r) {k n j : ℕ} (hk : k ≤ n) (hj : j ≤ n) :
    |monoCoef a b n j k| ≤ r ^ k := by
  have hr : 0 ≤ r := (abs_nonneg a).trans ha
  refine monoCoef_mem a b (fun x => |x| ≤ r ^ k) (fun x y t hx hy h0 h1 => ?_) (fun j hj => ?_) hk j hj
  · have h2 : 0 ≤ 1 - t := sub_nonneg.2 h1
    calc |t * x + (1 - t) * y| ≤ |t * x| + |(1 - t) * y| := abs_add_le _ _
      _ = t * |x| + (1 - t) * |y| := by rw [abs_mul, abs_mul, abs_of_nonneg h0, abs_of_nonneg h2]
      _ ≤ t * r ^ k + (1 - t) * r ^ k := add_le_add (mul_le_mul_of_nonneg_left hx h0) (mul_le_mul_of_nonneg_left hy h2)
      _ = r ^ k := by ring
  · rw [abs_mul, abs_pow, abs_pow]
    calc |b| ^ j * |a| ^ (k - j) ≤ r ^ j * r ^ (k - j) :=
          mul_le_mul (pow_le_pow_left₀ (abs_nonneg _) hb _) (pow_le_pow_left₀ (abs_nonneg _) ha _) (by positivity) (by positivity)
      _ = r ^ k := by rw [← pow_add]; congr 1; omega

theorem itvProd_mem [LinearOrder K] [IsStrictOrderedRing K] {I : Itv K} (h : I.lo ≤ I.hi) {k j : ℕ} (hj : j ≤ k) :
    InItv (itvProd I k) (I.hi ^ j * I.lo ^ (k - j)) := by
  induction k generalizing j with
  | zero =>
    obtain rfl : j = 0 := by omega
    rw [pow_zero, Nat.sub_zero, pow_zero, mul_one]
    exact Itv.mem_point (1 : K)
  | succ k ih =>
    cases j with
    | zero =>
      have := Itv.mem_mul (show InItv I I.lo from ⟨le_rfl, h⟩) (ih (Nat.zero_le k))
      rw [pow_zero, one_mul, Nat.sub_zero] at this ⊢
      rw [pow_succ']
      exact this
    | succ j =>
      have := Itv.mem_mul (show InItv I I.hi from ⟨h, le_rfl⟩) (ih (by omega : j ≤ k))
      rw [pow_succ', mul_assoc, Nat.add_sub_add_right]
      exact this

theorem monoCoef_itv [LinearOrder K] [IsStrictOrderedRing K] {I : Itv K} (h : I.lo ≤ I.hi) {k n j : ℕ} (hk : k ≤ n) (hj : j ≤ n) :
    InItv (itvProd I k) (monoCoef I.lo I.hi n j k) := by
  refine monoCoef_mem _ _ (InItv (itvProd I k)) (fun x y t hx hy h0 h1 => ?_) (fun j hj => itvProd_mem h hj) hk j hj
  have h2 : 0 ≤ 1 - t := sub_nonneg.2 h1
  constructor
  · calc (itvProd I k).lo = t * (itvProd I k).lo + (1 - t) * (itvProd I k).lo := by ring
      _ ≤ _ := add_le_add (mul_le_mul_of_nonneg_left hx.1 h0) (mul_le_mul_of_nonneg_left hy.1 h2)
  · calc t * x + (1 - t) * y ≤ t * (itvProd I k).hi + (1 - t) * (itvProd I k).hi :=
          add_le_add (mul_le_mul_of_nonneg_left hx.2 h0) (mul_le_mul_of_nonneg_left hy.2 h2)
      _ = _ := by ring

variable [LinearOrder K] [IsStrictOrderedRing K]

omit [LinearOrder K] [IsStrictOrderedRing K] in
theorem lamA_sum (md : List ℕ) (domain : List (String × Itv K)) (d j k : ℕ) :
    ∑ i ∈ range (md.getD d 0 + 1), lamA md domain d i k * (Nat.choose j i : K) =
      monoCoef ((domain.map Prod.snd).getD d ⟨0, 0⟩).lo ((domain.map Prod.snd).getD d ⟨0, 0⟩).hi (md.getD d 0) j k := by
  refine sum_congr rfl fun i hi => ?_
  unfold lamA
  rw [sum_eq_single i, if_pos rfl]
  · intro l _ hl
    rw [if_neg (Ne.symm hl), zero_mul]
  · exact fun h => absurd hi h

/-- Bernstein coefficients number `ks` of the powers of each variable. -/
def monoCoefs (box : List (Itv K)) (md ks : List ℕ) (n : ℕ) : List (ℕ → K) :=
  (List.range n).map fun d k => monoCoef (box.getD d ⟨0, 0⟩).lo (box.getD d ⟨0, 0⟩).hi (md.getD d 0) (ks.getD d 0) k

omit [LinearOrder K] [IsStrictOrderedRing K] in
theorem wt_monoCoefs {box : List (Itv K)} {md ks : List ℕ} {n d : ℕ} (hd : d < n) (k : ℕ) : wt (monoCoefs box md ks n) d k =
    monoCoef (box.getD d ⟨0, 0⟩).lo (box.getD d ⟨0, 0⟩).hi (md.getD d 0) (ks.getD d 0) k := by
  have hl : d < (monoCoefs box md ks n).length := by simpa [monoCoefs] using hd
  have : (monoCoefs box md ks n)[d]'hl = fun k => monoCoef (box.getD d ⟨0, 0⟩).lo (box.getD d ⟨0, 0⟩).hi (md.getD d 0) (ks.getD d 0) k := by
    simp only [monoCoefs, List.getElem_map, List.getElem_range]
  unfold wt
  rw [getD_getElem hl, this]

theorem Below.getD_le {md e : List ℕ} (he : Below md e) {d : ℕ} (hd : d < md.length) : e.getD d 0 ≤ md.getD d 0 := by
  have hd2 : d < e.length := he.length_eq ▸ hd
  rw [getD_getElem hd, getD_getElem hd2]
  exact (List.forall₂_iff_get.1 he).2 d hd hd2

/-- Every entry of the patch is the value of the polynomial when the powers of each variable are replaced by Bernstein coefficients of them. -/
theorem patch_entries' {coeffs : List K} {exps : List (List ℕ)} {n : ℕ} (hn : 1 ≤ n) (hl : coeffs.length = exps.length) (hne : exps ≠ [])
    (hw : ∀ e ∈ exps, e.length = n) (hnd : exps.Nodup) (hdeg : ∀ e ∈ exps, ∀ k ∈ e, k ≤ 62)
    {domain : List (String × Itv K)} (hdom : domain.length = n) :
    ∃ md patch, getMaxDegrees exps n = .ok md ∧ md.length = n ∧ (∀ e ∈ exps, Below md e) ∧ bernsteinPatch coeffs exps domain = .ok patch ∧
      ∀ v ∈ patch.flatten, ∃ ks : List ℕ, Below md ks ∧
      v = (List.zipWith (fun (c : K) (e : List ℕ) => c * (List.zipWith (fun (φ : ℕ → K) k => φ k)
        (monoCoefs (domain.map Prod.snd) md ks n) e).prod) coeffs exps).sum := by
  obtain ⟨md, f, h0, ⟨h1, -⟩, hb, h2, h3⟩ := patch_weights' hn hl hne hw hnd hdeg hdom
  have hmd : md ≠ [] := by rintro rfl; simp at h1; omega
  refine ⟨md, _, h0, h1, hb, h2, fun v hv => ?_⟩
  obtain ⟨i, hi, j, hj, rfl⟩ := mem_flatten_ofFn.1 hv
  obtain ⟨js, hj1, hj2⟩ := enc_surj md.tail hj
  have hks : Below md (i :: js) := by
    cases md with
    | nil => exact absurd rfl hmd
    | cons m ms => exact List.Forall₂.cons (by simpa [Nat.lt_succ_iff] using hi) hj1
  have hkl : (i :: js).length = n := by rw [← hks.length_eq, h1]
  refine ⟨i :: js, hks, ?_⟩
  set ks := i :: js with hks'
  rw [← h3 (monoCoefs (domain.map Prod.snd) md ks n) (ks.map fun k i => (Nat.choose k i : K)) (ks.map delta) (by simp [monoCoefs]) (by simpa using hkl)
    (by simpa using hkl) ?_ ?_, wsum_delta hmd hks, ← hj2]
  · rfl
  · intro d hd k _
    rw [wt_monoCoefs hd, ← lamA_sum]
    refine sum_congr rfl fun i _ => ?_
    have : wt (ks.map fun k i => (Nat.choose k i : K)) d = fun i => (Nat.choose (ks.getD d 0) i : K) := by
      unfold wt
      simp [List.getD, hkl ▸ hd]
    rw [this]
  · intro d hd k hk
    have hd2 : d < ks.length := hkl ▸ hd
    have e1 : wt (ks.map fun k i => (Nat.choose k i : K)) d k = (Nat.choose (ks.getD d 0) k : K) := by
      unfold wt
      simp [List.getD, hd2]
    have e2 : wt (ks.map (delta (K := K))) d = delta (ks.getD d 0) := by
      unfold wt
      simp [List.getD, hd2]
    rw [e1, e2, sum_eq_single (ks.getD d 0)]
    · simp [delta]
    · intro i _ hi
      unfold delta
      rw [if_neg hi, mul_zero]
    · exact fun h => absurd (mem_range.2 (Nat.lt_succ_of_le (hks.getD_le (h1 ▸ hd)))) h

theorem patch_entries {coeffs : List K} {exps : List (List ℕ)} {n : ℕ} (hn : 1 ≤ n) (hl : coeffs.length = exps.length) (hne : exps ≠ [])
    (hw : ∀ e ∈ exps, e.length = n) (hnd : exps.Nodup) (hdeg : ∀ e ∈ exps, ∀ k ∈ e, k ≤ 62)
    {domain : List (String × Itv K)} (hdom : domain.length = n) :
    ∃ patch, bernsteinPatch coeffs exps domain = .ok patch ∧ ∀ v ∈ patch.flatten, ∃ β : List (ℕ → K), β.length = n ∧
      (∀ e ∈ exps, ∀ d, d < n → ∃ m j, j ≤ m ∧ e.getD d 0 ≤ m ∧ wt β d (e.getD d 0) =
        monoCoef ((domain.map Prod.snd).getD d ⟨0, 0⟩).lo ((domain.map Prod.snd).getD d ⟨0, 0⟩).hi m j (e.getD d 0)) ∧
      v = (List.zipWith (fun (c : K) (e : List ℕ) => c * (List.zipWith (fun (φ : ℕ → K) k => φ k) β e).prod) coeffs exps).sum := by
  obtain ⟨md, patch, -, h1, hb, h2, h3⟩ := patch_entries' hn hl hne hw hnd hdeg hdom
  refine ⟨patch, h2, fun v hv => ?_⟩
  obtain ⟨ks, hks, rfl⟩ := h3 v hv
  exact ⟨_, by simp [monoCoefs], fun e he d hd => ⟨md.getD d 0, ks.getD d 0, hks.getD_le (h1 ▸ hd), (hb e he).getD_le (h1 ▸ hd), wt_monoCoefs hd _⟩, rfl⟩

theorem prod_abs_le {β : List (ℕ → K)} {e : List ℕ} {r : List K} (h1 : β.length = e.length) (h2 : r.length = e.length)
    (h : ∀ d, d < e.length → |wt β d (e.getD d 0)| ≤ r.getD d 0 ^ e.getD d 0) :
    |(List.zipWith (fun (φ : ℕ → K) k => φ k) β e).prod| ≤ (List.zipWith (fun (xi : K) (k : ℕ) => xi ^ k) r e).prod := by
  induction e generalizing β r with
  | nil => simp
  | cons k e ih =>
    cases β with
    | nil => simp at h1
    | cons φ β =>
      cases r with
      | nil => simp at h2
      | cons x r =>
        simp only [List.zipWith_cons_cons, List.prod_cons, abs_mul]
        have h0 := h 0 (by simp)
        have ht := ih (β := β) (r := r) (by simpa using h1) (by simpa using h2) fun d hd => h (d + 1) (by simpa using hd)
        have h0' : |φ k| ≤ x ^ k := h0
        exact mul_le_mul h0' ht (abs_nonneg _) ((abs_nonneg _).trans h0')

theorem prod_itv_mem {β : List (ℕ → K)} {e : List ℕ} {box : List (Itv K)} (h1 : β.length = e.length) (h2 : box.length = e.length)
    (h : ∀ d, d < e.length → InItv (itvProd (box.getD d ⟨0, 0⟩) (e.getD d 0)) (wt β d (e.getD d 0))) :
    InItv ((List.zipWith itvProd box e).foldr Itv.mul (Itv.point 1)) (List.zipWith (fun (φ : ℕ → K) k => φ k) β e).prod := by
  induction e generalizing β box with
  | nil => simpa using Itv.mem_point (1 : K)
  | cons k e ih =>
    cases β with
    | nil => simp at h1
    | cons φ β =>
      cases box with
      | nil => simp at h2
      | cons x r =>
        simp only [List.zipWith_cons_cons, List.prod_cons, List.foldr_cons]
        exact Itv.mem_mul (h 0 (by simp)) (ih (by simpa using h1) (by simpa using h2) fun d hd => h (d + 1) (by simpa using hd))

/-- No entry of the patch is larger than the sum of the absolute values of the terms. -/
theorem patch_abs {coeffs : List K} {exps : List (List ℕ)} {n : ℕ} (hn : 1 ≤ n) (hl : coeffs.length = exps.length) (hne : exps ≠ [])
    (hw : ∀ e ∈ exps, e.length = n) (hnd : exps.Nodup) (hdeg : ∀ e ∈ exps, ∀ k ∈ e, k ≤ 62)
    {domain : List (String × Itv K)} (hdom : domain.length = n) :
    ∃ patch, bernsteinPatch coeffs exps domain = .ok patch ∧
      (∀ r : List K, List.Forall₂ (fun (I : Itv K) r => |I.lo| ≤ r ∧ |I.hi| ≤ r) (domain.map Prod.snd) r →
        ∀ v ∈ patch.flatten, |v| ≤ polyVal (coeffs.map fun c => |c|) exps r) ∧
      ((∀ I ∈ domain.map Prod.snd, I.lo ≤ I.hi) → ∀ v ∈ patch.flatten, InItv (itvVal coeffs exps (domain.map Prod.snd)) v) := by
  obtain ⟨patch, h1, h2⟩ := patch_entries hn hl hne hw hnd hdeg hdom
  have hbl : (domain.map Prod.snd).length = n := by simpa using hdom
  refine ⟨patch, h1, fun r hr v hv => ?_, fun hr v hv => ?_⟩
  · have hrl : r.length = n := by rw [← hr.length_eq, hbl]
    obtain ⟨β, b1, b2, rfl⟩ := h2 v hv
    have hprod : ∀ e ∈ exps, |(List.zipWith (fun (φ : ℕ → K) k => φ k) β e).prod| ≤ (List.zipWith (fun (xi : K) (k : ℕ) => xi ^ k) r e).prod := by
      intro e he
      refine prod_abs_le (b1.trans (hw e he).symm) (hrl.trans (hw e he).symm) fun d hd => ?_
      rw [hw e he] at hd
      obtain ⟨m, j, c1, c2, c3⟩ := b2 e he d hd
      have hd1 : d < (domain.map Prod.snd).length := hbl ▸ hd
      have hd2 : d < r.length := hrl ▸ hd
      have := (List.forall₂_iff_get.1 hr).2 d hd1 hd2
      rw [c3, getD_getElem hd1, getD_getElem hd2]
      exact monoCoef_abs this.1 this.2 c2 c1
    clear h1 h2 b2 hne hw hnd hdeg hv
    unfold polyVal
    induction exps generalizing coeffs with
    | nil => simp
    | cons e exps ih =>
      cases coeffs with
      | nil => simp
      | cons c coeffs =>
        simp only [List.zipWith_cons_cons, List.sum_cons, List.map_cons]
        refine (abs_add_le _ _).trans (add_le_add ?_ (ih (by simpa using hl) fun e he => hprod e (by simp [he])))
        rw [abs_mul]
        exact mul_le_mul_of_nonneg_left (hprod e (by simp)) (abs_nonneg _)
  · obtain ⟨β, b1, b2, rfl⟩ := h2 v hv
    have hprod : ∀ e ∈ exps, InItv ((List.zipWith itvProd (domain.map Prod.snd) e).foldr Itv.mul (Itv.point 1))
        (List.zipWith (fun (φ : ℕ → K) k => φ k) β e).prod := by
      intro e he
      refine prod_itv_mem (b1.trans (hw e he).symm) (hbl.trans (hw e he).symm) fun d hd => ?_
      rw [hw e he] at hd
      obtain ⟨m, j, c1, c2, c3⟩ := b2 e he d hd
      have hd1 : d < (domain.map Prod.snd).length := hbl ▸ hd
      rw [c3]
      refine monoCoef_itv (hr _ ?_) c2 c1
      rw [getD_getElem hd1]
      exact List.getElem_mem hd1
    clear h1 h2 b2 hne hw hnd hdeg hv
    unfold itvVal
    induction exps generalizing coeffs with
    | nil => simpa using Itv.mem_point (0 : K)
    | cons e exps ih =>
      cases coeffs with
      | nil => simp at hl
      | cons c coeffs =>
        simp only [List.zipWith_cons_cons, List.sum_cons, List.foldr_cons]
        exact Itv.mem_add (Itv.mem_mul (Itv.mem_point c) (hprod e (by simp))) (ih (by simpa using hl) fun e he => hprod e (by simp [he]))

end Audi.Bounding
