import Verif.Proofs.BernsteinWidth
import Mathlib.Algebra.Polynomial.Coeff
import Mathlib.Tactic.LinearCombination
import Mathlib.Tactic.IntervalCases

/-!
# Proofs: the Bernstein patch over a smaller box

Over a smaller box the entries of the patch are convex combinations of the entries over the larger box. They differ from values of the polynomial
by a multiple of the square of the width of the box.
-/

namespace Audi.Bounding

open Finset Spec
open scoped Polynomial

variable {K : Type} [Field K]

/-! ### Generating polynomials -/

/-- The polynomial whose coefficients are the Bernstein coefficients number `j` of the powers of `x`, up to binomial factors. -/
noncomputable def gen (a b : K) (n j : ℕ) : K[X] := (Polynomial.X + Polynomial.C b) ^ j * (Polynomial.X + Polynomial.C a) ^ (n - j)

theorem gen_eq (a b : K) {n j : ℕ} (hj : j ≤ n) : gen a b n j =
    ∑ i ∈ range (j + 1), Polynomial.C ((b - a) ^ i * (Nat.choose j i : K)) * (Polynomial.X + Polynomial.C a) ^ (n - i) := by
  have h1 : (Polynomial.X + Polynomial.C b : K[X]) = Polynomial.C (b - a) + (Polynomial.X + Polynomial.C a) := by
    rw [map_sub]; ring
  unfold gen
  rw [h1, add_pow, sum_mul]
  refine sum_congr rfl fun i hi => ?_
  rw [mem_range] at hi
  have e : n - i = (j - i) + (n - j) := by omega
  rw [e, pow_add, map_mul, map_pow, map_natCast]
  ring

theorem coeff_gen [CharZero K] (a b : K) {n j k : ℕ} (hj : j ≤ n) (hk : k ≤ n) :
    (gen a b n j).coeff (n - k) = (Nat.choose n k : K) * monoCoef a b n j k := by
  rw [gen_eq a b hj, Polynomial.finsetSum_coeff]
  have hsub : range (j + 1) ⊆ range (n + 1) := range_subset_range.2 (by omega)
  rw [monoCoef, mul_sum, ← sum_subset hsub]
  · refine sum_congr rfl fun i hi => ?_
    rw [mem_range] at hi
    rw [Polynomial.coeff_C_mul, Polynomial.coeff_X_add_C_pow]
    unfold qEntry
    rcases Nat.lt_or_ge k i with h | h
    · rw [Nat.choose_eq_zero_of_lt h, Nat.choose_eq_zero_of_lt (show n - i < n - k by omega)]
      simp
    · have h1 : (Nat.choose n i : K) ≠ 0 := Nat.cast_ne_zero.2 (Nat.choose_pos (by omega)).ne'
      have h2 : ((n.choose k * k.choose i : ℕ) : K) = ((n.choose i * (n - i).choose (k - i) : ℕ) : K) := by
        rw [Nat.choose_mul h]
      have h3 : (n - i).choose (n - k) = (n - i).choose (k - i) := by
        rw [← Nat.choose_symm (show k - i ≤ n - i by omega)]
        congr 1
        omega
      rw [h3, show n - i - (n - k) = k - i by omega]
      push_cast at h2
      field_simp
      linear_combination -((b - a) ^ i * (j.choose i : K) * a ^ (k - i)) * h2
  · intro i _ hi
    rw [mem_range] at hi
    rw [Nat.choose_eq_zero_of_lt (show j < i by omega)]
    simp

variable [LinearOrder K] [IsStrictOrderedRing K]

/-- `q` is a convex combination of the generating polynomials of degree `m`. -/
def ConvGen (a b : K) (m : ℕ) (q : K[X]) : Prop :=
  ∃ w : ℕ → K, (∀ i, 0 ≤ w i) ∧ (∀ i, m < i → w i = 0) ∧ ∑ i ∈ range (m + 1), w i = 1 ∧
    q = ∑ i ∈ range (m + 1), Polynomial.C (w i) * gen a b m i

theorem ConvGen.step {a b : K} {m : ℕ} {q : K[X]} (h : ConvGen a b m q) {t : K} (h0 : 0 ≤ t) (h1 : t ≤ 1) :
    ConvGen a b (m + 1) (q * (Polynomial.X + Polynomial.C (a + (b - a) * t))) := by
  obtain ⟨w, hw0, hwm, hw1, rfl⟩ := h
  have h1' : 0 ≤ 1 - t := sub_nonneg.2 h1
  have hm1 : w (m + 1) = 0 := hwm _ (by omega)
  refine ⟨fun i => (1 - t) * w i + t * (if i = 0 then 0 else w (i - 1)), fun i => ?_, fun i hi => ?_, ?_, ?_⟩
  · refine add_nonneg (mul_nonneg h1' (hw0 i)) (mul_nonneg h0 ?_)
    split_ifs
    · exact le_rfl
    · exact hw0 _
  · dsimp only
    rw [hwm i (by omega), if_neg (by omega), hwm (i - 1) (by omega)]
    ring
  · rw [sum_add_distrib, ← mul_sum, ← mul_sum, sum_range_succ, hw1, hm1, sum_range_succ', if_pos rfl]
    simp only [Nat.add_sub_cancel, Nat.succ_ne_zero, if_false]
    rw [hw1]
    ring
  · have e1 : ∀ i ∈ range (m + 1), gen a b m i * (Polynomial.X + Polynomial.C a) = gen a b (m + 1) i := fun i hi => by
      rw [mem_range] at hi
      unfold gen
      rw [show m + 1 - i = (m - i) + 1 by omega, pow_succ]
      ring
    have e2 : ∀ i, gen a b m i * (Polynomial.X + Polynomial.C b) = gen a b (m + 1) (i + 1) := fun i => by
      unfold gen
      rw [show m + 1 - (i + 1) = m - i by omega, pow_succ]
      ring
    have e3 : (Polynomial.X + Polynomial.C (a + (b - a) * t) : K[X]) =
        Polynomial.C (1 - t) * (Polynomial.X + Polynomial.C a) + Polynomial.C t * (Polynomial.X + Polynomial.C b) := by
      simp only [map_add, map_sub, map_mul, map_one]
      ring
    have s1 : ∑ i ∈ range (m + 1 + 1), Polynomial.C ((1 - t) * w i) * gen a b (m + 1) i =
        ∑ i ∈ range (m + 1), Polynomial.C (w i) * gen a b m i * (Polynomial.C (1 - t) * (Polynomial.X + Polynomial.C a)) := by
      rw [sum_range_succ, hm1, mul_zero, map_zero, zero_mul, add_zero]
      refine sum_congr rfl fun i hi => ?_
      rw [← e1 i hi, map_mul]
      ring
    have s2 : ∑ i ∈ range (m + 1 + 1), Polynomial.C (t * (if i = 0 then 0 else w (i - 1))) * gen a b (m + 1) i =
        ∑ i ∈ range (m + 1), Polynomial.C (w i) * gen a b m i * (Polynomial.C t * (Polynomial.X + Polynomial.C b)) := by
      rw [sum_range_succ', if_pos rfl, mul_zero, map_zero, zero_mul, add_zero]
      refine sum_congr rfl fun i _ => ?_
      rw [← e2 i, if_neg (Nat.succ_ne_zero i), Nat.add_sub_cancel, map_mul]
      ring
    rw [e3, mul_add, sum_mul, sum_mul, ← s1, ← s2, ← sum_add_distrib]
    refine sum_congr rfl fun i _ => ?_
    rw [map_add]
    ring

theorem convGen_gen {a b s t : K} (hs0 : 0 ≤ s) (hs1 : s ≤ 1) (ht0 : 0 ≤ t) (ht1 : t ≤ 1) {m j : ℕ} (hj : j ≤ m) :
    ConvGen a b m (gen (a + (b - a) * s) (a + (b - a) * t) m j) := by
  have hz : ConvGen a b 0 1 := ⟨fun i => if i = 0 then 1 else 0, fun i => by dsimp only; split_ifs <;> simp, fun i hi => if_neg (by omega), by simp,
    by simp [gen]⟩
  have hpow : ∀ {u : K}, 0 ≤ u → u ≤ 1 → ∀ l {p : ℕ} {q : K[X]}, ConvGen a b p q →
      ConvGen a b (p + l) (q * (Polynomial.X + Polynomial.C (a + (b - a) * u)) ^ l) := by
    intro u h0 h1 l
    induction l with
    | zero => intro p q h; simpa using h
    | succ l ih => intro p q h; rw [pow_succ, ← mul_assoc]; exact (ih h).step h0 h1
  have h1 := hpow hs0 hs1 (m - j) (hpow ht0 ht1 j hz)
  rw [one_mul, zero_add, show j + (m - j) = m by omega] at h1
  exact h1

/-- The Bernstein coefficients over a part of the interval are convex combinations of those over the whole interval. -/
theorem monoCoef_shrink {I J : Itv K} (h1 : I.lo ≤ J.lo) (h2 : J.lo ≤ J.hi) (h3 : J.hi ≤ I.hi) {m j : ℕ} (hj : j ≤ m) :
    ∃ w : ℕ → K, (∀ i, 0 ≤ w i) ∧ ∑ i ∈ range (m + 1), w i = 1 ∧
      ∀ k, k ≤ m → ∑ i ∈ range (m + 1), w i * monoCoef I.lo I.hi m i k = monoCoef J.lo J.hi m j k := by
  have hpar : ∀ x, I.lo ≤ x → x ≤ I.hi → ∃ t, 0 ≤ t ∧ t ≤ 1 ∧ I.lo + (I.hi - I.lo) * t = x := by
    intro x hx1 hx2
    rcases (hx1.trans hx2).eq_or_lt with h | h
    · exact ⟨0, le_rfl, zero_le_one, by rw [mul_zero, add_zero]; exact le_antisymm hx1 (hx2.trans h.ge)⟩
    · have hp : 0 < I.hi - I.lo := sub_pos.2 h
      refine ⟨(x - I.lo) / (I.hi - I.lo), div_nonneg (sub_nonneg.2 hx1) hp.le, (div_le_one hp).2 (sub_le_sub_right hx2 _), ?_⟩
      field_simp
      ring
  obtain ⟨s, hs0, hs1, hs⟩ := hpar J.lo h1 (h2.trans h3)
  obtain ⟨t, ht0, ht1, ht⟩ := hpar J.hi (h1.trans h2) h3
  have hc := convGen_gen (a := I.lo) (b := I.hi) hs0 hs1 ht0 ht1 hj
  rw [hs, ht] at hc
  obtain ⟨w, hw0, -, hw1, hw⟩ := hc
  refine ⟨w, hw0, hw1, fun k hk => ?_⟩
  have hcoef := congrArg (fun q : K[X] => q.coeff (m - k)) hw
  rw [coeff_gen J.lo J.hi hj hk, Polynomial.finsetSum_coeff] at hcoef
  have hne : (Nat.choose m k : K) ≠ 0 := Nat.cast_ne_zero.2 (Nat.choose_pos hk).ne'
  refine mul_left_cancel₀ hne ?_
  rw [hcoef, mul_sum]
  refine sum_congr rfl fun i hi => ?_
  rw [Polynomial.coeff_C_mul, coeff_gen _ _ (Nat.lt_succ_iff.1 (mem_range.1 hi)) hk]
  ring

/-! ### The patch over a part of the box -/

theorem patch_shrink {coeffs : List K} {exps : List (List ℕ)} {n : ℕ} (hn : 1 ≤ n) (hl : coeffs.length = exps.length) (hne : exps ≠ [])
    (hw : ∀ e ∈ exps, e.length = n) (hnd : exps.Nodup) (hdeg : ∀ e ∈ exps, ∀ k ∈ e, k ≤ 62)
    {domain sub : List (String × Itv K)} (hdom : domain.length = n)
    (hsub : List.Forall₂ (fun I J : Itv K => I.lo ≤ J.lo ∧ J.lo ≤ J.hi ∧ J.hi ≤ I.hi) (domain.map Prod.snd) (sub.map Prod.snd)) :
    ∃ patch patch', bernsteinPatch coeffs exps domain = .ok patch ∧ bernsteinPatch coeffs exps sub = .ok patch' ∧
      ∀ v ∈ patch'.flatten, (∃ u ∈ patch.flatten, u ≤ v) ∧ ∃ u ∈ patch.flatten, v ≤ u := by
  have hsl : sub.length = n := by simpa [hdom] using hsub.length_eq.symm
  obtain ⟨md, f, g1, ⟨g2, -⟩, hb, g3, g4⟩ := patch_weights' hn hl hne hw hnd hdeg hdom
  obtain ⟨md', patch', k1, k2, -, k3, k4⟩ := patch_entries' hn hl hne hw hnd hdeg hsl
  obtain rfl : md = md' := Except.ok.inj (g1.symm.trans k1)
  refine ⟨_, patch', g3, k3, fun v hv => ?_⟩
  obtain ⟨ks, hks, rfl⟩ := k4 v hv
  have hmd : md ≠ [] := by rintro rfl; simp at g2; omega
  have hex : ∀ d, d < n → ∃ w : ℕ → K, (∀ i, 0 ≤ w i) ∧ ∑ i ∈ range (md.getD d 0 + 1), w i = 1 ∧
      ∀ k, k ≤ md.getD d 0 → ∑ i ∈ range (md.getD d 0 + 1), w i * monoCoef ((domain.map Prod.snd).getD d ⟨0, 0⟩).lo
        ((domain.map Prod.snd).getD d ⟨0, 0⟩).hi (md.getD d 0) i k = monoCoef ((sub.map Prod.snd).getD d ⟨0, 0⟩).lo
        ((sub.map Prod.snd).getD d ⟨0, 0⟩).hi (md.getD d 0) (ks.getD d 0) k := by
    intro d hd
    have hd1 : d < (domain.map Prod.snd).length := by simpa [hdom] using hd
    have hd2 : d < (sub.map Prod.snd).length := by simpa [hsl] using hd
    have h := (List.forall₂_iff_get.1 hsub).2 d hd1 hd2
    simp only [List.get_eq_getElem] at h
    rw [getD_getElem (x := (⟨0, 0⟩ : Itv K)) hd1, getD_getElem (x := (⟨0, 0⟩ : Itv K)) hd2]
    exact monoCoef_shrink h.1 h.2.1 h.2.2 (hks.getD_le (g2 ▸ hd))
  choose! w w0 w1 w2 using hex
  have hwt : ∀ d, d < n → wt ((List.range n).map w) d = w d := fun d hd => by
    unfold wt
    simp [List.getD, hd]
  have hwt' : ∀ d, d < n → ∀ k, wt ((List.range n).map fun d k => ∑ i ∈ range (md.getD d 0 + 1), (Nat.choose i k : K) * w d i) d k =
      ∑ i ∈ range (md.getD d 0 + 1), (Nat.choose i k : K) * w d i := fun d hd k => by
    unfold wt
    simp [List.getD, hd]
  rw [← g4 (monoCoefs (sub.map Prod.snd) md ks n) ((List.range n).map fun d k => ∑ i ∈ range (md.getD d 0 + 1), (Nat.choose i k : K) * w d i)
    ((List.range n).map w) (by simp [monoCoefs]) (by simp) (by simp) ?_ ?_]
  · have hds : ∀ D ∈ dims md ((List.range n).map w), ∃ d, d < n ∧ D = (md.getD d 0 + 1, w d) := by
      intro D hD
      unfold dims at hD
      obtain ⟨d, hd, rfl⟩ := List.getElem_of_mem hD
      have hd' : d < n := by simp at hd; omega
      refine ⟨d, hd', ?_⟩
      rw [getD_getElem (g2 ▸ hd')]
      simp
    have hfst : (dims md ((List.range n).map w)).map Prod.fst = md.map (· + 1) := map_fst_dims (by simp [g2])
    have hne' : dims md ((List.range n).map w) ≠ [] := by
      intro h
      rw [h] at hfst
      simp at hfst
      exact hmd hfst
    obtain ⟨⟨i, hi, j, hj, hij⟩, i', hi', j', hj', hij'⟩ := wsum_between hne' (fun D hD => by obtain ⟨d, -, rfl⟩ := hds D hD; simp)
      (fun D hD i => by obtain ⟨d, hd, rfl⟩ := hds D hD; exact w0 d hd i) (fun D hD => by obtain ⟨d, hd, rfl⟩ := hds D hD; exact w1 d hd) f
    have htl : tot (dims md ((List.range n).map w)).tail = (md.tail.map (· + 1)).prod := by
      unfold tot
      rw [List.map_tail, hfst, List.map_tail]
    have hhd : ((dims md ((List.range n).map w)).map Prod.fst).headD 0 = md.headD 0 + 1 := by
      rw [hfst]
      obtain ⟨m, ms, rfl⟩ := List.exists_cons_of_ne_nil hmd
      rfl
    rw [hhd] at hi hi'
    rw [htl] at hj hj'
    exact ⟨⟨_, mem_flatten_ofFn.2 ⟨i, hi, j, hj, rfl⟩, hij⟩, _, mem_flatten_ofFn.2 ⟨i', hi', j', hj', rfl⟩, hij'⟩
  · intro d hd k hk
    rw [wt_monoCoefs hd, ← w2 d hd k (Nat.lt_succ_iff.1 hk)]
    simp only [hwt' d hd, mul_sum]
    rw [sum_comm]
    refine sum_congr rfl fun i _ => ?_
    rw [← lamA_sum, mul_sum]
    refine sum_congr rfl fun l _ => ?_
    ring
  · intro d hd k _
    rw [hwt d hd, hwt' d hd]

/-! ### Distance from values of the polynomial -/

/-- Bound for the second and all higher terms of `(a + t)^k`, `k ≤ 62`, up to the factor `t²`. -/
def quadBound (R : K) : K := ∑ k ∈ range 63, ∑ i ∈ range 63, (Nat.choose k i : K) * (2 * R) ^ (i - 2) * R ^ (k - i)

theorem quadBound_nonneg {R : K} (hR : 0 ≤ R) : 0 ≤ quadBound R := sum_nonneg fun _ _ => sum_nonneg fun _ _ => by positivity

theorem monoCoef_near {a b R h : K} (ha : |a| ≤ R) (hh : |b - a| ≤ h) (hR : h ≤ 2 * R) {m j k : ℕ} (hm : m ≤ 62) (hk : k ≤ m) (hj : j ≤ m) :
    |monoCoef a b m j k - (a + (b - a) * (j / m : K)) ^ k| ≤ h ^ 2 * quadBound R := by
  have hR0 : 0 ≤ R := (abs_nonneg a).trans ha
  have hh0 : 0 ≤ h := (abs_nonneg _).trans hh
  set t : K := (j / m : K) with ht
  have ht0 : 0 ≤ t := by positivity
  have ht1 : t ≤ 1 := by
    rcases Nat.eq_zero_or_pos m with rfl | hp
    · simp [ht]
    · rw [ht, div_le_one (by exact_mod_cast hp)]
      exact_mod_cast hj
  rw [← sum_qEntry a b t hk, monoCoef, ← sum_sub_distrib]
  have hterm : ∀ i ∈ range (m + 1), |1 / (Nat.choose m i : K) * qEntry a b i k * (Nat.choose j i : K) - qEntry a b i k * t ^ i| ≤
      h ^ 2 * ((Nat.choose k i : K) * (2 * R) ^ (i - 2) * R ^ (k - i)) := by
    intro i hi
    have him : i ≤ m := Nat.lt_succ_iff.1 (mem_range.1 hi)
    have hc : (0 : K) < (Nat.choose m i : K) := Nat.cast_pos.2 (Nat.choose_pos him)
    have e : 1 / (Nat.choose m i : K) * qEntry a b i k * (Nat.choose j i : K) - qEntry a b i k * t ^ i =
        ((Nat.choose j i : K) / (Nat.choose m i : K) - t ^ i) * qEntry a b i k := by ring
    rw [e]
    have hpos : 0 ≤ h ^ 2 * ((Nat.choose k i : K) * (2 * R) ^ (i - 2) * R ^ (k - i)) := by positivity
    rcases Nat.lt_or_ge i 2 with h2 | h2
    · have : (Nat.choose j i : K) / (Nat.choose m i : K) - t ^ i = 0 := by
        interval_cases i
        · simp
        · simp [ht]
      rw [this, zero_mul, abs_zero]
      exact hpos
    · have hq : |qEntry a b i k| ≤ (Nat.choose k i : K) * h ^ i * R ^ (k - i) := by
        unfold qEntry
        rw [abs_mul, abs_mul, abs_pow, abs_pow, abs_of_nonneg (Nat.cast_nonneg (α := K) (Nat.choose k i))]
        gcongr
      have hd : |(Nat.choose j i : K) / (Nat.choose m i : K) - t ^ i| ≤ 1 := by
        have h3 : (Nat.choose j i : K) / (Nat.choose m i : K) ≤ 1 := by
          rw [div_le_one hc]
          exact_mod_cast Nat.choose_le_choose i hj
        have h4 : 0 ≤ (Nat.choose j i : K) / (Nat.choose m i : K) := by positivity
        have h5 : t ^ i ≤ 1 := pow_le_one₀ ht0 ht1
        have h6 : 0 ≤ t ^ i := by positivity
        rw [abs_le]
        constructor <;> linarith
      rw [abs_mul]
      calc _ ≤ 1 * ((Nat.choose k i : K) * h ^ i * R ^ (k - i)) := mul_le_mul hd hq (abs_nonneg _) zero_le_one
        _ = h ^ 2 * ((Nat.choose k i : K) * h ^ (i - 2) * R ^ (k - i)) := by
          rw [show h ^ i = h ^ 2 * h ^ (i - 2) by rw [← pow_add]; congr 1; omega]; ring
        _ ≤ _ := by gcongr
  calc _ ≤ ∑ i ∈ range (m + 1), h ^ 2 * ((Nat.choose k i : K) * (2 * R) ^ (i - 2) * R ^ (k - i)) :=
        (abs_sum_le_sum_abs _ _).trans (sum_le_sum hterm)
    _ = h ^ 2 * ∑ i ∈ range (m + 1), (Nat.choose k i : K) * (2 * R) ^ (i - 2) * R ^ (k - i) := by rw [mul_sum]
    _ ≤ h ^ 2 * quadBound R := by
      refine mul_le_mul_of_nonneg_left ?_ (by positivity)
      calc _ ≤ ∑ i ∈ range 63, (Nat.choose k i : K) * (2 * R) ^ (i - 2) * R ^ (k - i) :=
            sum_le_sum_of_subset_of_nonneg (range_subset_range.2 (by omega)) fun i _ _ => by positivity
        _ ≤ _ := single_le_sum (f := fun k => ∑ i ∈ range 63, (Nat.choose k i : K) * (2 * R) ^ (i - 2) * R ^ (k - i))
            (fun k _ => sum_nonneg fun _ _ => by positivity) (mem_range.2 (by omega))

theorem prod_near {M δ : K} (hM : 1 ≤ M) (hδ : 0 ≤ δ) {l l' : List K} (h : List.Forall₂ (fun x y => |x| ≤ M ∧ |y| ≤ M ∧ |x - y| ≤ δ) l l') :
    |l.prod - l'.prod| ≤ l.length * M ^ l.length * δ ∧ |l.prod| ≤ M ^ l.length := by
  have hM0 : 0 ≤ M := zero_le_one.trans hM
  induction h with
  | nil => simp
  | @cons x y l l' h1 _ ih =>
    obtain ⟨a1, a2, a3⟩ := h1
    simp only [List.prod_cons, List.length_cons, abs_mul]
    constructor
    · have e : x * l.prod - y * l'.prod = (x - y) * l.prod + y * (l.prod - l'.prod) := by ring
      rw [e]
      calc _ ≤ |x - y| * |l.prod| + |y| * |l.prod - l'.prod| := by rw [← abs_mul, ← abs_mul]; exact abs_add_le _ _
        _ ≤ δ * M ^ l.length + M * (l.length * M ^ l.length * δ) := by gcongr; exacts [ih.2, ih.1]
        _ ≤ M * (δ * M ^ l.length) + M * (l.length * M ^ l.length * δ) := by
          have : 0 ≤ δ * M ^ l.length := by positivity
          exact add_le_add (le_mul_of_one_le_left this hM) le_rfl
        _ = _ := by push_cast; ring
    · rw [pow_succ']
      exact mul_le_mul a1 ih.2 (abs_nonneg _) hM0

theorem sum_near {φ ψ : List ℕ → K} {B : K} {coeffs : List K} {exps : List (List ℕ)} (h : ∀ e ∈ exps, |φ e - ψ e| ≤ B) (hl : coeffs.length = exps.length) :
    |(List.zipWith (fun c e => c * φ e) coeffs exps).sum - (List.zipWith (fun c e => c * ψ e) coeffs exps).sum| ≤
      (coeffs.map fun c => |c|).sum * B := by
  induction exps generalizing coeffs with
  | nil =>
    obtain rfl : coeffs = [] := List.length_eq_zero_iff.1 hl
    simp
  | cons e exps ih =>
    cases coeffs with
    | nil => simp at hl
    | cons c coeffs =>
      simp only [List.zipWith_cons_cons, List.sum_cons, List.map_cons]
      rw [add_sub_add_comm, ← mul_sub, add_mul]
      refine (abs_add_le _ _).trans (add_le_add ?_ (ih (fun e he => h e (by simp [he])) (by simpa using hl)))
      rw [abs_mul]
      exact mul_le_mul_of_nonneg_left (h e (by simp)) (abs_nonneg _)

/-- Every entry of the patch is the value of the polynomial at a point of the box, up to a multiple of the square of the width of the box. -/
theorem patch_near {coeffs : List K} {exps : List (List ℕ)} {n : ℕ} (hn : 1 ≤ n) (hl : coeffs.length = exps.length) (hne : exps ≠ [])
    (hw : ∀ e ∈ exps, e.length = n) (hnd : exps.Nodup) (hdeg : ∀ e ∈ exps, ∀ k ∈ e, k ≤ 62) {R : K} (hR : 0 ≤ R) :
    ∃ C, 0 ≤ C ∧ ∀ (domain : List (String × Itv K)) (h : K), domain.length = n →
      (∀ I ∈ domain.map Prod.snd, I.lo ≤ I.hi ∧ |I.lo| ≤ R ∧ |I.hi| ≤ R ∧ I.hi - I.lo ≤ h) →
      ∃ patch, bernsteinPatch coeffs exps domain = .ok patch ∧
        ∀ v ∈ patch.flatten, ∃ x, InBox (domain.map Prod.snd) x ∧ |v - polyVal coeffs exps x| ≤ C * h ^ 2 := by
  set M : K := max 1 R ^ 62 with hM
  have hM1 : 1 ≤ M := one_le_pow₀ (le_max_left _ _)
  have hM0 : 0 ≤ M := zero_le_one.trans hM1
  have hQ := quadBound_nonneg hR
  refine ⟨(coeffs.map fun c => |c|).sum * (n * M ^ n * quadBound R), mul_nonneg (List.sum_nonneg fun x hx => ?_) (by positivity),
    fun domain h hdom hbox => ?_⟩
  · obtain ⟨c, -, rfl⟩ := List.mem_map.1 hx
    exact abs_nonneg c
  obtain ⟨md, patch, h0, h1, hb, h2, h3⟩ := patch_entries' hn hl hne hw hnd hdeg hdom
  refine ⟨patch, h2, fun v hv => ?_⟩
  obtain ⟨ks, hks, rfl⟩ := h3 v hv
  set box := domain.map Prod.snd with hbx
  have hbl : box.length = n := by simpa [hbx] using hdom
  have hmd62 : ∀ d, d < n → md.getD d 0 ≤ 62 := by
    obtain ⟨md', f, g0, ⟨g1, g2⟩, -⟩ := patch_weights' hn hl hne hw hnd hdeg hdom
    obtain rfl : md = md' := Except.ok.inj (h0.symm.trans g0)
    intro d hd
    have hd' : d < md.length := h1 ▸ hd
    rw [getD_getElem hd']
    obtain ⟨e, he, hme⟩ := g2 _ (List.getElem_mem hd')
    exact hdeg e he _ hme
  set x : List K := (List.range n).map fun d => (box.getD d ⟨0, 0⟩).lo + ((box.getD d ⟨0, 0⟩).hi - (box.getD d ⟨0, 0⟩).lo) *
    ((ks.getD d 0 : ℕ) / (md.getD d 0 : ℕ) : K) with hx
  have hxl : x.length = n := by simp [hx]
  have hxd : ∀ d (hd : d < x.length), x[d] = (box.getD d ⟨0, 0⟩).lo + ((box.getD d ⟨0, 0⟩).hi - (box.getD d ⟨0, 0⟩).lo) *
      ((ks.getD d 0 : ℕ) / (md.getD d 0 : ℕ) : K) := fun d hd => by
    simp only [hx, List.getElem_map, List.getElem_range]
  have hI : ∀ d, d < n → (box.getD d ⟨0, 0⟩).lo ≤ (box.getD d ⟨0, 0⟩).hi ∧ |(box.getD d ⟨0, 0⟩).lo| ≤ R ∧ |(box.getD d ⟨0, 0⟩).hi| ≤ R ∧
      (box.getD d ⟨0, 0⟩).hi - (box.getD d ⟨0, 0⟩).lo ≤ h := fun d hd => by
    refine hbox _ ?_
    rw [getD_getElem (hbl ▸ hd)]
    exact List.getElem_mem _
  have hfrac : ∀ d, d < n → 0 ≤ ((ks.getD d 0 : ℕ) / (md.getD d 0 : ℕ) : K) ∧ ((ks.getD d 0 : ℕ) / (md.getD d 0 : ℕ) : K) ≤ 1 := fun d hd => by
    refine ⟨by positivity, ?_⟩
    have hle := hks.getD_le (h1 ▸ hd)
    rcases Nat.eq_zero_or_pos (md.getD d 0) with hz | hp
    · rw [hz]; simp
    · rw [div_le_one (by exact_mod_cast hp)]
      exact_mod_cast hle
  have hin : ∀ d (hd : d < x.length), InItv (box.getD d ⟨0, 0⟩) x[d] := fun d hd => by
    have hd' : d < n := hxl ▸ hd
    rw [hxd d hd]
    have h5 := hI d hd'
    have h6 := hfrac d hd'
    have h7 := sub_nonneg.2 h5.1
    constructor
    · linarith [mul_nonneg h7 h6.1]
    · linarith [mul_le_of_le_one_right h7 h6.2]
  refine ⟨x, List.forall₂_iff_get.2 ⟨by rw [hbl, hxl], fun d hd1 hd2 => ?_⟩, ?_⟩
  · have := hin d hd2
    rw [getD_getElem hd1] at this
    exact this
  have hpow : ∀ {y : K} {k : ℕ}, |y| ≤ R → k ≤ 62 → |y| ^ k ≤ M := fun {y k} hy hk => by
    calc |y| ^ k ≤ max 1 R ^ k := pow_le_pow_left₀ (abs_nonneg _) (hy.trans (le_max_right _ _)) _
      _ ≤ _ := pow_le_pow_right₀ (le_max_left _ _) hk
  have hterm : ∀ e ∈ exps, |(List.zipWith (fun (φ : ℕ → K) k => φ k) (monoCoefs box md ks n) e).prod -
      (List.zipWith (fun (xi : K) (k : ℕ) => xi ^ k) x e).prod| ≤ n * M ^ n * quadBound R * h ^ 2 := by
    intro e he
    have hel := hw e he
    have hml : (monoCoefs box md ks n).length = n := by simp [monoCoefs]
    have hnear := prod_near hM1 (δ := h ^ 2 * quadBound R) (by positivity) (l := List.zipWith (fun (φ : ℕ → K) k => φ k) (monoCoefs box md ks n) e)
      (l' := List.zipWith (fun (xi : K) (k : ℕ) => xi ^ k) x e) ?_
    · have hlen : (List.zipWith (fun (φ : ℕ → K) k => φ k) (monoCoefs box md ks n) e).length = n := by simp [hml, hel]
      rw [hlen] at hnear
      exact hnear.1.trans (le_of_eq (by ring))
    · refine List.forall₂_iff_get.2 ⟨by simp [hml, hel, hxl], fun d hd1 hd2 => ?_⟩
      have hd : d < n := by simp [hml, hel] at hd1; omega
      have hde : d < e.length := hel ▸ hd
      have hdx : d < x.length := hxl ▸ hd
      have hdm : d < (monoCoefs box md ks n).length := hd.trans_eq hml.symm
      have hm1 : (monoCoefs box md ks n)[d] e[d] = monoCoef (box.getD d ⟨0, 0⟩).lo (box.getD d ⟨0, 0⟩).hi (md.getD d 0) (ks.getD d 0) e[d] := by
        rw [← wt_monoCoefs hd]
        unfold wt
        rw [getD_getElem hdm]
      simp only [List.get_eq_getElem, List.getElem_zipWith]
      rw [hm1]
      have hk62 : e[d] ≤ 62 := hdeg e he _ (List.getElem_mem hde)
      have hkm : e[d] ≤ md.getD d 0 := by
        have := (hb e he).getD_le (h1 ▸ hd)
        rwa [getD_getElem hde] at this
      have hjm := hks.getD_le (h1 ▸ hd)
      have h5 := hI d hd
      have hRM : R ^ e[d] ≤ M := by
        have := hpow (y := R) (k := e[d]) (le_of_eq (abs_of_nonneg hR)) hk62
        rwa [abs_of_nonneg hR] at this
      refine ⟨(monoCoef_abs h5.2.1 h5.2.2.1 hkm hjm).trans hRM, ?_, ?_⟩
      · rw [abs_pow]
        refine hpow ?_ hk62
        have h6 := hin d hdx
        have h7 := abs_le.1 h5.2.1
        have h8 := abs_le.1 h5.2.2.1
        exact abs_le.2 ⟨h7.1.trans h6.1, h6.2.trans h8.2⟩
      · rw [hxd d hdx]
        have h7 := abs_le.1 h5.2.1
        have h8 := abs_le.1 h5.2.2.1
        have hw' : |(box.getD d ⟨0, 0⟩).hi - (box.getD d ⟨0, 0⟩).lo| = (box.getD d ⟨0, 0⟩).hi - (box.getD d ⟨0, 0⟩).lo := abs_of_nonneg (sub_nonneg.2 h5.1)
        have hmin := monoCoef_near (a := (box.getD d ⟨0, 0⟩).lo) (b := (box.getD d ⟨0, 0⟩).hi) (h := (box.getD d ⟨0, 0⟩).hi - (box.getD d ⟨0, 0⟩).lo)
          h5.2.1 hw'.le (by linarith) (hmd62 d hd) hkm hjm
        refine hmin.trans (mul_le_mul_of_nonneg_right ?_ hQ)
        exact pow_le_pow_left₀ (sub_nonneg.2 h5.1) h5.2.2.2 2
  have := sum_near hterm hl
  unfold polyVal
  refine this.trans (le_of_eq (by ring))

end Audi.Bounding
