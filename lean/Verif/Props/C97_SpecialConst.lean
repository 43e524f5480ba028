import Verif.Props.C96_SpecialDiv

/-!
# C97: comparisons with NaN, and constant gduals as numbers with infinities and NaN
-/

namespace Audi
open Poly

variable {F : XFormat} {a b : GDual (XF F)} {E : String →₀ ℕ}

theorem XF.beq_iff (x y : XF F) : Cf.beq x y = true ↔ x.v ≠ .nan ∧ x.v = y.v := by
  change decide (x.v ≠ .nan ∧ x.v = y.v) = true ↔ _
  simp only [decide_eq_true_eq]

/-- **C97** A gdual with a NaN coefficient differs from every gdual, itself included: `==` is false and `!=` is true. -/
theorem C97_eq_nan (ha : a.Valid) (hb : b.Valid) (h : HasAt IsNaN a E ∨ HasAt IsNaN b E) : a.eq b = false ∧ a.ne b = true := by
  suffices h1 : a.eq b = false from ⟨h1, by rw [GDual.ne, h1]; rfl⟩
  by_contra hc
  rw [Bool.not_eq_false] at hc
  unfold GDual.eq Poly.eq at hc
  simp only [Bool.and_eq_true, beq_iff_eq, List.all_eq_true] at hc
  obtain ⟨hlen, hall⟩ := hc
  have wp := ha.wf.addSymbols b.p.syms
  have wq := hb.wf.addSymbols a.p.syms
  have hss := syms_swap ha.wf hb.wf
  have key : ∀ t ∈ (a.p.addSymbols b.p.syms).terms, ∃ c, (t.1, c) ∈ (b.p.addSymbols a.p.syms).terms ∧ t.2.v ≠ .nan ∧ t.2.v = c.v := by
    intro t ht
    have := hall t ht
    cases hf : (b.p.addSymbols a.p.syms).find? t.1 with
    | none => simp [hf] at this
    | some c =>
      rw [hf] at this
      exact ⟨c, mem_of_find? hf, (XF.beq_iff _ _).mp this⟩
  rcases h with h | h
  · obtain ⟨t, ht, h1, -⟩ := (phas_addSymbols ha.wf b.p.syms).mpr h
    obtain ⟨c, -, h2, -⟩ := key t ht
    exact h2 h1
  · obtain ⟨u, hu, h1, -⟩ := (phas_addSymbols hb.wf a.p.syms).mpr h
    have hsub : (a.p.addSymbols b.p.syms).terms.map (·.1) ⊆ (b.p.addSymbols a.p.syms).terms.map (·.1) := by
      intro k hk
      obtain ⟨t, ht, rfl⟩ := List.mem_map.mp hk
      obtain ⟨c, hcm, -⟩ := key t ht
      exact List.mem_map_of_mem (f := (·.1)) hcm
    have hperm := (List.subperm_of_subset wp.nodup hsub).perm_of_length_le (by simp only [List.length_map]; exact hlen.ge)
    obtain ⟨t, ht, htu⟩ := List.mem_map.mp (hperm.symm.subset (List.mem_map_of_mem (f := (·.1)) hu))
    obtain ⟨c, hcm, h2, h3⟩ := key t ht
    have h4 := find?_eq_some_of_mem wq hcm
    have h5 := find?_eq_some_of_mem (e := u.1) (c := u.2) wq hu
    rw [htu, h5] at h4
    cases h4
    exact h2 (h3.trans h1)

/-- **C97** A gdual is equal to itself exactly when none of its coefficients is NaN. -/
theorem C97_eq_self (ha : a.Valid) : a.eq a = true ↔ ∀ E, ¬ HasAt IsNaN a E := by
  constructor
  · intro h E hE
    rw [(C97_eq_nan ha ha (Or.inl hE)).1] at h
    exact absurd h (by decide)
  · intro h
    unfold GDual.eq Poly.eq
    simp only [Bool.and_eq_true, beq_iff_eq, List.all_eq_true, true_and]
    intro t ht
    have := find?_eq_some_of_mem (e := t.1) (c := t.2) (ha.wf.addSymbols a.p.syms) ht
    rw [this]
    refine (XF.beq_iff _ _).mpr ⟨fun hn => ?_, rfl⟩
    exact h _ ((phas_addSymbols ha.wf a.p.syms).mp ⟨t, ht, hn, rfl⟩)

/-- **C97** `<` and `>` with a NaN constant coefficient are both false. -/
theorem C97_order_nan {x y : XF F} (hx : a.constantCf = .ok x) (hy : b.constantCf = .ok y) (h : IsNaN x ∨ IsNaN y) :
    a.lt b = .ok false ∧ a.gt b = .ok false := by
  have h1 : XF.lt x y = false := by
    unfold XF.lt
    rcases h with h | h <;> rw [h]
    cases x.v <;> rfl
  have h2 : XF.lt y x = false := by
    unfold XF.lt
    rcases h with h | h <;> rw [h]
    cases y.v <;> rfl
  constructor
  · unfold GDual.lt; rw [hx, hy]; exact congrArg Except.ok h1
  · unfold GDual.gt; rw [hx, hy]; exact congrArg Except.ok h2

/-- **C97** `is_zero(tol)` on gduals without NaN: all the coefficients are numbers not larger than `tol`. -/
theorem C97_isZero_partial (d : GDual (XF F)) (hd : ∀ t ∈ d.p.terms, ¬ IsNaN t.2) (tol : ℚ) :
    d.isZeroTol tol = true ↔ ∀ t ∈ d.p.terms, ∃ q, t.2.v = .fin q ∧ |q| ≤ tol := by
  unfold GDual.isZeroTol
  rw [List.all_eq_true]
  refine forall₂_congr fun t ht => ?_
  have hn := hd t ht
  change (!(match XF.abs t.2 with | .nan => false | .inf _ => true | .fin q => decide (tol < q))) = true ↔ _
  unfold XF.abs
  unfold IsNaN at hn
  cases h : t.2.v with
  | nan => exact absurd h hn
  | inf s => simp
  | fin q => simp

/-- **C97** (the claim for `is_zero` is false with NaN) A gdual whose only coefficient is NaN `is_zero`, for every tolerance; it is not equal to 0, and `trim` keeps the coefficient. -/
theorem C97_counterexample : ∃ d : GDual (XF .binary64), d.Valid ∧ HasAt IsNaN d 0 ∧ (∀ tol, d.isZeroTol tol = true) ∧ d.eq (GDual.ofRat 0) = false ∧
    ∀ eps : ℚ, 0 ≤ eps → d.trim eps = .ok d := by
  have hz : Cf.isZero (XF.nan .binary64) = false := absorbing_nan.nz _ rfl
  have hv : (GDual.ofCf (XF.nan .binary64)).Valid := ⟨wf_const _, by simp [GDual.ofCf, Poly.const, insertTerm, hz]⟩
  have hh : HasAt IsNaN (GDual.ofCf (XF.nan .binary64)) 0 := phas_const rfl hz
  refine ⟨GDual.ofCf (XF.nan _), hv, hh, fun tol => rfl, (C97_eq_nan hv ⟨wf_const _, ?_⟩ (Or.inl hh)).1, fun eps he => ?_⟩
  · have h0 : Cf.isZero (Cf.ofRat 0 : XF .binary64) = true := XF.isZero_zero
    simp [GDual.ofRat, GDual.ofCf, Poly.const, insertTerm, h0]
  · unfold GDual.trim
    rw [if_neg (not_lt.mpr he)]
    rfl

/-! ### Constant gduals are numbers -/

theorem XF.add_zero' (x : XF F) {z : XF F} (hz : z.v = .fin 0) : Cf.add x z = x := by
  apply XF.ext
  rw [XF.add_def, XF.add, hz]
  obtain ⟨v, hv⟩ := x
  cases v with
  | nan => rfl
  | inf s => rfl
  | fin q => change F.rnd (q + 0) = _; rw [add_zero]; exact hv q rfl

theorem XF.zero_add' (x : XF F) {z : XF F} (hz : z.v = .fin 0) : Cf.add z x = x := by
  apply XF.ext
  rw [XF.add_def, XF.add, hz]
  obtain ⟨v, hv⟩ := x
  cases v with
  | nan => rfl
  | inf s => rfl
  | fin q => change F.rnd (0 + q) = _; rw [zero_add]; exact hv q rfl

theorem const_add (x y : XF F) : (Poly.const x).add (Poly.const y) = Poly.const (Cf.add x y) := by
  unfold Poly.add Poly.const addSymbols
  by_cases hx : Cf.isZero x = true
  · have e := XF.zero_add' y ((XF.isZero_iff x).mp hx)
    rw [e]
    by_cases hy : Cf.isZero y = true
    · simp [insertTerm, hx, hy, insertTerms, mergeSyms]
    · simp [insertTerm, hx, hy, insertTerms, mergeSyms, reindex]
  · by_cases hy : Cf.isZero y = true
    · rw [XF.add_zero' x ((XF.isZero_iff y).mp hy)]
      simp [insertTerm, hx, hy, insertTerms, mergeSyms, reindex]
    · simp [insertTerm, hx, hy, insertTerms, mergeSyms, reindex]

theorem const_neg (x : XF F) : (Poly.const x).neg = Poly.const (Cf.neg x) := by
  unfold Poly.neg Poly.const
  by_cases hx : Cf.isZero x = true
  · simp [insertTerm, hx, NegZero.isZero_neg]
  · simp [insertTerm, hx, NegZero.isZero_neg]

/-- **C97** Sums, differences and opposites of constants are those of the numbers, with infinities, NaN, overflow and rounding. -/
theorem C97_const_add (x y : XF F) : (GDual.ofCf x).add (GDual.ofCf y) = GDual.ofCf (Cf.add x y) ∧ (GDual.ofCf x).sub (GDual.ofCf y) = GDual.ofCf (Cf.sub x y) ∧
    (GDual.ofCf x).neg = GDual.ofCf (Cf.neg x) := by
  refine ⟨?_, ?_, ?_⟩
  · simp [GDual.add, GDual.ofCf, const_add]
  · simp [GDual.sub, GDual.ofCf, Poly.sub, const_neg, const_add]
    rfl
  · simp [GDual.neg, GDual.ofCf, const_neg]

/-- A product of a zero and an infinity or NaN. -/
def ZeroTimesSpecial (x y : XF F) : Prop := (x.v = .fin 0 ∧ NonFinite y) ∨ (y.v = .fin 0 ∧ NonFinite x)

theorem const_mul {x y : XF F} (h : ¬ ZeroTimesSpecial x y) (n : ℕ) : truncMul (Poly.const x) (Poly.const y) n = Poly.const (Cf.mul x y) := by
  have fin_of : ∀ z : XF F, ¬ NonFinite z → ∃ q, z.v = .fin q := by
    intro z hz; unfold NonFinite at hz; push Not at hz; exact hz
  by_cases hx : Cf.isZero x = true
  · have h0 : Cf.isZero (Cf.mul x y) = true := by
      have hx' := (XF.isZero_iff x).mp hx
      obtain ⟨q, hq⟩ := fin_of y fun hy => h (Or.inl ⟨hx', hy⟩)
      rw [XF.isZero_iff, XF.mul_fin hx' hq, zero_mul, F.rnd_zero]
    simp [truncMul, mulBy, Poly.const, addSymbols, insertTerm, hx, h0, insertTerms, mergeSyms]
  · by_cases hy : Cf.isZero y = true
    · have h0 : Cf.isZero (Cf.mul x y) = true := by
        have hy' := (XF.isZero_iff y).mp hy
        obtain ⟨q, hq⟩ := fin_of x fun hx => h (Or.inr ⟨hy', hx⟩)
        rw [XF.isZero_iff, XF.mul_fin hq hy', mul_zero, F.rnd_zero]
      simp [truncMul, mulBy, Poly.const, addSymbols, insertTerm, hx, hy, h0, insertTerms, mergeSyms]
    · simp [truncMul, mulBy, Poly.const, addSymbols, insertTerm, hx, hy, insertTerms, mergeSyms, reindex, keyDegree]

/-- **C97** (partial: not 0 times inf or NaN, where the gdual is 0 and the number is NaN: `C97_zero_times`.) Products of constants are those of the numbers. -/
theorem C97_const_mul_partial {x y : XF F} (h : ¬ ZeroTimesSpecial x y) : (GDual.ofCf x).mul (GDual.ofCf y) = GDual.ofCf (Cf.mul x y) := by
  simp [GDual.mul, GDual.ofCf, const_mul h]

/-- **C97** The excluded case, always: the product of the constants is 0 and the product of the numbers is NaN. -/
theorem C97_zero_times {x y : XF F} (h : ZeroTimesSpecial x y) : (GDual.ofCf x).mul (GDual.ofCf y) = GDual.ofRat 0 ∧ IsNaN (Cf.mul x y) := by
  have h0 : Cf.isZero (Cf.ofRat 0 : XF F) = true := XF.isZero_zero
  rcases h with ⟨h1, h2⟩ | ⟨h1, h2⟩
  · have hz := (XF.isZero_iff _).mpr h1
    refine ⟨?_, ?_⟩
    · simp [GDual.mul, GDual.ofCf, GDual.ofRat, truncMul, mulBy, Poly.const, addSymbols, insertTerm, hz, h0, insertTerms, mergeSyms]
    · rw [XF.mul_def]; unfold IsNaN XF.mul; rw [h1]
      rcases (nonFinite_iff y).mp h2 with h | ⟨s, h⟩ <;> rw [h] <;> simp [XF.nan]
  · have hz := (XF.isZero_iff _).mpr h1
    have hx := absorbing_nonFinite.nz x h2
    refine ⟨?_, ?_⟩
    · simp [GDual.mul, GDual.ofCf, GDual.ofRat, truncMul, mulBy, Poly.const, addSymbols, insertTerm, hz, hx, h0, insertTerms, mergeSyms]
    · rw [XF.mul_def]; unfold IsNaN XF.mul; rw [h1]
      rcases (nonFinite_iff x).mp h2 with h | ⟨s, h⟩ <;> rw [h] <;> simp [XF.nan]

example : ¬ ZeroTimesSpecial (Cf.one : XF F) (XF.nan F) := by
  rintro (⟨h, -⟩ | ⟨h, -⟩)
  · rw [XF.one_v] at h; simp at h
  · simp [XF.nan] at h

theorem const_constantCf (x : XF F) : ∃ c, (GDual.ofCf x).constantCf = .ok c ∧ c.v = x.v := by
  obtain ⟨c, h1, h2⟩ := GDual.constantCf_ok (d := GDual.ofCf x)
  refine ⟨c, h1, ?_⟩
  by_cases hx : Cf.isZero x = true
  · have : (Poly.const x).find? [] = none := by simp [Poly.find?, Poly.const, insertTerm, hx]
    rw [← h2]
    change (((Poly.const x).find? []).getD Cf.zero).v = _
    rw [this, (XF.isZero_iff x).mp hx]
    exact XF.zero_v
  · have : (Poly.const x).find? [] = some x := by simp [Poly.find?, Poly.const, insertTerm, hx]
    rw [← h2]
    change (((Poly.const x).find? []).getD Cf.zero).v = _
    rw [this]
    rfl

/-- **C97** (partial: the divisor is a number whose reciprocal does not underflow, and the quotient is not 0/0; for `double` the latter holds: `binary64_inv`.) The quotient of constants is the first times the
rounded reciprocal of the second, which need not be the quotient of the numbers: `C97_div_counterexample`. -/
theorem C97_const_div_partial (x : XF F) {y : XF F} {q : ℚ} (hy : y.v = .fin q) (hi : (Cf.div Cf.one y).v ≠ .fin 0) (hf : ¬ NonFinite (Cf.div Cf.one y) ∨ x.v ≠ .fin 0) :
    (GDual.ofCf x).div (GDual.ofCf y) = .ok (GDual.ofCf (Cf.mul x (Cf.div Cf.one y))) := by
  obtain ⟨c, h1, h2⟩ := const_constantCf y
  have hc : c = y := XF.ext h2
  subst hc
  rw [div_eq XF.isUnit_true _ h1]
  have hsub : (GDual.ofCf c).subGS c = GDual.ofCf (Cf.add c (Cf.neg c)) := by
    simp [GDual.subGS, GDual.ofCf, Poly.sub, const_neg, const_add]
  have hz : Cf.isZero (Cf.add c (Cf.neg c)) = true := XF.cancel hy
  have hph : (divStart (GDual.ofCf c) c).phat = ⟨⟨[], []⟩, 0⟩ := by
    simp only [divStart, hsub]
    simp [GDual.mulGS, GDual.mul, GDual.ofCf, GDual.ofCfOrder, truncMul, mulBy, Poly.const, addSymbols, insertTerm, hz, insertTerms, mergeSyms]
  have hret : divRet (GDual.ofCf c) c = GDual.ofCf Cf.one := by
    have e : divRet (GDual.ofCf c) c = (GDual.ofRat 1).sub (divStart (GDual.ofCf c) c).phat := rfl
    have ho : Cf.isZero (Cf.ofRat 1 : XF F) = false := XF.isZero_one
    rw [e, hph]
    simp [GDual.sub, GDual.ofRat, GDual.ofCf, Poly.sub, Poly.neg, Poly.add, addSymbols, Poly.const, insertTerm, ho, insertTerms, mergeSyms, reindex, Cf.one]
  have hone : ¬ ZeroTimesSpecial x Cf.one := by
    rintro (⟨-, h⟩ | ⟨h, -⟩)
    · exact h 1 XF.one_v
    · rw [XF.one_v] at h; simp at h
  rw [hret, C97_const_mul_partial hone, XF.mul_one]
  have hx : ¬ ZeroTimesSpecial x (Cf.div Cf.one c) := by
    rintro (⟨h, h'⟩ | ⟨h, -⟩)
    · exact hf.elim (fun hf => hf h') (fun hf => hf h)
    · exact hi h
  exact congrArg Except.ok (C97_const_mul_partial hx)

theorem nearest_eq {x : ℚ} {e n : ℤ} (h1 : (2 : ℚ) ^ e ≤ |x|) (h2 : |x| < 2 ^ (e + 1)) (hn : |(n : ℚ) - x / 2 ^ (e - 52)| < 1 / 2) :
    nearest 53 x = n * 2 ^ (e - 52) := by
  have h0 : 0 < |x| := (two_zpow_pos e).trans_le h1
  have hl : Int.log 2 |x| = e := by
    have a1 := (Int.zpow_le_iff_le_log (b := 2) (by norm_num) h0 (x := e)).mp (by exact_mod_cast h1)
    have a2 := (Int.lt_zpow_iff_log_lt (b := 2) (by norm_num) h0 (x := e + 1)).mp (by exact_mod_cast h2)
    omega
  have hd : lastDigit 53 x = e - 52 := by rw [lastDigit, hl]; norm_num
  rw [nearest, hd]
  congr 2
  have h3 := nearestInt_err (x / 2 ^ (e - 52))
  have h4 : |(nearestInt (x / 2 ^ (e - 52)) : ℚ) - n| < 1 := by
    have := abs_sub_le (nearestInt (x / 2 ^ (e - 52)) : ℚ) (x / 2 ^ (e - 52)) n
    rw [abs_sub_comm (n : ℚ)] at hn
    linarith
  have h5 : |nearestInt (x / 2 ^ (e - 52)) - n| < 1 := by exact_mod_cast h4
  have := Int.abs_lt_one_iff.mp h5
  omega

theorem rnd64_eq {x r : ℚ} (h : nearest 53 x = r) (h1 : (2 : ℚ) ^ (-1022 : ℤ) ≤ |x|) (h2 : |r| < 2 ^ 1024) : rnd64 x = .fin r := by
  rw [rnd64, round64, if_neg (not_lt.mpr h1), h, if_pos h2]

/-- The number 49 of `double`. -/
def d49 : XF .binary64 := XF.round _ 49

theorem small_le {x : ℚ} {e : ℤ} (h : (2 : ℚ) ^ e ≤ |x|) (he : -1022 ≤ e) : (2 : ℚ) ^ (-1022 : ℤ) ≤ |x| := (zpow_le_zpow_right₀ (by norm_num) he).trans h

theorem lt_big {x : ℚ} (h : |x| < 2 ^ 100) : |x| < 2 ^ 1024 := h.trans (pow_lt_pow_right₀ (by norm_num) (by norm_num))

theorem d49_v : d49.v = .fin 49 := by
  have h : nearest 53 (49 : ℚ) = 49 := by
    have := nearest_of_digits (K := ℚ) (p := 53) (by norm_num) (n := 49) (by norm_num) 0
    simpa using this
  exact rnd64_eq h (small_le (e := 0) (by norm_num) (by norm_num)) (lt_big (by norm_num))

theorem inv49_v : (Cf.div Cf.one d49).v = .fin (5882252574524729 / 2 ^ 58) := by
  rw [XF.div_fin XF.one_v d49_v (by norm_num)]
  have h1 : (2 : ℚ) ^ (-6 : ℤ) ≤ |1 / 49| := by norm_num [abs_of_pos]
  have h : nearest 53 (1 / 49 : ℚ) = 5882252574524729 / 2 ^ 58 := by
    rw [nearest_eq (e := -6) (n := 5882252574524729) h1 (by norm_num [abs_of_pos]) (by norm_num [abs_lt])]
    norm_num
  exact rnd64_eq h (small_le h1 (by norm_num)) (lt_big (by norm_num [abs_of_pos]))

theorem mul49_v : (Cf.mul d49 (Cf.div Cf.one d49)).v = .fin (1 - 1 / 2 ^ 53) := by
  rw [XF.mul_fin d49_v inv49_v]
  have h1 : (2 : ℚ) ^ (-1 : ℤ) ≤ |49 * (5882252574524729 / 2 ^ 58)| := by norm_num [abs_of_pos]
  have h : nearest 53 (49 * (5882252574524729 / 2 ^ 58) : ℚ) = 1 - 1 / 2 ^ 53 := by
    rw [nearest_eq (e := -1) (n := 9007199254740991) h1 (by norm_num [abs_of_pos]) (by norm_num [abs_lt])]
    norm_num
  exact rnd64_eq h (small_le h1 (by norm_num)) (lt_big (by norm_num [abs_of_pos]))

/-- **C97** (constants do not divide as numbers) With `double`, `gdual(49)/gdual(49)` is the constant `1 - 2^-53`, not 1, although the quotient of the numbers is 1. -/
theorem C97_div_counterexample : ∃ x c : XF .binary64, x.v = .fin 49 ∧ (GDual.ofCf x).div (GDual.ofCf x) = .ok (GDual.ofCf c) ∧ c.v = .fin (1 - 1 / 2 ^ 53) ∧
    (Cf.div x x).v = .fin 1 ∧ c ≠ Cf.div x x := by
  have h1 : (Cf.div d49 d49).v = .fin 1 := by
    rw [XF.div_fin d49_v d49_v (by norm_num), div_self (by norm_num)]
    exact XFormat.binary64.rnd_one
  refine ⟨d49, _, d49_v, C97_const_div_partial d49 d49_v (binary64_inv d49_v) (Or.inr ?_), mul49_v, h1, ?_⟩
  · rw [d49_v]; simp
  · intro h
    have := congrArg XF.v h
    rw [mul49_v, h1] at this
    norm_num at this

end Audi
