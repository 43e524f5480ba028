import Verif.Props.C95_Special

/-!
# C96: infinities and NaN in quotients

`gdual / gdual` is computed as `d1 * (truncated series) * (1/p0)`, with `p0` the constant coefficient of the denominator (gdual.hpp:220-237).
-/

namespace Audi
open Poly

variable {F : XFormat} {N : XF F → Prop} {a b : GDual (XF F)} {E G : String →₀ ℕ}

theorem HasAt.degree_le {M : XF F → Prop} (ha : a.Valid) (hE : HasAt M a E) : E.degree ≤ a.order := by
  obtain ⟨t, ht, -, rfl⟩ := hE
  rw [degree_toExp (ha.wf.len t ht)]
  exact ha.deg t ht

/-- **C96** (partial: the reciprocal of the constant coefficient of the denominator must not be zero; see `C96_counterexample`.) Special coefficients of the numerator are special
coefficients of the quotient. -/
theorem C96_numerator_partial (hN : Absorbing N) (ha : a.Valid) (hb : b.Valid) {p0 : XF F} (h0 : b.constantCf = .ok p0) {q : ℚ} (hp : p0.v = .fin q)
    (hi : (Cf.div Cf.one p0).v ≠ .fin 0) (hE : HasAt N a E) : ∃ r, a.div b = .ok r ∧ HasAt N r E := by
  refine ⟨_, div_eq XF.isUnit_true a h0, ?_⟩
  obtain ⟨hw, ho, -⟩ := divRet_inv hb.wf p0 (Q := fun _ => True) trivial (fun _ _ _ => trivial)
  have h1 := divRet_one hb.wf h0 XF.isZero_zero XF.isZero_one (XF.cancel hp)
  have hd := hE.degree_le ha
  have h2 : PHas N (a.mul (divRet b p0)).p E := by
    have := PHas.mul_left (n := max a.order (divRet b p0).order) hN ha.wf hw hE (h1.mono fun _ _ => trivial) (by rw [add_zero]; exact hd.trans (le_max_left _ _))
    rwa [add_zero] at this
  exact phas_mulGS hN (wf_gmul ha.wf hw) ((XF.isZero_false _).mpr hi) h2 (hd.trans (le_max_left _ _))

/-- **C96** (partial, as above) Special coefficients of the denominator, other than the constant one, show up in the quotient at every monomial of the
numerator, within the order. -/
theorem C96_denominator_partial (hN : Absorbing N) (ha : a.Valid) (hb : b.Valid) {p0 : XF F} (h0 : b.constantCf = .ok p0) (hi : (Cf.div Cf.one p0).v ≠ .fin 0)
    (hE : HasAt N b E) (hE0 : E ≠ 0) (hG : a.Present G) (hd : (G + E).degree ≤ max a.order b.order) : ∃ r, a.div b = .ok r ∧ HasAt N r (G + E) := by
  refine ⟨_, div_eq XF.isUnit_true a h0, ?_⟩
  obtain ⟨hw, ho, -⟩ := divRet_inv hb.wf p0 (Q := fun _ => True) trivial (fun _ _ _ => trivial)
  have h1 : PHas N (divStart b p0).phat.p E :=
    phas_mulGS (d := b.subGS p0) hN (wf_subGS hb.wf p0) ((XF.isZero_false _).mpr hi) ((phas_subGS hb.wf p0 hE0).mpr hE)
      (show E.degree ≤ b.order from HasAt.degree_le hb hE)
  have h2 : PHas N (a.mul (divRet b p0)).p (G + E) :=
    PHas.mul_right (n := max a.order (divRet b p0).order) hN ha.wf hw hG (divRet_keep hN hb.wf p0 h1) (by rw [ho]; exact hd)
  exact phas_mulGS hN (wf_gmul ha.wf hw) ((XF.isZero_false _).mpr hi) h2 (by
    change _ ≤ max a.order (divRet b p0).order
    rw [ho]; exact hd)

/-- **C96** A denominator whose constant coefficient is NaN: all the monomials of the numerator have the coefficient NaN in the quotient. -/
theorem C96_nan (ha : a.Valid) (hb : b.Valid) {p0 : XF F} (h0 : b.constantCf = .ok p0) (hp : IsNaN p0) (hG : a.Present G) :
    ∃ r, a.div b = .ok r ∧ HasAt IsNaN r G := by
  refine ⟨_, div_eq XF.isUnit_true a h0, ?_⟩
  have hN := absorbing_nan (F := F)
  obtain ⟨hw, ho, -⟩ := divRet_inv hb.wf p0 (Q := fun _ => True) trivial (fun _ _ _ => trivial)
  have hinv : IsNaN (Cf.div Cf.one p0) := by
    rw [XF.div_def]; unfold IsNaN at *; unfold XF.div; rw [hp, XF.one_v]; rfl
  have hne : (Cf.zero : XF F) ≠ p0 := by
    rintro rfl
    rw [IsNaN, XF.zero_v] at hp
    exact absurd hp (by simp)
  have hb0 : PHas IsNaN b.p 0 := (phas_constantCf h0 hne).mono fun c hc => by rw [hc]; exact hp
  have h1 : PHas IsNaN (divStart b p0).phat.p 0 :=
    phas_mulGS hN (wf_subGS hb.wf p0) (hN.nz _ hinv) (hb0.add_left hN hb.wf _) (by simp)
  have hd := hG.degree_le ha
  have h2 : PHas IsNaN (a.mul (divRet b p0)).p (G + 0) :=
    PHas.mul_right (n := max a.order (divRet b p0).order) hN ha.wf hw hG (divRet_keep hN hb.wf p0 h1) (by rw [add_zero]; exact hd.trans (le_max_left _ _))
  rw [add_zero] at h2
  exact phas_mulGS hN (wf_gmul ha.wf hw) (hN.nz _ hinv) h2 (hd.trans (le_max_left _ _))

/-- **C96** A denominator whose constant coefficient is zero: all the monomials of the numerator have an inf or NaN coefficient in the quotient. This is the outcome which
the exact model calls `nonFinite`. -/
theorem C96_zero (ha : a.Valid) (hb : b.Valid) {p0 : XF F} (h0 : b.constantCf = .ok p0) (hp : p0.v = .fin 0) (hG : a.Present G) :
    ∃ r, a.div b = .ok r ∧ HasAt NonFinite r G := by
  refine ⟨_, div_eq XF.isUnit_true a h0, ?_⟩
  have hN := absorbing_nonFinite (F := F)
  obtain ⟨hw, ho, -⟩ := divRet_inv hb.wf p0 (Q := fun _ => True) trivial (fun _ _ _ => trivial)
  have hinv : NonFinite (Cf.div Cf.one p0) := (nonFinite_iff _).mpr (Or.inr ⟨_, XF.inv_zero hp⟩)
  have h1 := divRet_one hb.wf h0 XF.isZero_zero XF.isZero_one (XF.cancel hp)
  have hd := hG.degree_le ha
  have h2 : Occurs (a.mul (divRet b p0)).p G :=
    occurs_mul_one (n := max a.order (divRet b p0).order) hN (fun c hc => by rw [XF.mul_one]; exact hc) ha.wf hw h1 (fun A hA => divRet_all hN hb.wf hinv hA) hG
      (hd.trans (le_max_left _ _))
  exact phas_mulGS_scalar hN (wf_gmul ha.wf hw) hinv h2 (hd.trans (le_max_left _ _))

/-- **C96** Division by a number: by zero, all the coefficients become inf or NaN; by NaN, all become NaN. -/
theorem C96_scalar (ha : a.Valid) (s : XF F) (hG : a.Present G) :
    ∃ r, a.divGS s = .ok r ∧ (s.v = .fin 0 → HasAt NonFinite r G) ∧ (IsNaN s → HasAt IsNaN r G) := by
  refine ⟨a.mulGS (Cf.div Cf.one s), by simp [GDual.divGS, XF.isUnit_true], fun hs => ?_, fun hs => ?_⟩
  · exact phas_mulGS_scalar absorbing_nonFinite ha.wf ((nonFinite_iff _).mpr (Or.inr ⟨_, XF.inv_zero hs⟩)) hG (hG.degree_le ha)
  · refine phas_mulGS_scalar absorbing_nan ha.wf ?_ hG (hG.degree_le ha)
    rw [XF.div_def]; unfold IsNaN at *; unfold XF.div; rw [hs, XF.one_v]; rfl

/-- The reciprocal of a `double` which is a number is not zero. -/
theorem binary64_inv {x : XF .binary64} {q : ℚ} (hx : x.v = .fin q) : (Cf.div Cf.one x).v ≠ .fin 0 := by
  by_cases hq : q = 0
  · subst hq
    rw [XF.inv_zero hx]
    simp
  have h1 := x.repr q hx
  rw [XF.div_fin XF.one_v hx hq]
  have h2 : |q| < 2 ^ 1024 := by
    change rnd64 q = _ at h1
    unfold rnd64 at h1
    split_ifs at h1 with h3
    simp only [Xv.fin.injEq] at h1
    rwa [h1] at h3
  have hq0 : 0 < |q| := abs_pos.mpr hq
  have h4 : (2 : ℚ) ^ (-1024 : ℤ) < |1 / q| := by
    rw [abs_div, abs_one, lt_div_iff₀ hq0, zpow_neg, inv_mul_lt_iff₀ (two_zpow_pos _), mul_one]
    exact_mod_cast h2
  change rnd64 (1 / q) ≠ _
  suffices h : round64 (1 / q) ≠ 0 by
    unfold rnd64
    split_ifs
    · simpa using h
    · simp
  unfold round64
  split_ifs with h5
  · refine mul_ne_zero ?_ (two_zpow_pos _).ne'
    intro h6
    have h7 := nearestInt_err (1 / q * 2 ^ 1074)
    rw [h6, zero_sub, abs_neg, abs_mul, abs_of_pos (by positivity : (0 : ℚ) < 2 ^ 1074)] at h7
    have h8 : (2 : ℚ) ^ (-1024 : ℤ) * 2 ^ 1074 ≤ |1 / q| * 2 ^ 1074 := mul_le_mul_of_nonneg_right h4.le (by positivity)
    have h9 : (2 : ℚ) ^ (-1024 : ℤ) * 2 ^ 1074 = 2 ^ (50 : ℤ) := by
      rw [← zpow_natCast, ← zpow_add₀ (by norm_num)]
      norm_num
    rw [h9] at h8
    norm_num at h8 h7
    linarith
  · have := le_abs_nearest_of_le (not_lt.mp h5)
    intro h6
    rw [h6, abs_zero] at this
    exact absurd this (not_le.mpr (two_zpow_pos _))

/-- **C96** For `double`, if the constant coefficient of the denominator is a number: special coefficients of the numerator are special coefficients of the quotient. -/
theorem C96_double {N : XF .binary64 → Prop} {a b : GDual (XF .binary64)} (hN : Absorbing N) (ha : a.Valid) (hb : b.Valid) {p0 : XF .binary64} (h0 : b.constantCf = .ok p0) {q : ℚ}
    (hp : p0.v = .fin q) (hE : HasAt N a E) : ∃ r, a.div b = .ok r ∧ HasAt N r E :=
  C96_numerator_partial hN ha hb h0 hp (binary64_inv hp) hE

/-- Scaling by zero removes all the terms, whatever the coefficients. -/
theorem mulGS_zero (a : GDual (XF F)) {s : XF F} (hs : s.v = .fin 0) : (a.mulGS s).p.terms = [] := by
  have h : (Poly.const s).terms = [] := by simp [Poly.const, insertTerm, (XF.isZero_iff s).mpr hs]
  change (mulBy _ a.p (Poly.const s)).terms = []
  unfold mulBy
  simp only [addSymbols, h, List.map_nil, List.filter_nil]
  have : ((a.p.terms.map fun t => (reindex a.p.syms (mergeSyms a.p.syms (Poly.const s).syms) t.1, t.2)).flatMap fun _ => ([] : List (List ℕ × XF F))) = [] := by
    simp
  rw [this]
  rfl

theorem inv_inf (s : Bool) : (Cf.div Cf.one (XF.inf F s)).v = .fin 0 := by
  rw [XF.div_def]; unfold XF.div; rw [XF.one_v]; exact F.rnd_zero

/-- **C96** (the claim without the condition is false) Infinite denominators: the quotient has no terms, for every numerator, even one with NaN coefficients. For numbers, `NaN/inf` is NaN. -/
theorem C96_inf (a : GDual (XF F)) (s : Bool) : (∃ r, a.divGS (XF.inf F s) = .ok r ∧ r.p.terms = []) ∧
    ∀ b : GDual (XF F), b.constantCf = .ok (XF.inf F s) → ∃ r, a.div b = .ok r ∧ r.p.terms = [] :=
  ⟨⟨_, by simp only [GDual.divGS, XF.isUnit_true, if_true], mulGS_zero a (inv_inf s)⟩, fun _ hb => ⟨_, div_eq XF.isUnit_true a hb, mulGS_zero _ (inv_inf s)⟩⟩

/-- **C96** (the claim is false) A gdual with a NaN coefficient divided by `inf`, or multiplied by 0, is 0. -/
theorem C96_counterexample : ∃ a : GDual (XF .binary64), a.Valid ∧ HasAt IsNaN a 0 ∧ (∃ r, a.divGS (XF.inf _ false) = .ok r ∧ r.p.terms = []) ∧
    (a.mulGS Cf.zero).p.terms = [] ∧ IsNaN (Cf.div (XF.nan .binary64) (XF.inf _ false)) ∧ IsNaN (Cf.mul (XF.nan .binary64) Cf.zero) :=
  ⟨nanX, nanX_valid, nanX_has, (C96_inf nanX false).1, mulGS_zero _ XF.zero_v, rfl, rfl⟩

/-- The quotient of a gdual with NaN by `1 + dx`. -/
def oneX : GDual (XF .binary64) := ⟨⟨["dx"], [([1], Cf.one), ([0], Cf.one)]⟩, 2⟩

theorem oneX_valid : oneX.Valid where
  wf := ⟨by simp [oneX], by simp [oneX], by simp [oneX], by
    intro t ht
    simp only [oneX, List.mem_cons, List.not_mem_nil, or_false] at ht
    rcases ht with rfl | rfl <;> exact XF.isZero_one⟩
  deg := by intro t ht; simp only [oneX, List.mem_cons, List.not_mem_nil, or_false] at ht; rcases ht with rfl | rfl <;> simp [oneX]

example : ∃ r, nanX.div oneX = .ok r ∧ HasAt IsNaN r 0 := C96_double absorbing_nan nanX_valid oneX_valid (p0 := Cf.one) rfl XF.one_v nanX_has

example : ∃ r, oneX.div nanX = .ok r ∧ HasAt IsNaN r 0 :=
  C96_nan oneX_valid nanX_valid (p0 := XF.nan _) rfl rfl ⟨([0], Cf.one), by simp [oneX], trivial, by simp [oneX, toExp]⟩

/-- `dx`: the constant coefficient is zero. -/
def zeroX : GDual (XF .binary64) := ⟨⟨["dx"], [([1], Cf.one)]⟩, 2⟩

theorem zeroX_valid : zeroX.Valid where
  wf := ⟨by simp [zeroX], by simp [zeroX], by simp [zeroX], by
    intro t ht
    simp only [zeroX, List.mem_cons, List.not_mem_nil, or_false] at ht
    rcases ht with rfl
    exact XF.isZero_one⟩
  deg := by intro t ht; simp only [zeroX, List.mem_cons, List.not_mem_nil, or_false] at ht; rcases ht with rfl; simp [zeroX]

/-- `dx / dx` has a non finite coefficient of `dx`. -/
example : ∃ r, zeroX.div zeroX = .ok r ∧ HasAt NonFinite r (Finsupp.single "dx" 1) :=
  C96_zero zeroX_valid zeroX_valid (p0 := Cf.zero) rfl XF.zero_v ⟨([1], Cf.one), by simp [zeroX], trivial, by simp [zeroX, toExp]⟩

end Audi
