import Verif.Props.C52_TaylorDivision
import Verif.Props.C53_TaylorFunctions
import Verif.Proofs.TMPower

/-! # C54: powers and roots of Taylor models -/

namespace Audi

open TM MvPolynomial Spec

/-- The operation on `a` succeeds; the result is a well formed Taylor model of the same order, defined at least where `a` is; where `a` allows a
value `y`, the result allows `f y`. -/
def SoundOn {K : Type} [Field K] [LinearOrder K] (a : TM K) (o : Res (TM K)) (f : K → K) : Prop :=
  ∃ r, o = .ok r ∧ r.WF ∧ r.order = a.order ∧ (∀ x, a.InDom x → r.InDom x) ∧ ∀ x, a.InDom x → ∀ y, a.Allows x y → r.Allows x (f y)

/-- Multiplying the polynomial `Q` by `P` is not affected by the treatment of small terms: some term above order `m` is larger than 1e-16, or there
is none. -/
def Clear {K : Type} [Field K] [LinearOrder K] (m : ℕ) (Q P : MvPolynomial String K) : Prop :=
  Q ≠ 0 ∧ ((∃ e : String →₀ ℕ, m < e.degree ∧ ((1 / 10 ^ 16 : ℚ) : K) < |coeff e (Q * P)|) ∨ ∀ e : String →₀ ℕ, m < e.degree → coeff e (Q * P) = 0)

section
variable {K : Type} [Field K] [LinearOrder K] [IsStrictOrderedRing K] {a : TM K} {ord : List String → List String}

/-- **C54, positive integer powers.** `pow(tm, n)` encloses the `n`-th power of every function that `tm` encloses, for every remainder, for
orders 1 to 31, when `get_bounds` sees the map in the order of insertion and the products are not affected by the treatment of small terms.
Missing: order 0 and small terms (`C50_…counterexample`). -/
theorem C54_pow_partial (ha : a.WF) (ho1 : 1 ≤ a.order) (ho2 : 2 * a.order ≤ 62) (hord : Faithful ord (a.tpol.p.syms.map varName))
    (hpa : (a.tpol.toMv () : MvPolynomial String K) ≠ 0) {n : ℕ} (hn : 1 ≤ n)
    (ht : ∀ i, 1 ≤ i → i < n → ∀ Q : MvPolynomial String K, DegLE a.order Q → EqUpTo a.order Q (a.tpol.toMv () ^ i) → Clear a.order Q (a.tpol.toMv ())) :
    SoundOn a (powInt ord a n) fun y => y ^ n := by
  rcases Nat.lt_or_ge 1 n with h | h
  · obtain ⟨r, h1, h2⟩ := powInt_isPower ha ho1 ho2 hord hpa h ht
    exact ⟨r, h1, h2.wf, h2.order, fun x hx => h2.inDom hx, h2.allows⟩
  · obtain rfl : n = 1 := by omega
    exact ⟨a, rfl, ha, rfl, fun _ h => h, fun x _ y hy => by simpa using hy⟩

/-- **C54, negative integer powers.** `pow(tm, -n)` encloses `1 / f ^ n`, when the remainder is {0}, the polynomial has degree at most 1 and does not
vanish on the domain, and (for n ≥ 2) the products of the truncated powers of the reciprocal are not affected by the treatment of small terms.
Missing: other remainders and degrees (`C52_remainder_counterexample`, `C52_degree_counterexample`). -/
theorem C54_pow_negative_partial (ha : a.WF) (ho1 : 1 ≤ a.order) (ho2 : 2 * a.order ≤ 62) (hord : Faithful ord (a.tpol.p.syms.map varName))
    (hrem : a.rem = ⟨0, 0⟩) (hlin : DegLE 1 (a.tpol.toMv () : MvPolynomial String K)) (hnz : ∀ x, a.InDom x → a.polyAt x ≠ 0) {n : ℕ} (hn : 1 ≤ n)
    (ht : ∀ I : MvPolynomial String K, DegLE a.order I → EqUpTo a.order (I * a.tpol.toMv ()) 1 →
      ∀ i, 1 ≤ i → i < n → ∀ Q : MvPolynomial String K, DegLE a.order Q → EqUpTo a.order Q (I ^ i) → Clear a.order Q I) :
    SoundOn a (powInt ord a (-n)) fun y => (y ^ n)⁻¹ := by
  obtain ⟨r, h1, h2, h3, h4, h5, h6, h7, h8, h9⟩ := divST_parts ha (by omega) (hord _ (nodup_varNames ha.valid.wf.ndsyms ha.names) fun _ h => h)
    hrem hlin hnz (zero_le_one (α := K)) le_rfl
  have hI : EqUpTo a.order (r.tpol.toMv () * a.tpol.toMv () : MvPolynomial String K) 1 := by rw [ha.order]; exact h9
  have hr0 : (r.tpol.toMv () : MvPolynomial String K) ≠ 0 := by
    intro h0
    rw [h0, zero_mul] at hI
    have := hI 0 (by simp)
    simp at this
  have hdeg : DegLE a.order (r.tpol.toMv () : MvPolynomial String K) := by
    rw [← h3, h2.order]
    exact h2.valid.degLE (ι := Unit) (K := K) ()
  obtain ⟨q, q1, q2⟩ := powInt_neg_isPower h1 h2 hn fun _ => ⟨by omega, by omega, by rw [h8]; exact hord, hr0, by rw [h3]; exact ht _ hdeg hI⟩
  refine ⟨q, q1, q2.wf, q2.order.trans h3, fun x hx => q2.inDom ((h4 x).2 hx), fun x hx y hy => ?_⟩
  have := q2.allows x ((h4 x).2 hx) _ (h5 x hx y _ hy rfl)
  rwa [one_div, inv_pow] at this

omit [IsStrictOrderedRing K] in
/-- **C54, power 0.** `pow(tm, 0)` is the constant 1 with the remainder of `tm`: the value 1 is allowed exactly if that remainder contains 0. -/
theorem C54_pow_zero (ord : List String → List String) (a : TM K) :
    ∃ r, powInt ord a 0 = .ok r ∧ r.dom = a.dom ∧ ∀ x, r.Allows x 1 ↔ InItv a.rem 0 := by
  refine ⟨_, rfl, rfl, fun x => ?_⟩
  have h : ((GDual.ofCf (1 : K)).toMv () : MvPolynomial String K) = C 1 := GDual.toMv_ofCf (1 : K) ()
  unfold Allows polyAt identityWith
  rw [h, eval_C, sub_self]

end

/-- **C54.** `pow(tm, 0)` need not allow the value 1: the constant 2 with remainder [1, 2]. -/
theorem C54_pow_zero_counterexample : ∃ (a r : TM ℚ) (x : String → ℚ), a.WF ∧ powInt id a 0 = .ok r ∧ a.InDom x ∧ ¬ r.Allows x 1 := by
  obtain ⟨r, h1, -, h3⟩ := C54_pow_zero id { Ex.tc with rem := ⟨1, 2⟩ }
  refine ⟨{ Ex.tc with rem := ⟨1, 2⟩ }, r, fun _ => 0, wf_of_check (by decide +kernel), h1, by decide +kernel, fun h => ?_⟩
  have := (h3 _).1 h
  revert this
  decide +kernel

/-- All hypotheses of `C54_pow_partial` hold for the square of `1 + x` with order 1 and any remainder. -/
example (rem : Itv ℚ) (hr : rem.lo ≤ rem.hi) : SoundOn { Ex.tl with rem := rem } (powInt id { Ex.tl with rem := rem } (2 : ℕ)) fun y => y ^ 2 := by
  have hw : ({ Ex.tl with rem := rem } : TM ℚ).WF := { Ex.tl_wf with rem := hr }
  have hmv : (Ex.tl.tpol.toMv () : MvPolynomial String ℚ) = 1 + X "dx" := by
    refine MvPolynomial.funext fun δ => ?_
    rw [eval_toMv Ex.tl_wf.valid, map_add, map_one, eval_X]
    simp [Ex.tl]
  have h0 : (Ex.tl.tpol.toMv () : MvPolynomial String ℚ) ≠ 0 := fun h => by
    have := congrArg (coeff 0) (hmv.symm.trans h)
    simp at this
  refine C54_pow_partial hw (show 1 ≤ 1 from le_rfl) (show 2 * 1 ≤ 62 by decide) (fun _ _ _ => rfl) h0 (by norm_num) fun i h1 h2 Q hQ hQ' => ?_
  obtain rfl : i = 1 := by omega
  rw [pow_one] at hQ'
  have e : Q = Ex.tl.tpol.toMv () := hQ'.eq_of_degLE hQ Ex.tl_lin
  subst e
  refine ⟨h0, .inl ⟨Finsupp.single "dx" 2, by rw [Finsupp.degree_single]; exact one_lt_two, ?_⟩⟩
  change _ < |coeff (Finsupp.single "dx" 2) ((Ex.tl.tpol.toMv () : MvPolynomial String ℚ) * Ex.tl.tpol.toMv ())|
  have e2 : (1 + X "dx" : MvPolynomial String ℚ) * (1 + X "dx") = 1 + (X "dx" + X "dx") + X "dx" ^ 2 := by ring
  have e3 : (0 : String →₀ ℕ) ≠ Finsupp.single "dx" 2 := fun h => by simpa using (Finsupp.single_eq_zero.1 h.symm)
  rw [hmv, e2]
  simp [coeff_one, coeff_X, coeff_X_pow, Finsupp.single_eq_single_iff, e3]
  norm_num

/-- All hypotheses of `C54_pow_negative_partial` hold for `1 / (1 + x)`. -/
example : SoundOn Ex.tl (powInt id Ex.tl (-(1 : ℕ))) fun y => (y ^ 1)⁻¹ :=
  C54_pow_negative_partial Ex.tl_wf (by decide) (by decide) (fun _ _ _ => rfl) rfl Ex.tl_lin (fun _ hx => (Ex.tl_pos hx).ne') le_rfl
    fun _ _ _ i h1 h2 => by omega

/-! ### Roots -/

section
variable {a : TM ℝ} {ord : List String → List String} (ha : a.WF) (h62 : a.order ≤ 62) (ho : Faithful ord (a.tpol.p.syms.map varName))
include ha h62 ho

/-- **C54, square root.** `sqrt(tm)` encloses the square root of every function that `tm` encloses, when all allowed values are positive, the
polynomial is positive at the expansion point, the order is at most 17, and the order is 0 or the polynomial has degree at most 1 and the
remainder is {0}. Missing: `C54_sqrt_remainder_counterexample`, `C54_sqrt_order_counterexample`. -/
theorem C54_sqrt_partial (h : SimpleArg a) (h17 : a.order ≤ 17) (hc : 0 < a.polyAt a.expPoint)
    (hpos : ∀ x, a.InDom x → ∀ y, a.Allows x y → 0 < y) : Sound₁ a (TM.sqrt ord a) fun y z => z = √y :=
  powHalf_sound ha h62 (ho _ ha.nodup fun _ h => h) (h.lin ha) h17 h.simple hc hpos

/-- **C54, inverse square root.** The same for `pow(tm, -1/2)`, with remainder {0} and order at most 16. The remainder that the code computes is
larger than the documented one by the factor `4^(k+1)`. Missing: `C54_inverse_sqrt_remainder_counterexample`. -/
theorem C54_inverse_sqrt_partial (hlin : DegLE 1 (a.tpol.toMv () : MvPolynomial String ℝ)) (hrem : a.rem = ⟨0, 0⟩) (h16 : a.order ≤ 16)
    (hc : 0 < a.polyAt a.expPoint) (hpos : ∀ x, a.InDom x → ∀ y, a.Allows x y → 0 < y) (eps : ℚ) :
    Sound₁ a (powT ord eps a (-(1 / 2))) fun y z => z = 1 / √y := by
  obtain ⟨c, B, b, h1, -⟩ := prologue_ok ha h62 (ho _ ha.nodup fun _ h => h)
  unfold powT
  rw [bind_ok h1, if_neg (by norm_num), if_pos rfl]
  exact powMinusHalf_sound ha h62 (ho _ ha.nodup fun _ h => h) hlin h16 hrem hc hpos

/-- **C54, domain of the roots.** When `tm` allows a negative value somewhere on its domain, both roots throw `std::runtime_error`. -/
theorem C54_root_domain {x : String → ℝ} {y : ℝ} (hx : a.InDom x) (hy : a.Allows x y) (hneg : y < 0) (eps : ℚ) :
    TM.sqrt ord a = .error .runtimeError ∧ powT ord eps a (1 / 2) = .error .runtimeError ∧ powT ord eps a (-(1 / 2)) = .error .runtimeError := by
  obtain ⟨c, B, b, h1, -, -, h4, -, -, h7, -⟩ := prologue_ok ha h62 (ho _ ha.nodup fun _ h => h)
  have h := requireAbove_error h4 ((h7 x hx y hy).2.1.trans_lt hneg)
  have e1 : powHalf ord a = .error .runtimeError := by
    unfold powHalf
    rw [bind_ok h1]
    simp only
    rw [bind_error h]
  refine ⟨e1, ?_, ?_⟩
  · unfold powT
    rw [bind_ok h1, if_pos rfl, e1]
  · unfold powT powMinusHalf
    rw [bind_ok h1, if_neg (by norm_num), if_pos rfl, bind_ok h1]
    simp only
    rw [bind_error h]

/-- **C54.** Where `C54_sqrt_partial` applies except for the bound on the order, the double factorial overflows a `long long`: for every Taylor model
of order 18 to 62 the square root has undefined behaviour. -/
theorem C54_sqrt_order_counterexample (hlin : DegLE 1 (a.tpol.toMv () : MvPolynomial String ℝ)) (h18 : 18 ≤ a.order) (hc : 0 < a.polyAt a.expPoint)
    (hpos : ∀ x, a.InDom x → ∀ y, a.Allows x y → 0 < y) : TM.sqrt ord a = .error .undefinedBehaviour := by
  obtain ⟨c, B, q, h1, -, -, h3, -, h5, q1, q2, q3⟩ := prologue_pos ha h62 (ho _ ha.nodup fun _ h => h) hlin hc hpos
  set k := a.order with hk
  have hv0 := q3 _ 0 (h5 a.expPoint (expPoint_inDom ha) (a.polyAt a.expPoint + a.rem.lo) (by
    unfold Allows; rw [add_sub_cancel_left]; exact ⟨le_rfl, ha.rem⟩)) le_rfl zero_le_one
  have hhi : ¬ ((((Itv.point 1).add (q.mul ⟨0, 1⟩)).pow (2 * k + 1))).hi < 0 := not_lt.2 (by
    have := Itv.mem_pow hv0 (2 * k + 1)
    exact (pow_lo_pos q2 (2 * k + 1)).le.trans (this.1.trans this.2))
  unfold TM.sqrt powHalf
  rw [bind_ok h1]
  simp only
  rw [bind_ok h3, bind_ok q1, bind_ok (show Itv.rsqrt _ = .ok _ from if_neg hhi), bind_error (fact2_overflow h18 (by omega))]

/-- **C54, exponents.** An exponent that is not within `10 eps` of a multiple of 1/2 is rejected; for integral exponent types, whose `epsilon()` is 0, every
exponent is. -/
theorem C54_exponent_rejected {eps n : ℚ} (h1 : n ≠ 1 / 2) (h2 : n ≠ -(1 / 2)) (h3 : eps * 10 ≤ |n - roundQ n|) (h4 : eps * 10 ≤ |n * 2 - roundQ (n * 2)|) :
    powT ord eps a n = .error .runtimeError := by
  obtain ⟨c, B, b, e1, -⟩ := prologue_ok ha h62 (ho _ ha.nodup fun _ h => h)
  unfold powT
  rw [bind_ok e1, if_neg h1, if_neg h2, if_neg (not_lt.2 h3), if_neg (not_lt.2 h4)]

theorem C54_integral_exponent (n : ℤ) : powT ord 0 a n = .error .runtimeError := by
  have h0 : ∀ m : ℤ, (m : ℚ) ≠ 1 / 2 ∧ (m : ℚ) ≠ -(1 / 2) := fun m => by
    constructor <;> intro h
    · have : ((2 * m : ℤ) : ℚ) = (1 : ℤ) := by push_cast; linarith
      have := Int.cast_injective this
      omega
    · have : ((2 * m : ℤ) : ℚ) = (-1 : ℤ) := by push_cast; linarith
      have := Int.cast_injective this
      omega
  exact C54_exponent_rejected ha h62 ho (h0 n).1 (h0 n).2 (by rw [zero_mul]; exact abs_nonneg _) (by rw [zero_mul]; exact abs_nonneg _)

end

/-- **C54.** The exponent of type `double` is cut to an integer, not rounded: the power `2 - 2^-52` of a Taylor model is the Taylor model itself. The
constant 3 with remainder {0} is returned, although `3 ^ n > 3`. -/
theorem C54_exponent_counterexample :
    Unsound₁ (Ex.constR 3 1 ⟨0, 0⟩) (powT id (1 / 2 ^ 52) (Ex.constR 3 1 ⟨0, 0⟩) (2 - 1 / 2 ^ 52)) fun y => y ^ (2 - 1 / 2 ^ 52 : ℝ) := by
  have hw := Ex.constR_wf three_ne_zero 1 (rem := ⟨0, 0⟩) le_rfl
  have hr : roundQ (2 - 1 / 2 ^ 52) = 2 := by decide +kernel
  have ht : truncQ (2 - 1 / 2 ^ 52) = .ok 1 := by decide +kernel
  refine ⟨Ex.constR 3 1 ⟨0, 0⟩, fun _ => 0, 3, hw, ?_, hw, Ex.constR_inDom _ _ _, ?_, ?_⟩
  · unfold powT
    rw [bind_ok (Ex.constR_prologue three_ne_zero (by norm_num) le_rfl), if_neg (by norm_num), if_neg (by norm_num), if_pos (by
      rw [hr]; norm_num), bind_ok ht]
    rfl
  · unfold Allows
    rw [Ex.constR_polyAt three_ne_zero, sub_self]
    exact ⟨le_rfl, le_rfl⟩
  · unfold Allows
    rw [Ex.constR_polyAt three_ne_zero]
    rintro ⟨-, h⟩
    have h1 : (3 : ℝ) ^ (1 : ℝ) < 3 ^ (2 - 1 / 2 ^ 52 : ℝ) := Real.rpow_lt_rpow_of_exponent_lt (by norm_num) (by norm_num)
    rw [Real.rpow_one] at h1
    exact absurd h (not_le.2 (sub_pos.2 h1))

/-! ### Examples -/

example : Sound₁ Ex.fx (TM.sqrt id Ex.fx) fun y z => z = √y :=
  C54_sqrt_partial Ex.fx_wf (by simp [Ex.fx, Ex.lineR]) (fun _ _ _ => rfl) Ex.fx_simple (by simp [Ex.fx, Ex.lineR]) (by rw [Ex.fx_center]; norm_num)
    fun _ hx _ hy => Ex.fx_pos hx hy
example (eps : ℚ) : Sound₁ Ex.fx (powT id eps Ex.fx (-(1 / 2))) fun y z => z = 1 / √y :=
  C54_inverse_sqrt_partial Ex.fx_wf (by simp [Ex.fx, Ex.lineR]) (fun _ _ _ => rfl) (Ex.lineR_lin two_ne_zero (by norm_num) _ _) rfl
    (by simp [Ex.fx, Ex.lineR]) (by rw [Ex.fx_center]; norm_num) (fun _ hx _ hy => Ex.fx_pos hx hy) eps
example : TM.sqrt id (Ex.lineR 1 1 ⟨0, 0⟩ ⟨-2, 2⟩) = .error .runtimeError := by
  refine (C54_root_domain (Ex.lineR_wf one_ne_zero le_rfl le_rfl (by norm_num [InItv])) (by simp [Ex.lineR]) (fun _ _ _ => rfl)
    (x := fun _ => -2) (y := -1) (Ex.lineR_inDom.2 (by norm_num [InItv])) ?_ (by norm_num) 0).1
  unfold Allows
  rw [Ex.lineR_polyAt one_ne_zero le_rfl]
  norm_num [InItv, Ex.lineR]
example : TM.sqrt id (Ex.constR 4 20 ⟨0, 0⟩) = .error .undefinedBehaviour :=
  C54_sqrt_order_counterexample (Ex.constR_wf four_ne_zero 20 le_rfl) (by simp [Ex.constR]) (fun _ _ _ => rfl) (Ex.constR_lin four_ne_zero _ _)
    (by simp [Ex.constR]) (by rw [Ex.constR_polyAt four_ne_zero]; norm_num) fun x _ y hy => by
      unfold Allows at hy
      rw [Ex.constR_polyAt four_ne_zero] at hy
      have h : (0 : ℝ) ≤ y - 4 := hy.1
      linarith
example : powT id (1 / 2 ^ 52) Ex.fx (1 / 3) = .error .runtimeError :=
  C54_exponent_rejected Ex.fx_wf (by simp [Ex.fx, Ex.lineR]) (fun _ _ _ => rfl) (by norm_num) (by norm_num) (by decide +kernel) (by decide +kernel)
example : powT id 0 Ex.fx 2 = .error .runtimeError := by
  exact_mod_cast C54_integral_exponent Ex.fx_wf (by simp [Ex.fx, Ex.lineR]) (ord := id) (fun _ _ _ => rfl) 2

/-! ### Remainders of the argument -/

theorem Ex.mul_nonpos' {I J : Itv ℝ} (hI : I.hi ≤ 0) (hI' : I.lo ≤ I.hi) (hJ : 0 ≤ J.lo) (hJ' : J.lo ≤ J.hi) : (I.mul J).hi ≤ 0 := by
  have h1 : I.lo ≤ 0 := hI'.trans hI
  have h2 : 0 ≤ J.hi := hJ.trans hJ'
  exact max_le (max_le (mul_nonpos_of_nonpos_of_nonneg h1 hJ) (mul_nonpos_of_nonpos_of_nonneg h1 h2))
    (max_le (mul_nonpos_of_nonpos_of_nonneg hI hJ) (mul_nonpos_of_nonpos_of_nonneg hI h2))

theorem Ex.const4_unsound {α : ℚ} (hα : α.den ≠ 1) (hα' : -2147483649 < α ∧ α < 2147483648) {J : Itv ℝ} (hJ : J.lo ≤ J.hi)
    {g : ℝ → ℝ} (hn : ¬ InItv J (g 5 - (4 : ℝ) ^ (α : ℝ))) :
    Unsound₁ (constR 4 1 ⟨-1, 1⟩) (do
      let p ← (constR 4 1 ⟨-1, 1⟩).tpol.powQ α
      let ne ← trimMap p.symbolSet (constR 4 1 ⟨-1, 1⟩).exp
      let nd ← trimMap p.symbolSet (constR 4 1 ⟨-1, 1⟩).dom
      make p J ne nd) g := by
  have ha := constR_wf four_ne_zero 1 (rem := ⟨-1, 1⟩) (by norm_num)
  have h2 : coeff 0 ((constR 4 1 ⟨-1, 1⟩).tpol.toMv () : MvPolynomial String ℝ) = 4 := by rw [constR_toMv four_ne_zero, coeff_zero_C]
  obtain ⟨p, p1, p2⟩ := GDual.powQ_series_lift (C := ℝ) (ι := Unit) ha.valid hα' (fun h => hα h.1) fun i => Or.inl (by rw [h2]; norm_num)
  have hs : p.p.syms = ["dx"] := GDual.HasSyms.powQ (S := ["dx"]) (by simp) (d := (constR 4 1 ⟨-1, 1⟩).tpol) rfl p1
  obtain ⟨ne, nd, t1, t2, t3, t4⟩ := retrim ha p2.valid hs
  obtain ⟨r, r1, r2, r3, r4, r5, r6, r7⟩ := t4 J hJ
  refine ⟨r, fun _ => 0, 5, ha, ?_, r2, constR_inDom _ _ _, ?_, ?_⟩
  · rw [bind_ok p1, bind_ok t1, bind_ok t2, r1]
  · unfold Allows
    rw [constR_polyAt four_ne_zero]
    norm_num [InItv, constR]
  · have p2' : IsLift (fun _ : Unit => (fun j (t : ℝ) => fall (α : ℝ) j * t ^ ((α : ℝ) - j)) 0) (constR 4 1 ⟨-1, 1⟩).tpol p := by
      simpa [fall] using p2
    have hT := (derivs_rpow (α : ℝ)).isTaylor₁ isOpen_Ioi (show (4 : ℝ) ∈ Set.Ioi 0 by norm_num) 1
    unfold Allows polyAt
    rw [r4, r5, constR_lift four_ne_zero p2' hT]
    simpa [fall] using hn

theorem Ex.const4_prologue : ∃ q : Itv ℝ, prologue id (constR 4 1 ⟨-1, 1⟩) = .ok (4, ⟨-1, 1⟩, 1) ∧ requireAbove id (constR 4 1 ⟨-1, 1⟩) 0 = .ok () ∧
    sdiv ⟨-1, 1⟩ 4 = .ok q ∧ 0 < ((Itv.point 1).add (q.mul ⟨0, 1⟩)).lo ∧ ((Itv.point 1).add (q.mul ⟨0, 1⟩)).lo ≤ ((Itv.point 1).add (q.mul ⟨0, 1⟩)).hi := by
  have ha := constR_wf four_ne_zero 1 (rem := ⟨-1, 1⟩) (by norm_num)
  obtain ⟨c, B, q, h1, h2, hc0, h3, h4, h5, q1, q2, q3⟩ := prologue_pos ha (ord := id) (by simp [constR]) rfl (constR_lin four_ne_zero _ _)
    (by rw [constR_polyAt four_ne_zero]; norm_num) (fun x _ y hy => by
      unfold Allows at hy
      rw [constR_polyAt four_ne_zero] at hy
      have h : (-1 : ℝ) ≤ y - 4 := hy.1
      linarith)
  have e := constR_prologue four_ne_zero (n := 1) (by norm_num) (rem := ⟨-1, 1⟩) (by norm_num)
  have e' := h1
  rw [e] at e'
  simp only [Except.ok.injEq, Prod.mk.injEq] at e'
  obtain ⟨rfl, rfl, -⟩ := e'
  refine ⟨q, e, h3, q1, q2, ?_⟩
  have := q3 0 0 (by norm_num [InItv]) le_rfl zero_le_one
  exact this.1.trans this.2

/-- **C54.** The constant 4 with remainder [-1, 1] and order 1 allows the value 5; its square root does not allow `√5`. -/
theorem C54_sqrt_remainder_counterexample : Unsound₁ (Ex.constR 4 1 ⟨-1, 1⟩) (TM.sqrt id (Ex.constR 4 1 ⟨-1, 1⟩)) Real.sqrt := by
  obtain ⟨q, h1, h3, q1, q2, q3⟩ := Ex.const4_prologue
  set V := (Itv.point 1).add (q.mul ⟨0, 1⟩) with hV
  have hVp := pow_lo_pos q2 3
  have hVq : (V.pow 3).lo ≤ (V.pow 3).hi := by
    have := Itv.mem_pow (show InItv V V.lo from ⟨le_rfl, q3⟩) 3
    exact this.1.trans this.2
  have e1 : (V.pow 3).rsqrt = .ok ⟨√(V.pow 3).lo, √(V.pow 3).hi⟩ := if_neg (not_lt.2 (hVp.le.trans hVq))
  have hz : (⟨√(V.pow 3).lo, √(V.pow 3).hi⟩ : Itv ℝ).zeroIn = false := Itv.zeroIn_false_iff.2 (.inl (Real.sqrt_pos.2 hVp))
  have h4 : √(4 : ℝ) = 2 := by rw [show (4 : ℝ) = 2 ^ 2 by norm_num]; exact Real.sqrt_sq (by norm_num)
  obtain ⟨num, n1, n2, n3⟩ := sdiv_ok (smul ((-1) ^ 1 * √4 * (fact2Loop 1 : ℕ) / ((2 : ℕ).factorial * 2 ^ 2)) ((⟨-1, 1⟩ : Itv ℝ).pow 2))
    (show (4 : ℝ) ^ 2 ≠ 0 by norm_num)
  unfold TM.sqrt powHalf
  rw [bind_ok h1]
  simp only
  rw [bind_ok h3, bind_ok q1, bind_ok e1, bind_ok (fact2_sqrt (k := 1) (by norm_num)), bind_ok (factorial_ok (by norm_num : 1 + 1 ≤ 170)), bind_ok n1]
  unfold Itv.div
  rw [Itv.inv_ok hz, bind_ok rfl]
  refine Ex.const4_unsound (by decide +kernel) (by norm_num) (Itv.lo_le_hi_mul _ _) ?_
  have hnum : num.hi ≤ 0 ∧ num.lo ≤ num.hi := by
    have hI : (smul ((-1) ^ 1 * √4 * (fact2Loop 1 : ℕ) / ((2 : ℕ).factorial * 2 ^ 2)) ((⟨-1, 1⟩ : Itv ℝ).pow 2)).hi ≤ 0 := by
      rw [Ex.pow_two_unit]
      have hk : (-1) ^ 1 * √(4 : ℝ) * (fact2Loop 1 : ℕ) / ((2 : ℕ).factorial * 2 ^ 2) ≤ 0 := by
        rw [h4, show fact2Loop 1 = 1 by decide]
        norm_num
      exact Ex.mul_nonpos' hk le_rfl le_rfl zero_le_one
    have hl := n2 _ ⟨le_rfl, Itv.lo_le_hi_mul _ _⟩
    refine ⟨?_, hl.1.trans hl.2⟩
    rcases n3 _ (.inr rfl) with h | h <;> rw [h]
    · exact div_nonpos_of_nonpos_of_nonneg ((Itv.lo_le_hi_mul _ _).trans hI) (by norm_num)
    · exact div_nonpos_of_nonpos_of_nonneg hI (by norm_num)
  rintro ⟨-, h⟩
  have h0 := h.trans (Ex.mul_nonpos' (Ex.mul_nonpos' hnum.1 hnum.2 zero_le_one le_rfl) (Itv.lo_le_hi_mul _ _) (inv_nonneg.2 (Real.sqrt_nonneg _))
    (inv_anti₀ (Real.sqrt_pos.2 hVp) (Real.sqrt_le_sqrt hVq)))
  have h5 : √(4 : ℝ) < √5 := Real.sqrt_lt_sqrt (by norm_num) (by norm_num)
  rw [Real.sqrt_eq_rpow 4] at h5
  norm_num at h0 h5
  linarith

/-- **C54.** The same for the inverse square root, which does not allow `1 / √5`. -/
theorem C54_inverse_sqrt_remainder_counterexample (eps : ℚ) :
    Unsound₁ (Ex.constR 4 1 ⟨-1, 1⟩) (powT id eps (Ex.constR 4 1 ⟨-1, 1⟩) (-(1 / 2))) fun y => 1 / √y := by
  obtain ⟨q, h1, h3, q1, q2, q3⟩ := Ex.const4_prologue
  set V := (Itv.point 1).add (q.mul ⟨0, 1⟩) with hV
  have hVp := pow_lo_pos q2 5
  have hVq : (V.pow 5).lo ≤ (V.pow 5).hi := by
    have := Itv.mem_pow (show InItv V V.lo from ⟨le_rfl, q3⟩) 5
    exact this.1.trans this.2
  have e1 : (V.pow 5).rsqrt = .ok ⟨√(V.pow 5).lo, √(V.pow 5).hi⟩ := if_neg (not_lt.2 (hVp.le.trans hVq))
  have hz : (⟨√(V.pow 5).lo, √(V.pow 5).hi⟩ : Itv ℝ).zeroIn = false := Itv.zeroIn_false_iff.2 (.inl (Real.sqrt_pos.2 hVp))
  obtain ⟨num, n1, n2, n3⟩ := sdiv_ok (smul ((-1) ^ 2 * (√4)⁻¹ * (fact2Loop 3 : ℕ) / (2 : ℕ).factorial * 2 ^ 2) ((⟨-1, 1⟩ : Itv ℝ).pow 2))
    (show (4 : ℝ) ^ 2 ≠ 0 by norm_num)
  unfold powT powMinusHalf
  rw [bind_ok h1, if_neg (by norm_num), if_pos rfl, bind_ok h1]
  simp only
  rw [bind_ok h3, bind_ok q1, bind_ok e1, bind_ok (fact2_isqrt (k := 1) (by norm_num)), bind_ok (factorial_ok (by norm_num : 1 + 1 ≤ 170)), bind_ok n1]
  unfold Itv.div
  rw [Itv.inv_ok hz, bind_ok rfl]
  refine Ex.const4_unsound (by decide +kernel) (by norm_num) (Itv.lo_le_hi_mul _ _) ?_
  have hnum : 0 ≤ num.lo ∧ num.lo ≤ num.hi := by
    have hI : 0 ≤ (smul ((-1) ^ 2 * (√4)⁻¹ * (fact2Loop 3 : ℕ) / (2 : ℕ).factorial * 2 ^ 2) ((⟨-1, 1⟩ : Itv ℝ).pow 2)).lo := by
      rw [Ex.pow_two_unit]
      exact Ex.mul_nonneg' (I := Itv.point _) (by simp only [Itv.point]; positivity) le_rfl le_rfl zero_le_one
    have hl := n2 _ ⟨le_rfl, Itv.lo_le_hi_mul _ _⟩
    refine ⟨?_, hl.1.trans hl.2⟩
    rcases n3 _ (.inl rfl) with h | h <;> rw [h]
    · exact div_nonneg hI (by norm_num)
    · exact div_nonneg (hI.trans (Itv.lo_le_hi_mul _ _)) (by norm_num)
  rintro ⟨h, -⟩
  have h0 := (Ex.mul_nonneg' (Ex.mul_nonneg' hnum.1 hnum.2 zero_le_one le_rfl) (Itv.lo_le_hi_mul _ _) (inv_nonneg.2 (Real.sqrt_nonneg _))
    (inv_anti₀ (Real.sqrt_pos.2 hVp) (Real.sqrt_le_sqrt hVq))).trans h
  have h5 : 1 / √(5 : ℝ) < 1 / √4 := one_div_lt_one_div_of_lt (Real.sqrt_pos.2 (by norm_num)) (Real.sqrt_lt_sqrt (by norm_num) (by norm_num))
  have h6 : (4 : ℝ) ^ ((-(1 / 2) : ℚ) : ℝ) = 1 / √4 := by
    rw [Real.sqrt_eq_rpow, one_div ((4 : ℝ) ^ _), ← Real.rpow_neg (by norm_num)]
    norm_num
  rw [h6] at h0
  linarith

end Audi
