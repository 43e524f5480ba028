import Verif.Props.ExamplesReal
import Verif.Proofs.TMOrderZero
import Mathlib.Analysis.Complex.ExponentialBounds
import Mathlib.Analysis.SpecialFunctions.Trigonometric.Bounds

/-! # C53: elementary functions of Taylor models -/

namespace Audi

open TM MvPolynomial Spec

/-- The Taylor models whose functions are proved sound: those of order 0, and those whose polynomial has degree at most 1 and whose remainder is
{0}. -/
def SimpleArg (a : TM ℝ) : Prop := a.order = 0 ∨ DegLE 1 (a.tpol.toMv () : MvPolynomial String ℝ) ∧ a.rem = ⟨0, 0⟩

theorem SimpleArg.lin {a : TM ℝ} (h : SimpleArg a) (ha : a.WF) : DegLE 1 (a.tpol.toMv () : MvPolynomial String ℝ) := by
  rcases h with h | h
  · have := ha.valid.degLE (ι := Unit) (K := ℝ) ()
    rw [← ha.order, h] at this
    exact degLE_mono this zero_le_one
  · exact h.1

theorem SimpleArg.simple {a : TM ℝ} (h : SimpleArg a) : a.rem = ⟨0, 0⟩ ∨ a.order = 0 := h.elim .inr fun h => .inl h.2

section
variable {a : TM ℝ} {ord : List String → List String} (ha : a.WF) (h62 : a.order ≤ 62) (ho : Faithful ord (a.tpol.p.syms.map varName))
include ha h62 ho

/-- **C53, exponential.** `exp(tm)` encloses the exponential of every function that `tm` encloses, when the order is 0 or the polynomial has
degree at most 1 and the remainder is {0}; the order is at most 62, the map in `get_bounds` is traversed in the order of insertion.
Missing: other remainders (`C53_exp_remainder_counterexample`), polynomials of higher degree (`C53_exp_degree_counterexample`). -/
theorem C53_exp_partial (h : SimpleArg a) : Sound₁ a (rexp ord a) fun y z => z = Real.exp y :=
  rexp_sound ha h62 (ho _ ha.nodup fun _ h => h) (h.lin ha) h.simple

/-- **C53, sine.** As `C53_exp_partial`. Missing: `C53_sin_remainder_counterexample`. -/
theorem C53_sin_partial (h : SimpleArg a) : Sound₁ a (rsin ord a) fun y z => z = Real.sin y :=
  rsin_sound ha h62 (ho _ ha.nodup fun _ h => h) (h.lin ha) h.simple

/-- **C53, cosine.** As `C53_exp_partial`. Missing: `C53_cos_remainder_counterexample`. -/
theorem C53_cos_partial (h : SimpleArg a) : Sound₁ a (rcos ord a) fun y z => z = Real.cos y :=
  rcos_sound ha h62 (ho _ ha.nodup fun _ h => h) (h.lin ha) h.simple

/-- **C53, hyperbolic sine.** As `C53_exp_partial`. Missing: `C53_sinh_remainder_counterexample`. -/
theorem C53_sinh_partial (h : SimpleArg a) : Sound₁ a (rsinh ord a) fun y z => z = Real.sinh y :=
  rsinh_sound ha h62 (ho _ ha.nodup fun _ h => h) (h.lin ha) h.simple

/-- **C53, hyperbolic cosine.** As `C53_exp_partial`. Missing: `C53_cosh_remainder_counterexample`. -/
theorem C53_cosh_partial (h : SimpleArg a) : Sound₁ a (rcosh ord a) fun y z => z = Real.cosh y :=
  rcosh_sound ha h62 (ho _ ha.nodup fun _ h => h) (h.lin ha) h.simple

/-- **C53, logarithm.** As `C53_exp_partial`, when all allowed values are positive and the polynomial is positive at the expansion point.
Missing: `C53_log_remainder_counterexample`. -/
theorem C53_log_partial (h : SimpleArg a) (hc : 0 < a.polyAt a.expPoint) (hpos : ∀ x, a.InDom x → ∀ y, a.Allows x y → 0 < y) :
    Sound₁ a (rlog ord a) fun y z => z = Real.log y :=
  rlog_sound ha h62 (ho _ ha.nodup fun _ h => h) (h.lin ha) h.simple hc hpos

/-- **C53, domain of the logarithm.** When `tm` allows a negative value somewhere on its domain, `log` throws `std::runtime_error`; for every
polynomial and remainder. -/
theorem C53_log_domain {x : String → ℝ} {y : ℝ} (hx : a.InDom x) (hy : a.Allows x y) (hneg : y < 0) : rlog ord a = .error .runtimeError := by
  obtain ⟨c, B, b, -, -, -, h4, -, -, h7, -⟩ := prologue_ok ha h62 (ho _ ha.nodup fun _ h => h)
  unfold rlog
  rw [bind_error (requireAbove_error h4 ((h7 x hx y hy).2.1.trans_lt hneg))]

end

/-- **C53, pairs.** `sin_and_cos` gives the results of `sin` and `cos`, for all inputs: it succeeds exactly if both succeed. -/
theorem C53_sin_and_cos (ord : List String → List String) (a s c : TM ℝ) :
    sinAndCos ord a = .ok (s, c) ↔ rsin ord a = .ok s ∧ rcos ord a = .ok c := by
  unfold sinAndCos trigPair rsin rcos trig
  cases h1 : prologue ord a with
  | error e => simp [bind_error]
  | ok t =>
    obtain ⟨c, B, k⟩ := t
    simp only [bind_ok_iff, Except.ok.injEq, Prod.mk.injEq, exists_eq_left']
    constructor
    · rintro ⟨f1, h2, p, h3, r, h4, p', h5, r', h6, rfl, rfl⟩
      exact ⟨⟨f1, h2, p, h3, h4⟩, f1, h2, p', h5, h6⟩
    · rintro ⟨⟨f1, h2, p, h3, h4⟩, f1', h2', p', h5, h6⟩
      obtain rfl := Except.ok.inj (h2.symm.trans h2')
      exact ⟨f1, h2, p, h3, _, h4, p', h5, _, h6, rfl, rfl⟩

/-- **C53, pairs.** `sinh_and_cosh` gives the results of `sinh` and `cosh`, for all inputs. -/
theorem C53_sinh_and_cosh (ord : List String → List String) (a s c : TM ℝ) :
    sinhAndCosh ord a = .ok (s, c) ↔ rsinh ord a = .ok s ∧ rcosh ord a = .ok c := by
  unfold sinhAndCosh trigPair rsinh rcosh trig
  cases h1 : prologue ord a with
  | error e => simp [bind_error]
  | ok t =>
    obtain ⟨c, B, k⟩ := t
    simp only [bind_ok_iff, Except.ok.injEq, Prod.mk.injEq, exists_eq_left']
    constructor
    · rintro ⟨f1, h2, p, h3, r, h4, p', h5, r', h6, rfl, rfl⟩
      exact ⟨⟨f1, h2, p, h3, h4⟩, f1, h2, p', h5, h6⟩
    · rintro ⟨⟨f1, h2, p, h3, h4⟩, f1', h2', p', h5, h6⟩
      obtain rfl := Except.ok.inj (h2.symm.trans h2')
      exact ⟨f1, h2, p, h3, _, h4, p', h5, _, h6, rfl, rfl⟩

/-! ### Examples: the hypotheses hold for `2 + x` over [-1, 1] with order 3 and remainder {0} -/

namespace Ex

/-- `2 + x` over [-1, 1], order 3, remainder {0}. -/
noncomputable def fx : TM ℝ := lineR 2 3 ⟨0, 0⟩ ⟨-1, 1⟩

theorem fx_wf : fx.WF := lineR_wf two_ne_zero (by norm_num) le_rfl (by norm_num [InItv])
theorem fx_simple : SimpleArg fx := .inr ⟨lineR_lin two_ne_zero (by norm_num) _ _, rfl⟩
theorem fx_polyAt (x : String → ℝ) : fx.polyAt x = 2 + x "x" := lineR_polyAt two_ne_zero (by norm_num) _ _ x
theorem fx_pos {x : String → ℝ} (hx : fx.InDom x) {y : ℝ} (hy : fx.Allows x y) : 0 < y := by
  have h1 : InItv ⟨-1, 1⟩ (x "x") := lineR_inDom.1 hx
  have h2 : InItv (⟨0, 0⟩ : Itv ℝ) (y - fx.polyAt x) := hy
  rw [fx_polyAt] at h2
  have h3 : (-1 : ℝ) ≤ x "x" := h1.1
  have h4 : (0 : ℝ) ≤ y - (2 + x "x") := h2.1
  linarith
theorem fx_center : fx.polyAt fx.expPoint = 2 := by
  rw [fx_polyAt]
  simp [expPoint, fx, lineR]

end Ex

example : Sound₁ Ex.fx (rexp id Ex.fx) fun y z => z = Real.exp y :=
  C53_exp_partial Ex.fx_wf (by simp [Ex.fx, Ex.lineR]) (fun _ _ _ => rfl) Ex.fx_simple
example : Sound₁ Ex.fx (rsin id Ex.fx) fun y z => z = Real.sin y :=
  C53_sin_partial Ex.fx_wf (by simp [Ex.fx, Ex.lineR]) (fun _ _ _ => rfl) Ex.fx_simple
example : Sound₁ Ex.fx (rcos id Ex.fx) fun y z => z = Real.cos y :=
  C53_cos_partial Ex.fx_wf (by simp [Ex.fx, Ex.lineR]) (fun _ _ _ => rfl) Ex.fx_simple
example : Sound₁ Ex.fx (rsinh id Ex.fx) fun y z => z = Real.sinh y :=
  C53_sinh_partial Ex.fx_wf (by simp [Ex.fx, Ex.lineR]) (fun _ _ _ => rfl) Ex.fx_simple
example : Sound₁ Ex.fx (rcosh id Ex.fx) fun y z => z = Real.cosh y :=
  C53_cosh_partial Ex.fx_wf (by simp [Ex.fx, Ex.lineR]) (fun _ _ _ => rfl) Ex.fx_simple
example : Sound₁ Ex.fx (rlog id Ex.fx) fun y z => z = Real.log y :=
  C53_log_partial Ex.fx_wf (by simp [Ex.fx, Ex.lineR]) (fun _ _ _ => rfl) Ex.fx_simple (by rw [Ex.fx_center]; norm_num) fun _ hx _ hy => Ex.fx_pos hx hy

/-- All hypotheses of `C53_exp_partial` hold for a constant of order 0 with the remainder [-1, 1]. -/
example : Sound₁ (Ex.constR 3 0 ⟨-1, 1⟩) (rexp id (Ex.constR 3 0 ⟨-1, 1⟩)) fun y z => z = Real.exp y :=
  C53_exp_partial (Ex.constR_wf three_ne_zero 0 (by norm_num)) (by simp [Ex.constR]) (fun _ _ _ => rfl) (.inl rfl)

/-- All hypotheses of `C53_log_domain` hold for `1 + x` over [-2, 2]. -/
example : rlog id (Ex.lineR 1 1 ⟨0, 0⟩ ⟨-2, 2⟩) = .error .runtimeError := by
  refine C53_log_domain (Ex.lineR_wf one_ne_zero le_rfl le_rfl (by norm_num [InItv])) (by simp [Ex.lineR]) (fun _ _ _ => rfl)
    (x := fun _ => -2) (y := -1) (Ex.lineR_inDom.2 (by norm_num [InItv])) ?_ (by norm_num)
  unfold Allows
  rw [Ex.lineR_polyAt one_ne_zero le_rfl]
  norm_num [InItv, Ex.lineR]

/-! ### The remainder of the argument enters the Lagrange term only -/

namespace Ex

/-- What the functions compute first, for a constant. -/
theorem constR_prologue {c : ℝ} (hc : c ≠ 0) {n : ℕ} (hn : n ≤ 62) {rem : Itv ℝ} (hr : rem.lo ≤ rem.hi) :
    prologue id (constR c n rem) = .ok (c, rem, n) := by
  have ha := constR_wf hc n hr
  obtain ⟨c', B, b, h1, -, h3, -, -, -, h7, h8⟩ := prologue_ok (ord := id) ha hn rfl
  have hcc : c' = c := by rw [← h3, constR_toMv hc, coeff_zero_C]
  subst hcc
  have hal : ∀ x y, (constR c' n rem).Allows x y ↔ InItv rem (y - c') := fun x y => by
    unfold Allows
    rw [constR_polyAt hc]
    rfl
  have e1 := (h8 (constR_lin hc n rem)).1
  have key : ∀ t, t = B.lo ∨ t = B.hi → InItv rem t := fun t ht => by
    obtain ⟨x, y, -, hy, rfl⟩ := e1 t ht
    rw [hal] at hy
    simpa using hy
  have hin : ∀ t, InItv rem t → InItv B t := fun t ht => by
    have := (h7 _ (constR_inDom c' n rem) (c' + t) ((hal _ _).2 (by simpa using ht))).1
    simpa using this
  have hB : B = rem := by
    have k1 := key _ (.inl rfl)
    have k2 := key _ (.inr rfl)
    have l1 := hin rem.lo ⟨le_rfl, hr⟩
    have l2 := hin rem.hi ⟨hr, le_rfl⟩
    obtain ⟨b1, b2⟩ := B
    obtain ⟨r1, r2⟩ := rem
    simp only [Itv.mk.injEq]
    exact ⟨le_antisymm l1.1 k1.1, le_antisymm k2.2 l2.2⟩
  rw [h1, hB]
  rfl

theorem mul_nonneg' {I J : Itv ℝ} (hI : 0 ≤ I.lo) (hI' : I.lo ≤ I.hi) (hJ : 0 ≤ J.lo) (hJ' : J.lo ≤ J.hi) : 0 ≤ (I.mul J).lo := by
  rcases mul_lo_mem I J with h | h | h | h <;> rw [h]
  · exact mul_nonneg hI hJ
  · exact mul_nonneg hI (hJ.trans hJ')
  · exact mul_nonneg (hI.trans hI') hJ
  · exact mul_nonneg (hI.trans hI') (hJ.trans hJ')

/-- Products of intervals within [-s, s] and [-t, t]. -/
theorem mul_abs {I J : Itv ℝ} {s t : ℝ} (hs : 0 ≤ s) (hI : -s ≤ I.lo) (hI' : I.hi ≤ s) (hIl : I.lo ≤ I.hi) (hJ : -t ≤ J.lo) (hJ' : J.hi ≤ t) (hJl : J.lo ≤ J.hi) :
    -(s * t) ≤ (I.mul J).lo ∧ (I.mul J).hi ≤ s * t := by
  have ab : ∀ u v : ℝ, -s ≤ u → u ≤ s → -t ≤ v → v ≤ t → |u * v| ≤ s * t := fun u v h1 h2 h3 h4 => by
    rw [abs_mul]
    exact mul_le_mul (abs_le.2 ⟨h1, h2⟩) (abs_le.2 ⟨h3, h4⟩) (abs_nonneg _) hs
  have a1 := abs_le.1 (ab I.lo J.lo hI (hIl.trans hI') hJ (hJl.trans hJ'))
  have a2 := abs_le.1 (ab I.lo J.hi hI (hIl.trans hI') (hJ.trans hJl) hJ')
  have a3 := abs_le.1 (ab I.hi J.lo (hI.trans hIl) hI' hJ (hJl.trans hJ'))
  have a4 := abs_le.1 (ab I.hi J.hi (hI.trans hIl) hI' (hJ.trans hJl) hJ')
  exact ⟨le_min (le_min a1.1 a2.1) (le_min a3.1 a4.1), max_le (max_le a1.2 a2.2) (max_le a3.2 a4.2)⟩

theorem pow_two_unit : (⟨-1, 1⟩ : Itv ℝ).pow 2 = ⟨0, 1⟩ := by
  unfold Itv.pow
  norm_num

end Ex

/-- **C53.** The constant 1 with remainder [-1, 1] and order 1 allows the value 0; its exponential does not allow `exp 0`. -/
theorem C53_exp_remainder_counterexample : Unsound₁ (Ex.constR 1 1 ⟨-1, 1⟩) (rexp id (Ex.constR 1 1 ⟨-1, 1⟩)) Real.exp := by
  have hr : (-1 : ℝ) ≤ 1 := by norm_num
  have ha := Ex.constR_wf one_ne_zero 1 (rem := ⟨-1, 1⟩) hr
  obtain ⟨p, p1, p2⟩ := (GDual.computes_exp (C := ℝ) (ι := Unit)).lift _ ha.valid fun _ => trivial
  have hs : p.p.syms = ["dx"] := GDual.HasSyms.exp (S := ["dx"]) (by simp) (d := (Ex.constR 1 1 ⟨-1, 1⟩).tpol) rfl p1
  unfold rexp
  rw [bind_ok (Ex.constR_prologue one_ne_zero (by norm_num) hr)]
  simp only
  rw [bind_ok (factorial_ok (by norm_num)), bind_ok p1]
  refine Ex.constR_unsound one_ne_zero hr p2 hs (derivs_exp.isTaylor₁ isOpen_univ trivial 1) (Itv.lo_le_hi_mul _ _) (y := 0) (by norm_num [InItv]) ?_
  rintro ⟨h, -⟩
  have h0 : 0 ≤ (((smul (Real.exp 1 * (1 / ((1 + 1).factorial : ℝ))) ((⟨-1, 1⟩ : Itv ℝ).pow (1 + 1))).mul ((⟨-1, 1⟩ : Itv ℝ).mul ⟨0, 1⟩).rexp) : Itv ℝ).lo := by
    rw [show 1 + 1 = 2 from rfl, Ex.pow_two_unit]
    have he : (0 : ℝ) ≤ Real.exp 1 * (1 / ((2 : ℕ).factorial : ℝ)) := by positivity
    exact Ex.mul_nonneg' (Ex.mul_nonneg' he le_rfl le_rfl zero_le_one) (Itv.lo_le_hi_mul _ _) (Real.exp_pos _).le
      (Real.exp_le_exp.2 (Itv.lo_le_hi_mul _ _))
  have h1 := h0.trans h
  have h2 : Real.exp 0 < Real.exp 1 := Real.exp_lt_exp.2 one_pos
  simp at h1
  linarith [Real.exp_zero]

theorem sinCond_unit {k : ℕ} {A : Itv ℝ} (hA : A.lo ≤ A.hi) : -1 ≤ (sinCond k A).lo ∧ (sinCond k A).hi ≤ 1 ∧ (sinCond k A).lo ≤ (sinCond k A).hi := by
  have hs : -1 ≤ A.rsin.lo ∧ A.rsin.hi ≤ 1 :=
    ⟨le_csInf ⟨_, A.lo, ⟨le_rfl, hA⟩, rfl⟩ (by rintro _ ⟨t, -, rfl⟩; exact Real.neg_one_le_sin t),
      csSup_le ⟨_, A.lo, ⟨le_rfl, hA⟩, rfl⟩ (by rintro _ ⟨t, -, rfl⟩; exact Real.sin_le_one t)⟩
  have hc : -1 ≤ A.rcos.lo ∧ A.rcos.hi ≤ 1 :=
    ⟨le_csInf ⟨_, A.lo, ⟨le_rfl, hA⟩, rfl⟩ (by rintro _ ⟨t, -, rfl⟩; exact Real.neg_one_le_cos t),
      csSup_le ⟨_, A.lo, ⟨le_rfl, hA⟩, rfl⟩ (by rintro _ ⟨t, -, rfl⟩; exact Real.cos_le_one t)⟩
  have hs' := Itv.le_of_mem (Itv.mem_rsin (a := A) (x := A.lo) ⟨le_rfl, hA⟩)
  have hc' := Itv.le_of_mem (Itv.mem_rcos (a := A) (x := A.lo) ⟨le_rfl, hA⟩)
  unfold sinCond
  split_ifs <;> simp only [Itv.neg] <;> refine ⟨?_, ?_, ?_⟩ <;> linarith [hs.1, hs.2, hc.1, hc.2]

theorem cosCond_unit {k : ℕ} {A : Itv ℝ} (hA : A.lo ≤ A.hi) : -1 ≤ (cosCond k A).lo ∧ (cosCond k A).hi ≤ 1 ∧ (cosCond k A).lo ≤ (cosCond k A).hi := by
  have hs : -1 ≤ A.rsin.lo ∧ A.rsin.hi ≤ 1 :=
    ⟨le_csInf ⟨_, A.lo, ⟨le_rfl, hA⟩, rfl⟩ (by rintro _ ⟨t, -, rfl⟩; exact Real.neg_one_le_sin t),
      csSup_le ⟨_, A.lo, ⟨le_rfl, hA⟩, rfl⟩ (by rintro _ ⟨t, -, rfl⟩; exact Real.sin_le_one t)⟩
  have hc : -1 ≤ A.rcos.lo ∧ A.rcos.hi ≤ 1 :=
    ⟨le_csInf ⟨_, A.lo, ⟨le_rfl, hA⟩, rfl⟩ (by rintro _ ⟨t, -, rfl⟩; exact Real.neg_one_le_cos t),
      csSup_le ⟨_, A.lo, ⟨le_rfl, hA⟩, rfl⟩ (by rintro _ ⟨t, -, rfl⟩; exact Real.cos_le_one t)⟩
  have hs' := Itv.le_of_mem (Itv.mem_rsin (a := A) (x := A.lo) ⟨le_rfl, hA⟩)
  have hc' := Itv.le_of_mem (Itv.mem_rcos (a := A) (x := A.lo) ⟨le_rfl, hA⟩)
  unfold cosCond
  split_ifs <;> simp only [Itv.neg] <;> refine ⟨?_, ?_, ?_⟩ <;> linarith [hs.1, hs.2, hc.1, hc.2]

theorem thetaArg_le (c : ℝ) (B : Itv ℝ) : (thetaArg c B).lo ≤ (thetaArg c B).hi := Itv.lo_le_hi_add le_rfl (Itv.lo_le_hi_mul _ _)

/-- The remainder of sine and cosine for order 1 over [-1, 1] lies within [-1/2, 1/2]. -/
theorem trigRem_half {J : Itv ℝ} (h1 : -1 ≤ J.lo) (h2 : J.hi ≤ 1) (h3 : J.lo ≤ J.hi) :
    -(1 / 2) ≤ (trigRem ((1 + 1).factorial : ℝ) J ⟨-1, 1⟩ 1).lo ∧ (trigRem ((1 + 1).factorial : ℝ) J ⟨-1, 1⟩ 1).hi ≤ 1 / 2 := by
  unfold trigRem
  rw [show 1 + 1 = 2 from rfl, Ex.pow_two_unit]
  have e : ((2 : ℕ).factorial : ℝ) = 2 := by norm_num [Nat.factorial]
  rw [e]
  have k := Ex.mul_abs (I := Itv.point (1 / 2)) (J := J) (s := 1 / 2) (t := 1) (by norm_num) (by norm_num [Itv.point]) (by norm_num [Itv.point]) le_rfl h1 h2 h3
  have k' := Ex.mul_abs (I := (Itv.point (1 / 2)).mul J) (J := ⟨0, 1⟩) (s := 1 / 2) (t := 1) (by norm_num) (by linarith [k.1]) (by linarith [k.2])
    (Itv.lo_le_hi_mul _ _) (by norm_num) le_rfl zero_le_one
  exact ⟨by linarith [k'.1], by linarith [k'.2]⟩

/-- **C53.** The constant 1/2 with remainder [-1, 1] and order 1 allows the value -1/2; its sine does not allow `sin (-1/2)`. -/
theorem C53_sin_remainder_counterexample : Unsound₁ (Ex.constR (1 / 2) 1 ⟨-1, 1⟩) (rsin id (Ex.constR (1 / 2) 1 ⟨-1, 1⟩)) Real.sin := by
  have hr : (-1 : ℝ) ≤ 1 := by norm_num
  have h2 : (1 / 2 : ℝ) ≠ 0 := by norm_num
  have ha := Ex.constR_wf h2 1 (rem := ⟨-1, 1⟩) hr
  obtain ⟨p, p1, p2⟩ := (GDual.computes_sin (C := ℝ) (ι := Unit)).lift _ ha.valid fun _ => trivial
  have hs : p.p.syms = ["dx"] := GDual.HasSyms.sin (S := ["dx"]) (by simp) (d := (Ex.constR (1 / 2) 1 ⟨-1, 1⟩).tpol) rfl p1
  unfold rsin trig
  rw [bind_ok (Ex.constR_prologue h2 (by norm_num) hr)]
  simp only
  rw [bind_ok (factorial_ok (by norm_num)), bind_ok p1]
  have p2' : IsLift (fun _ : Unit => (fun (j : ℕ) (t : ℝ) => Real.sin (t + j * (Real.pi / 2))) 0) (Ex.constR (1 / 2) 1 ⟨-1, 1⟩).tpol p := by
    simpa using p2
  have := Ex.constR_unsound h2 hr p2' hs (derivs_sin.isTaylor₁ isOpen_univ trivial 1)
    (J := trigRem ((1 + 1).factorial : ℝ) (sinCond 1 (thetaArg (1 / 2) ⟨-1, 1⟩)) ⟨-1, 1⟩ 1) (Itv.lo_le_hi_mul _ _) (y := -(1 / 2)) (by norm_num [InItv]) ?_
  · simpa using this
  · rintro ⟨h, -⟩
    obtain ⟨k1, k2, k3⟩ := sinCond_unit (k := 1) (thetaArg_le (1 / 2) ⟨-1, 1⟩)
    have h0 := (trigRem_half k1 k2 k3).1.trans h
    simp only [Nat.cast_zero, zero_mul, add_zero, Nat.factorial_zero, Nat.cast_one, div_one, Real.sin_neg] at h0
    have h3 := Real.sin_gt_sub_cube (x := 1 / 2) (by norm_num)
    norm_num at h0 h3
    linarith

/-- **C53.** The constant `π/2` with remainder [-1, 1] and order 1 allows the value `π/2 + 1`; its cosine does not allow the cosine of it. -/
theorem C53_cos_remainder_counterexample : Unsound₁ (Ex.constR (Real.pi / 2) 1 ⟨-1, 1⟩) (rcos id (Ex.constR (Real.pi / 2) 1 ⟨-1, 1⟩)) Real.cos := by
  have hr : (-1 : ℝ) ≤ 1 := by norm_num
  have h2 : Real.pi / 2 ≠ 0 := by positivity
  have ha := Ex.constR_wf h2 1 (rem := ⟨-1, 1⟩) hr
  obtain ⟨p, p1, p2⟩ := (GDual.computes_cos (C := ℝ) (ι := Unit)).lift _ ha.valid fun _ => trivial
  have hs : p.p.syms = ["dx"] := GDual.HasSyms.cos (S := ["dx"]) (by simp) (d := (Ex.constR (Real.pi / 2) 1 ⟨-1, 1⟩).tpol) rfl p1
  unfold rcos trig
  rw [bind_ok (Ex.constR_prologue h2 (by norm_num) hr)]
  simp only
  rw [bind_ok (factorial_ok (by norm_num)), bind_ok p1]
  have p2' : IsLift (fun _ : Unit => (fun (j : ℕ) (t : ℝ) => Real.cos (t + j * (Real.pi / 2))) 0) (Ex.constR (Real.pi / 2) 1 ⟨-1, 1⟩).tpol p := by
    simpa using p2
  have := Ex.constR_unsound h2 hr p2' hs (derivs_cos.isTaylor₁ isOpen_univ trivial 1)
    (J := trigRem ((1 + 1).factorial : ℝ) (cosCond 1 (thetaArg (Real.pi / 2) ⟨-1, 1⟩)) ⟨-1, 1⟩ 1) (Itv.lo_le_hi_mul _ _) (y := 1 + Real.pi / 2)
    (by norm_num [InItv]) ?_
  · simpa using this
  · rintro ⟨h, -⟩
    obtain ⟨k1, k2, k3⟩ := cosCond_unit (k := 1) (thetaArg_le (Real.pi / 2) ⟨-1, 1⟩)
    have h0 := (trigRem_half k1 k2 k3).1.trans h
    simp only [Nat.cast_zero, zero_mul, add_zero, Nat.factorial_zero, Nat.cast_one, div_one, Real.cos_add_pi_div_two, Real.cos_pi_div_two] at h0
    have h3 := Real.sin_gt_sub_cube (x := 1) (by norm_num)
    norm_num at h0 h3
    linarith

/-- A nonnegative remainder of order 1. -/
theorem trigRem_nonneg {J : Itv ℝ} (h1 : 0 ≤ J.lo) (h3 : J.lo ≤ J.hi) : 0 ≤ (trigRem ((1 + 1).factorial : ℝ) J ⟨-1, 1⟩ 1).lo := by
  unfold trigRem
  rw [show 1 + 1 = 2 from rfl, Ex.pow_two_unit]
  have he : (0 : ℝ) ≤ 1 / ((2 : ℕ).factorial : ℝ) := by positivity
  exact Ex.mul_nonneg' (Ex.mul_nonneg' he le_rfl h1 h3) (Itv.lo_le_hi_mul _ _) le_rfl zero_le_one

theorem thetaArg_one : thetaArg 1 ⟨-1, 1⟩ = ⟨0, 2⟩ := by
  norm_num [thetaArg, Itv.add, Itv.point, Itv.mul]

/-- **C53.** The constant 1 with remainder [-1, 1] and order 1 allows the value 0; its hyperbolic sine does not allow `sinh 0`. -/
theorem C53_sinh_remainder_counterexample : Unsound₁ (Ex.constR 1 1 ⟨-1, 1⟩) (rsinh id (Ex.constR 1 1 ⟨-1, 1⟩)) Real.sinh := by
  have hr : (-1 : ℝ) ≤ 1 := by norm_num
  have ha := Ex.constR_wf one_ne_zero 1 (rem := ⟨-1, 1⟩) hr
  obtain ⟨p, p1, p2⟩ := (GDual.computes_sinh (C := ℝ) (ι := Unit)).lift _ ha.valid fun _ => trivial
  have hs : p.p.syms = ["dx"] := GDual.HasSyms.sinh (S := ["dx"]) (by simp) (d := (Ex.constR 1 1 ⟨-1, 1⟩).tpol) rfl p1
  unfold rsinh trig
  rw [bind_ok (Ex.constR_prologue one_ne_zero (by norm_num) hr)]
  simp only
  rw [bind_ok (factorial_ok (by norm_num)), bind_ok p1]
  refine Ex.constR_unsound one_ne_zero hr p2 hs (derivs_sinh.isTaylor₁ isOpen_univ trivial 1) (Itv.lo_le_hi_mul _ _) (y := 0) (by norm_num [InItv]) ?_
  rintro ⟨h, -⟩
  have h0 := (trigRem_nonneg (J := sinhCond 1 (thetaArg 1 ⟨-1, 1⟩)) (by rw [thetaArg_one]; norm_num [sinhCond, Itv.rsinh])
    (by rw [thetaArg_one]; norm_num [sinhCond, Itv.rsinh])).trans h
  have h2 : Real.sinh 0 < Real.sinh 1 := Real.sinh_lt_sinh.2 one_pos
  simp at h0 h2
  linarith

/-- **C53.** The constant 1 with remainder [-1, 1] and order 1 allows the value 0; its hyperbolic cosine does not allow `cosh 0`. -/
theorem C53_cosh_remainder_counterexample : Unsound₁ (Ex.constR 1 1 ⟨-1, 1⟩) (rcosh id (Ex.constR 1 1 ⟨-1, 1⟩)) Real.cosh := by
  have hr : (-1 : ℝ) ≤ 1 := by norm_num
  have ha := Ex.constR_wf one_ne_zero 1 (rem := ⟨-1, 1⟩) hr
  obtain ⟨p, p1, p2⟩ := (GDual.computes_cosh (C := ℝ) (ι := Unit)).lift _ ha.valid fun _ => trivial
  have hs : p.p.syms = ["dx"] := GDual.HasSyms.cosh (S := ["dx"]) (by simp) (d := (Ex.constR 1 1 ⟨-1, 1⟩).tpol) rfl p1
  unfold rcosh trig
  rw [bind_ok (Ex.constR_prologue one_ne_zero (by norm_num) hr)]
  simp only
  rw [bind_ok (factorial_ok (by norm_num)), bind_ok p1]
  refine Ex.constR_unsound one_ne_zero hr p2 hs (derivs_cosh.isTaylor₁ isOpen_univ trivial 1) (Itv.lo_le_hi_mul _ _) (y := 0) (by norm_num [InItv]) ?_
  rintro ⟨h, -⟩
  have h0 := (trigRem_nonneg (J := coshCond 1 (thetaArg 1 ⟨-1, 1⟩)) (by rw [thetaArg_one]; norm_num [coshCond, Itv.rcosh])
    (by rw [thetaArg_one]; norm_num [coshCond, Itv.rcosh])).trans h
  have h2 : 1 < Real.cosh 1 := Real.one_lt_cosh.2 one_ne_zero
  simp at h0
  linarith

/-- **C53.** The constant 2 with remainder [-1, 1] and order 1 allows the value 3; its logarithm does not allow `log 3`. -/
theorem C53_log_remainder_counterexample : Unsound₁ (Ex.constR 2 1 ⟨-1, 1⟩) (rlog id (Ex.constR 2 1 ⟨-1, 1⟩)) Real.log := by
  have hr : (-1 : ℝ) ≤ 1 := by norm_num
  have ha := Ex.constR_wf two_ne_zero 1 (rem := ⟨-1, 1⟩) hr
  have hpos : ∀ x, (Ex.constR 2 1 ⟨-1, 1⟩).InDom x → ∀ y, (Ex.constR 2 1 ⟨-1, 1⟩).Allows x y → 0 < y := fun x _ y hy => by
    unfold Allows at hy
    rw [Ex.constR_polyAt two_ne_zero] at hy
    have := hy.1
    simp only [Ex.constR] at this
    linarith
  obtain ⟨c, B, q, h1, h2, hc0, h3, -, h5, q1, q2, q3⟩ := prologue_pos (ord := id) ha (by simp [Ex.constR]) rfl (Ex.constR_lin two_ne_zero _ _)
    (by rw [Ex.constR_polyAt two_ne_zero]; norm_num) hpos
  rw [Ex.constR_prologue two_ne_zero (by norm_num) hr] at h1
  injection h1 with h1
  obtain ⟨rfl, rfl, -⟩ : 2 = c ∧ (⟨-1, 1⟩ : Itv ℝ) = B ∧ _ := by simpa using h1
  obtain ⟨p, p1, p2⟩ := (GDual.computes_log (C := ℝ) (ι := Unit)).lift (Ex.constR 2 1 ⟨-1, 1⟩).tpol ha.valid fun i => by rw [h2]; norm_num
  have hs : p.p.syms = ["dx"] := GDual.HasSyms.log (S := ["dx"]) (by simp) (d := (Ex.constR 2 1 ⟨-1, 1⟩).tpol) rfl p1
  have hz : ((Itv.point 1).add (q.mul ⟨0, 1⟩)).zeroIn = false := Itv.zeroIn_false_iff.2 (.inl q2)
  have hle : ((Itv.point 1).add (q.mul ⟨0, 1⟩)).lo ≤ ((Itv.point 1).add (q.mul ⟨0, 1⟩)).hi := Itv.lo_le_hi_add le_rfl (Itv.lo_le_hi_mul _ _)
  unfold rlog
  rw [bind_ok h3, bind_ok (Ex.constR_prologue two_ne_zero (by norm_num) hr)]
  simp only
  rw [show (1 : ℕ) + 1 = 2 from rfl, show (1 : ℕ) + 2 = 3 from rfl, Ex.pow_two_unit]
  have n1 : sdiv ((Itv.point ((-1 : ℝ) ^ 3 * (1 / ((1 : ℕ) + 1 : ℝ)))).mul ⟨0, 1⟩) ((2 : ℝ) ^ 2) = .ok ⟨-(1 / 8), 0⟩ := by
    unfold sdiv Itv.div
    rw [Itv.inv_ok (Itv.zeroIn_false_iff.2 (.inl (by norm_num [Itv.point])))]
    change Except.ok _ = _
    norm_num [Itv.point, Itv.mul]
  have d1 : (Itv.point (1 : ℝ)).div ((Itv.point 1).add (q.mul ⟨0, 1⟩)) =
      .ok ((Itv.point 1).mul ⟨((Itv.point 1).add (q.mul ⟨0, 1⟩)).hi⁻¹, ((Itv.point 1).add (q.mul ⟨0, 1⟩)).lo⁻¹⟩) := by
    unfold Itv.div
    rw [Itv.inv_ok hz]
    rfl
  rw [bind_ok n1, bind_ok q1, bind_ok d1, bind_ok p1]
  refine Ex.constR_unsound two_ne_zero hr p2 hs (derivs_log.isTaylor₁ isOpen_Ioi (by norm_num) 1) (Itv.lo_le_hi_mul _ _) (y := 3) (by norm_num [InItv]) ?_
  rintro ⟨-, h⟩
  have hden : 0 ≤ (((Itv.point 1).mul ⟨((Itv.point 1).add (q.mul ⟨0, 1⟩)).hi⁻¹, ((Itv.point 1).add (q.mul ⟨0, 1⟩)).lo⁻¹⟩).pow 2 : Itv ℝ).lo := by
    have : 0 < (((Itv.point 1).mul ⟨((Itv.point 1).add (q.mul ⟨0, 1⟩)).hi⁻¹, ((Itv.point 1).add (q.mul ⟨0, 1⟩)).lo⁻¹⟩) : Itv ℝ).lo := by
      have i1 := inv_pos.2 q2
      have i2 := inv_pos.2 (q2.trans_le hle)
      rcases mul_lo_mem (Itv.point (1 : ℝ)) ⟨((Itv.point 1).add (q.mul ⟨0, 1⟩)).hi⁻¹, ((Itv.point 1).add (q.mul ⟨0, 1⟩)).lo⁻¹⟩ with h | h | h | h <;>
        rw [h] <;> first | exact mul_pos one_pos i1 | exact mul_pos one_pos i2
    exact (pow_lo_pos this 2).le
  have hden' := Itv.lo_le_hi_pow (Itv.lo_le_hi_mul (Itv.point 1) ⟨((Itv.point 1).add (q.mul ⟨0, 1⟩)).hi⁻¹, ((Itv.point 1).add (q.mul ⟨0, 1⟩)).lo⁻¹⟩) 2
  generalize (((Itv.point 1).mul ⟨((Itv.point 1).add (q.mul ⟨0, 1⟩)).hi⁻¹, ((Itv.point 1).add (q.mul ⟨0, 1⟩)).lo⁻¹⟩).pow 2 : Itv ℝ) = D at h hden hden'
  have h0 : ((⟨-(1 / 8), 0⟩ : Itv ℝ).mul D).hi ≤ 0 := by
    simp only [Itv.mul, zero_mul, max_le_iff, le_refl, and_true]
    exact ⟨by nlinarith, by nlinarith [hden.trans hden']⟩
  have h1 := h.trans h0
  have h2 : Real.log 2 < Real.log 3 := Real.log_lt_log (by norm_num) (by norm_num)
  simp [logD] at h1
  linarith

/-! ### Terms above the order are dropped without a remainder -/

namespace Ex

/-- `x y`, expanded at 0, over [-1, 1]², order 2, remainder {0}. -/
noncomputable def xyR : TM ℝ :=
  ⟨⟨⟨["dx", "dy"], [([1, 1], 1)]⟩, 2⟩, 2, 2, ⟨0, 0⟩, [("x", 0), ("y", 0)], [("x", ⟨-1, 1⟩), ("y", ⟨-1, 1⟩)]⟩

theorem varName_dy : varName "dy" = "y" := by decide

theorem xyR_wf : xyR.WF := by
  refine ⟨⟨⟨by simp only [xyR]; decide, by simp [xyR], by simp [xyR], ?_⟩, by simp [xyR]⟩, ?_, rfl, rfl, ?_, ?_, ?_, le_rfl⟩
  · intro t ht
    simp only [xyR, List.mem_singleton] at ht
    subst ht
    exact decide_eq_false one_ne_zero
  · intro s hs
    simp only [xyR, List.mem_cons, List.not_mem_nil, or_false] at hs
    rcases hs with rfl | rfl
    · exact ⟨"x", rfl⟩
    · exact ⟨"y", rfl⟩
  · simp [xyR, varName_dx, varName_dy]
  · simp [xyR, varName_dx, varName_dy]
  · intro e he
    simp only [xyR, List.mem_cons, List.not_mem_nil, or_false] at he
    rcases he with rfl | rfl
    · exact ⟨0, by simp [xyR], by norm_num [InItv]⟩
    · exact ⟨0, by simp [xyR], by norm_num [InItv]⟩

theorem xyR_toMv : (xyR.tpol.toMv () : MvPolynomial String ℝ) = X "dx" * X "dy" := by
  refine MvPolynomial.funext fun δ => ?_
  rw [eval_toMv xyR_wf.valid, map_mul, eval_X, eval_X]
  simp [xyR]

theorem xy_monomial : (X "dx" * X "dy" : MvPolynomial String ℝ) = monomial (Finsupp.single "dx" 1 + Finsupp.single "dy" 1) 1 := by
  rw [X, X, monomial_mul, one_mul]

theorem xyR_polyAt (x : String → ℝ) : xyR.polyAt x = x "x" * x "y" := by
  unfold polyAt
  rw [xyR_toMv, map_mul, eval_X, eval_X]
  simp [displacement, xyR, varName_dx, varName_dy, List.lookup]

theorem xyR_prologue : ∃ B, prologue id xyR = .ok (0, B, 2) ∧ -1 ≤ B.lo ∧ B.hi ≤ 1 ∧ B.lo ≤ B.hi := by
  obtain ⟨c, B, b, h1, h2, h3, -, h5, -, -, -⟩ := prologue_ok (ord := id) xyR_wf (by simp [xyR]) rfl
  have hc : c = 0 := by
    rw [← h3, ← constantCoeff_eq, xyR_toMv]
    simp
  subst hc
  have h1' := h1
  unfold prologue at h1'
  rw [bind_ok h2] at h1'
  obtain ⟨fb, h4, h6⟩ := bind_ok_iff.1 h1'
  simp only [Except.ok.injEq, Prod.mk.injEq, true_and] at h6
  obtain ⟨rfl, -⟩ := h6
  have hv : (xyR.tpol.subGS (0 : ℝ)).Valid := GDual.Valid.subGS (ι := Unit) (K := ℝ) (0 : ℝ) xyR_wf.valid
  have he : (xyR.tpol.subGS (0 : ℝ)).p.terms = [([1, 1], 1)] := by
    have h0 : (Poly.const (0 : ℝ)) = ⟨[], []⟩ := by
      have : Cf.isZero (0 : ℝ) = true := decide_eq_true rfl
      simp [Poly.const, Poly.insertTerm, this]
    unfold GDual.subGS
    rw [h0]
    have h1 : reindex ["dx", "dy"] (mergeSyms ["dx", "dy"] []) [1, 1] = [1, 1] := by decide
    simp [xyR, Poly.sub, Poly.neg, Poly.add, Poly.addSymbols, Poly.insertTerms, h1]
  have hmv : ((xyR.tpol.subGS (0 : ℝ)).toMv () : MvPolynomial String ℝ) = X "dx" * X "dy" := by
    rw [GDual.toMv_subGS (0 : ℝ) xyR_wf.valid, xyR_toMv]
    change _ - C (0 : ℝ) = _
    rw [C_0, sub_zero]
  have key := getBounds_attained hv xyR_wf.names (by rw [he]; simp) (fun v hv => by
    obtain ⟨I, x, e1, e2, e3⟩ := xyR_wf.lookup hv
    exact ⟨I, x, e1, e2, e3.1.trans e3.2⟩) rfl h4
  have hin : ∀ t, t = fb.lo ∨ t = fb.hi → -1 ≤ t ∧ t ≤ 1 := by
    intro t ht
    obtain ⟨x, hx, e⟩ := key t ht
    have k1 := hx "x" (by simp [xyR, GDual.subGS, Poly.sub, Poly.add, Poly.addSymbols]; decide) ⟨-1, 1⟩ (by simp [xyR])
    have k2 := hx "y" (by simp [xyR, GDual.subGS, Poly.sub, Poly.add, Poly.addSymbols]; decide) ⟨-1, 1⟩ (by simp [xyR, List.lookup])
    rw [hmv, map_mul, eval_X, eval_X] at e
    simp [displacement, xyR, varName_dx, varName_dy, List.lookup] at e
    rw [← e]
    have := abs_le.1 (show |x "x" * x "y"| ≤ 1 by
      rw [abs_mul]
      exact mul_le_one₀ (abs_le.2 k1) (abs_nonneg _) (abs_le.2 k2))
    exact this
  refine ⟨_, h1, ?_, ?_, h5⟩
  · simpa [Itv.add, xyR] using (hin _ (.inl rfl)).1
  · simpa [Itv.add, xyR] using (hin _ (.inr rfl)).2

end Ex

/-- **C53.** The function `x y` over [-1, 1]² with order 2 has the value 1 at (1, 1); its exponential is `1 + x y` with a remainder that does not allow
`exp 1`: the square of `x y` has been dropped. -/
theorem C53_exp_degree_counterexample : Unsound₁ Ex.xyR (rexp id Ex.xyR) Real.exp := by
  obtain ⟨B, h1, b1, b2, b3⟩ := Ex.xyR_prologue
  obtain ⟨p, p1, p2⟩ := (GDual.computes_exp (C := ℝ) (ι := Unit)).lift _ Ex.xyR_wf.valid fun _ => trivial
  have hs : p.p.syms = ["dx", "dy"] := GDual.HasSyms.exp (S := ["dx", "dy"]) (by decide) (d := Ex.xyR.tpol) rfl p1
  have hc : coeff 0 (Ex.xyR.tpol.toMv () : MvPolynomial String ℝ) = 0 := by
    rw [← constantCoeff_eq, Ex.xyR_toMv]
    simp
  have hp : (p.toMv () : MvPolynomial String ℝ) = 1 + X "dx" * X "dy" := by
    have h := GDual.lift_closed p2 (by rw [hc]; exact derivs_exp.isTaylor₁ isOpen_univ trivial 2)
    refine Spec.EqUpTo.eq_of_degLE (m := 2) (fun m hm => ?_) ?_ ?_
    · rw [h m hm]
      unfold compPoly
      rw [show Ex.xyR.tpol.order = 2 from rfl]
      rw [Finset.sum_range_succ, Finset.sum_range_succ, Finset.sum_range_one, hc, Ex.xyR_toMv, C_0, sub_zero, Ex.xy_monomial]
      have h2 : coeff m (monomial (Finsupp.single "dx" 1 + Finsupp.single "dy" 1) (1 : ℝ) ^ 2) = 0 := by
        rw [monomial_pow, coeff_monomial, if_neg]
        rintro rfl
        rw [map_nsmul, map_add, Finsupp.degree_single, Finsupp.degree_single] at hm
        revert hm
        decide
      rw [coeff_add, coeff_C_mul (p := _ ^ 2), h2, mul_zero, add_zero, pow_zero, pow_one]
      simp
    · have := p2.valid.degLE (ι := Unit) (K := ℝ) ()
      rwa [p2.order] at this
    · intro m hm
      rw [Ex.xy_monomial, coeff_add, coeff_one, coeff_monomial, if_neg, if_neg, add_zero]
      · rintro rfl
        rw [map_add, Finsupp.degree_single, Finsupp.degree_single] at hm
        omega
      · rintro rfl
        simp at hm
  unfold rexp
  rw [bind_ok h1]
  simp only
  rw [bind_ok (factorial_ok (by norm_num)), bind_ok p1]
  obtain ⟨r, r1, r2, r3, r4, r5, r6, r7⟩ := remake (rem := (smul (Real.exp 0 * (1 / ((2 + 1).factorial : ℝ))) (B.pow (2 + 1))).mul (B.mul ⟨0, 1⟩).rexp)
    Ex.xyR_wf p2.valid hs (Itv.lo_le_hi_mul _ _)
  refine ⟨r, fun _ => 1, 1, Ex.xyR_wf, r1, r2, by simp [InDom, Ex.xyR, InItv], ?_, ?_⟩
  · unfold Allows
    rw [Ex.xyR_polyAt]
    norm_num [InItv, Ex.xyR]
  · unfold Allows polyAt
    rw [r4, r5, r6, hp]
    rintro ⟨-, h⟩
    have hd : eval (displacement Ex.xyR.exp fun _ => (1 : ℝ)) (1 + X "dx" * X "dy" : MvPolynomial String ℝ) = 2 := by
      rw [map_add, map_one, map_mul, eval_X, eval_X]
      have e : ("y" == "x") = false := by decide
      norm_num [displacement, Ex.xyR, Ex.varName_dx, Ex.varName_dy, List.lookup, e]
    rw [hd] at h
    have hu : ((smul (Real.exp 0 * (1 / ((2 + 1).factorial : ℝ))) (B.pow (2 + 1))).mul (B.mul ⟨0, 1⟩).rexp).hi ≤ 1 / 6 * Real.exp 1 := by
      have hmul := Ex.mul_abs (I := B) (J := ⟨0, 1⟩) (s := 1) (t := 1) (by norm_num) b1 b2 b3 (by norm_num) (by norm_num) (by norm_num)
      have hl := Itv.lo_le_hi_mul B ⟨0, 1⟩
      have hq : ∀ t : ℝ, -1 ≤ t → t ≤ 1 → -1 ≤ t ^ 3 ∧ t ^ 3 ≤ 1 := fun t h1 h2 => by
        rw [← abs_le, abs_pow]
        exact pow_le_one₀ (abs_nonneg _) (abs_le.2 ⟨h1, h2⟩)
      have hp3 : B.pow (2 + 1) = ⟨B.lo ^ 3, B.hi ^ 3⟩ := by
        unfold Itv.pow
        norm_num
      have hs := Ex.mul_abs (I := Itv.point (1 / 6 : ℝ)) (J := ⟨B.lo ^ 3, B.hi ^ 3⟩) (s := 1 / 6) (t := 1) (by norm_num) (by norm_num [Itv.point])
        (by norm_num [Itv.point]) (by norm_num [Itv.point]) (hq _ b1 (b3.trans b2)).1 (hq _ (b1.trans b3) b2).2 ((show Odd 3 by decide).pow_le_pow.2 b3)
      have hk : Real.exp 0 * (1 / ((2 + 1).factorial : ℝ)) = 1 / 6 := by
        rw [Real.exp_zero]
        norm_num [Nat.factorial]
      rw [hp3, hk]
      rw [mul_one] at hs hmul
      refine (Ex.mul_abs (s := 1 / 6) (t := Real.exp 1) (by norm_num) hs.1 hs.2 (Itv.lo_le_hi_mul _ _) ?_ ?_ ?_).2
      · exact (neg_nonpos.2 (Real.exp_pos _).le).trans (Real.exp_pos _).le
      · exact Real.exp_le_exp.2 hmul.2
      · exact Real.exp_le_exp.2 hl
    have h3 := Real.exp_one_gt_d9
    linarith

end Audi
