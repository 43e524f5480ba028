import Verif.Proofs.Boundary
import Verif.Spec.NumProgram
import Verif.Props.C99_Values
import Verif.Proofs.Binary64Mono

/-!
# C100: functions at and outside of the boundary of their domain

What a function returns for a gdual whose value is NaN or infinite, or a number at which the function or its derivatives are not defined.
-/

namespace Audi
open GDual Poly

variable {F : XFormat} [XLibm F] {d : GDual (XF F)} {p0 : XF F}

theorem fin_or (p0 : XF F) : NonFinite p0 ∨ ∃ q, p0.v = .fin q := by
  by_cases h : ∃ q, p0.v = .fin q
  · exact Or.inr h
  · exact Or.inl fun q hq => h ⟨q, hq⟩

theorem Fn.run_cst' {P : Prop} {f : Fn} (hf : f.Same) {a : GDual (XF F)} {x : XF F} (ha : Cst False a x) (hq : P ∨ ∃ q, x.v = .fin q) :
    ∃ r, f.run a = .ok r ∧ Cst P r (f.num x) := by
  cases f with
  | exp => exact ha.exp hq
  | log => exact ha.log hq
  | sqrt => exact ha.sqrt hq
  | cbrt => exact ha.cbrt hq
  | sin => exact ha.sin hq
  | cos => exact ha.cos hq
  | tan => exact ha.tan hq
  | sinh => exact ha.sinh hq
  | cosh => exact ha.cosh hq
  | tanh => exact ha.tanh hq
  | atanh => exact ha.atanh hq
  | atan => exact ha.atanWith hq _
  | neg => exact ⟨_, rfl, ha.neg.weaken⟩
  | powQ α => exact ha.powQ hq hf.1 hf.2
  | asinh => exact hf.elim
  | acosh => exact hf.elim
  | asin => exact hf.elim
  | acos => exact hf.elim
  | powInt z => exact hf.elim
  | powBase b => exact hf.elim

/-- **C100** For every value, NaN and infinities included, the functions end without exception. The value of the result is that of the library function; only if the argument is not
a number it may be NaN instead. -/
theorem C100_value {f : Fn} (hf : f.Same) (hd : d.Valid) (h0 : d.constantCf = .ok p0) :
    ∃ r c, f.run d = .ok r ∧ r.constantCf = .ok c ∧ (c = f.num p0 ∨ NonFinite p0 ∧ IsNaN c) := by
  obtain ⟨r, h1, h2⟩ := Fn.run_cst' hf (Cst.of_ok hd.wf h0) (fin_or p0)
  obtain ⟨c, h3, h4⟩ := h2.ok_or
  exact ⟨r, c, h1, h3, h4⟩

/-- The functions which give NaN for NaN; all but the powers (`pow(NaN, 0)` is 1). -/
def Fn.KeepsNaN : Fn → Prop
  | powQ _ | powInt _ | powBase _ => False
  | _ => True

theorem Fn.nan_num {f : Fn} (hf : f.Same) (hk : f.KeepsNaN) {x : XF F} (hx : IsNaN x) : IsNaN (f.num x) := by
  cases f with
  | exp => exact XLibm.exp_nan x hx
  | log => exact XLibm.log_nan x hx
  | sqrt => exact XLibm.sqrt_nan x hx
  | cbrt => exact XLibm.cbrt_nan x hx
  | sin => exact XLibm.sin_nan x hx.nonFinite
  | cos => exact XLibm.cos_nan x hx.nonFinite
  | tan => exact XLibm.tan_nan x hx
  | sinh => exact XLibm.sinh_nan x hx
  | cosh => exact XLibm.cosh_nan x hx
  | tanh => exact XLibm.tanh_nan x hx
  | atanh => exact XLibm.atanh_nan x hx
  | atan => exact XLibm.atan_nan x hx
  | neg => exact absorbing_nan.neg _ hx
  | powQ α => exact hk.elim
  | asinh => exact hf.elim
  | acosh => exact hf.elim
  | asin => exact hf.elim
  | acos => exact hf.elim
  | powInt z => exact hf.elim
  | powBase b => exact hf.elim

theorem CN.fn {f : Fn} (hf : f.Same) (hk : f.KeepsNaN) {a : GDual (XF F)} (ha : CN a) : ∃ r, f.run a = .ok r ∧ CN r := by
  obtain ⟨r, h1, h2⟩ := Fn.run_cst' (P := True) hf ha.self (Or.inl trivial)
  exact ⟨r, h1, .of_cst h2 (Fn.nan_num hf hk ha.nan)⟩

/-- A root, NaN, added to something: `asinh` and `acosh`. -/
theorem CN.log_add {a s : GDual (XF F)} (ha : a.p.WF) (hs : CN s) : ∃ r, log (a.add s) = .ok r ∧ CN r :=
  CN.fn (f := .log) trivial trivial (CN.add_right ha hs)

/-- `asin`, with a root that is NaN. -/
theorem CN.asin {a : GDual (XF F)} {u : XF F} (ha : Cst False a u) (hu : Cf.isZero u = false) (h : ∃ s, sqrt ((a.mul a).subSG (Cf.ofRat 1)) = .ok s ∧ CN s) :
    (∃ r, GDual.asin a = .ok r ∧ CN r) ∧ ∃ r, GDual.acos a = .ok r ∧ CN r := by
  obtain ⟨s, h1, h2⟩ := h
  obtain ⟨q, h3, h4⟩ := CN.div ha hu h2
  obtain ⟨r, h5, h6⟩ := CN.fn (f := .atan) trivial trivial h4
  have h7 : GDual.asin a = .ok r := by unfold GDual.asin GDual.asinWith; rw [h1, res_bind, h3, res_bind]; exact h5
  exact ⟨⟨r, h7, h6⟩, _, by unfold GDual.acos GDual.acosWith; rw [show asinWith binomialU32 a = .ok r from h7, res_bind], h6.subSG _⟩

/-- **C100** A value which is NaN stays NaN through all functions but the powers. -/
theorem C100_nan {f : Fn} (hk : f.KeepsNaN) (hd : d.Valid) (h0 : d.constantCf = .ok p0) (hp : IsNaN p0) :
    ∃ r c, f.run d = .ok r ∧ r.constantCf = .ok c ∧ IsNaN c := by
  have hn : CN d := .of_cst (Cst.of_ok (P := False) hd.wf h0) hp
  suffices h : ∃ r, f.run d = .ok r ∧ CN r by
    obtain ⟨r, h1, h2⟩ := h
    obtain ⟨c, h3, h4⟩ := h2.ok
    exact ⟨r, c, h1, h3, h4⟩
  cases f with
  | asinh =>
    obtain ⟨s, h1, h2⟩ := CN.fn (f := .sqrt) trivial trivial (hn.sq.addSG (Cf.ofRat 1))
    obtain ⟨r, h3, h4⟩ := CN.log_add hn.wf h2
    exact ⟨r, by change GDual.asinh d = _; unfold GDual.asinh; rw [show sqrt ((d.mul d).addSG (Cf.ofRat 1)) = .ok s from h1, res_bind, h3], h4⟩
  | acosh =>
    obtain ⟨s, h1, h2⟩ := CN.fn (f := .sqrt) trivial trivial (hn.sq.subGS (Cf.ofRat 1))
    obtain ⟨r, h3, h4⟩ := CN.log_add hn.wf h2
    exact ⟨r, by change GDual.acosh d = _; unfold GDual.acosh; rw [show sqrt ((d.mul d).subGS (Cf.ofRat 1)) = .ok s from h1, res_bind, h3], h4⟩
  | asin => exact (CN.asin hn.self (absorbing_nan.nz _ hn.nan) (CN.fn (f := .sqrt) trivial trivial (hn.sq.subSG (Cf.ofRat 1)))).1
  | acos => exact (CN.asin hn.self (absorbing_nan.nz _ hn.nan) (CN.fn (f := .sqrt) trivial trivial (hn.sq.subSG (Cf.ofRat 1)))).2
  | powQ α => exact hk.elim
  | powInt z => exact hk.elim
  | powBase b => exact hk.elim
  | exp => exact CN.fn (f := .exp) trivial trivial hn
  | log => exact CN.fn (f := .log) trivial trivial hn
  | sqrt => exact CN.fn (f := .sqrt) trivial trivial hn
  | cbrt => exact CN.fn (f := .cbrt) trivial trivial hn
  | sin => exact CN.fn (f := .sin) trivial trivial hn
  | cos => exact CN.fn (f := .cos) trivial trivial hn
  | tan => exact CN.fn (f := .tan) trivial trivial hn
  | sinh => exact CN.fn (f := .sinh) trivial trivial hn
  | cosh => exact CN.fn (f := .cosh) trivial trivial hn
  | tanh => exact CN.fn (f := .tanh) trivial trivial hn
  | atanh => exact CN.fn (f := .atanh) trivial trivial hn
  | atan => exact CN.fn (f := .atan) trivial trivial hn
  | neg => exact CN.fn (f := .neg) trivial trivial hn

/-- **C100** Outside of the domain: square roots and logarithms of negative values, and `atanh` of values larger than 1, have the value NaN. -/
theorem C100_outside (hd : d.Valid) (h0 : d.constantCf = .ok p0) :
    (p0.Neg → (∃ r c, sqrt d = .ok r ∧ r.constantCf = .ok c ∧ IsNaN c) ∧ ∃ r c, log d = .ok r ∧ r.constantCf = .ok c ∧ IsNaN c) ∧
    (∀ q, p0.v = .fin q → 1 < |q| → ∃ r c, atanh d = .ok r ∧ r.constantCf = .ok c ∧ IsNaN c) := by
  have hc := Cst.of_ok (P := False) hd.wf h0
  refine ⟨fun hn => ⟨?_, ?_⟩, fun q hq h1 => ?_⟩
  · obtain ⟨r, h1, h2⟩ := hc.sqrt (P := True) (Or.inl trivial)
    obtain ⟨c, h3, h4⟩ := (CN.of_cst h2 (XLibm.sqrt_neg _ hn)).ok
    exact ⟨r, c, h1, h3, h4⟩
  · obtain ⟨r, h1, h2⟩ := hc.log (P := True) (Or.inl trivial)
    obtain ⟨c, h3, h4⟩ := (CN.of_cst h2 (XLibm.log_neg _ hn)).ok
    exact ⟨r, c, h1, h3, h4⟩
  · obtain ⟨r, h2, h3⟩ := hc.atanh (P := True) (Or.inl trivial)
    obtain ⟨c, h4, h5⟩ := (CN.of_cst h3 (XLibm.atanh_out _ q hq h1)).ok
    exact ⟨r, c, h2, h4, h5⟩

/-- **C100** Outside of the domain: `asin`, `acos` and `acosh` have the value NaN if the number under the root, as computed, is negative. -/
theorem C100_outside_inverse (hd : d.Valid) (h0 : d.constantCf = .ok p0) {q : ℚ} (hq : p0.v = .fin q) :
    ((Cf.sub Cf.one (Cf.mul p0 p0)).Neg → (∃ r c, asin d = .ok r ∧ r.constantCf = .ok c ∧ IsNaN c) ∧ ∃ r c, acos d = .ok r ∧ r.constantCf = .ok c ∧ IsNaN c) ∧
    ((Cf.sub (Cf.mul p0 p0) Cf.one).Neg → ∃ r c, acosh d = .ok r ∧ r.constantCf = .ok c ∧ IsNaN c) := by
  have hc := Cst.of_ok (P := False) hd.wf h0
  have h2 : Cst False (d.mul d) (Cf.mul p0 p0) := by have := hc.mul hc; rwa [cmul_fin hq hq] at this
  refine ⟨fun hn => ?_, fun hn => ?_⟩
  · obtain ⟨s, h3, h4⟩ := (h2.subSG (Cf.ofRat 1)).sqrt (P := True) (Or.inl trivial)
    have hu : Cf.isZero p0 = false := by
      rw [XF.isZero_false, hq]
      intro h5
      cases h5
      have h6 : (Cf.sub Cf.one (Cf.mul p0 p0)).v = .fin 1 := by
        have h7 : (Cf.mul p0 p0).v = .fin 0 := by rw [XF.mul_fin hq hq, zero_mul, F.rnd_zero]
        change (Cf.add Cf.one (Cf.neg (Cf.mul p0 p0))).v = _
        rw [XF.add_fin XF.one_v (XF.neg_fin h7), neg_zero, add_zero, F.rnd_one]
      rcases hn with hn | ⟨q, hq, hn⟩
      · rw [h6] at hn; simp at hn
      · rw [h6] at hn; cases hn; exact absurd hq (by norm_num)
    obtain ⟨⟨r, h5, h6⟩, r', h7, h8⟩ := CN.asin hc hu ⟨s, h3, .of_cst h4 (XLibm.sqrt_neg _ hn)⟩
    obtain ⟨c, h9, h10⟩ := h6.ok
    obtain ⟨c', h11, h12⟩ := h8.ok
    exact ⟨⟨r, c, h5, h9, h10⟩, r', c', h7, h11, h12⟩
  · obtain ⟨s, h3, h4⟩ := (h2.subGS (Cf.ofRat 1)).sqrt (P := True) (Or.inl trivial)
    obtain ⟨r, h5, h6⟩ := CN.log_add hd.wf (.of_cst h4 (XLibm.sqrt_neg _ hn))
    obtain ⟨c, h7, h8⟩ := h6.ok
    exact ⟨r, c, by unfold GDual.acosh; rw [h3, res_bind, h5], h7, h8⟩

/-- For `double`, the number under the root in `asin` and `acos` is negative for all values larger than 1, that in `acosh` for all values smaller than 1, in modulus. -/
theorem binary64_neg {x : XF .binary64} {q : ℚ} (hx : x.v = .fin q) : (1 < |q| → (Cf.sub Cf.one (Cf.mul x x)).Neg) ∧ (|q| < 1 → (Cf.sub (Cf.mul x x) Cf.one).Neg) := by
  have hr : round64 q = q ∧ |q| < 2 ^ 1024 := by
    have h1 : rnd64 q = .fin q := x.repr q hx
    unfold rnd64 at h1
    split_ifs at h1 with h2
    simp only [Xv.fin.injEq] at h1
    rw [h1] at h2
    exact ⟨h1, h2⟩
  have ha : round64 |q| = |q| := by
    rcases abs_choice q with h | h
    · rw [h, hr.1]
    · rw [h, round64_neg, hr.1]
  have hm : (Cf.mul x x).v = rnd64 (q * q) := XF.mul_fin hx hx
  have hqq : q * q = |q| * |q| := (abs_mul_abs_self q).symm
  have hpos := two_zpow_pos (K := ℚ) (-53)
  refine ⟨fun h => ?_, fun h => ?_⟩
  · have h1 : |q| ≤ round64 (q * q) := by
      have := round64_mono (show |q| ≤ q * q by rw [hqq]; nlinarith)
      rwa [ha] at this
    change (Cf.add Cf.one (Cf.neg (Cf.mul x x))).Neg
    unfold rnd64 at hm
    split_ifs at hm with h2
    · have h3 := round64_gt_one (round64_idem (q * q)) (h.trans_le h1)
      have h4 := XF.add_fin (F := .binary64) XF.one_v (XF.neg_fin hm)
      rcases rnd64_neg_of_le (y := 1 + -round64 (q * q)) (by linarith) with h5 | ⟨r, hr0, h5⟩
      · exact Or.inl (h4.trans h5)
      · exact Or.inr ⟨r, hr0, h4.trans h5⟩
    · rw [decide_eq_false (not_lt.mpr (mul_self_nonneg q))] at hm
      refine Or.inl ?_
      rw [XF.add_def]
      unfold XF.add
      rw [XF.one_v, XF.neg_def, show (XF.neg (Cf.mul x x)).v = (Cf.mul x x).v.neg from rfl, hm]
      rfl
  · have h1 : round64 (q * q) ≤ |q| := by
      have := round64_mono (show q * q ≤ |q| by rw [hqq]; nlinarith [abs_nonneg q])
      rwa [ha] at this
    have h0 : 0 ≤ round64 (q * q) := by
      have := round64_mono (mul_self_nonneg q)
      rwa [round64_zero] at this
    change (Cf.add (Cf.mul x x) (Cf.neg Cf.one)).Neg
    unfold rnd64 at hm
    rw [if_pos (by rw [abs_of_nonneg h0]; exact h1.trans_lt hr.2)] at hm
    have h3 := round64_lt_one (round64_idem (q * q)) (h1.trans_lt h)
    have h4 := XF.add_fin (F := .binary64) hm (XF.neg_fin XF.one_v)
    rcases rnd64_neg_of_le (y := round64 (q * q) + -1) (by linarith) with h5 | ⟨r, hr0, h5⟩
    · exact Or.inl (h4.trans h5)
    · exact Or.inr ⟨r, hr0, h4.trans h5⟩

/-- **C100** For `double`: `asin` and `acos` of all values larger than 1, and `acosh` of all values smaller than 1 (in modulus), have the value NaN. -/
theorem C100_outside_double [XLibm .binary64] {d : GDual (XF .binary64)} {p0 : XF .binary64} (hd : d.Valid) (h0 : d.constantCf = .ok p0) {q : ℚ} (hq : p0.v = .fin q) :
    (1 < |q| → (∃ r c, asin d = .ok r ∧ r.constantCf = .ok c ∧ IsNaN c) ∧ ∃ r c, acos d = .ok r ∧ r.constantCf = .ok c ∧ IsNaN c) ∧
    (|q| < 1 → ∃ r c, acosh d = .ok r ∧ r.constantCf = .ok c ∧ IsNaN c) :=
  ⟨fun h => (C100_outside_inverse hd h0 hq).1 ((binary64_neg hq).1 h), fun h => (C100_outside_inverse hd h0 hq).2 ((binary64_neg hq).2 h)⟩

/-- **C100** Poles: `log` at 0 and `atanh` at 1 and -1 have an infinite value. -/
theorem C100_pole (hd : d.Valid) (h0 : d.constantCf = .ok p0) :
    (p0.v = .fin 0 → ∃ r c, log d = .ok r ∧ r.constantCf = .ok c ∧ c.v = .inf true) ∧
    (∀ q, p0.v = .fin q → |q| = 1 → ∃ r c, atanh d = .ok r ∧ r.constantCf = .ok c ∧ c.v = .inf (decide (q < 0))) := by
  have hc := Cst.of_ok (P := False) hd.wf h0
  refine ⟨fun hq => ?_, fun q hq h1 => ?_⟩
  · obtain ⟨r, h1, h2⟩ := hc.log (P := False) (Or.inr ⟨0, hq⟩)
    exact ⟨r, _, h1, h2.ok, XLibm.log_zero _ hq⟩
  · obtain ⟨r, h2, h3⟩ := hc.atanh (P := False) (Or.inr ⟨q, hq⟩)
    exact ⟨r, _, h2, h3.ok, XLibm.atanh_one _ q hq h1⟩

/-- **C100** Square and cubic roots of gduals with the value 0 are 0, without any terms: the derivatives, which are infinite, are lost, and so are NaN coefficients. -/
theorem C100_root_zero (hd : d.Valid) (h0 : d.constantCf = .ok p0) (hp : p0.v = .fin 0) :
    (∃ r, sqrt d = .ok r ∧ r.p.terms = []) ∧ ∃ r, cbrt d = .ok r ∧ r.p.terms = [] := by
  constructor
  · obtain ⟨r, h1, h2, -⟩ := rootSeries_zero hd.wf (Cf.ofRat (1 / 2)) p0 (XLibm.sqrt_zero p0 hp)
    exact ⟨r, by unfold GDual.sqrt; rw [h0, res_bind, show guardFinite (CfFun.sqrtOk p0) = .ok () from rfl, res_bind]; exact h1, h2.nil⟩
  · obtain ⟨r, h1, h2, -⟩ := rootSeries_zero hd.wf (Cf.div (Cf.ofRat 1) (Cf.ofRat 3)) p0 (XLibm.cbrt_zero p0 hp)
    exact ⟨r, by unfold GDual.cbrt; rw [h0, res_bind]; exact h1, h2.nil⟩

theorem sqrt_zero_sub (hd : d.p.WF) (h0 : d.constantCf = .ok p0) (hp : p0.v = .fin 0) : ∃ r, sqrt d = .ok r ∧ NoTerms r ∧ Sub d r := by
  obtain ⟨r, h1, h2, h3⟩ := rootSeries_zero hd (Cf.ofRat (1 / 2)) p0 (XLibm.sqrt_zero p0 hp)
  exact ⟨r, by unfold GDual.sqrt; rw [h0, res_bind, show guardFinite (CfFun.sqrtOk p0) = .ok () from rfl, res_bind]; exact h1, h2, h3⟩

/-- **C100** `acosh` of a gdual with the value 1 is its logarithm, with finite derivatives; those of `acosh` are infinite there. -/
theorem C100_acosh_one (hd : d.Valid) (h0 : d.constantCf = .ok p0) (hp : p0.v = .fin 1) : acosh d = log d := by
  have hp1 : p0 = Cf.one := XF.ext (hp.trans XF.one_v.symm)
  subst hp1
  have hc := Cst.of_ok (P := False) hd.wf h0
  have h2 : Cst False ((d.mul d).subGS (Cf.ofRat 1)) Cf.zero := by
    have := (hc.mul hc).subGS (Cf.ofRat 1)
    rw [cmul_one_left] at this
    rwa [show (Cf.add (Cf.one : XF F) (Cf.neg (Cf.ofRat 1))) = Cf.zero from XF.cancel' XF.one_v] at this
  obtain ⟨s, h3, h4, h5⟩ := sqrt_zero_sub h2.wf h2.ok XF.zero_v
  have hs : Sub d ((d.mul d).subGS (Cf.ofRat 1)) := ((Sub.refl hd.wf).mul (Sub.refl hd.wf)).subGS _
  unfold GDual.acosh
  rw [h3, res_bind, add_noTerms hd.wf h4 (fun x hx => hs.syms x (h5.syms x hx)) (h5.order.trans hs.order)]

theorem XF.inf_or (t : Bool) : Cf.add (Cf.ofRat 1) (Cf.mul (XF.inf F t) (XF.inf F t)) = XF.inf F false := by
  refine XF.ext ?_
  have h1 : (Cf.mul (XF.inf F t) (XF.inf F t)) = XF.inf F false := by
    refine XF.ext ?_
    rw [XF.mul_def]
    cases t <;> rfl
  rw [h1, XF.add_def]
  unfold XF.add
  rw [show (Cf.ofRat 1 : XF F).v = .fin 1 from XF.one_v]
  rfl

/-- `atan` of a gdual with an infinite value: a constant. -/
theorem atan_inf_const (hd : d.p.WF) {t : Bool} (h0 : d.constantCf = .ok (XF.inf F t)) :
    ∃ r, GDual.atan d = .ok r ∧ Cst False r (XLibm.atan (XF.inf F t)) ∧ ∀ E, E ≠ 0 → ¬ Occurs r.p E := by
  have h1 : (d.subGS (XF.inf F t)).divGS (Cf.add (Cf.ofRat 1) (Cf.mul (XF.inf F t) (XF.inf F t))) = .ok ((d.subGS (XF.inf F t)).mulGS (Cf.div Cf.one (XF.inf F false))) := by
    rw [XF.inf_or]; simp [GDual.divGS, XF.isUnit_true]
  have hph : NoTerms ((d.subGS (XF.inf F t)).mulGS (Cf.div Cf.one (XF.inf F false))) := zero_mulGS (wf_subGS hd _) (inv_inf false)
  generalize (d.subGS (XF.inf F t)).mulGS (Cf.div Cf.one (XF.inf F false)) = ph at h1 hph
  obtain ⟨st, h2, h3, h4, -⟩ := foldlM_inv (f := atanStep binomialU32 (XF.inf F t) ph)
    (Q := fun s : AtanSt (XF F) => Cst False s.retval (XLibm.atan (XF.inf F t)) ∧ (∀ E, E ≠ 0 → ¬ Occurs s.retval.p E) ∧ NoTerms s.powphat)
    (fun s k hs => by
      have hadd : ∀ q : GDual (XF F), NoTerms q → Cst False (s.retval.add q) (XLibm.atan (XF.inf F t)) ∧ ∀ E, E ≠ 0 → ¬ Occurs (s.retval.add q).p E := fun q hq =>
        ⟨hs.1.add_z hq.cst, fun E hE ho => (occurs_add hs.1.wf hq.wf ho).elim (hs.2.1 E hE) (hq.no E)⟩
      unfold atanStep
      split_ifs
      · obtain ⟨r, hr1, hr2⟩ := ((hs.2.2.mulSG (atanOdd binomialU32 (XF.inf F t) k)).mulGS s.coeff1).divGS (Cf.ofRat (k : ℚ))
        exact ⟨_, by rw [hr1, res_bind], (hadd r hr2).1, (hadd r hr2).2, hs.2.2.mul_left hph.wf⟩
      · obtain ⟨r, hr1, hr2⟩ := ((hs.2.2.mulSG (atanEven binomialU32 (XF.inf F t) k)).mulGS s.coeff2).divGS (Cf.ofRat (k : ℚ))
        exact ⟨_, by rw [hr1, res_bind], (hadd r hr2).1, (hadd r hr2).2, hs.2.2.mul_left hph.wf⟩)
    (List.range' 1 d.order) (s := ⟨GDual.ofCf (XLibm.atan (XF.inf F t)), ph, Cf.ofRat 1, Cf.ofRat (-1)⟩) ⟨Cst.ofCf _, fun E hE ho => hE (occurs_const ho), hph⟩
  refine ⟨st.retval, ?_, h3, h4⟩
  unfold GDual.atan GDual.atanWith
  rw [h0, res_bind, h1, res_bind, show CfFun.atan (XF.inf F t) = XLibm.atan (XF.inf F t) from rfl, h2, res_bind]

/-- **C100** `atan` of a gdual with an infinite value is a constant, as it should. -/
theorem C100_atan_inf (hd : d.Valid) {t : Bool} (h0 : d.constantCf = .ok (XF.inf F t)) :
    ∃ r, GDual.atan d = .ok r ∧ r.constantCf = .ok (XLibm.atan (XF.inf F t)) ∧ ∀ E, E ≠ 0 → ¬ r.Present E := by
  obtain ⟨r, h1, h2, h3⟩ := atan_inf_const hd.wf h0
  exact ⟨r, h1, h2.ok, h3⟩

/-- **C100** `asin` and `acos` of a gdual with the value 1 or -1 are constants: all the derivatives, which are infinite, are lost. -/
theorem C100_asin_one (hd : d.Valid) (h0 : d.constantCf = .ok p0) {q : ℚ} (hp : p0.v = .fin q) (hq : |q| = 1) :
    ∃ r r', asin d = .ok r ∧ acos d = .ok r' ∧ r.constantCf = .ok (XLibm.atan (XF.inf F (decide (q < 0)))) ∧ ∀ E, E ≠ 0 → ¬ r.Present E ∧ ¬ r'.Present E := by
  have hc := Cst.of_ok (P := False) hd.wf h0
  have hq2 : q * q = 1 := by rw [← abs_mul_abs_self, hq, mul_one]
  have h2 : Cst False (GDual.subSG (Cf.ofRat 1) (d.mul d)) Cf.zero := by
    have := (hc.mul hc).subSG (Cf.ofRat 1)
    rw [cmul_fin hp hp] at this
    have h3 : Cf.mul p0 p0 = Cf.one := XF.ext (by rw [XF.mul_fin hp hp, hq2, XF.one_v]; exact F.rnd_one)
    rw [h3] at this
    rwa [show (Cf.add (Cf.ofRat 1 : XF F) (Cf.neg Cf.one)) = Cf.zero from XF.cancel' XF.one_v] at this
  obtain ⟨s, h3, h4, -⟩ := sqrt_zero_sub h2.wf h2.ok XF.zero_v
  obtain ⟨e, h5, h6⟩ := hc.div h4.cst (Or.inr ⟨0, XF.zero_v⟩)
  have h7 : cmul p0 (Cf.div Cf.one Cf.zero) = XF.inf F (decide (q < 0)) := by
    have hq0 : q ≠ 0 := by rintro rfl; simp at hq
    have h8 := XF.inv_zero (a := (Cf.zero : XF F)) XF.zero_v
    unfold cmul
    rw [if_neg]
    · refine XF.ext ?_
      rw [XF.mul_def]
      unfold XF.mul
      rw [hp, h8]
      simp only
      rw [if_neg hq0]
      simp [XF.inf]
    · rw [XF.isZero_iff, XF.isZero_iff, hp, h8]
      simpa using hq0
  rw [h7] at h6
  obtain ⟨r, h8, h9, h10⟩ := atan_inf_const h6.wf h6.ok
  have h11 : asin d = .ok r := by unfold GDual.asin GDual.asinWith; rw [h3, res_bind, h5, res_bind]; exact h8
  refine ⟨r, _, h11, by unfold GDual.acos GDual.acosWith; rw [show asinWith binomialU32 d = .ok r from h11, res_bind], h9.ok, fun E hE => ⟨h10 E hE, fun ho => ?_⟩⟩
  rcases occurs_add (wf_const _) (wf_neg h9.wf) (E := E) ho with h | h
  · exact hE (occurs_const h)
  · exact h10 E hE (phas_neg_iff.mp h)

/-- **C100** If `exp` of the value underflows, the exponential has no terms: NaN coefficients are lost. -/
theorem C100_exp_hides (hd : d.Valid) (h0 : d.constantCf = .ok p0) (hp : (XLibm.exp p0).v = .fin 0) : ∃ r, exp d = .ok r ∧ r.p.terms = [] := by
  obtain ⟨st, h1, -⟩ := foldlM_inv (f := expStep (d.subGS p0)) (Q := fun s : ExpSt (XF F) => s.phat.p.WF ∧ s.fact.p.WF)
    (fun s i hs => by
      have hw : (s.fact.mulGS (Cf.ofRat (i : ℚ))).p.WF := wf_mulGS hs.2 _
      exact ⟨_, by unfold expStep; simp only; rw [div_eq XF.isUnit_true _ (constantCf_cfAt hw)]; rfl, wf_gmul hs.1 (wf_subGS hd.wf p0), hw⟩)
    (List.range' 2 (d.order - 1)) (s := ⟨(GDual.ofRat 1).add (d.subGS p0), GDual.ofRat 1, d.subGS p0⟩) ⟨wf_subGS hd.wf p0, wf_const _⟩
  exact ⟨st.retval.mulGS (XLibm.exp p0), by unfold GDual.exp; rw [h0, res_bind]; simp only; rw [h1, res_bind]; rfl, mulGS_zero _ hp⟩

/-- `1 + dx`, order 1. -/
def oneX1 : GDual (XF .binary64) := ⟨⟨["dx"], [([1], Cf.one), ([0], Cf.one)]⟩, 1⟩

theorem oneX1_valid : oneX1.Valid where
  wf := oneX_valid.wf
  deg := by intro t ht; simp only [oneX1, List.mem_cons, List.not_mem_nil, or_false] at ht; rcases ht with rfl | rfl <;> simp [oneX1]

/-- **C100** (the claim that infinite derivatives show as infinities or NaN is false) `sqrt(dx)` has no terms, `asin(1 + dx)` and `acos(1 + dx)` have no derivatives, and `acosh(1 + dx)` has
the derivative 1, with every library. -/
theorem C100_counterexample [XLibm .binary64] : (∃ r, sqrt zeroX = .ok r ∧ r.p.terms = []) ∧ (∃ r, cbrt zeroX = .ok r ∧ r.p.terms = []) ∧
    (∃ r r', asin oneX = .ok r ∧ acos oneX = .ok r' ∧ ∀ E, E ≠ 0 → ¬ r.Present E ∧ ¬ r'.Present E) ∧
    ∃ r, acosh oneX1 = .ok r ∧ HasAt (· = Cf.one) r (Finsupp.single "dx" 1) := by
  have hz := C100_root_zero zeroX_valid (p0 := Cf.zero) rfl XF.zero_v
  obtain ⟨r, r', h1, h2, -, h3⟩ := C100_asin_one oneX_valid (p0 := Cf.one) rfl XF.one_v abs_one
  refine ⟨hz.1, hz.2, ⟨r, r', h1, h2, h3⟩, ?_⟩
  rw [C100_acosh_one oneX1_valid (p0 := Cf.one) rfl XF.one_v]
  have hw : oneX1.p.WF := oneX1_valid.wf
  have hc : oneX1.constantCf = .ok (Cf.one : XF .binary64) := rfl
  have hE : toExp oneX1.p.syms [1] = Finsupp.single "dx" 1 := by simp [oneX1, toExp]
  have hE0 : (Finsupp.single "dx" 1 : String →₀ ℕ) ≠ 0 := by simp
  set ph := (oneX1.subGS (Cf.one : XF .binary64)).mulGS (Cf.div Cf.one Cf.one) with hph
  have hs : (oneX1.subGS (Cf.one : XF .binary64)).p.WF := wf_subGS hw _
  have h4 : PHas (· = (Cf.one : XF .binary64)) (oneX1.subGS (Cf.one : XF .binary64)).p (Finsupp.single "dx" 1) :=
    (phas_subGS hw _ hE0).mpr ⟨([1], Cf.one), by simp [oneX1], rfl, hE⟩
  have h5 : cfAt ph.p (Finsupp.single "dx" 1) = Cf.one := by
    rw [hph, cfAt_mulGS hs _ (by simp [GDual.subGS, oneX1]), phas_cfAt hs h4, XF.one_div_one, cmul_one_left]
  have hpw : ph.p.WF := wf_mulGS hs _
  refine ⟨GDual.addSG (XLibm.log Cf.one) ph, ?_, ?_⟩
  · unfold GDual.log
    rw [hc, res_bind]
    simp only
    rw [show guardFinite (CfFun.logOk (Cf.one : XF .binary64)) = .ok () from rfl, res_bind, divGS_ok, res_bind]
    rfl
  · have h6 : cfAt (GDual.addSG (XLibm.log (Cf.one : XF .binary64)) ph).p (Finsupp.single "dx" 1) = Cf.one := by
      have := cfAt_add (wf_const (XLibm.log (Cf.one : XF .binary64))) hpw (Finsupp.single "dx" 1)
      rw [cfAt_const_ne _ hE0, h5, CfZero.zero_add] at this
      exact this
    exact phas_of_cfAt (N := (· = (Cf.one : XF .binary64))) XF.isZero_zero h6 (by rw [h6]; exact XF.isZero_one) ((wf_const _).add hpw)

/-- `NaN dx`, order 1. -/
def nanD : GDual (XF .binary64) := ⟨⟨["dx"], [([1], XF.nan _)]⟩, 1⟩

theorem nanD_valid : nanD.Valid where
  wf := ⟨by simp [nanD], by simp [nanD], by simp [nanD], by
    intro t ht
    simp only [nanD, List.mem_cons, List.not_mem_nil, or_false] at ht
    rcases ht with rfl
    exact absorbing_nan.nz _ rfl⟩
  deg := by intro t ht; simp only [nanD, List.mem_cons, List.not_mem_nil, or_false] at ht; rcases ht with rfl; simp [nanD]

/-- **C100** (the claim that NaN coefficients are kept is false) `cos(NaN dx)` to the order 1 is 1, with every library: the sine of the value is 0, and scaling by 0 removes NaN. -/
theorem C100_cos_counterexample [XLibm .binary64] : HasAt IsNaN nanD (Finsupp.single "dx" 1) ∧ ∃ r, cos nanD = .ok r ∧ r.constantCf = .ok Cf.one ∧ ∀ E, E ≠ 0 → ¬ r.Present E := by
  refine ⟨⟨([1], XF.nan _), by simp [nanD], rfl, by simp [nanD, toExp]⟩, ?_⟩
  have hc : nanD.constantCf = .ok (Cf.zero : XF .binary64) := rfl
  have hs : (nanD.subGS (Cf.zero : XF .binary64)).p.WF := wf_subGS nanD_valid.wf _
  have hz := XLibm.sin_zero (F := .binary64) Cf.zero XF.zero_v
  have h1 : NoTerms (GDual.mulSG (XLibm.sin (Cf.zero : XF .binary64)) (nanD.subGS (Cf.zero : XF .binary64))) := by
    have : NoTerms (GDual.ofCfOrder (XLibm.sin (Cf.zero : XF .binary64)) (nanD.subGS (Cf.zero : XF .binary64)).order) :=
      .of_nil (wf_const _) (by simp [GDual.ofCfOrder, Poly.const, insertTerm, (XF.isZero_iff _).mpr hz])
    exact this.mul_left hs
  obtain ⟨r, h2, h3⟩ := (Cst.of_ok (P := False) nanD_valid.wf hc).cos (P := False) (Or.inr ⟨0, XF.zero_v⟩)
  have h4 : cos nanD = .ok ((GDual.mulSG (XLibm.cos (Cf.zero : XF .binary64)) (GDual.ofRat 1)).sub (GDual.mulSG (XLibm.sin (Cf.zero : XF .binary64)) (nanD.subGS (Cf.zero : XF .binary64)))) := by
    unfold GDual.cos
    rw [hc, res_bind]
    rfl
  rw [h4] at h2
  cases h2
  have h5 : XLibm.cos (Cf.zero : XF .binary64) = Cf.one := XF.ext (by rw [XLibm.cos_zero _ XF.zero_v, XF.one_v])
  refine ⟨_, h4, by rw [h3.ok, h5], fun E hE ho => ?_⟩
  rcases occurs_add (wf_mulSG (wf_const _) _) (wf_neg h1.wf) (E := E) ho with h | h
  · obtain ⟨A, B, h6, h7, h8, -⟩ := occurs_truncMul (wf_const _) (wf_const _) h
    exact hE (by rw [← h8, occurs_const h6, occurs_const h7, add_zero])
  · exact h1.no E (phas_neg_iff.mp h)

end Audi
