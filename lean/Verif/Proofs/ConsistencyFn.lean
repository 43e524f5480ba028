import Verif.Proofs.Consistency
import Verif.Proofs.Deriv
import Verif.Proofs.FunctionsPow
import Verif.Proofs.ExprSyms
import Verif.Props.C21_AD

/-! Limits of the functions of gduals with rounded coefficients. -/

set_option linter.unusedSectionVars false

namespace Audi

open MvPolynomial Spec Filter Topology GDual

variable {A : ℕ}

namespace Ap
variable {g h : (S : Arith A) → GDual (Fl S.R)} {G H : GDual ℝ} {x : (S : Arith A) → Fl S.R} {X : ℝ}

/-! ### Division -/

theorem divSeries (hx : Apx x X) (h0 : X ≠ 0) (hg : Ap g G) : RR Ap (fun S => GDual.divSeries (g S) (x S)) (GDual.divSeries G X) := by
  refine hg.fixed (fun S d => GDual.divSeries d (x S)) fun q hq => ?_
  simp only [GDual.divSeries]
  refine (divGS hx h0 (subGS hx hq)).bind fun t T ht => RR.pure ?_
  have h1 := rel_foldl (A := A) (σ := fun S => DivSt (Fl S.R)) (τ := DivSt ℝ)
    (Rel := fun s t => Ap (fun S => (s S).retval) t.retval ∧ Apx (fun S => (s S).fatt) t.fatt ∧ Ap (fun S => (s S).phat) t.phat)
    (step := fun S s _ => divStep (t S) s) (Step := fun s _ => divStep T s) (List.range' 2 (G.order - 1))
    (s := fun S => ⟨(GDual.ofRat 1).sub (t S), Cf.ofRat (-1), t S⟩) (t := ⟨(GDual.ofRat 1).sub T, Cf.ofRat (-1), T⟩)
    (fun s u i _ hs => ?_) ⟨(ofRat 1).sub ht, Apx.ofRat _, ht⟩
  · exact h1.1
  · obtain ⟨h1, h2, h3⟩ := hs
    have h4 := (Apx.ofRat (-1)).mul h2
    have h5 := h3.mul ht
    exact ⟨h1.add (mulSG h4 h5), h4, h5⟩

theorem div (hg : Ap g G) (hh : Ap h H) (h0 : c0 H ≠ 0) : RR Ap (fun S => (g S).div (h S)) (G.div H) := by
  simp only [GDual.div]
  refine bind_constantCf hh fun p hp => ?_
  have h1 : Cf.isUnit (coeff 0 (H.toMv ()) : ℝ) = true := by simpa [Cf.isUnit, c0] using h0
  rw [if_pos h1]
  refine (RR.bind (f := fun S t => ((g S).mul t).divGS (p S)) (divSeries hp h0 hh) fun t T ht => divGS hp h0 (hg.mul ht)).congr ?_
  filter_upwards [hp.ne_zero h0] with S h2
  rw [if_pos (by simpa [Cf.isUnit] using h2)]

theorem divSG (hx : Apx x X) (hh : Ap h H) (h0 : c0 H ≠ 0) : RR Ap (fun S => GDual.divSG (x S) (h S)) (GDual.divSG X H) := by
  simp only [GDual.divSG]
  refine bind_constantCf hh fun p hp => ?_
  have h1 : Cf.isUnit (coeff 0 (H.toMv ()) : ℝ) = true := by simpa [Cf.isUnit, c0] using h0
  rw [if_pos h1]
  refine (RR.bind (f := fun S t => (t.mulSG (x S)).divGS (p S)) (divSeries hp h0 hh) fun t T ht => divGS hp h0 (mulSG hx ht)).congr ?_
  filter_upwards [hp.ne_zero h0] with S h2
  rw [if_pos (by simpa [Cf.isUnit] using h2)]

/-! ### exp and log -/

theorem exp (hg : Ap g G) : RR Ap (fun S => (g S).exp) G.exp := by
  refine hg.fixed (fun S d => d.exp) fun q hq => ?_
  simp only [GDual.exp]
  refine bind_constantCf hq fun p hp => ?_
  have hphat := subGS hp hq
  have he : Apx (fun S => (CfFun.exp (p S) : Fl S.R)) (CfFun.exp (coeff 0 (G.toMv ()))) :=
    hp.fn (D := fun _ => True) Real.differentiableAt_exp (by simp) fun S t _ => S.acc_err (S.libm.exp_err t)
  refine RR.bind (Rel := fun s t => Ap (fun S => (s S).retval) t.retval ∧ (Ap (fun S => (s S).fact) t.fact ∧ c0 t.fact ≠ 0) ∧ Ap (fun S => (s S).phat) t.phat)
    (RR.foldlM _ (fun s u i hi hs => ?_) ?_) fun s u hs => RR.pure (mulGS he hs.1)
  · obtain ⟨h1, ⟨h2, h3⟩, h4⟩ := hs
    have h5 := h4.mul hphat
    have h6 := mulGS (Apx.ofRat i) h2
    have h7 : c0 (u.fact.mulGS (Cf.ofRat i : ℝ)) ≠ 0 := by
      rw [c0_mulGS _ h2.limit, ofRat_real]
      have : i ≠ 0 := by have := (List.mem_range'_1.1 hi).1; omega
      exact mul_ne_zero h3 (by exact_mod_cast this)
    simp only [expStep]
    exact (div h5 h6 h7).bind fun t T ht => RR.pure ⟨h1.add ht, ⟨h6, h7⟩, h5⟩
  · exact ⟨(ofRat 1).add hphat, ⟨ofRat 1, by rw [GDual.ofRat, c0_ofCf, ofRat_real]; norm_num⟩, hphat⟩

theorem log (hg : Ap g G) (h0 : 0 < c0 G) : RR Ap (fun S => (g S).log) G.log := by
  refine hg.fixed (fun S d => d.log) fun q hq => ?_
  simp only [GDual.log]
  refine bind_constantCf hq fun p hp => ?_
  change 0 < coeff 0 (G.toMv ()) at h0
  have hl : Apx (fun S => (CfFun.log (p S) : Fl S.R)) (CfFun.log (coeff 0 (G.toMv ()))) :=
    hp.fn (D := fun t => 0 < t) (Real.differentiableAt_log h0.ne') (lt_mem_nhds h0) fun S t ht => S.acc_err (S.libm.log_err t ht)
  refine RR.guard ?_ (by simpa [CfFun.logOk] using h0) ?_
  · filter_upwards [hp.tendsto.eventually (lt_mem_nhds h0)] with S h1
    simpa [CfFun.logOk] using h1
  refine (divGS hp h0.ne' (subGS hp hq)).bind fun t T ht => ?_
  refine RR.bind (Rel := fun s t => Ap (fun S => (s S).retval) t.retval ∧ Ap (fun S => (s S).fatt) t.fatt ∧ Ap (fun S => (s S).phat) t.phat)
    (RR.foldlM _ (fun s u i hi hs => ?_) ?_) fun s u hs => RR.pure hs.1
  · obtain ⟨h1, h2, h4⟩ := hs
    have h5 := h4.mul ht
    have h6 := mulGS (Apx.ofRat (-1)) h2
    have : i ≠ 0 := by have := (List.mem_range'_1.1 hi).1; omega
    simp only [logStep]
    exact (divGS (Apx.ofRat i) (by rw [ofRat_real]; exact_mod_cast this) (h6.mul h5)).bind fun t T ht => RR.pure ⟨h1.add ht, h6, h5⟩
  · exact ⟨addSG hl ht, ofRat 1, ht⟩

theorem powG (hg : Ap g G) (h0 : 0 < c0 G) (hh : Ap h H) : RR Ap (fun S => (g S).powG (h S)) (G.powG H) := by
  simp only [GDual.powG]
  exact (log hg h0).bind fun t T ht => exp (hh.mul ht)

/-! ### Roots -/

theorem binomialC {X : ℝ} (hx : Apx x X) (y : ℕ) : Apx (fun S => GDual.binomialC (x S) y) (GDual.binomialC X y) := by
  simp only [GDual.binomialC]
  refine rel_foldl (Rel := fun s t => Apx s t) _ (fun s u i hi hs => ?_) hx
  refine (hs.mul (hx.sub (Apx.ofRat i))).div (Apx.ofRat _) ?_
  rw [ofRat_real]
  exact_mod_cast i.succ_ne_zero

theorem rootSeries {α a p : (S : Arith A) → Fl S.R} {P B C : ℝ} (hα : Apx α B) (hp : Apx p P) (h0 : P ≠ 0) (ha : Apx a C) (hg : Ap g G) :
    RR Ap (fun S => GDual.rootSeries (g S) (α S) (p S) (a S)) (GDual.rootSeries G B P C) := by
  refine hg.fixed (fun S d => GDual.rootSeries d (α S) (p S) (a S)) fun q hq => ?_
  simp only [GDual.rootSeries]
  refine (divGS hp h0 (subGS hp hq)).bind fun t T ht => RR.pure (mulGS ha ?_)
  have h1 := rel_foldl (A := A) (σ := fun S => PowSt (Fl S.R)) (τ := PowSt ℝ)
    (Rel := fun s t => Ap (fun S => (s S).retval) t.retval ∧ Ap (fun S => (s S).phat) t.phat)
    (step := fun S s i => rootStep (α S) (t S) s i) (Step := fun s i => rootStep B T s i) (List.range' 2 (G.order - 1))
    (s := fun S => ⟨(GDual.ofRat 1).add ((t S).mulSG (α S)), t S⟩) (t := ⟨(GDual.ofRat 1).add (T.mulSG B), T⟩)
    (fun s u i _ hs => ?_) ⟨(ofRat 1).add (mulSG hα ht), ht⟩
  · exact h1.1
  · have h2 := hs.2.mul ht
    exact ⟨hs.1.add (mulSG (binomialC hα i) h2), h2⟩

theorem sqrt (hg : Ap g G) (h0 : 0 < c0 G) : RR Ap (fun S => (g S).sqrt) G.sqrt := by
  simp only [GDual.sqrt]
  refine bind_constantCf hg fun p hp => ?_
  change 0 < coeff 0 (G.toMv ()) at h0
  refine RR.guard ?_ (by simpa [CfFun.sqrtOk] using h0.le) (rootSeries (Apx.ofRat _) hp h0.ne' ?_ hg)
  · filter_upwards [hp.tendsto.eventually (lt_mem_nhds h0)] with S h1
    simpa [CfFun.sqrtOk] using h1.le
  · exact hp.fn (D := fun t => 0 ≤ t) (Real.hasDerivAt_sqrt h0.ne').differentiableAt ((lt_mem_nhds h0).mono fun _ h => h.le) fun S t ht => S.acc_err (S.libm.sqrt_err t ht)

theorem cbrt (hg : Ap g G) (h0 : c0 G ≠ 0) : RR Ap (fun S => (g S).cbrt) G.cbrt := by
  simp only [GDual.cbrt]
  refine bind_constantCf hg fun p hp => ?_
  refine rootSeries ((Apx.ofRat 1).div (Apx.ofRat 3) (by rw [ofRat_real]; norm_num)) hp h0 ?_ hg
  exact hp.fn (D := fun _ => True) (hasDerivAt_cbrt h0).differentiableAt (by simp) fun S t _ => S.acc_err (S.libm.cbrt_err t)

/-! ### Trigonometric and hyperbolic functions -/

/-- The state of the loops of the sine and cosine series. -/
def TrigRel (s : (S : Arith A) → TrigSt (Fl S.R)) (t : TrigSt ℝ) : Prop :=
  Ap (fun S => (s S).taylor) t.taylor ∧ Ap (fun S => (s S).tmp) t.tmp ∧ Apx (fun S => (s S).factorial) t.factorial ∧ t.factorial ≠ 0 ∧
    ∀ S, (s S).coeff = t.coeff

theorem trigStep {s : (S : Arith A) → TrigSt (Fl S.R)} {t : TrigSt ℝ} (hs : TrigRel s t) (hg : Ap g G) {i : ℕ} (hi : 2 ≤ i) :
    RR TrigRel (fun S => GDual.trigStep (g S) (s S) i) (GDual.trigStep G t i) := by
  obtain ⟨h1, h2, h3, h4, h5⟩ := hs
  simp only [GDual.trigStep, h5]
  have h6 := h3.mul (Apx.ofRat (A := A) ((i : ℚ) * (i - 1)))
  have h7 : (Cf.mul t.factorial (Cf.ofRat ((i : ℚ) * (i - 1))) : ℝ) ≠ 0 := by
    refine mul_ne_zero h4 ?_
    rw [ofRat_real]
    have h8 : (2 : ℚ) ≤ i := by exact_mod_cast hi
    have h9 : ((i : ℚ) * (i - 1)) ≠ 0 := (mul_pos (by linarith) (by linarith)).ne'
    exact_mod_cast h9
  have h8 := h2.mul hg
  exact (divGS h6 h7 (mulSG (Apx.ofRat _) h8)).bind fun u U hu => RR.pure ⟨h1.add hu, h8, h6, h7, fun _ => rfl⟩

theorem hypStep {s : (S : Arith A) → TrigSt (Fl S.R)} {t : TrigSt ℝ} (hs : TrigRel s t) (hg : Ap g G) {i : ℕ} (hi : 2 ≤ i) :
    RR TrigRel (fun S => GDual.hypStep (g S) (s S) i) (GDual.hypStep G t i) := by
  obtain ⟨h1, h2, h3, h4, h5⟩ := hs
  simp only [GDual.hypStep, h5]
  have h6 := h3.mul (Apx.ofRat (A := A) ((i : ℚ) * (i - 1)))
  have h7 : (Cf.mul t.factorial (Cf.ofRat ((i : ℚ) * (i - 1))) : ℝ) ≠ 0 := by
    refine mul_ne_zero h4 ?_
    rw [ofRat_real]
    have h8 : (2 : ℚ) ≤ i := by exact_mod_cast hi
    have h9 : ((i : ℚ) * (i - 1)) ≠ 0 := (mul_pos (by linarith) (by linarith)).ne'
    exact_mod_cast h9
  have h8 := h2.mul hg
  exact (divGS h6 h7 h8).bind fun u U hu => RR.pure ⟨h1.add hu, h8, h6, h7, fun _ => rfl⟩

theorem two_le_of_mem {a n i : ℕ} (ha : 2 ≤ a) (hi : i ∈ List.range' a n 2) : 2 ≤ i := by
  obtain ⟨k, -, rfl⟩ := List.mem_range'.1 hi
  omega

theorem cosTaylor (m : ℕ) (hg : Ap g G) : RR Ap (fun S => GDual.cosTaylor m (g S)) (GDual.cosTaylor m G) := by
  simp only [GDual.cosTaylor]
  exact RR.bind (RR.foldlM _ (fun s u i hi hs => trigStep hs hg (two_le_of_mem le_rfl hi))
    ⟨ofRat 1, ofRat 1, Apx.ofRat 1, by rw [ofRat_real]; norm_num, fun _ => rfl⟩) fun s u hs => RR.pure hs.1

theorem sinTaylor (m : ℕ) (hh : Ap h H) (hg : Ap g G) : RR Ap (fun S => GDual.sinTaylor m (h S) (g S)) (GDual.sinTaylor m H G) := by
  simp only [GDual.sinTaylor]
  exact RR.bind (RR.foldlM _ (fun s u i hi hs => trigStep hs hg (two_le_of_mem (by norm_num) hi))
    ⟨hh, hh, Apx.ofRat 1, by rw [ofRat_real]; norm_num, fun _ => rfl⟩) fun s u hs => RR.pure hs.1

theorem coshTaylor (m : ℕ) (hg : Ap g G) : RR Ap (fun S => GDual.coshTaylor m (g S)) (GDual.coshTaylor m G) := by
  simp only [GDual.coshTaylor]
  exact RR.bind (RR.foldlM _ (fun s u i hi hs => hypStep hs hg (two_le_of_mem le_rfl hi))
    ⟨ofRat 1, ofRat 1, Apx.ofRat 1, by rw [ofRat_real]; norm_num, fun _ => rfl⟩) fun s u hs => RR.pure hs.1

theorem sinhTaylor (m : ℕ) (hh : Ap h H) (hg : Ap g G) : RR Ap (fun S => GDual.sinhTaylor m (h S) (g S)) (GDual.sinhTaylor m H G) := by
  simp only [GDual.sinhTaylor]
  exact RR.bind (RR.foldlM _ (fun s u i hi hs => hypStep hs hg (two_le_of_mem (by norm_num) hi))
    ⟨hh, hh, Apx.ofRat 1, by rw [ofRat_real]; norm_num, fun _ => rfl⟩) fun s u hs => RR.pure hs.1

theorem _root_.Audi.Apx.sin (hx : Apx x X) : Apx (fun S => (CfFun.sin (x S) : Fl S.R)) (CfFun.sin X) :=
  hx.fn (D := fun _ => True) Real.differentiableAt_sin (by simp) fun S t _ => S.acc_err (S.libm.sin_err t)

theorem _root_.Audi.Apx.cos (hx : Apx x X) : Apx (fun S => (CfFun.cos (x S) : Fl S.R)) (CfFun.cos X) :=
  hx.fn (D := fun _ => True) Real.differentiableAt_cos (by simp) fun S t _ => S.acc_err (S.libm.cos_err t)

theorem _root_.Audi.Apx.sinh (hx : Apx x X) : Apx (fun S => (CfFun.sinh (x S) : Fl S.R)) (CfFun.sinh X) :=
  hx.fn (D := fun _ => True) Real.differentiableAt_sinh (by simp) fun S t _ => S.acc_err (S.libm.sinh_err t)

theorem _root_.Audi.Apx.cosh (hx : Apx x X) : Apx (fun S => (CfFun.cosh (x S) : Fl S.R)) (CfFun.cosh X) :=
  hx.fn (D := fun _ => True) Real.differentiableAt_cosh (by simp) fun S t _ => S.acc_err (S.libm.cosh_err t)

theorem sin (hg : Ap g G) : RR Ap (fun S => (g S).sin) G.sin := by
  refine hg.fixed (fun S d => d.sin) fun q hq => ?_
  simp only [GDual.sin]
  refine bind_constantCf hq fun p hp => ?_
  have h1 := subGS hp hq
  exact (cosTaylor _ (h1.mul h1)).bind fun c C hc => (sinTaylor _ h1 (h1.mul h1)).bind fun s S hs =>
    RR.pure ((mulSG hp.sin hc).add (mulSG hp.cos hs))

theorem cos (hg : Ap g G) : RR Ap (fun S => (g S).cos) G.cos := by
  refine hg.fixed (fun S d => d.cos) fun q hq => ?_
  simp only [GDual.cos]
  refine bind_constantCf hq fun p hp => ?_
  have h1 := subGS hp hq
  exact (cosTaylor _ (h1.mul h1)).bind fun c C hc => (sinTaylor _ h1 (h1.mul h1)).bind fun s S hs =>
    RR.pure ((mulSG hp.cos hc).sub (mulSG hp.sin hs))

theorem sinh (hg : Ap g G) : RR Ap (fun S => (g S).sinh) G.sinh := by
  refine hg.fixed (fun S d => d.sinh) fun q hq => ?_
  simp only [GDual.sinh]
  refine bind_constantCf hq fun p hp => ?_
  have h1 := subGS hp hq
  exact (coshTaylor _ (h1.mul h1)).bind fun c C hc => (sinhTaylor _ h1 (h1.mul h1)).bind fun s S hs =>
    RR.pure ((mulSG hp.sinh hc).add (mulSG hp.cosh hs))

theorem cosh (hg : Ap g G) : RR Ap (fun S => (g S).cosh) G.cosh := by
  refine hg.fixed (fun S d => d.cosh) fun q hq => ?_
  simp only [GDual.cosh]
  refine bind_constantCf hq fun p hp => ?_
  have h1 := subGS hp hq
  exact (coshTaylor _ (h1.mul h1)).bind fun c C hc => (sinhTaylor _ h1 (h1.mul h1)).bind fun s S hs =>
    RR.pure ((mulSG hp.cosh hc).add (mulSG hp.sinh hs))

/-! ### tan and tanh -/

/-- The state of the loops of `tan` and `tanh`: the constant terms of the limits are 0. -/
def TanRel (s : (S : Arith A) → TanSt (Fl S.R)) (t : TanSt ℝ) : Prop :=
  (Ap (fun S => (s S).taylor) t.taylor ∧ c0 t.taylor = 0) ∧ (Ap (fun S => (s S).phat) t.phat ∧ c0 t.phat = 0) ∧
    ∀ S, (s S).factorial = t.factorial ∧ (s S).fourK = t.fourK

theorem tanStep {s : (S : Arith A) → TanSt (Fl S.R)} {t : TanSt ℝ} (hs : TanRel s t) (hg : Ap g G) (k : ℕ) :
    TanRel (fun S => GDual.tanStep (g S) (s S) k) (GDual.tanStep G t k) := by
  obtain ⟨⟨h1, h2⟩, ⟨h3, h4⟩, h5⟩ := hs
  have h6 := h3.mul hg
  have h7 : c0 (t.phat.mul G) = 0 := by rw [c0_mul h3.limit hg.limit, h4, zero_mul]
  simp only [GDual.tanStep, TanRel, h5]
  refine ⟨⟨h1.add (mulSG (Apx.ofRat _) h6), ?_⟩, ⟨h6, h7⟩, fun S => ⟨trivial, trivial⟩⟩
  rw [c0_add h1.limit (mulSG (Apx.ofRat _) h6).limit, c0_mulSG _ h6.limit, h2, h7]
  simp

theorem tanhStep {s : (S : Arith A) → TanSt (Fl S.R)} {t : TanSt ℝ} (hs : TanRel s t) (hg : Ap g G) (k : ℕ) :
    TanRel (fun S => GDual.tanhStep (g S) (s S) k) (GDual.tanhStep G t k) := by
  obtain ⟨⟨h1, h2⟩, ⟨h3, h4⟩, h5⟩ := hs
  have h6 := h3.mul hg
  have h7 : c0 (t.phat.mul G) = 0 := by rw [c0_mul h3.limit hg.limit, h4, zero_mul]
  simp only [GDual.tanhStep, TanRel, h5]
  refine ⟨⟨h1.add (mulSG (Apx.ofRat _) h6), ?_⟩, ⟨h6, h7⟩, fun S => ⟨trivial, trivial⟩⟩
  rw [c0_add h1.limit (mulSG (Apx.ofRat _) h6).limit, c0_mulSG _ h6.limit, h2, h7]
  simp

theorem c0_one_sub (x : ℝ) (hG : G.Valid) (h : c0 G = 0) : c0 ((G.mulSG x).subSG (Cf.ofRat 1)) ≠ 0 := by
  rw [c0_subSG _ (Valid.mulSG x hG), c0_mulSG _ hG, h, ofRat_real]
  norm_num

theorem c0_one_add (x : ℝ) (hG : G.Valid) (h : c0 G = 0) : c0 ((G.mulSG x).addSG (Cf.ofRat 1)) ≠ 0 := by
  rw [c0_addSG _ (Valid.mulSG x hG), c0_mulSG _ hG, h, ofRat_real]
  norm_num

theorem differentiable_tanh : Differentiable ℝ Real.tanh := by
  have : Real.tanh = fun t => Real.sinh t / Real.cosh t := funext fun t => Real.tanh_eq_sinh_div_cosh t
  rw [this]
  exact Real.differentiable_sinh.div Real.differentiable_cosh fun t => (Real.cosh_pos t).ne'

theorem tan (hg : Ap g G) (h0 : Real.cos (c0 G) ≠ 0) : RR Ap (fun S => (g S).tan) G.tan := by
  refine hg.fixed (fun S d => d.tan) fun q hq => ?_
  simp only [GDual.tan]
  refine bind_constantCf hq fun p hp => ?_
  change Real.cos (coeff 0 (G.toMv ())) ≠ 0 at h0
  have hD := Real.continuous_cos.continuousAt.eventually_ne h0
  have ht : Apx (fun S => (CfFun.tan (p S) : Fl S.R)) (CfFun.tan (coeff 0 (G.toMv ()))) :=
    hp.fn (D := fun t => Real.cos t ≠ 0) (Real.differentiableAt_tan.2 h0) hD fun S t h => S.tan_err t h
  refine RR.guard ?_ (by simpa [CfFun.tanOk] using h0) ?_
  · filter_upwards [hp.tendsto.eventually hD] with S h1
    simpa [CfFun.tanOk] using h1
  have h1 := subGS hp hq
  have h2 : c0 (G.subGS (coeff 0 (G.toMv ()))) = 0 := by rw [c0_subGS _ hg.limit]; exact sub_self _
  have h3 := rel_foldl (A := A) (Rel := TanRel) (step := fun S s i => GDual.tanStep _ s i) (Step := fun s i => GDual.tanStep _ s i)
    (List.range' 2 ((G.order + 1) / 2 - 1)) (fun s u i _ hs => tanStep hs (h1.mul h1) i)
    (s := fun S => ⟨_, _, 24, 16⟩) (t := ⟨_, _, 24, 16⟩) ⟨⟨h1, h2⟩, ⟨h1, h2⟩, fun _ => ⟨rfl, rfl⟩⟩
  exact div (addSG ht h3.1.1) (subSG (Apx.ofRat 1) (mulSG ht h3.1.1)) (c0_one_sub _ h3.1.1.limit h3.1.2)

theorem tanh (hg : Ap g G) : RR Ap (fun S => (g S).tanh) G.tanh := by
  refine hg.fixed (fun S d => d.tanh) fun q hq => ?_
  simp only [GDual.tanh]
  refine bind_constantCf hq fun p hp => ?_
  have ht : Apx (fun S => (CfFun.tanh (p S) : Fl S.R)) (CfFun.tanh (coeff 0 (G.toMv ()))) :=
    hp.fn (D := fun _ => True) differentiable_tanh.differentiableAt (by simp) fun S t _ => S.tanh_err t
  have h1 := subGS hp hq
  have h2 : c0 (G.subGS (coeff 0 (G.toMv ()))) = 0 := by rw [c0_subGS _ hg.limit]; exact sub_self _
  have h3 := rel_foldl (A := A) (Rel := TanRel) (step := fun S s i => GDual.tanhStep _ s i) (Step := fun s i => GDual.tanhStep _ s i)
    (List.range' 2 ((G.order + 1) / 2 - 1)) (fun s u i _ hs => tanhStep hs (h1.mul h1) i)
    (s := fun S => ⟨_, _, 24, 16⟩) (t := ⟨_, _, 24, 16⟩) ⟨⟨h1, h2⟩, ⟨h1, h2⟩, fun _ => ⟨rfl, rfl⟩⟩
  exact div (addSG ht h3.1.1) (addSG (Apx.ofRat 1) (mulSG ht h3.1.1)) (c0_one_add _ h3.1.1.limit h3.1.2)

/-! ### Powers -/

theorem mulLoop (hg : Ap g G) (n : ℕ) : Ap (fun S => (g S).mulLoop n) (G.mulLoop n) := by
  simp only [GDual.mulLoop]
  exact rel_foldl (Rel := Ap) _ (fun s u i _ hs => hs.mul hg) hg

theorem powInt (hg : Ap g G) {z : ℤ} (h1 : -2147483648 < z) (h2 : 0 ≤ z ∨ c0 G ≠ 0) : RR Ap (fun S => (g S).powInt z) (G.powInt z) := by
  simp only [GDual.powInt]
  split_ifs with h3 h4 h4
  · omega
  · have h0 := h2.resolve_left (by omega)
    exact (divSG (Apx.ofRat 1) hg h0).bind fun t T ht => RR.foldlM (Rel := Ap) _ (fun s u i _ hs => div hs hg h0) ht
  · exact RR.pure (mulLoop hg _)
  · exact RR.pure (addGS (Apx.ofRat 1) (hg.sub hg))

/-- Where the power is differentiable. -/
theorem _root_.Audi.Apx.pow (hx : Apx x X) {q : ℚ} (h : 0 < X ∨ q.den = 1 ∧ X ≠ 0) :
    Apx (fun S => (CfFun.pow (x S) q : Fl S.R)) (CfFun.pow X q) ∧ (∀ᶠ S in toExact A, CfFun.powOk (x S) q = true) ∧ CfFun.powOk X q = true := by
  have h0 : X ≠ 0 := by rcases h with h | h; exacts [h.ne', h.2]
  have hD : ∀ᶠ t in 𝓝 X, PowDom t q := by
    rcases h with h | h
    · exact (lt_mem_nhds h).mono fun t ht => Or.inl ht
    · refine (eventually_ne_nhds h.2).mono fun t ht => Or.inr (Or.inl ⟨ht, q.num, ?_⟩)
      exact_mod_cast (Rat.den_eq_one_iff q).1 h.1 |>.symm
  refine ⟨hx.fn (F := fun t => t ^ (q : ℝ)) (D := fun t => PowDom t q) (Real.differentiableAt_rpow_const_of_ne _ h0) hD fun S t ht => S.pow_err t q ht, ?_, ?_⟩
  · filter_upwards [hx.tendsto.eventually hD] with S h1
    simpa [CfFun.powOk] using h1
  · simpa [CfFun.powOk] using hD.self_of_nhds

theorem mulCfPow (hg : Ap g G) (hx : Apx x X) {q : ℚ} (h : 0 < X ∨ q.den = 1 ∧ X ≠ 0) : RR Ap (fun S => (g S).mulCfPow (x S) q) (G.mulCfPow X q) := by
  obtain ⟨h1, h2, h3⟩ := hx.pow h
  simp only [GDual.mulCfPow, h3, if_true]
  refine (RR.pure (mulGS h1 hg)).congr ?_
  filter_upwards [h2] with S h4
  rw [if_pos h4]

theorem powQ_series (hg : Ap g G) {α : ℚ} (h : 0 < c0 G ∨ α.den = 1 ∧ c0 G ≠ 0) :
    RR Ap (fun S => do
      let p0 ← (g S).constantCf
      let phat := (g S).subGS p0
      let c0 ← cfPow p0 α
      let tmp := phat
      let t ← (phat.mulSG (Cf.ofRat α)).mulCfPow p0 (α - 1)
      let st ← (List.range' 2 ((g S).order - 1)).foldlM (powStep α p0 tmp) ⟨(GDual.ofCf c0).add t, phat⟩
      .ok st.retval) (do
      let p0 ← G.constantCf
      let phat := G.subGS p0
      let c0 ← cfPow p0 α
      let tmp := phat
      let t ← (phat.mulSG (Cf.ofRat α)).mulCfPow p0 (α - 1)
      let st ← (List.range' 2 (G.order - 1)).foldlM (powStep α p0 tmp) ⟨(GDual.ofCf c0).add t, phat⟩
      .ok st.retval) := by
  refine hg.fixed (fun S d => do
      let p0 ← d.constantCf
      let phat := d.subGS p0
      let c0 ← cfPow p0 α
      let tmp := phat
      let t ← (phat.mulSG (Cf.ofRat α)).mulCfPow p0 (α - 1)
      let st ← (List.range' 2 (d.order - 1)).foldlM (powStep α p0 tmp) ⟨(GDual.ofCf c0).add t, phat⟩
      .ok st.retval) fun q hq => ?_
  refine bind_constantCf hq fun p hp => ?_
  have hden : ∀ i : ℕ, 0 < coeff 0 (G.toMv ()) ∨ (α - i).den = 1 ∧ coeff 0 (G.toMv ()) ≠ 0 := fun i => by
    rcases h with h | ⟨h1, h2⟩
    · exact Or.inl h
    · refine Or.inr ⟨?_, h2⟩
      rw [Rat.den_eq_one_iff] at h1
      rw [← h1, ← Int.cast_natCast, ← Int.cast_sub]
      exact Rat.den_intCast _
  have h1 := subGS hp hq
  obtain ⟨p1, p2, p3⟩ := hp.pow (q := α) (by simpa using hden 0)
  refine RR.bind (Rel := fun s t => Apx s t) (g := fun S => cfPow (p S) α) (G := cfPow (coeff 0 (G.toMv ())) α) ?_ fun c C hc => ?_
  · simp only [cfPow]
    exact RR.guard p2 p3 (RR.pure p1)
  refine (mulCfPow (mulSG (Apx.ofRat α) h1) hp (by simpa using hden 1)).bind fun t T ht => ?_
  refine RR.bind (Rel := fun s t => Ap (fun S => (s S).retval) t.retval ∧ Ap (fun S => (s S).phat) t.phat)
    (RR.foldlM _ (fun s u i hi hs => ?_) ⟨(ofCf hc).add ht, h1⟩) fun s u hs => RR.pure hs.1
  have h2 := hs.2.mul h1
  simp only [powStep]
  exact (mulCfPow (mulSG (Apx.ofRat _) h2) hp (hden i)).bind fun t T ht => RR.pure ⟨hs.1.add ht, h2⟩

theorem of_nil (h1 : ∀ᶠ S in toExact A, (g S).Valid) (h2 : ∀ᶠ S in toExact A, (g S).order = G.order) (h3 : G.Valid) (h4 : ∀ᶠ S in toExact A, (g S).p.terms = [])
    (h5 : G.p.terms = []) : Ap g G where
  valid := h1
  order := h2
  limit := h3
  coef E := by
    rw [(terms_nil_iff (ι := Unit) (K := ℝ) h3).1 h5 (), coeff_zero]
    refine (Lin.const _).congr' ?_
    filter_upwards [h4] with S h6
    by_contra hne
    obtain ⟨t, ht, -⟩ := Poly.cof_ne_zero (Ne.symm hne)
    simp [h6] at ht

theorem mulCfPow_nil {C : Type} [CfFun C] {t : GDual C} (h : t.p.terms = []) (p0 : C) (q : ℚ) :
    ∃ r, t.mulCfPow p0 q = .ok r ∧ r.p.terms = [] ∧ r.order = t.order ∧ (r = t ∨ ∃ x, r = t.mulGS x) := by
  unfold GDual.mulCfPow
  split_ifs with h1 h2
  · refine ⟨_, rfl, ?_, max_self _, Or.inr ⟨_, rfl⟩⟩
    change (Poly.truncMul t.p (Poly.const _) _).terms = []
    simp [Poly.truncMul, Poly.mulBy, Poly.addSymbols, h, Poly.insertTerms]
  · exact ⟨_, rfl, h, rfl, Or.inl rfl⟩
  · exact absurd (by simpa using h) h2

theorem mulSG_nil {C : Type} [Cf C] {c : C} (h : Cf.isZero c = true) (t : GDual C) : (t.mulSG c).p.terms = [] := by
  change (Poly.truncMul (Poly.const c) t.p _).terms = []
  simp [Poly.const, Poly.insertTerm, h, Poly.truncMul, Poly.mulBy, Poly.addSymbols, Poly.insertTerms]

theorem mulCfPow_zero (hg : Ap g G) (x : (S : Arith A) → Fl S.R) (X : ℝ) (q : ℚ) :
    RR Ap (fun S => ((g S).mulSG (Cf.ofRat 0)).mulCfPow (x S) q) ((G.mulSG (Cf.ofRat 0)).mulCfPow X q) := by
  have h0 := mulSG (Apx.ofRat 0) hg
  choose r h1 h2 h3 h4 using fun S => mulCfPow_nil (mulSG_nil (C := Fl S.R) (c := Cf.ofRat 0) (by simp [Cf.isZero, Cf.ofRat, Fl.round, S.R.rnd_zero]) (g S)) (x S) q
  obtain ⟨R, H1, H2, H3, H4⟩ := mulCfPow_nil (mulSG_nil (C := ℝ) (c := Cf.ofRat 0) (by simp [Cf.isZero, Cf.ofRat]) G) X q
  refine ⟨r, R, of_nil ?_ ?_ ?_ (Eventually.of_forall h2) H2, H1, Eventually.of_forall h1⟩
  · filter_upwards [h0.valid] with S hv
    rcases h4 S with h | ⟨y, h⟩
    · rw [h]; exact hv
    · rw [h]; exact Valid.mulGS y hv
  · filter_upwards [h0.order] with S ho
    rw [h3, ho, H3]
  · rcases H4 with h | ⟨y, h⟩
    · rw [h]; exact h0.limit
    · rw [h]; exact Valid.mulGS y h0.limit

theorem powQ_zero (hg : Ap g G) : RR Ap (fun S => (g S).powQ 0) (G.powQ 0) := by
  refine hg.fixed (fun S d => d.powQ 0) fun q hq => ?_
  simp only [GDual.powQ]
  rw [if_neg (by norm_num), if_neg (by norm_num)]
  refine RR.congr (g := fun S => _) ?_ (Eventually.of_forall fun S => by rw [if_neg (by norm_num), if_neg (by norm_num)])
  refine bind_constantCf hq fun p hp => ?_
  have h1 := subGS hp hq
  have hD : ∀ t : ℝ, PowDom t ((0 : ℚ) : ℝ) := fun t => by
    by_cases ht : t = 0
    · exact Or.inr (Or.inr ⟨ht, by simp⟩)
    · exact Or.inr (Or.inl ⟨ht, 0, by simp⟩)
  have hpw : Apx (fun S => (CfFun.pow (p S) 0 : Fl S.R)) (CfFun.pow (coeff 0 (G.toMv ())) 0) :=
    hp.fn (F := fun t => t ^ ((0 : ℚ) : ℝ)) (D := fun t => PowDom t ((0 : ℚ) : ℝ)) (by simp) (Eventually.of_forall hD)
      fun S t ht => S.pow_err t 0 ht
  refine RR.bind (Rel := fun s t => Apx s t) (g := fun S => cfPow (p S) 0) (G := cfPow (coeff 0 (G.toMv ())) 0) ?_ fun c C hc => ?_
  · simp only [cfPow]
    refine RR.guard (Eventually.of_forall fun S => ?_) ?_ (RR.pure hpw)
    · simpa [CfFun.powOk] using hD (p S).val
    · simpa [CfFun.powOk] using hD (coeff 0 (G.toMv ()))
  refine (mulCfPow_zero h1 p _ _).bind fun t T ht => ?_
  refine RR.bind (Rel := fun s t => Ap (fun S => (s S).retval) t.retval ∧ Ap (fun S => (s S).phat) t.phat)
    (RR.foldlM _ (fun s u i hi hs => ?_) ⟨(ofCf hc).add ht, h1⟩) fun s u hs => RR.pure hs.1
  have h2 := hs.2.mul h1
  simp only [powStep, binomialQ_zero]
  exact (mulCfPow_zero h2 p _ _).bind fun t T ht => RR.pure ⟨hs.1.add ht, h2⟩

theorem powQ (hg : Ap g G) {α : ℚ} (h1 : -2147483649 < α) (h2 : α < 2147483648) (h3 : 0 < c0 G ∨ α.den = 1 ∧ (0 ≤ α ∨ c0 G ≠ 0)) :
    RR Ap (fun S => (g S).powQ α) (G.powQ α) := by
  by_cases hα : α = 0
  · rw [hα]; exact powQ_zero hg
  simp only [GDual.powQ, if_neg (not_or.2 ⟨not_le.2 h2, not_le.2 h1⟩)]
  split_ifs with h4
  · exact RR.pure (mulLoop hg _)
  · refine powQ_series hg ?_
    rcases h3 with h3 | ⟨h3, h5⟩
    · exact Or.inl h3
    · exact Or.inr ⟨h3, h5.resolve_left fun h6 => h4 ⟨h3, lt_of_le_of_ne h6 (Ne.symm hα)⟩⟩

/-! ### Inverse functions -/

theorem atanh (hg : Ap g G) (h0 : |c0 G| < 1) : RR Ap (fun S => (g S).atanh) G.atanh := by
  refine hg.fixed (fun S d => d.atanh) fun q hq => ?_
  simp only [GDual.atanh]
  refine bind_constantCf hq fun p hp => ?_
  change |coeff 0 (G.toMv ())| < 1 at h0
  have hD : ∀ᶠ t in 𝓝 (coeff 0 (G.toMv ())), |t| < 1 := continuous_abs.continuousAt.eventually (gt_mem_nhds h0)
  have ht : Apx (fun S => (CfFun.atanh (p S) : Fl S.R)) (CfFun.atanh (coeff 0 (G.toMv ()))) :=
    hp.fn (D := fun t => |t| < 1) (Spec.hasDerivAt_artanh h0).differentiableAt hD fun S t h => S.atanh_err t h
  refine RR.guard ?_ (by simpa [CfFun.atanhOk] using h0) (RR.pure ?_)
  · filter_upwards [hp.tendsto.eventually hD] with S h1
    simpa [CfFun.atanhOk] using h1
  have h1 := subGS hp hq
  obtain ⟨ha, hb⟩ := abs_lt.1 h0
  have h2 := rel_foldl (A := A) (σ := fun S => AtanhSt (Fl S.R)) (τ := AtanhSt ℝ)
    (Rel := fun s t => Ap (fun S => (s S).retval) t.retval ∧ Ap (fun S => (s S).powphat) t.powphat ∧ ∀ S, (s S).coeff = t.coeff)
    (step := fun S s i => atanhStep (p S) ((⟨q S, G.order⟩ : GDual (Fl S.R)).subGS (p S)) s i)
    (Step := fun s i => atanhStep (coeff 0 (G.toMv ())) (G.subGS (coeff 0 (G.toMv ()))) s i) (List.range' 1 G.order)
    (s := fun S => ⟨GDual.ofRat 0, (⟨q S, G.order⟩ : GDual (Fl S.R)).subGS (p S), 1⟩) (t := ⟨GDual.ofRat 0, G.subGS (coeff 0 (G.toMv ())), 1⟩)
    (fun s u i hi hs => ?_) ⟨ofRat 0, h1, fun _ => rfl⟩
  · exact addSG ht (mulSG (Apx.ofRat _) h2.1)
  · obtain ⟨h2, h3, h4⟩ := hs
    have : i ≠ 0 := by have := (List.mem_range'_1.1 hi).1; omega
    simp only [atanhStep, h4]
    have e1 : (0 : ℝ) < Cf.sub (Cf.ofRat 1) (coeff 0 (G.toMv ())) := by
      change 0 < (Cf.ofRat 1 : ℝ) - _; rw [ofRat_real]; push_cast; linarith
    have e2 : (0 : ℝ) < Cf.add (Cf.ofRat 1) (coeff 0 (G.toMv ())) := by
      change 0 < (Cf.ofRat 1 : ℝ) + _; rw [ofRat_real]; push_cast; linarith
    have p1 := ((Apx.ofRat 1).sub hp).pow (q := (i : ℚ)) (Or.inl e1)
    have p2 := ((Apx.ofRat 1).add hp).pow (q := (i : ℚ)) (Or.inl e2)
    refine ⟨h2.add (mulSG ?_ h3), h3.mul h1, fun S => trivial⟩
    exact (((Apx.ofRat 1).div p1.1 (Real.rpow_pos_of_pos e1 _).ne').add ((Apx.ofRat _).div p2.1 (Real.rpow_pos_of_pos e2 _).ne')).div
      (Apx.ofRat _) (by rw [ofRat_real]; exact_mod_cast this)

theorem atanOdd (bin : ℕ → ℕ → ℕ) (hx : Apx x X) (k : ℕ) : Apx (fun S => GDual.atanOdd bin (x S) k) (GDual.atanOdd bin X k) := by
  simp only [GDual.atanOdd]
  have h2 := rel_foldl (A := A) (σ := fun S => AtanIn (Fl S.R)) (τ := AtanIn ℝ)
    (Rel := fun s t => Apx (fun S => (s S).binom) t.binom ∧ Apx (fun S => (s S).f0) t.f0 ∧ Apx (fun S => (s S).cfi) t.cfi)
    (step := fun S (s : AtanIn (Fl S.R)) j =>
      ⟨Cf.add s.binom (Cf.mul (Cf.mul (Cf.ofRat (bin k (2 * j))) s.cfi) s.f0), Cf.mul s.f0 (Cf.mul (x S) (x S)), Cf.neg s.cfi⟩)
    (Step := fun (s : AtanIn ℝ) j =>
      ⟨Cf.add s.binom (Cf.mul (Cf.mul (Cf.ofRat (bin k (2 * j))) s.cfi) s.f0), Cf.mul s.f0 (Cf.mul X X), Cf.neg s.cfi⟩)
    (List.range' 1 (k / 2)) (s := fun S => ⟨Cf.ofRat 1, Cf.mul (x S) (x S), Cf.ofRat (-1)⟩) (t := ⟨Cf.ofRat 1, Cf.mul X X, Cf.ofRat (-1)⟩)
    (fun s u i _ hs => ⟨hs.1.add (((Apx.ofRat _).mul hs.2.2).mul hs.2.1), hs.2.1.mul (hx.mul hx), hs.2.2.neg⟩)
    ⟨Apx.ofRat _, hx.mul hx, Apx.ofRat _⟩
  exact h2.1

theorem atanEven (bin : ℕ → ℕ → ℕ) (hx : Apx x X) (k : ℕ) : Apx (fun S => GDual.atanEven bin (x S) k) (GDual.atanEven bin X k) := by
  simp only [GDual.atanEven]
  have h2 := rel_foldl (A := A) (σ := fun S => AtanIn (Fl S.R)) (τ := AtanIn ℝ)
    (Rel := fun s t => Apx (fun S => (s S).binom) t.binom ∧ Apx (fun S => (s S).f0) t.f0 ∧ Apx (fun S => (s S).cfi) t.cfi)
    (step := fun S (s : AtanIn (Fl S.R)) j =>
      ⟨Cf.add s.binom (Cf.mul (Cf.mul (Cf.ofRat (bin k (2 * j - 1))) s.cfi) s.f0), Cf.mul s.f0 (Cf.mul (x S) (x S)), Cf.neg s.cfi⟩)
    (Step := fun (s : AtanIn ℝ) j =>
      ⟨Cf.add s.binom (Cf.mul (Cf.mul (Cf.ofRat (bin k (2 * j - 1))) s.cfi) s.f0), Cf.mul s.f0 (Cf.mul X X), Cf.neg s.cfi⟩)
    (List.range' 1 ((k + 1) / 2)) (s := fun S => ⟨Cf.ofRat 0, x S, Cf.ofRat 1⟩) (t := ⟨Cf.ofRat 0, X, Cf.ofRat 1⟩)
    (fun s u i _ hs => ⟨hs.1.add (((Apx.ofRat _).mul hs.2.2).mul hs.2.1), hs.2.1.mul (hx.mul hx), hs.2.2.neg⟩)
    ⟨Apx.ofRat _, hx, Apx.ofRat _⟩
  exact h2.1

theorem atanWith (bin : ℕ → ℕ → ℕ) (hg : Ap g G) : RR Ap (fun S => (g S).atanWith bin) (G.atanWith bin) := by
  refine hg.fixed (fun S d => d.atanWith bin) fun q hq => ?_
  simp only [GDual.atanWith]
  refine bind_constantCf hq fun p hp => ?_
  have ht : Apx (fun S => (CfFun.atan (p S) : Fl S.R)) (CfFun.atan (coeff 0 (G.toMv ()))) :=
    hp.fn (D := fun _ => True) (Real.differentiableAt_arctan _) (by simp) fun S t _ => S.atan_err t
  have e1 : (Cf.add (Cf.ofRat 1) (Cf.mul (coeff 0 (G.toMv ())) (coeff 0 (G.toMv ()))) : ℝ) ≠ 0 := by
    change (Cf.ofRat 1 : ℝ) + coeff 0 (G.toMv ()) * coeff 0 (G.toMv ()) ≠ 0
    rw [ofRat_real]; push_cast
    nlinarith [mul_self_nonneg (coeff 0 (G.toMv () : MvPolynomial String ℝ))]
  refine (divGS ((Apx.ofRat 1).add (hp.mul hp)) e1 (subGS hp hq)).bind fun t T h1 => ?_
  refine RR.bind (Rel := fun s t => Ap (fun S => (s S).retval) t.retval ∧ Ap (fun S => (s S).powphat) t.powphat ∧
    Apx (fun S => (s S).coeff1) t.coeff1 ∧ Apx (fun S => (s S).coeff2) t.coeff2)
    (RR.foldlM _ (fun s u i hi hs => ?_) ⟨ofCf ht, h1, Apx.ofRat _, Apx.ofRat _⟩) fun s u hs => RR.pure hs.1
  obtain ⟨h2, h3, h4, h5⟩ := hs
  have : i ≠ 0 := by have := (List.mem_range'_1.1 hi).1; omega
  have hi0 : (Cf.ofRat (i : ℚ) : ℝ) ≠ 0 := by rw [ofRat_real]; exact_mod_cast this
  simp only [atanStep]
  split_ifs with hk
  · exact (divGS (Apx.ofRat _) hi0 (mulGS h4 (mulSG (atanOdd bin hp i) h3))).bind fun t T ht => RR.pure ⟨h2.add ht, h3.mul h1, h4.neg, h5⟩
  · exact (divGS (Apx.ofRat _) hi0 (mulGS h5 (mulSG (atanEven bin hp i) h3))).bind fun t T ht => RR.pure ⟨h2.add ht, h3.mul h1, h4, h5.neg⟩

/-- A square root together with its constant term. -/
theorem sqrt_c0 (hg : Ap g G) (h0 : 0 < c0 G) : RR (fun g G' => Ap g G' ∧ c0 G' = √(c0 G)) (fun S => (g S).sqrt) G.sqrt := by
  obtain ⟨r, R, h1, h2, h3⟩ := sqrt hg h0
  exact ⟨r, R, ⟨h1, c0_fn (f := .sqrt) hg.limit trivial h0 h2⟩, h2, h3⟩

theorem asinh (hg : Ap g G) : RR Ap (fun S => (g S).asinh) G.asinh := by
  simp only [GDual.asinh]
  have h1 := addSG (Apx.ofRat 1) (hg.mul hg)
  have h2 : c0 ((G.mul G).addSG (Cf.ofRat 1)) = 1 + c0 G * c0 G := by
    rw [c0_addSG _ (hg.mul hg).limit, c0_mul hg.limit hg.limit, ofRat_real]; norm_num
  have h3 : 0 < 1 + c0 G * c0 G := by nlinarith [mul_self_nonneg (c0 G)]
  refine (sqrt_c0 h1 (by rw [h2]; exact h3)).bind fun t T ht => log (hg.add ht.1) ?_
  rw [c0_add hg.limit ht.1.limit, ht.2, h2]
  have h4 : |c0 G| < √(1 + c0 G * c0 G) := by
    rw [← Real.sqrt_sq_eq_abs]
    exact Real.sqrt_lt_sqrt (sq_nonneg _) (by nlinarith)
  linarith [neg_abs_le (c0 G)]

theorem acosh (hg : Ap g G) (h0 : 1 < c0 G) : RR Ap (fun S => (g S).acosh) G.acosh := by
  simp only [GDual.acosh]
  have h1 := subGS (Apx.ofRat 1) (hg.mul hg)
  have h2 : c0 ((G.mul G).subGS (Cf.ofRat 1)) = c0 G * c0 G - 1 := by
    rw [c0_subGS _ (hg.mul hg).limit, c0_mul hg.limit hg.limit, ofRat_real]; norm_num
  refine (sqrt_c0 h1 (by rw [h2]; nlinarith)).bind fun t T ht => log (hg.add ht.1) ?_
  rw [c0_add hg.limit ht.1.limit, ht.2]
  have := Real.sqrt_nonneg (c0 ((G.mul G).subGS (Cf.ofRat 1)))
  linarith

theorem asinWith (bin : ℕ → ℕ → ℕ) (hg : Ap g G) (h0 : |c0 G| < 1) : RR Ap (fun S => (g S).asinWith bin) (G.asinWith bin) := by
  simp only [GDual.asinWith]
  have h1 := subSG (Apx.ofRat 1) (hg.mul hg)
  have h2 : 0 < c0 ((G.mul G).subSG (Cf.ofRat 1)) := by
    rw [c0_subSG _ (hg.mul hg).limit, c0_mul hg.limit hg.limit, ofRat_real]
    have := (sq_lt_one_iff_abs_lt_one (c0 G)).2 h0
    push_cast
    nlinarith
  refine (sqrt_c0 h1 h2).bind fun t T ht => ?_
  exact (div hg ht.1 (by rw [ht.2]; exact (Real.sqrt_pos.2 h2).ne')).bind fun u U hu => atanWith bin hu

theorem acosWith (bin : ℕ → ℕ → ℕ) (hg : Ap g G) (h0 : |c0 G| < 1) : RR Ap (fun S => (g S).acosWith bin) (G.acosWith bin) := by
  simp only [GDual.acosWith]
  have hpi : Apx (A := A) (fun S => (CfFun.pi : Fl S.R)) (CfFun.pi : ℝ) :=
    lin_of_err (k := A) (Lin.const _) tendsto_const_nhds (Eventually.of_forall fun S => S.pi_err)
  exact (asinWith bin hg h0).bind fun t T ht => RR.pure (subSG ((Apx.ofRat _).mul hpi) ht)

/-! ### Expressions -/

theorem fn {f : Fn} (hf : ∀ q, f ≠ .powBase q) (hg : Ap g G) (h : f.Dom (c0 G)) : RR Ap (fun S => f.run (g S)) (f.run G) := by
  cases f with
  | exp => exact hg.exp
  | log => exact hg.log h
  | sqrt => exact hg.sqrt h
  | cbrt => exact hg.cbrt h
  | sin => exact hg.sin
  | cos => exact hg.cos
  | tan => exact hg.tan h
  | sinh => exact hg.sinh
  | cosh => exact hg.cosh
  | tanh => exact hg.tanh
  | asinh => exact hg.asinh
  | acosh => exact hg.acosh h
  | atanh => exact hg.atanh h
  | atan => exact hg.atanWith _
  | asin => exact hg.asinWith _ h
  | acos => exact hg.acosWith _ h
  | neg => exact RR.pure hg.neg
  | powQ α => exact hg.powQ h.1 h.2.1 h.2.2
  | powInt z => exact hg.powInt h.1 h.2
  | powBase q => exact absurd rfl (hf q)

theorem op {o : Op} (hg : Ap g G) (hh : Ap h H) (h0 : o.Dom (c0 H)) : RR Ap (fun S => o.run (g S) (h S)) (o.run G H) := by
  cases o with
  | add => exact RR.pure (hg.add hh)
  | sub => exact RR.pure (hg.sub hh)
  | mul => exact RR.pure (hg.mul hh)
  | div => exact div hg hh h0

theorem opL {o : Op} (hx : Apx x X) (hh : Ap h H) (h0 : o.Dom (c0 H)) : RR Ap (fun S => o.runL (x S) (h S)) (o.runL X H) := by
  cases o with
  | add => exact RR.pure (addSG hx hh)
  | sub => exact RR.pure (subSG hx hh)
  | mul => exact RR.pure (mulSG hx hh)
  | div => exact divSG hx hh h0

theorem opR {o : Op} (hg : Ap g G) (hx : Apx x X) (h0 : o.Dom X) : RR Ap (fun S => o.runR (g S) (x S)) (o.runR G X) := by
  cases o with
  | add => exact RR.pure (addGS hx hg)
  | sub => exact RR.pure (subGS hx hg)
  | mul => exact RR.pure (mulGS hx hg)
  | div => exact divGS hx h0 hg

theorem var {v : String → ℝ} {s : String} {m : ℕ} (hm : m < UINT_MAX - 10) (hs : ∃ c, s.toList.head? = some c ∧ c ≠ 'd') :
    RR (Ap (A := A)) (fun S => GDual.mk3 (Fl.round S.R (v s)) s m) (GDual.mk3 (v s) s m) := by
  choose r a b h1 h2 h3 h4 using fun S : Arith A => Close.mk3 (Fl.round S.R (v s)) hm hs
  obtain ⟨G, hG⟩ : ∃ r, GDual.mk3 (v s) s m = .ok r := ⟨_, mk3_ok.mpr ⟨hm, hs, rfl⟩⟩
  refine ⟨r, G, ⟨Eventually.of_forall fun S => (h4 S).vr, Eventually.of_forall fun S => ?_, valid_mk3 (ι := Unit) (K := ℝ) hG, fun E => ?_⟩, hG,
    Eventually.of_forall h1⟩
  · rw [order_mk3 (h1 S), order_mk3 hG]
  · have h5 : ∀ S, (r S).p.cof E = coeff E ((a S).toMv () : MvPolynomial String ℝ) := fun S => by
      have := ((h4 S).near E).1
      rw [pow_zero, sub_self, zero_mul] at this
      exact sub_eq_zero.1 (abs_nonpos_iff.1 this)
    simp only [h5]
    have h6 : ∀ S, ((a S).toMv () : MvPolynomial String ℝ) = _ := fun S => toMv_mk3 (h2 S) (ι := Unit) (K := ℝ) ()
    have h7 : (G.toMv () : MvPolynomial String ℝ) = _ := toMv_mk3 hG (ι := Unit) (K := ℝ) ()
    simp only [h6, h7, coeff_add, coeff_C]
    refine Lin.add ?_ (Lin.const _)
    split_ifs
    · exact Apx.round (v s)
    · exact Lin.const _

end Ap

/-- The value with rounding tends to the exact value. -/
theorem Expr.run_ap {v : String → ℝ} {m : ℕ} (hm : m < UINT_MAX - 10) : ∀ e : Expr ℝ, e.Legal m → e.BaseFree → e.Dom () v →
    RR (Ap (A := A)) (fun S => (e.map (Fl.round S.R)).run (fun s => Fl.round S.R (v s)) m) (e.run v m) := by
  let p : Unit → String → ℝ := fun _ => Function.extend (fun s => "d" ++ s) v 0
  have hp : ∀ (i : Unit) (s : String), p i ("d" ++ s) = Lanes.lane i (v s) := fun i s => d_append_injective.extend_apply _ _ s
  have hc : ∀ e : Expr ℝ, e.Legal m → e.Dom () v → ∀ G, e.run v m = .ok G → c0 G = e.sem () v := fun e hl hd G hG => by
    obtain ⟨r, h1, h2, -⟩ := Expr.run_good (ι := Unit) hm hp e hl fun _ => hd
    rw [hG] at h1
    injection h1 with h1
    subst h1
    have h3 := (h2.taylor ()).val
    rw [c0, ← h3]
    congr 1
    exact funext (hp ())
  have keep : ∀ (e : Expr ℝ) {g : (S : Arith A) → Res (GDual (Fl S.R))}, e.Legal m → e.Dom () v → RR Ap g (e.run v m) →
      RR (fun g G => Ap g G ∧ c0 G = e.sem () v) g (e.run v m) := fun e g hl hd ⟨r, R, h1, h2, h3⟩ => ⟨r, R, ⟨h1, hc e hl hd R h2⟩, h2, h3⟩
  intro e
  induction e with
  | var s => exact fun hl _ _ => Ap.var hm hl
  | const c => exact fun _ _ _ => RR.pure (Ap.ofCf (Apx.round c))
  | bin o e1 e2 ih1 ih2 =>
    intro hl hb hd
    exact (ih1 hl.1 hb.1 hd.1).bind fun g G hg => (keep e2 hl.2 hd.2.1 (ih2 hl.2 hb.2 hd.2.1)).bind fun h H hh => hg.op hh.1 (by rw [hh.2]; exact hd.2.2)
  | left o c e ih =>
    intro hl hb hd
    exact (keep e hl hd.1 (ih hl hb hd.1)).bind fun g G hg => Ap.opL (Apx.round c) hg.1 (by rw [hg.2]; exact hd.2)
  | right o e c ih =>
    intro hl hb hd
    exact (ih hl hb hd.1).bind fun g G hg => Ap.opR hg (Apx.round c) hd.2
  | fn f e ih =>
    intro hl hb hd
    have hf : ∀ q, f ≠ .powBase q := by rintro q rfl; exact hb
    have hb' : e.BaseFree := by cases f <;> first | exact hb | exact hb.elim
    exact (keep e hl.1 hd.1 (ih hl.1 hb' hd.1)).bind fun g G hg => hg.1.fn hf (by rw [hg.2]; exact hd.2)
  | pow e1 e2 ih1 ih2 =>
    intro hl hb hd
    exact (keep e1 hl.1 hd.1 (ih1 hl.1 hb.1 hd.1)).bind fun g G hg => (ih2 hl.2 hb.2 hd.2.1).bind fun h H hh => hg.1.powG (by rw [hg.2]; exact hd.2.2) hh

end Audi
