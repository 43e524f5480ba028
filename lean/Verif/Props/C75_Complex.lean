import Verif.Proofs.Complex
import Verif.Props.C21_AD

/-!
# C75, C76: gduals with complex coefficients

See Spec/Complex.lean for the coefficients, for the functions that are available and for their domains.
-/

namespace Audi

open MvPolynomial Spec GDual Filter Topology

variable {d : GDual ℂ}

/-- **C75.** Let `e` be an expression with complex constants, built from named variables, the four operations, `exp`, `log`, `sin`, `cos`, `tan`, `sinh`,
`cosh`, `tanh`, `atanh` and powers, and let the point `v` be in the domain (of holomorphy of the principal branches) of the expression. Then the
evaluation on the gduals `gdual_c(v s, s, m)` succeeds, and the derivatives read from the result, by the vector and by the dictionary form of `get_derivative`,
are the iterated complex partial derivatives of the function. -/
theorem C75_ad {v : String → ℂ} {m : ℕ} (hm : m < UINT_MAX - 10) (e : Expr ℂ) (hl : e.Legal m) (hd : e.CDom v) :
    ∃ r, e.run v m = .ok r ∧ r.Valid ∧ r.getOrder ≤ m ∧ (e.full = true → r.getOrder = m) ∧
      (∀ l : List String, l.length ≤ r.getOrder → (∀ s ∈ l, "d" ++ s ∈ r.p.syms) →
        r.getDerivative (r.p.syms.map fun u => (l.map fun s => "d" ++ s).count u) = .ok (pds l e.csem v)) ∧
      (∀ l : List String, l.length ≤ r.getOrder → ∀ dict : List (String × ℕ), (dict.map (·.1)).Nodup →
        (∀ p ∈ dict, 0 < p.2) → (∀ u, (dict.lookup u).getD 0 = (l.map fun s => "d" ++ s).count u) →
        r.getDerivativeDict dict = .ok (pds l e.csem v)) := by
  classical
  let p : Unit → String → ℂ := fun _ => Function.extend (fun s => "d" ++ s) v 0
  have hp : ∀ (i : Unit) (s : String), p i ("d" ++ s) = v s := fun i s => d_append_injective.extend_apply _ _ s
  obtain ⟨r, hr, hg, hf⟩ := Expr.run_good_c hm hp e hl hd
  have key : ∀ l : List String, l.length ≤ r.getOrder →
      coeff 0 ((l.map fun s => "d" ++ s).foldl (fun Q s => pderiv s Q) (r.toMv () : MvPolynomial String ℂ)) = pds l e.csem v := fun l hle => by
    rw [← (hg.taylor ()).pds_eq _ (by rw [List.length_map]; exact hle.trans hg.le), pds_rename]
    congr 1
    exact funext (hp ())
  refine ⟨r, hr, hg.valid, hg.le, hf, fun l hle hmem => ?_, fun l hle dict hk hpos hcount => ?_⟩
  · obtain ⟨c, hc, hlane⟩ := getDerivative_count (ι := Unit) (K := ℂ) hg.valid (l := l.map fun s => "d" ++ s)
      (by simpa using hmem) (by simpa using hle)
    rw [hc, ← key l hle, ← hlane ()]; rfl
  · obtain ⟨c, hc, hlane⟩ := getDerivativeDict_count (ι := Unit) (K := ℂ) hg.valid (l := l.map fun s => "d" ++ s) (by simpa using hle) hk hpos hcount
    rw [hc, ← key l hle, ← hlane ()]; rfl

/-- `log(x * i) + pow(x, 1/2) / tanh(y)` at `x = 1 + i, y = 2`. -/
example : ∃ e : Expr ℂ, e = .bin .add (.fn .log (.right .mul (.var "x") Complex.I)) (.bin .div (.fn (.powQ (1 / 2)) (.var "x")) (.fn .cosh (.var "y"))) ∧
    e.Legal 40 ∧ e.full = true ∧ e.CDom fun s => if s = "x" then 1 + Complex.I else 2 := by
  refine ⟨_, rfl, ?_, rfl, ?_⟩
  · simp [Expr.Legal, Fn.MaxOrder]
  · have hyx : "y" ≠ "x" := by decide
    simp only [Expr.CDom, Expr.csem, Fn.CDom, Fn.cplx, Op.Dom, Op.real, if_neg hyx, if_true, true_and, and_true]
    refine ⟨?_, ⟨by norm_num, by norm_num, Or.inl ?_⟩, ?_⟩
    · rw [Complex.mem_slitPlane_iff]; right; simp
    · rw [Complex.mem_slitPlane_iff]; right; simp
    · rw [show (2 : ℂ) = ((2 : ℝ) : ℂ) by norm_num, ← Complex.ofReal_cosh]
      exact_mod_cast (Real.cosh_pos 2).ne'

/-- **C75.** `exp` with complex coefficients computes Taylor expansions of the complex exponential, for every argument. -/
theorem C75_exp : Computes (C := ℂ) (ι := Unit) exp Complex.exp (fun _ => True) := computes_exp_c

/-- **C75.** `log` with complex coefficients: for every constant part `z₀` other than zero, the result is the expansion of the branch of the logarithm whose
value at `z₀` is the principal one. Out of the negative real axis this is the principal logarithm. At constant part zero the outcome is not finite. -/
theorem C75_log (hd : d.Valid) :
    (d.czero ≠ 0 → ∃ r, log d = .ok r ∧ IsLift (fun _ : Unit => logNear d.czero) d r ∧
      (d.czero ∈ Complex.slitPlane → IsLift (fun _ : Unit => Complex.log) d r)) ∧
    (d.czero = 0 → log d = .error .nonFinite) := by
  refine ⟨fun h => ?_, fun h => ?_⟩
  · obtain ⟨r, h1, h2⟩ := log_branch_c hd h
    refine ⟨r, h1, h2, fun hs => ?_⟩
    obtain ⟨r', h3, h4⟩ := log_slit_c hd hs
    rw [h1] at h3; injection h3 with h3
    rw [h3]; exact h4
  · exact log_undef (ι := Unit) (dom := fun z : ℂ => z ≠ 0) logOk_c hd fun hh => hh () h

/-- **C75.** `sin`, `cos` and `sin_and_cos` with complex coefficients. -/
theorem C75_sin_cos (hd : d.Valid) : ∃ s c, sinAndCos d = .ok (s, c) ∧ sin d = .ok s ∧ cos d = .ok c ∧
    IsLift (fun _ : Unit => Complex.sin) d s ∧ IsLift (fun _ : Unit => Complex.cos) d c :=
  sinAndCos_liftK trigLike_c (fun _ _ => rfl) (fun _ _ => rfl) hd

/-- **C75.** `sinh`, `cosh` and `sinh_and_cosh` with complex coefficients. -/
theorem C75_sinh_cosh (hd : d.Valid) : ∃ s c, sinhAndCosh d = .ok (s, c) ∧ sinh d = .ok s ∧ cosh d = .ok c ∧
    IsLift (fun _ : Unit => Complex.sinh) d s ∧ IsLift (fun _ : Unit => Complex.cosh) d c :=
  sinhAndCosh_liftK hypLike_c (fun _ _ => rfl) (fun _ _ => rfl) hd

/-- **C75.** `tan` with complex coefficients: the expansion of the tangent where the cosine of the constant part is not zero, otherwise not finite. -/
theorem C75_tan : Computes (C := ℂ) (ι := Unit) tan Complex.tan (fun z => Complex.cos z ≠ 0) where
  lift _ hd h := tan_liftK trigLike_c (fun _ => rfl) (fun _ _ _ => rfl) tanOk_c hd h
  undef _ hd h := tan_undefK (ι := Unit) tanOk_c hd h

/-- **C75.** `tanh` with complex coefficients, where the hyperbolic cosine of the constant part is not zero. -/
theorem C75_tanh (hd : d.Valid) (h : Complex.cosh d.czero ≠ 0) : ∃ r, tanh d = .ok r ∧ IsLift (fun _ : Unit => Complex.tanh) d r :=
  tanh_liftK hypLike_c (fun _ => rfl) (fun _ _ _ => rfl) hd fun _ => h

/-- **C75.** `atanh` with complex coefficients, out of the branch cuts (the real numbers of absolute value 1 or more). -/
theorem C75_atanh (hd : d.Valid) (h1 : 1 + d.czero ∈ Complex.slitPlane) (h2 : 1 - d.czero ∈ Complex.slitPlane) :
    ∃ r, atanh d = .ok r ∧ IsLift (fun _ : Unit => catanh) d r ∧ ∀ z : ℂ, 1 + z ≠ 0 → 1 - z ≠ 0 → Complex.tanh (catanh z) = z := by
  obtain ⟨r, h3, h4⟩ := atanh_c hd h1 h2
  refine ⟨r, h3, h4, fun z hz1 hz2 => ?_⟩
  have e1 : Complex.exp (catanh z) * Complex.exp (catanh z) = (1 + z) / (1 - z) := by
    rw [← Complex.exp_add, show catanh z + catanh z = Complex.log (1 + z) - Complex.log (1 - z) by unfold catanh; ring, Complex.exp_sub,
      Complex.exp_log hz1, Complex.exp_log hz2]
  have e2 : Complex.exp (catanh z) ≠ 0 := Complex.exp_ne_zero _
  rw [Complex.tanh_eq_sinh_div_cosh, Complex.sinh, Complex.cosh, Complex.exp_neg]
  set w := Complex.exp (catanh z) with hw
  have e3 : w * w * (1 - z) = 1 + z := by rw [e1]; field_simp
  have e4 : w + w⁻¹ ≠ 0 := fun h0 => by
    have h5 : w * w = -1 := by
      have h6 : w * (w + w⁻¹) = 0 := by rw [h0, mul_zero]
      rw [mul_add, mul_inv_cancel₀ e2] at h6
      linear_combination h6
    rw [h5] at e3
    have : (2 : ℂ) = 0 := by linear_combination -e3
    norm_num at this
  have e5 : w - w⁻¹ = z * (w + w⁻¹) := by
    have : w * (w - w⁻¹) = w * (z * (w + w⁻¹)) := by
      have h7 : w * w⁻¹ = 1 := mul_inv_cancel₀ e2
      linear_combination e3 - (1 + z) * h7
    exact mul_left_cancel₀ e2 this
  rw [div_div_div_cancel_right₀ two_ne_zero, e5, mul_div_assoc, div_self e4, mul_one]

/-- **C75.** `pow(gdual, number)` with complex coefficients: for constant parts `z₀` other than zero, the branch of the power function whose value at `z₀` is the
principal one; out of the negative real axis, or for integer exponents, the principal power. For positive integer exponents also at zero. -/
theorem C75_pow_number {α : ℚ} (hd : d.Valid) (hr : -2147483649 < α ∧ α < 2147483648) :
    (d.czero ≠ 0 → ¬ (α.den = 1 ∧ α > 0) → ∃ r, powQ d α = .ok r ∧ IsLift (fun (_ : Unit) z => Complex.exp (α * logNear d.czero z)) d r) ∧
    (d.czero ∈ Complex.slitPlane ∨ α.den = 1 ∧ (0 < α ∨ d.czero ≠ 0) →
      ∃ r, powQ d α = .ok r ∧ IsLift (fun (_ : Unit) (z : ℂ) => z ^ (α : ℂ)) d r) := by
  refine ⟨fun h hα => powQ_branch_c hd hr hα h, fun h => ?_⟩
  by_cases hα : α.den = 1
  · refine powQ_int_c hd hr hα ?_
    rcases h with h | h
    · exact Or.inr (Complex.slitPlane_ne_zero h)
    · exact h.2
  · exact powQ_slit_c hd hr (fun hh => hα hh.1) (h.resolve_right fun hh => hα hh.1)

/-- **C75.** `pow(gdual, int)` with complex coefficients. -/
theorem C75_pow_int {k : ℤ} (hd : d.Valid) (hr : -2147483648 < k) (h : 0 ≤ k ∨ d.czero ≠ 0) :
    ∃ r, powInt d k = .ok r ∧ IsLift (fun (_ : Unit) (z : ℂ) => z ^ k) d r := powInt_lift hd hr (h.imp id fun h _ => h)

/-- **C75.** `pow(number, gdual)` with complex coefficients: any base except zero, also a negative one. -/
theorem C75_pow_base {q : ℚ} (hd : d.Valid) (hq : q ≠ 0) :
    ∃ r, powBase q d = .ok r ∧ r.Valid ∧ (d.degree ≠ 0 → r.order = d.order) ∧
      ∀ (F : (String → ℂ) → ℂ) (a : String → ℂ), IsTaylor a d.order F (d.toMv ()) →
        IsTaylor a d.order (fun x => (q : ℂ) ^ F x) (r.toMv ()) := by
  obtain ⟨r, h1, h2, h3, -, h4⟩ := powBase_c hd hq
  exact ⟨r, h1, h2, h3, h4 ()⟩

/-- `i + dx`, with order 3. -/
noncomputable def Ex.ix : GDual ℂ := ⟨⟨["dx"], [([1], 1), ([0], Complex.I)]⟩, 3⟩

theorem Ex.ix_valid : Ex.ix.Valid := by
  refine ⟨⟨by simp [Ex.ix], by simp [Ex.ix], by simp [Ex.ix], ?_⟩, by simp [Ex.ix]⟩
  intro t ht
  simp only [Ex.ix, List.mem_cons, List.not_mem_nil, or_false] at ht
  rcases ht with rfl | rfl
  · exact decide_eq_false one_ne_zero
  · exact decide_eq_false Complex.I_ne_zero

theorem czero_line (c : ℂ) (n : ℕ) : (⟨⟨["dx"], [([1], 1), ([0], c)]⟩, n⟩ : GDual ℂ).czero = c := by
  have h : (⟨⟨["dx"], [([1], 1), ([0], c)]⟩, n⟩ : GDual ℂ).toMv () = (X "dx" + MvPolynomial.C c : MvPolynomial String ℂ) := by
    unfold GDual.toMv Poly.toMv den
    simp [toExp, X, Lanes.lane]
  unfold GDual.czero
  rw [h]
  simp

theorem Ex.ix_czero : Ex.ix.czero = Complex.I := czero_line _ _

example : Ex.ix.Valid ∧ Ex.ix.czero ≠ 0 ∧ Ex.ix.czero ∈ Complex.slitPlane ∧ Complex.cosh Ex.ix.czero ≠ 0 ∧ Complex.cos Ex.ix.czero ≠ 0 ∧
    1 + Ex.ix.czero ∈ Complex.slitPlane ∧ 1 - Ex.ix.czero ∈ Complex.slitPlane := by
  rw [Ex.ix_czero]
  refine ⟨Ex.ix_valid, Complex.I_ne_zero, ?_, ?_, ?_, ?_, ?_⟩
  · rw [Complex.mem_slitPlane_iff]; right; simp
  · have : Complex.cosh Complex.I = Complex.cos 1 := by rw [← Complex.cosh_mul_I, one_mul]
    rw [this, show (1 : ℂ) = ((1 : ℝ) : ℂ) by norm_num, ← Complex.ofReal_cos]
    exact_mod_cast Real.cos_one_pos.ne'
  · have : Complex.cos Complex.I = Complex.cosh 1 := by rw [← Complex.cos_mul_I, one_mul]
    rw [this, show (1 : ℂ) = ((1 : ℝ) : ℂ) by norm_num, ← Complex.ofReal_cosh]
    exact_mod_cast (Real.cosh_pos 1).ne'
  · rw [Complex.mem_slitPlane_iff]; right; simp
  · rw [Complex.mem_slitPlane_iff]; right; simp

/-! ## C76: identities of the complex functions -/

/-- **C76.** `exp(log(d)) == d` for every constant part other than zero, also on the branch cut. -/
theorem C76_exp_log (hd : d.Valid) (h : d.czero ≠ 0) : ∃ r s, log d = .ok r ∧ exp r = .ok s ∧ GDual.eq s d = true := by
  obtain ⟨r, h1, h2⟩ := log_branch_c hd h
  obtain ⟨s, h3, h4⟩ := computes_exp_c.lift r h2.valid fun _ => trivial
  refine ⟨r, s, h1, h3, (h2.comp h4).eq (IsLift.id hd) fun _ => ?_⟩
  filter_upwards [isOpen_ne.mem_nhds h] with z hz using exp_logNear h hz

/-- **C76.** `pow(d, 1/n)` multiplied `n` times by itself gives `d`, for every constant part other than zero, also on the branch cut. -/
theorem C76_root {n : ℕ} (hd : d.Valid) (hn : 2 ≤ n) (h : d.czero ≠ 0) :
    ∃ r s, powQ d (1 / n) = .ok r ∧ powInt r n = .ok s ∧ GDual.eq s d = true := by
  have hn' : (2 : ℚ) ≤ n := by exact_mod_cast hn
  have hα0 : (0 : ℚ) < 1 / n := by positivity
  have hα1 : (1 : ℚ) / n < 1 := by rw [div_lt_one (by positivity)]; linarith
  obtain ⟨r, h1, h2⟩ := powQ_branch_c (α := 1 / n) hd ⟨by linarith, by linarith⟩ (fun hh => by
    have e : (1 / n : ℚ) = (1 / n : ℚ).num := (Rat.coe_int_num_of_den_eq_one hh.1).symm
    rw [e] at hα0 hα1
    have h3 : (0 : ℤ) < (1 / n : ℚ).num := by exact_mod_cast hα0
    have h4 : (1 / n : ℚ).num < (1 : ℤ) := by exact_mod_cast hα1
    omega) h
  obtain ⟨s, h3, h4⟩ := powInt_lift (ι := Unit) (𝕜 := ℂ) (z := (n : ℤ)) h2.valid (by omega) (Or.inl (by omega))
  refine ⟨r, s, h1, h3, (h2.comp h4).eq (IsLift.id hd) fun _ => ?_⟩
  filter_upwards [isOpen_ne.mem_nhds h] with z hz
  have hn0 : (n : ℂ) ≠ 0 := by exact_mod_cast (by omega : n ≠ 0)
  rw [zpow_natCast, ← Complex.exp_nat_mul, ← mul_assoc, Rat.cast_div, Rat.cast_one, Rat.cast_natCast, mul_one_div_cancel hn0, one_mul]
  exact exp_logNear h hz

/-- **C76.** Euler's formula: `exp(i d) == cos(d) + i sin(d)`. -/
theorem C76_euler (hd : d.Valid) : ∃ e s c, exp (d.mulSG Complex.I) = .ok e ∧ sin d = .ok s ∧ cos d = .ok c ∧
    GDual.eq e (c.add (s.mulSG Complex.I)) = true := by
  obtain ⟨s, c, -, h1, h2, h3, h4⟩ := C75_sin_cos hd
  have h5 := (IsLift.id (ι := Unit) hd).mulSG Complex.I
  obtain ⟨e, h6, h7⟩ := computes_exp_c.lift _ h5.valid fun _ => trivial
  refine ⟨e, s, c, h6, h1, h2, (h5.comp h7).eq (h4.add (h3.mulSG Complex.I)) fun _ => Eventually.of_forall fun z => ?_⟩
  change Complex.exp (Complex.I * z) = Complex.cos z + Complex.I * Complex.sin z
  rw [mul_comm, Complex.exp_mul_I, mul_comm Complex.I]

/-- **C76.** `cosh(d) == cos(i d)` and `i sinh(d) == sin(i d)`. -/
theorem C76_hyperbolic (hd : d.Valid) : ∃ sh ch s c, sinh d = .ok sh ∧ cosh d = .ok ch ∧ sin (d.mulSG Complex.I) = .ok s ∧
    cos (d.mulSG Complex.I) = .ok c ∧ GDual.eq c ch = true ∧ GDual.eq s (sh.mulSG Complex.I) = true := by
  obtain ⟨sh, ch, -, h1, h2, h3, h4⟩ := C75_sinh_cosh hd
  have h5 := (IsLift.id (ι := Unit) hd).mulSG Complex.I
  obtain ⟨s, c, -, h6, h7, h8, h9⟩ := C75_sin_cos h5.valid
  refine ⟨sh, ch, s, c, h1, h2, h6, h7, (h5.comp h9).eq h4 fun _ => Eventually.of_forall fun z => ?_,
    (h5.comp h8).eq (h3.mulSG Complex.I) fun _ => Eventually.of_forall fun z => ?_⟩
  · change Complex.cos (Complex.I * z) = Complex.cosh z
    rw [mul_comm, Complex.cos_mul_I]
  · change Complex.sin (Complex.I * z) = Complex.I * Complex.sinh z
    rw [mul_comm, Complex.sin_mul_I, mul_comm]

/-- **C75.** The restriction to the slit plane is needed: at the constant part -1 no polynomial is the Taylor expansion of the principal logarithm, at any order; that
function is not even continuous there. -/
theorem C75_log_cut (n : ℕ) (hn : n < UINT_MAX - 10) : ∃ d r : GDual ℂ, GDual.mk3 (-1 : ℂ) "x" n = .ok d ∧ log d = .ok r ∧
    ∀ P : MvPolynomial String ℂ, ¬ IsTaylor (fun _ => -1) n (fun x => Complex.log (x "dx")) P := by
  obtain ⟨d, hd⟩ : ∃ d, GDual.mk3 (-1 : ℂ) "x" n = .ok d := ⟨_, mk3_ok.mpr ⟨hn, ⟨'x', rfl, by decide⟩, rfl⟩⟩
  have hv := valid_mk3 (ι := Unit) (K := ℂ) hd
  have hc : d.czero = -1 := by
    rw [GDual.czero, toMv_mk3 hd]
    split_ifs with h0
    · simp [Lanes.lane]
    · simp [Lanes.lane]
  obtain ⟨r, hr, -⟩ := log_branch_c hv (by rw [hc]; norm_num)
  refine ⟨d, r, hd, hr, fun P hP => ?_⟩
  have h1 := hP.cont
  -- along the points `exp(i t)` with `t` slightly larger than `π`
  let γ : ℝ → (String → ℂ) := fun t _ => Complex.exp (t * Complex.I)
  have hγ : ContinuousAt γ Real.pi := by
    refine continuousAt_pi.mpr fun _ => ?_
    fun_prop
  have hγπ : γ Real.pi = fun _ => -1 := by
    funext _
    exact Complex.exp_pi_mul_I
  have h2 : ContinuousAt (fun t => Complex.log (γ t "dx")) Real.pi := ContinuousAt.comp (f := γ) (g := fun x => Complex.log (x "dx"))
    (by rw [hγπ]; exact h1) hγ
  have h3 : ∀ᶠ t in 𝓝[>] Real.pi, Complex.log (γ t "dx") = (t - 2 * Real.pi : ℝ) * Complex.I := by
    filter_upwards [Ioo_mem_nhdsGT (show Real.pi < 3 * Real.pi by linarith [Real.pi_pos])] with t ht
    have e : γ t "dx" = Complex.exp (((t - 2 * Real.pi : ℝ) : ℂ) * Complex.I) := by
      change Complex.exp _ = _
      rw [show ((t - 2 * Real.pi : ℝ) : ℂ) * Complex.I = t * Complex.I - 2 * Real.pi * Complex.I by push_cast; ring, Complex.exp_sub,
        Complex.exp_two_pi_mul_I, div_one]
    rw [e, Complex.log_exp]
    · simp only [Complex.mul_im, Complex.ofReal_re, Complex.I_im, mul_one, Complex.ofReal_im, Complex.I_re, mul_zero, add_zero]
      linarith [ht.1]
    · simp only [Complex.mul_im, Complex.ofReal_re, Complex.I_im, mul_one, Complex.ofReal_im, Complex.I_re, mul_zero, add_zero]
      linarith [ht.2]
  have h4 : Tendsto (fun t => Complex.log (γ t "dx")) (𝓝[>] Real.pi) (𝓝 (Real.pi * Complex.I)) := by
    have := h2.tendsto.mono_left (nhdsWithin_le_nhds (s := Set.Ioi Real.pi))
    rwa [hγπ, show Complex.log (-1) = Real.pi * Complex.I from Complex.log_neg_one] at this
  have h5 : Tendsto (fun t : ℝ => ((t - 2 * Real.pi : ℝ) : ℂ) * Complex.I) (𝓝[>] Real.pi) (𝓝 (((Real.pi - 2 * Real.pi : ℝ) : ℂ) * Complex.I)) := by
    have : ContinuousAt (fun t : ℝ => ((t - 2 * Real.pi : ℝ) : ℂ) * Complex.I) Real.pi := by fun_prop
    exact this.tendsto.mono_left nhdsWithin_le_nhds
  have h6 := tendsto_nhds_unique (h4.congr' h3) h5
  have h7 := congrArg Complex.im h6
  simp only [Complex.mul_im, Complex.ofReal_re, Complex.I_im, mul_one, Complex.ofReal_im, Complex.I_re, mul_zero, add_zero] at h7
  linarith [Real.pi_pos]

/-- **C76 (counterexample).** `log(exp(d)) == d` fails with complex coefficients when the imaginary part of the constant part is out of (-π, π]: at the
constant part `2 π i` the value of `log(exp(d))` is 0. -/
theorem C76_log_exp_counterexample (n : ℕ) (hn : n < UINT_MAX - 10) : ∃ d e r : GDual ℂ, GDual.mk3 (2 * Real.pi * Complex.I : ℂ) "x" n = .ok d ∧
    exp d = .ok e ∧ log e = .ok r ∧ GDual.eq r d = false ∧ r.czero = 0 := by
  obtain ⟨d, hd⟩ : ∃ d, GDual.mk3 (2 * Real.pi * Complex.I : ℂ) "x" n = .ok d := ⟨_, mk3_ok.mpr ⟨hn, ⟨'x', rfl, by decide⟩, rfl⟩⟩
  have hv := valid_mk3 (ι := Unit) (K := ℂ) hd
  have hc : d.czero = 2 * Real.pi * Complex.I := by
    rw [GDual.czero, toMv_mk3 hd]
    split_ifs with h0
    · rw [add_zero, coeff_zero_C]; rfl
    · rw [coeff_add, coeff_zero_X, coeff_zero_C, add_zero]; rfl
  obtain ⟨e, he, hel⟩ := computes_exp_c.lift d hv fun _ => trivial
  have hec : e.czero = 1 := by
    rw [GDual.czero, hel.coeff_zero]
    change Complex.exp d.czero = 1
    rw [hc, Complex.exp_two_pi_mul_I]
  obtain ⟨r, hr, hrl⟩ := log_branch_c hel.valid (by rw [hec]; exact one_ne_zero)
  have hrc : r.czero = 0 := by
    rw [GDual.czero, hrl.coeff_zero]
    change logNear e.czero e.czero = 0
    rw [hec, logNear_self one_ne_zero, Complex.log_one]
  refine ⟨d, e, r, hd, he, hr, ?_, hrc⟩
  rw [Bool.eq_false_iff, Ne, GDual.eq, Poly.eq_iff (ι := Unit) (K := ℂ) hrl.valid.wf hv.wf]
  intro h
  have h1 : r.czero = d.czero := congrArg (coeff 0) (h ())
  rw [hrc, hc] at h1
  have h2 := congrArg Complex.im h1
  simp at h2

end Audi
