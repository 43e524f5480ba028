import Verif.Model.Functions
import Verif.Spec.Denote
import Verif.Spec.Taylor
import Mathlib.Analysis.SpecialFunctions.Arsinh
import Mathlib.Analysis.SpecialFunctions.Arcosh
import Mathlib.Analysis.SpecialFunctions.Artanh
import Mathlib.Analysis.SpecialFunctions.Pow.Real
import Mathlib.Analysis.SpecialFunctions.Trigonometric.Inverse
import Mathlib.Analysis.SpecialFunctions.Trigonometric.Arctan
import Mathlib.Analysis.SpecialFunctions.Integrals.Basic

/-!
# Specification: functions of real numbers and what it means to lift one to gduals

Independent of the model's loops. `LanesFun` says what the standard library functions compute on coefficients (exact real
functions, in the usual domains). `Computes f g dom` says that the gdual function `f` computes Taylor expansions of
compositions with the real function `g`.
-/

namespace Audi

open MvPolynomial Spec

/-- The error function. -/
noncomputable def Spec.erf (x : ℝ) : ℝ := 2 / √Real.pi * ∫ t in (0 : ℝ)..x, Real.exp (-t ^ 2)

/-- The domain in which the real power `x ^ q` exists. -/
def Spec.PowDom (x q : ℝ) : Prop := 0 < x ∨ (x ≠ 0 ∧ ∃ n : ℤ, q = n) ∨ (x = 0 ∧ 0 ≤ q)

/-- What the standard library functions compute, in each lane. Values out of the domains are not constrained. -/
class LanesFun (C : Type) [CfFun C] (ι : outParam Type) [Lanes C ι ℝ] : Prop where
  lane_exp : ∀ (i : ι) (c : C), (Lanes.lane i (CfFun.exp c) : ℝ) = Real.exp (Lanes.lane i c)
  lane_log : ∀ (i : ι) (c : C), 0 < (Lanes.lane i c : ℝ) → (Lanes.lane i (CfFun.log c) : ℝ) = Real.log (Lanes.lane i c)
  lane_sqrt : ∀ (i : ι) (c : C), 0 ≤ (Lanes.lane i c : ℝ) → (Lanes.lane i (CfFun.sqrt c) : ℝ) = √(Lanes.lane i c)
  lane_cbrt : ∀ (i : ι) (c : C), (Lanes.lane i (CfFun.cbrt c) : ℝ) ^ 3 = Lanes.lane i c
  lane_sin : ∀ (i : ι) (c : C), (Lanes.lane i (CfFun.sin c) : ℝ) = Real.sin (Lanes.lane i c)
  lane_cos : ∀ (i : ι) (c : C), (Lanes.lane i (CfFun.cos c) : ℝ) = Real.cos (Lanes.lane i c)
  lane_tan : ∀ (i : ι) (c : C), Real.cos (Lanes.lane i c) ≠ 0 →
    (Lanes.lane i (CfFun.tan c) : ℝ) = Real.tan (Lanes.lane i c)
  lane_sinh : ∀ (i : ι) (c : C), (Lanes.lane i (CfFun.sinh c) : ℝ) = Real.sinh (Lanes.lane i c)
  lane_cosh : ∀ (i : ι) (c : C), (Lanes.lane i (CfFun.cosh c) : ℝ) = Real.cosh (Lanes.lane i c)
  lane_tanh : ∀ (i : ι) (c : C), (Lanes.lane i (CfFun.tanh c) : ℝ) = Real.tanh (Lanes.lane i c)
  lane_asin : ∀ (i : ι) (c : C), |(Lanes.lane i c : ℝ)| ≤ 1 →
    (Lanes.lane i (CfFun.asin c) : ℝ) = Real.arcsin (Lanes.lane i c)
  lane_acos : ∀ (i : ι) (c : C), |(Lanes.lane i c : ℝ)| ≤ 1 →
    (Lanes.lane i (CfFun.acos c) : ℝ) = Real.arccos (Lanes.lane i c)
  lane_atan : ∀ (i : ι) (c : C), (Lanes.lane i (CfFun.atan c) : ℝ) = Real.arctan (Lanes.lane i c)
  lane_asinh : ∀ (i : ι) (c : C), (Lanes.lane i (CfFun.asinh c) : ℝ) = Real.arsinh (Lanes.lane i c)
  lane_acosh : ∀ (i : ι) (c : C), 1 ≤ (Lanes.lane i c : ℝ) →
    (Lanes.lane i (CfFun.acosh c) : ℝ) = Real.arcosh (Lanes.lane i c)
  lane_atanh : ∀ (i : ι) (c : C), |(Lanes.lane i c : ℝ)| < 1 →
    (Lanes.lane i (CfFun.atanh c) : ℝ) = Real.artanh (Lanes.lane i c)
  lane_erf : ∀ (i : ι) (c : C), (Lanes.lane i (CfFun.erf c) : ℝ) = Spec.erf (Lanes.lane i c)
  lane_pow : ∀ (i : ι) (c : C) (q : ℚ), Spec.PowDom (Lanes.lane i c) q →
    (Lanes.lane i (CfFun.pow c q) : ℝ) = (Lanes.lane i c : ℝ) ^ (q : ℝ)
  lane_powBase : ∀ (i : ι) (q : ℚ) (c : C), Spec.PowDom q (Lanes.lane i c) →
    (Lanes.lane i (CfFun.powBase q c) : ℝ) = (q : ℝ) ^ (Lanes.lane i c : ℝ)
  lane_pi : ∀ i : ι, (Lanes.lane i (CfFun.pi : C) : ℝ) = Real.pi
  lane_twoOverSqrtPi : ∀ i : ι, (Lanes.lane i (CfFun.twoOverSqrtPi : C) : ℝ) = 2 / √Real.pi
  logOk_iff : ∀ c : C, CfFun.logOk c = true ↔ ∀ i : ι, 0 < (Lanes.lane i c : ℝ)
  sqrtOk_iff : ∀ c : C, CfFun.sqrtOk c = true ↔ ∀ i : ι, 0 ≤ (Lanes.lane i c : ℝ)
  tanOk_iff : ∀ c : C, CfFun.tanOk c = true ↔ ∀ i : ι, Real.cos (Lanes.lane i c : ℝ) ≠ 0
  asinOk_iff : ∀ c : C, CfFun.asinOk c = true ↔ ∀ i : ι, |(Lanes.lane i c : ℝ)| ≤ 1
  acoshOk_iff : ∀ c : C, CfFun.acoshOk c = true ↔ ∀ i : ι, 1 ≤ (Lanes.lane i c : ℝ)
  atanhOk_iff : ∀ c : C, CfFun.atanhOk c = true ↔ ∀ i : ι, |(Lanes.lane i c : ℝ)| < 1
  powOk_iff : ∀ (c : C) (q : ℚ), CfFun.powOk c q = true ↔ ∀ i : ι, Spec.PowDom (Lanes.lane i c) q
  powBaseOk_iff : ∀ (q : ℚ) (c : C), CfFun.powBaseOk q c = true ↔ ∀ i : ι, Spec.PowDom q (Lanes.lane i c)

/-- The real cube root, `sign(x) |x|^(1/3)`. -/
noncomputable def Spec.cbrt (x : ℝ) : ℝ := SignType.sign x * |x| ^ ((1 : ℝ) / 3)

theorem Spec.cbrt_cube (x : ℝ) : Spec.cbrt x ^ 3 = x := by
  have h : (|x| ^ ((1 : ℝ) / 3)) ^ 3 = |x| := by
    rw [← Real.rpow_natCast, ← Real.rpow_mul (abs_nonneg x)]
    norm_num
  unfold Spec.cbrt
  rw [mul_pow, h]
  rcases lt_trichotomy x 0 with hx | hx | hx
  · simp [sign_neg hx, abs_of_neg hx]
    norm_num
  · simp [hx]
  · simp [sign_pos hx, abs_of_pos hx]

open Classical in
/-- Exact real scalars. -/
noncomputable instance realCfFun : CfFun ℝ where
  toCf := fieldCf
  exp := Real.exp
  log := Real.log
  sqrt := Real.sqrt
  cbrt := Spec.cbrt
  sin := Real.sin
  cos := Real.cos
  tan := Real.tan
  sinh := Real.sinh
  cosh := Real.cosh
  tanh := Real.tanh
  asin := Real.arcsin
  acos := Real.arccos
  atan := Real.arctan
  asinh := Real.arsinh
  acosh := Real.arcosh
  atanh := Real.artanh
  erf := Spec.erf
  pow x q := x ^ (q : ℝ)
  powBase q x := (q : ℝ) ^ x
  pi := Real.pi
  twoOverSqrtPi := 2 / √Real.pi
  logOk x := decide (0 < x)
  sqrtOk x := decide (0 ≤ x)
  tanOk x := decide (Real.cos x ≠ 0)
  asinOk x := decide (|x| ≤ 1)
  acoshOk x := decide (1 ≤ x)
  atanhOk x := decide (|x| < 1)
  powOk x q := decide (Spec.PowDom x q)
  powBaseOk q x := decide (Spec.PowDom q x)

open Classical in
instance realLanesFun : LanesFun ℝ Unit where
  lane_exp _ _ := rfl
  lane_log _ _ _ := rfl
  lane_sqrt _ _ _ := rfl
  lane_cbrt _ c := Spec.cbrt_cube c
  lane_sin _ _ := rfl
  lane_cos _ _ := rfl
  lane_tan _ _ _ := rfl
  lane_sinh _ _ := rfl
  lane_cosh _ _ := rfl
  lane_tanh _ _ := rfl
  lane_asin _ _ _ := rfl
  lane_acos _ _ _ := rfl
  lane_atan _ _ := rfl
  lane_asinh _ _ := rfl
  lane_acosh _ _ _ := rfl
  lane_atanh _ _ _ := rfl
  lane_erf _ _ := rfl
  lane_pow _ _ _ _ := rfl
  lane_powBase _ _ _ _ := rfl
  lane_pi _ := rfl
  lane_twoOverSqrtPi _ := rfl
  logOk_iff c := by
    change decide (0 < c) = true ↔ ∀ _ : Unit, 0 < c
    simp
  sqrtOk_iff c := by
    change decide (0 ≤ c) = true ↔ ∀ _ : Unit, 0 ≤ c
    simp
  tanOk_iff c := by
    change decide (Real.cos c ≠ 0) = true ↔ ∀ _ : Unit, Real.cos c ≠ 0
    simp
  asinOk_iff c := by
    change decide (|c| ≤ 1) = true ↔ ∀ _ : Unit, |c| ≤ 1
    simp
  acoshOk_iff c := by
    change decide (1 ≤ c) = true ↔ ∀ _ : Unit, 1 ≤ c
    simp
  atanhOk_iff c := by
    change decide (|c| < 1) = true ↔ ∀ _ : Unit, |c| < 1
    simp
  powOk_iff c q := by
    change decide (Spec.PowDom c q) = true ↔ ∀ _ : Unit, Spec.PowDom c q
    simp
  powBaseOk_iff q c := by
    change decide (Spec.PowDom q c) = true ↔ ∀ _ : Unit, Spec.PowDom q c
    simp

/-- `r` is the lift of `g` applied to `d`: it is a valid gdual of the same order, and in every lane, whenever the
polynomial of `d` is the Taylor expansion of a function `F` at a point `a` to the order of `d`,
the polynomial of `r` is the Taylor expansion of `g ∘ F`. The function may depend on the lane. -/
structure IsLift {C : Type} [CfFun C] {ι : Type} {𝕜 : Type} [NontriviallyNormedField 𝕜] [Lanes C ι 𝕜] (g : ι → 𝕜 → 𝕜) (d r : GDual C) : Prop where
  valid : r.Valid
  order : r.order = d.order
  taylor : ∀ (i : ι) (F : (String → 𝕜) → 𝕜) (a : String → 𝕜), IsTaylor a d.order F (d.toMv i) →
    IsTaylor a d.order (fun x => g i (F x)) (r.toMv i)

/-- The gdual function `f` computes the Taylor expansion of the composition with `g` for all valid arguments whose
constant part is in the domain `dom` in every lane, and signals a non finite outcome otherwise. -/
structure Computes {C : Type} [CfFun C] {ι : Type} {𝕜 : Type} [NontriviallyNormedField 𝕜] [Lanes C ι 𝕜] (f : GDual C → Res (GDual C)) (g : 𝕜 → 𝕜)
    (dom : 𝕜 → Prop) : Prop where
  lift : ∀ d : GDual C, d.Valid → (∀ i : ι, dom (coeff 0 (d.toMv i : MvPolynomial String 𝕜))) →
    ∃ r, f d = .ok r ∧ IsLift (fun _ : ι => g) d r
  undef : ∀ d : GDual C, d.Valid → (¬ ∀ i : ι, dom (coeff 0 (d.toMv i : MvPolynomial String 𝕜))) →
    f d = .error .nonFinite

/-- As `Computes`, for functions which are continuous but not differentiable at the border of their domain. Outcomes are
not finite when the constant part of some lane is in `bad`; also when it is on the border, except for gduals of degree 0. -/
structure ComputesE {C : Type} [CfFun C] {ι : Type} {𝕜 : Type} [NontriviallyNormedField 𝕜] [Lanes C ι 𝕜] (f : GDual C → Res (GDual C)) (g : 𝕜 → 𝕜)
    (dom bad : 𝕜 → Prop) : Prop where
  lift : ∀ d : GDual C, d.Valid → (∀ i : ι, dom (coeff 0 (d.toMv i : MvPolynomial String 𝕜))) →
    ∃ r, f d = .ok r ∧ IsLift (fun _ : ι => g) d r
  bad : ∀ d : GDual C, d.Valid → (∃ i : ι, bad (coeff 0 (d.toMv i : MvPolynomial String 𝕜))) → f d = .error .nonFinite
  edge : ∀ d : GDual C, d.Valid → (¬ ∀ i : ι, dom (coeff 0 (d.toMv i : MvPolynomial String 𝕜))) → d.degree ≠ 0 →
    f d = .error .nonFinite

namespace GDual

variable {C : Type} [CfFun C] {ι : Type} {𝕜 : Type} [NontriviallyNormedField 𝕜] [Lanes C ι 𝕜]

/-- The names of the symbols are differentials of admissible variable names (as those made by the constructors). -/
def GoodNames (f : GDual C) : Prop := ∀ s ∈ f.p.syms, ∃ m : String, s = "d" ++ m ∧ checkVarName m = .ok ()

/-- As `IsLift`, but the order of the result is 0 if the argument has no symbols. -/
structure IsLiftD (g : ι → 𝕜 → 𝕜) (d r : GDual C) : Prop where
  valid : r.Valid
  order : r.order = if d.p.syms = [] then 0 else d.order
  taylor : ∀ (i : ι) (F : (String → 𝕜) → 𝕜) (a : String → 𝕜), IsTaylor a d.order F (d.toMv i) →
    IsTaylor a d.order (fun x => g i (F x)) (r.toMv i)

/-- As `ComputesE`, for the functions that work through `_compose_from_derivative`: all the symbols of the argument must
be differentials of legal variable names. -/
structure ComputesD (f : GDual C → Res (GDual C)) (g : 𝕜 → 𝕜) (dom bad : 𝕜 → Prop) : Prop where
  lift : ∀ d : GDual C, d.Valid → GoodNames d → (∀ i : ι, dom (coeff 0 (d.toMv i : MvPolynomial String 𝕜))) →
    ∃ r, f d = .ok r ∧ IsLiftD (fun _ : ι => g) d r
  bad : ∀ d : GDual C, d.Valid → (∃ i : ι, bad (coeff 0 (d.toMv i : MvPolynomial String 𝕜))) → f d = .error .nonFinite
  edge : ∀ d : GDual C, d.Valid → (¬ ∀ i : ι, dom (coeff 0 (d.toMv i : MvPolynomial String 𝕜))) → d.degree ≠ 0 →
    f d = .error .nonFinite

end GDual
end Audi
