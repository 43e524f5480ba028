import Verif.Props.C100_Coefficients

/-! Examples which meet the hypotheses of C99 and C100, with a crude library. -/

namespace Audi
open GDual

/-- The library of the examples. -/
@[reducible] def lib64 : XLibm .binary64 := XLibm.crude .binary64

attribute [local instance] lib64

/-- `if (x < 2) { y = exp(x * x); } else { y = x; }`, on numbers. -/
def exProg : Prog (XF .binary64) :=
  .ite .lt (.var "x") (.bin .add (.var "x") (.var "x")) (.assign "y" (.fn .exp (.bin .mul (.var "x") (.var "x")))) (.assign "y" (.var "x"))

theorem one_fin : (Cf.one : XF .binary64).Fin := ⟨1, XF.one_v⟩

theorem two64 : rnd64 2 = .fin 2 := by
  have : round64 2 = 2 := by
    have := round64_digits (n := 1) (e := 1) (by norm_num) (by
      rw [Int.cast_one, one_mul, abs_of_pos (by norm_num)]
      exact zpow_le_zpow_right₀ (by norm_num) (by norm_num))
    simpa using this
  rw [rnd64, this, if_pos]
  rw [abs_of_pos (by norm_num)]
  calc (2 : ℚ) = 2 ^ 1 := by norm_num
    _ < 2 ^ 1024 := pow_lt_pow_right₀ (by norm_num) (by norm_num)

example : ∃ σ', Prog.Run exProg (fun _ => oneX) σ' ∧ (σ' "y").constantCf = .ok (XLibm.exp Cf.one) := by
  have h2 : (Cf.add (Cf.one : XF .binary64) Cf.one).v = .fin 2 := by
    rw [XF.add_fin XF.one_v XF.one_v]
    norm_num
    exact two64
  have hlt : CfOrd.lt (Cf.one : XF .binary64) (Cf.add Cf.one Cf.one) = true := by
    change XF.lt _ _ = true
    unfold XF.lt
    rw [h2, XF.one_v]
    simp
  have he : (XLibm.exp (Cf.mul Cf.one Cf.one : XF .binary64)).Fin := by
    rw [XF.mul_one]
    refine ⟨1, ?_⟩
    change (match (Cf.one : XF .binary64).v with
      | .nan => XF.nan .binary64
      | .inf s => if s then XF.round .binary64 0 else XF.inf .binary64 false
      | .fin q => if q < 0 then XF.round .binary64 0 else XF.round .binary64 1).v = _
    rw [XF.one_v]
    simp only
    rw [if_neg (by norm_num)]
    exact XF.one_v
  have hrun : Prog.NRun exProg (fun _ => (Cf.one : XF .binary64)) _ :=
    .iteT _ _ _ _ _ _ _ one_fin ⟨one_fin, one_fin, 2, h2⟩ hlt
      (.assign _ "y" _ ⟨⟨one_fin, one_fin, 1, by change (Cf.mul (Cf.one : XF .binary64) Cf.one).v = _; rw [XF.mul_one]; exact XF.one_v⟩, he⟩)
  obtain ⟨σ', h1, h3⟩ := C99_program_partial (p := exProg) ⟨by simp, trivial, ⟨trivial, trivial, trivial⟩, ⟨trivial, trivial, trivial, trivial⟩, trivial⟩ hrun
    (σ := fun _ => oneX) (fun _ => ⟨oneX_valid.wf, rfl⟩)
  refine ⟨σ', h1, ?_⟩
  rw [(h3 "y").2, Function.update_self]
  change Except.ok (XLibm.exp (Cf.mul (Cf.one : XF .binary64) Cf.one)) = _
  rw [XF.mul_one]

example : ∃ d, oneX.div oneX = .ok d ∧ d.constantCf = .ok (Cf.mul Cf.one (Cf.div Cf.one Cf.one)) :=
  C99_div oneX_valid oneX_valid rfl rfl XF.one_v XF.one_v (by rw [XF.one_div_one]; exact XF.one_v)

example : ∃ r c, Fn.run .exp nanX = .ok r ∧ r.constantCf = .ok c ∧ IsNaN c := C100_nan (f := .exp) trivial nanX_valid (p0 := XF.nan _) rfl rfl

example : ∃ r c, Fn.run .asin nanX = .ok r ∧ r.constantCf = .ok c ∧ IsNaN c := C100_nan (f := .asin) trivial nanX_valid (p0 := XF.nan _) rfl rfl

example : ∃ r c, Fn.run .sin oneX = .ok r ∧ r.constantCf = .ok c ∧ (c = Fn.num .sin Cf.one ∨ NonFinite (Cf.one : XF .binary64) ∧ IsNaN c) :=
  C100_value (f := .sin) trivial oneX_valid rfl

/-- `-1 + dx`. -/
def negX : GDual (XF .binary64) := ⟨⟨["dx"], [([1], Cf.one), ([0], Cf.neg Cf.one)]⟩, 2⟩

theorem negX_valid : negX.Valid where
  wf := ⟨by simp [negX], by simp [negX], by simp [negX], by
    intro t ht
    simp only [negX, List.mem_cons, List.not_mem_nil, or_false] at ht
    rcases ht with rfl | rfl
    · exact XF.isZero_one
    · rw [XF.isZero_false, XF.neg_fin XF.one_v]; simp⟩
  deg := by intro t ht; simp only [negX, List.mem_cons, List.not_mem_nil, or_false] at ht; rcases ht with rfl | rfl <;> simp [negX]

theorem negX_cst : Cst False negX (Cf.neg Cf.one) := Cst.of_ok negX_valid.wf rfl

theorem negOne_neg : (Cf.neg Cf.one : XF .binary64).Neg := Or.inr ⟨-1, by norm_num, XF.neg_fin XF.one_v⟩

example : ∃ r c, sqrt negX = .ok r ∧ r.constantCf = .ok c ∧ IsNaN c := ((C100_outside negX_valid negX_cst.ok).1 negOne_neg).1

example : ∃ r c, log negX = .ok r ∧ r.constantCf = .ok c ∧ IsNaN c := ((C100_outside negX_valid negX_cst.ok).1 negOne_neg).2

example : ∃ r c, log zeroX = .ok r ∧ r.constantCf = .ok c ∧ c.v = .inf true := (C100_pole zeroX_valid (p0 := Cf.zero) rfl).1 XF.zero_v

example : ∃ r c, acosh zeroX = .ok r ∧ r.constantCf = .ok c ∧ IsNaN c := (C100_outside_double zeroX_valid (p0 := Cf.zero) rfl XF.zero_v).2 (by norm_num)

/-- This library underflows at -1: the exponential of `-1 + dx` has no terms. -/
example : ∃ r, exp negX = .ok r ∧ r.p.terms = [] := by
  refine C100_exp_hides negX_valid negX_cst.ok ?_
  change (match (Cf.neg Cf.one : XF .binary64).v with
    | .nan => XF.nan .binary64
    | .inf s => if s then XF.round .binary64 0 else XF.inf .binary64 false
    | .fin q => if q < 0 then XF.round .binary64 0 else XF.round .binary64 1).v = _
  rw [XF.neg_fin XF.one_v]
  simp only
  rw [if_pos (by norm_num)]
  exact XF.zero_v

theorem nanD_has : HasAt IsNaN nanD (Finsupp.single "dx" 1) := ⟨([1], XF.nan _), by simp [nanD], rfl, by simp [nanD, toExp]⟩

example : ∃ r, sin nanD = .ok r ∧ HasAt IsNaN r (Finsupp.single "dx" 1) :=
  (C100_trig_keeps absorbing_nan nanD_valid (p0 := Cf.zero) rfl nanD_has (by simp)).1 (by rw [XLibm.cos_zero _ XF.zero_v]; simp)

example : ∃ r, log nanD = .ok r ∧ HasAt IsNaN r (Finsupp.single "dx" 1) :=
  C100_log_keeps absorbing_nan nanD_valid (p0 := Cf.zero) rfl (by rw [XF.inv_zero XF.zero_v]; simp) nanD_has (by simp)

end Audi
