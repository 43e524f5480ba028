import Verif.Spec.NumFormulas
import Verif.Props.C99_Values
import Verif.Props.C97_SpecialConst
import Verif.Props.C100_Examples

/-!
# C99: values of integer powers and of powers with gdual exponents

They are not computed with `std::pow`: positive integers make a product, negative ones repeated quotients, gduals `exp(y * log(x))`.
-/

namespace Audi
open GDual

variable {F : XFormat} [XLibm F]

theorem foldl_prods {a : GDual (XF F)} {x : XF F} (ha : Cst False a x) (hx : x.Fin) (k s : ℕ) (hk : ∀ j < k, (x.prods j).Fin) :
    Cst False ((List.range' s k).foldl (fun r _ => r.mul a) a) (x.prods k) := by
  induction k with
  | zero => exact ha
  | succ k ih =>
    rw [List.range'_concat, List.foldl_append]
    obtain ⟨p, hp⟩ := hk k (Nat.lt_succ_self k)
    obtain ⟨q, hq⟩ := hx
    have := (ih fun j hj => hk j (Nat.lt_succ_of_lt hj)).mul ha
    rw [cmul_fin hp hq] at this
    exact this

theorem foldlM_quots {a r : GDual (XF F)} {x : XF F} (ha : Cst False a x) (hx : x.Fin) (hr : Cst False r (x.quots 0)) (hi : (Cf.div Cf.one x).Fin) (k s : ℕ)
    (hk : ∀ j < k, (x.quots j).Fin) : ∃ d, (List.range' s k).foldlM (fun r _ => r.div a) r = .ok d ∧ Cst False d (x.quots k) := by
  induction k with
  | zero => exact ⟨r, rfl, hr⟩
  | succ k ih =>
    obtain ⟨d, h1, h2⟩ := ih fun j hj => hk j (Nat.lt_succ_of_lt hj)
    obtain ⟨p, hp⟩ := hk k (Nat.lt_succ_self k)
    obtain ⟨q, hq⟩ := hi
    obtain ⟨e, h3, h4⟩ := h2.div ha (Or.inr hx)
    rw [cmul_fin hp hq] at h4
    refine ⟨e, ?_, h4⟩
    rw [List.range'_concat, List.foldlM_append, h1, res_bind]
    change (d.div a >>= fun s => List.foldlM _ s []) = _
    rw [h3]; rfl

theorem Cst.powers {a : GDual (XF F)} {x : XF F} (hc : Cst False a x) (hf : x.Fin) :
    (∀ k : ℕ, k + 1 < 2147483648 → (∀ j < k, (x.prods j).Fin) →
      (∃ d, a.powInt (k + 1 : ℕ) = .ok d ∧ Cst False d (x.prods k)) ∧ ∃ d, a.powQ (k + 1 : ℕ) = .ok d ∧ Cst False d (x.prods k)) ∧
    (∃ d, a.powInt 0 = .ok d ∧ Cst False d Cf.one) ∧
    (∀ k : ℕ, k + 1 < 2147483648 → (Cf.div Cf.one x).Fin → (∀ j < k, (x.quots j).Fin) → ∃ d, a.powInt (-(k + 1 : ℕ)) = .ok d ∧ Cst False d (x.quots k)) ∧
    (∀ (b : GDual (XF F)) (y : XF F), Cst False b y → y.Fin → (XLibm.log x).Fin → (Cf.mul y (XLibm.log x)).Fin →
      ∃ d, a.powG b = .ok d ∧ Cst False d (XLibm.exp (Cf.mul y (XLibm.log x)))) := by
  refine ⟨fun k hb hk => ?_, ?_, fun k hb hi hk => ?_, fun b y hb hyf hl hm => ?_⟩
  · have h := foldl_prods hc hf k 1 hk
    refine ⟨⟨_, ?_, h⟩, _, ?_, h⟩
    · unfold GDual.powInt mulLoop
      rw [if_neg (by omega), if_pos (by omega), show ((k + 1 : ℕ) : ℤ).toNat - 1 = k by omega]
    · unfold GDual.powQ mulLoop
      have hk0 : (0 : ℚ) ≤ k := k.cast_nonneg
      rw [if_neg (by
          push Not
          refine ⟨?_, by push_cast; linarith⟩
          have : ((k + 1 : ℕ) : ℚ) < (2147483648 : ℕ) := by exact_mod_cast hb
          exact_mod_cast this), if_pos ⟨by simp, by push_cast; linarith⟩,
        show (((k + 1 : ℕ) : ℚ).num.toNat - 1) = k by rw [Rat.num_natCast]; omega]
  · refine ⟨_, by unfold GDual.powInt; rw [if_neg (by decide), if_neg (by decide)], ?_⟩
    obtain ⟨q, hq⟩ := hf
    have := (hc.sub hc).addGS (Cf.ofRat 1)
    rw [XF.cancel' hq, CfZero.add_zero] at this
    exact this
  · obtain ⟨r, h1, h2⟩ := hc.divSG Cf.one (Or.inr hf)
    rw [cmul_one_left] at h2
    obtain ⟨d, h3, h4⟩ := foldlM_quots hc hf h2 hi k 1 hk
    refine ⟨d, ?_, h4⟩
    unfold GDual.powInt
    rw [if_pos (by omega), if_neg (by omega), h1, res_bind, show ((- -((k + 1 : ℕ) : ℤ)).toNat - 1) = k by omega, h3]
  · obtain ⟨l, h1, h2⟩ := hc.log (Or.inr hf)
    obtain ⟨p, hp⟩ := hyf
    obtain ⟨q, hq⟩ := hl
    have h3 := hb.mul h2
    rw [cmul_fin hp hq] at h3
    obtain ⟨d, h4, h5⟩ := h3.exp (Or.inr hm)
    exact ⟨d, by unfold GDual.powG; rw [h1, res_bind, h4], h5⟩

/-- **C99** The values of powers with integers, with the exponent as an `int` and, for positive integers, as a `double`, and of powers with gdual exponents, as long as the intermediate results are
numbers. `pow(x, 0)` of a gdual with an `int` is 1. -/
theorem C99_powers {a : GDual (XF F)} (ha : a.Valid) {x : XF F} (hx : a.constantCf = .ok x) (hf : x.Fin) :
    (∀ k : ℕ, k + 1 < 2147483648 → (∀ j < k, (x.prods j).Fin) →
      (∃ d, a.powInt (k + 1 : ℕ) = .ok d ∧ d.constantCf = .ok (x.prods k)) ∧ ∃ d, a.powQ (k + 1 : ℕ) = .ok d ∧ d.constantCf = .ok (x.prods k)) ∧
    (∃ d, a.powInt 0 = .ok d ∧ d.constantCf = .ok Cf.one) ∧
    (∀ k : ℕ, k + 1 < 2147483648 → (Cf.div Cf.one x).Fin → (∀ j < k, (x.quots j).Fin) → ∃ d, a.powInt (-(k + 1 : ℕ)) = .ok d ∧ d.constantCf = .ok (x.quots k)) ∧
    (∀ (b : GDual (XF F)) (y : XF F), b.Valid → b.constantCf = .ok y → y.Fin → (XLibm.log x).Fin → (Cf.mul y (XLibm.log x)).Fin →
      ∃ d, a.powG b = .ok d ∧ d.constantCf = .ok (XLibm.exp (Cf.mul y (XLibm.log x)))) := by
  have h := Cst.powers (Cst.of_ok (P := False) ha.wf hx) hf
  refine ⟨fun k hb hk => ?_, ?_, fun k hb hi hk => ?_, fun b y hb hy hyf hl hm => ?_⟩
  · obtain ⟨⟨d, h1, h2⟩, e, h3, h4⟩ := h.1 k hb hk
    exact ⟨⟨d, h1, h2.ok⟩, e, h3, h4.ok⟩
  · obtain ⟨d, h1, h2⟩ := h.2.1; exact ⟨d, h1, h2.ok⟩
  · obtain ⟨d, h1, h2⟩ := h.2.2.1 k hb hi hk; exact ⟨d, h1, h2.ok⟩
  · obtain ⟨d, h1, h2⟩ := h.2.2.2 b y (Cst.of_ok hb.wf hy) hyf hl hm; exact ⟨d, h1, h2.ok⟩

theorem XF.prods_one (k : ℕ) : (Cf.one : XF F).prods k = Cf.one := by
  induction k with
  | zero => rfl
  | succ k ih => rw [XF.prods, ih, XF.mul_one]

attribute [local instance] lib64 in
example : ∃ d, oneX.powInt (3 : ℕ) = .ok d ∧ d.constantCf = .ok (Cf.mul (Cf.mul Cf.one Cf.one) Cf.one) :=
  ((C99_powers oneX_valid rfl one_fin).1 2 (by norm_num) fun j _ => by rw [XF.prods_one]; exact one_fin).1

/-- The number 134218467 of `double`; its square needs 55 digits. -/
def dCube : XF .binary64 := XF.round _ 134218467

theorem dCube_v : dCube.v = .fin 134218467 := by
  have h : nearest 53 (134218467 : ℚ) = 134218467 := by
    have := nearest_of_digits (K := ℚ) (p := 53) (by norm_num) (n := 134218467) (by norm_num) 0
    simpa using this
  exact rnd64_eq h (small_le (e := 0) (by norm_num) (by norm_num)) (lt_big (by norm_num))

theorem dCube_two : (Cf.mul dCube dCube).v = .fin 18014596883830088 := by
  rw [XF.mul_fin dCube_v dCube_v]
  have h1 : (2 : ℚ) ^ (54 : ℤ) ≤ |134218467 * 134218467| := by norm_num [abs_of_pos]
  have h : nearest 53 (134218467 * 134218467 : ℚ) = 18014596883830088 := by
    rw [nearest_eq (e := 54) (n := 4503649220957522) h1 (by norm_num [abs_of_pos]) (by norm_num [abs_le, abs_lt])]
    norm_num
  exact rnd64_eq h (small_le h1 (by norm_num)) (lt_big (by norm_num [abs_of_pos]))

theorem dCube_three : (Cf.mul (Cf.mul dCube dCube) dCube).v = .fin 2417891577370651364687872 := by
  rw [XF.mul_fin dCube_two dCube_v]
  have h1 : (2 : ℚ) ^ (81 : ℤ) ≤ |18014596883830088 * 134218467| := by norm_num [abs_of_pos]
  have h : nearest 53 (18014596883830088 * 134218467 : ℚ) = 2417891577370651364687872 := by
    rw [nearest_eq (e := 81) (n := 4503674017955831) h1 (by norm_num [abs_of_pos]) (by norm_num [abs_le, abs_lt])]
    norm_num
  exact rnd64_eq h (small_le h1 (by norm_num)) (lt_big (by norm_num [abs_of_pos]))

theorem dCube_cube : (XF.round .binary64 (134218467 ^ 3)).v = .fin 2417891577370651901558784 := by
  have h1 : (2 : ℚ) ^ (81 : ℤ) ≤ |134218467 ^ 3| := by norm_num [abs_of_pos]
  have h : nearest 53 (134218467 ^ 3 : ℚ) = 2417891577370651901558784 := by
    rw [nearest_eq (e := 81) (n := 4503674017955832) h1 (by norm_num [abs_of_pos]) (by norm_num [abs_le, abs_lt])]
    norm_num
  exact rnd64_eq h (small_le h1 (by norm_num)) (lt_big (by norm_num [abs_of_pos]))

/-- **C99** (the value of an integer power is not that of the library) With `double`, the value of `pow(x, 3)` of each gdual with the constant coefficient 134218467 is not the `double` nearest to
`134218467^3`. A C library whose `pow` rounds to the nearest number gives another value when the program is run with numbers. -/
theorem C99_power_counterexample [XLibm .binary64] : ∃ x c : XF .binary64, x.v = .fin 134218467 ∧ c.v = .fin 2417891577370651364687872 ∧ (XF.round .binary64 (134218467 ^ 3)).v = .fin 2417891577370651901558784 ∧
    c ≠ XF.round .binary64 (134218467 ^ 3) ∧
    ∀ a : GDual (XF .binary64), a.Valid → a.constantCf = .ok x → ∃ d, a.powInt 3 = .ok d ∧ d.constantCf = .ok c := by
  refine ⟨dCube, _, dCube_v, dCube_three, dCube_cube, fun h => ?_, fun a ha hx => ?_⟩
  · have := congrArg XF.v h
    rw [dCube_three, dCube_cube] at this
    norm_num at this
  · refine ((C99_powers ha hx ⟨_, dCube_v⟩).1 2 (by norm_num) fun j hj => ?_).1
    interval_cases j
    · exact ⟨_, dCube_v⟩
    · exact ⟨_, dCube_two⟩

end Audi
