import Verif.Proofs.RoundedDiff
import Verif.Props.C67_Rounding
import Verif.Proofs.CfHom
import Verif.Props.C13_Terms

/-! # C103: rounding errors of evaluate, partial, integrate and subs -/

set_option linter.unusedSectionVars false

namespace Audi
open GDual MvPolynomial Spec

section
variable {K : Type} [Field K] [LinearOrder K] [IsStrictOrderedRing K] {R : Rounding K} {a r : GDual (Fl R)}

/-- **C103.** The value that `evaluate` returns differs from the value of the polynomial `A` with the same coefficients by at most `(1 + u) ^ N - 1` times the
value at `|x|` of the polynomial `B` with the absolute values of the coefficients, where `N` is the order plus the number of terms minus one. -/
theorem C103_evaluate (ha : a.Valid) {dict : List (String × Fl R)} {c : Fl R} (hc : a.evaluate dict = .ok c) {x : String → K}
    (hx : ∀ s ∈ a.p.syms, (dict.lookup s).map Fl.val = some (x s)) {A B : MvPolynomial String K}
    (hA : ∀ E, A.coeff E = a.coeffOf E) (hB : ∀ E, B.coeff E = |a.coeffOf E|) :
    |c.val - eval x A| ≤ ((1 + R.u) ^ (a.getOrder + (a.p.terms.length - 1)) - 1) * eval (fun s => |x s|) B := by
  have h := Poly.near_evaluate (R := R) ha.wf (n := a.order) (A := A) (B := B) (k := 0) ha.deg
    (fun E => by rw [hA, hB]; exact Rounding.Near.refl R 0 _) hc
  have hv : ∀ P : MvPolynomial String K, (∀ E, P.coeff E ≠ 0 → a.coeffOf E ≠ 0) → ∀ g : K → K,
      eval (fun s => g ((dict.lookup s).getD Cf.zero).val) P = eval (fun s => g (x s)) P := fun P hP g => by
    rw [eval_eq, eval_eq]
    refine Finset.sum_congr rfl fun E hE => ?_
    congr 1
    refine Finset.prod_congr rfl fun s hs => ?_
    obtain ⟨t, ht, hte⟩ := Poly.cof_ne_zero (p := a.p) (hP E (mem_support_iff.mp hE))
    have hmem : s ∈ a.p.syms := by
      by_contra hn
      rw [← hte, Finsupp.mem_support_iff, toExp_apply ha.wf.ndsyms, expOf_of_notMem hn] at hs
      exact hs rfl
    have h1 := hx s hmem
    cases hl : dict.lookup s with
    | none => rw [hl] at h1; simp at h1
    | some y =>
      rw [hl] at h1
      simp only [Option.map_some, Option.some.injEq] at h1
      rw [Option.getD_some, h1]
  have h1 := h.1
  have hvA : eval (fun s => ((dict.lookup s).getD Cf.zero).val) A = eval x A := hv A (fun E hE => by rwa [hA] at hE) id
  rw [hvA, hv B (fun E hE => by rw [hB] at hE; exact fun h0 => hE (by rw [h0, abs_zero])) (fun y => |y|), Nat.zero_add] at h1
  exact h1

/-- **C103.** A coefficient of `partial` is the coefficient of the argument times the exponent, with the roundings of the exponent and of the product; if the exponent is a number
of the format, the relative error is at most `u`. -/
theorem C103_partial_derivative (ha : a.Valid) {name : String} (h : a.partial' name = .ok r) (E : String →₀ ℕ) :
    r.coeffOf E = R.rnd (a.coeffOf (E + Finsupp.single ("d" ++ name) 1) * R.rnd ((E ("d" ++ name) : K) + 1)) ∧
    (R.rnd ((E ("d" ++ name) : K) + 1) = (E ("d" ++ name) : K) + 1 →
      |r.coeffOf E - ((E ("d" ++ name) : K) + 1) * a.coeffOf (E + Finsupp.single ("d" ++ name) 1)| ≤
        R.u * |((E ("d" ++ name) : K) + 1) * a.coeffOf (E + Finsupp.single ("d" ++ name) 1)|) := by
  unfold partial' at h
  obtain ⟨_, _, h⟩ := bind_ok_iff.mp h
  injection h with h
  subst h
  have h1 : (⟨a.p.diff ("d" ++ name), a.order⟩ : GDual (Fl R)).coeffOf E = R.rnd (a.coeffOf (E + Finsupp.single ("d" ++ name) 1) * R.rnd ((E ("d" ++ name) : K) + 1)) :=
    Poly.cof_diff ha.wf _ E
  refine ⟨h1, fun h2 => ?_⟩
  rw [h1, h2, mul_comm ((E ("d" ++ name) : K) + 1)]
  exact R.err _

/-- **C103.** A coefficient of `integrate` is the coefficient of the argument divided by the new exponent, with the roundings of the exponent and of the quotient; coefficients that do not contain the
variable, and those above the order, are zero. If the exponent is a number of the format, the relative error is at most `u`. -/
theorem C103_integrate (ha : a.Valid) {name : String} (h : a.integrate name = .ok r) (E : String →₀ ℕ) :
    (E ("d" ++ name) = 0 ∨ a.getOrder < E.degree → r.coeffOf E = 0) ∧
    (E.degree < a.getOrder → r.coeffOf (E + Finsupp.single ("d" ++ name) 1) = R.rnd (a.coeffOf E / R.rnd ((E ("d" ++ name) : K) + 1))) ∧
    (E.degree < a.getOrder → R.rnd ((E ("d" ++ name) : K) + 1) = (E ("d" ++ name) : K) + 1 →
      |r.coeffOf (E + Finsupp.single ("d" ++ name) 1) - a.coeffOf E / ((E ("d" ++ name) : K) + 1)| ≤ R.u * |a.coeffOf E / ((E ("d" ++ name) : K) + 1)|) := by
  unfold integrate at h
  obtain ⟨_, _, h⟩ := bind_ok_iff.mp h
  injection h with h
  subst h
  have key : ∀ E, (⟨(a.p.integrate ("d" ++ name)).truncate a.order, a.order⟩ : GDual (Fl R)).coeffOf E = if E.degree ≤ a.order then
      (if E ("d" ++ name) = 0 then 0 else R.rnd (a.coeffOf (E - Finsupp.single ("d" ++ name) 1) / R.rnd (E ("d" ++ name) : K))) else 0 := fun E => by
    refine (Poly.cof_truncate (ha.wf.integrate _) a.order E).trans ?_
    rw [Poly.cof_integrate ha.wf]
    rfl
  have h2 : E.degree < a.getOrder → (⟨(a.p.integrate ("d" ++ name)).truncate a.order, a.order⟩ : GDual (Fl R)).coeffOf (E + Finsupp.single ("d" ++ name) 1) =
      R.rnd (a.coeffOf E / R.rnd ((E ("d" ++ name) : K) + 1)) := fun hE => by
    have hE' : E.degree < a.order := hE
    rw [key, if_pos (by rw [map_add, Finsupp.degree_single]; omega), if_neg (by simp)]
    simp
  refine ⟨fun hE => ?_, h2, fun hE hr => ?_⟩
  · rw [key]
    rcases hE with hE | hE
    · rw [if_pos hE, ite_self]
    · exact if_neg (not_le.mpr hE)
  · rw [h2 hE, hr]
    exact R.err _

/-- **C103.** The derivative of an integral, both computed with rounding, has below the order the coefficients of the argument with two relative errors, as long as the
exponents are numbers of the format. -/
theorem C103_partial_integrate (ha : a.Valid) {name : String} {q : GDual (Fl R)} (hq : a.integrate name = .ok q) (h : q.partial' name = .ok r) (E : String →₀ ℕ)
    (hE : E.degree < a.getOrder) (hr : R.rnd ((E ("d" ++ name) : K) + 1) = (E ("d" ++ name) : K) + 1) :
    |r.coeffOf E - a.coeffOf E| ≤ ((1 + R.u) ^ 2 - 1) * |a.coeffOf E| := by
  have hvq : q.Valid := by
    have hq' := hq
    unfold integrate at hq'
    obtain ⟨_, _, h1⟩ := bind_ok_iff.mp hq'
    injection h1 with h1
    subst h1
    exact ⟨(ha.wf.integrate _).truncate _, fun t ht => of_decide_eq_true (List.mem_filter.mp ht).2⟩
  have h1 := (C103_partial_derivative hvq h E).1
  have h2 := (C103_integrate ha hq E).2.1 hE
  rw [h1, h2, hr]
  have hp : (0 : K) < (E ("d" ++ name) : K) + 1 := by positivity
  have h3 : R.Near 0 (a.coeffOf E / ((E ("d" ++ name) : K) + 1)) (a.coeffOf E / ((E ("d" ++ name) : K) + 1)) |a.coeffOf E / ((E ("d" ++ name) : K) + 1)| := Rounding.Near.refl R 0 _
  have h4 := (h3.rnd.mul (Rounding.Near.refl R 0 ((E ("d" ++ name) : K) + 1))).rnd
  rw [← abs_mul, div_mul_cancel₀ _ hp.ne'] at h4
  exact h4.1

/-- **C103.** The coefficients of `subs` with a number: with `n` the order minus the degree of the monomial, they are the sums over the powers of the substituted variable with at most `2 n` roundings of each summand. -/
theorem C103_subs (ha : a.Valid) (s : String) (v : Fl R) (E : String →₀ ℕ) :
    (E s ≠ 0 → (a.subsVal s v).coeffOf E = 0) ∧
    (E s = 0 → |(a.subsVal s v).coeffOf E - ∑ k ∈ Finset.range (a.getOrder - E.degree + 1), a.coeffOf (E + Finsupp.single s k) * v.val ^ k| ≤
      ((1 + R.u) ^ (2 * (a.getOrder - E.degree)) - 1) * ∑ k ∈ Finset.range (a.getOrder - E.degree + 1), |a.coeffOf (E + Finsupp.single s k)| * |v.val| ^ k) := by
  have h := Poly.near_subsVal (R := R) ha.wf s v (n := a.order) (k₀ := 0) (x := a.coeffOf) (X := fun E => |a.coeffOf E|) ha.deg (fun E => Rounding.Near.refl R 0 _) E
  refine ⟨h.1, fun h0 => ?_⟩
  have h1 := (h.2 h0).1
  rw [Nat.zero_add, ← two_mul] at h1
  exact h1

/-- **C103.** An expression of `+`, `-`, `*`, unary minus and division by numbers is evaluated on gduals with rounding (gdual `r`), exactly (`a`), and with absolute
values in place of the numbers and sums in place of the differences (`b`). The value of the computed Taylor polynomial at any point, computed by `evaluate` with rounding, differs from the exact value of
the exact Taylor polynomial by at most `(1 + u) ^ N - 1` times the value of `b` at the absolute values of the coordinates; `N` is the largest number of roundings of a coefficient plus those of the evaluation. -/
theorem C103_expression {v : String → Fl R} {m : ℕ} (hm : m < UINT_MAX - 10) (e : AExpr (Fl R)) (hl : e.Legal fun c => c.val = 0) :
    ∃ r a b, e.run v m = .ok r ∧ (e.map Fl.val).run (fun s => (v s).val) m = .ok a ∧ (e.map Fl.val).abs.run (fun s => |(v s).val|) m = .ok b ∧
      ∀ dict c, r.evaluate dict = .ok c → ∃ ca cb, a.evaluate (dict.map fun x => (x.1, x.2.val)) = .ok ca ∧
        b.evaluate (dict.map fun x => (x.1, |x.2.val|)) = .ok cb ∧
        |c.val - ca| ≤ ((1 + R.u) ^ (e.rounds r.getOrder + r.getOrder + (r.p.terms.length - 1)) - 1) * cb := by
  obtain ⟨r, a, b, hr, ha, hb, hc⟩ := AExpr.run_close (v := v) hm e hl
  refine ⟨r, a, b, hr, ha, hb, fun dict c hdc => ?_⟩
  have hsome := (C15_evaluate_throws r dict).1.mp ⟨c, hdc⟩
  obtain ⟨ca, hca⟩ := (C15_evaluate_throws a (dict.map fun x => (x.1, x.2.val))).1.mpr fun s hs => by
    rw [lookup_map_snd Fl.val, Option.isSome_map]; exact hsome s (hc.sa ▸ hs)
  obtain ⟨cb, hcb⟩ := (C15_evaluate_throws b (dict.map fun x => (x.1, |x.2.val|))).1.mpr fun s hs => by
    rw [lookup_map_snd fun y : Fl R => |y.val|, Option.isSome_map]; exact hsome s (hc.sb ▸ hs)
  refine ⟨ca, cb, hca, hcb, ?_⟩
  have hnear : ∀ E, R.Near (e.rounds r.order) (r.p.cof E) (coeff E (a.toMv ())) (coeff E (b.toMv ())) := fun E => by
    by_cases hE : E.degree ≤ r.order
    · exact (hc.near E).mono (e.rounds_mono hE)
    · have h1 : coeff E (a.toMv ()) = 0 := Poly.degLE_toMv (ι := Unit) (K := K) hc.va.wf hc.va.deg () E (by rw [hc.oa]; omega)
      have h2 : coeff E (b.toMv ()) = 0 := Poly.degLE_toMv (ι := Unit) (K := K) hc.vb.wf hc.vb.deg () E (by rw [hc.ob]; omega)
      have h3 := hc.near E
      rw [h1, h2] at h3 ⊢
      have h4 := h3.1
      rw [mul_zero, sub_zero] at h4
      rw [abs_eq_zero.mp (le_antisymm h4 (abs_nonneg _))]
      exact Rounding.Near.zero R _
  have h := Poly.near_evaluate (R := R) hc.vr.wf (n := r.order) (k := e.rounds r.order) hc.vr.deg hnear hdc
  have va := C15_evaluate_value (ι := Unit) (K := K) hca ()
  have vb := C15_evaluate_value (ι := Unit) (K := K) hcb ()
  have hz : (Cf.zero : Fl R).val = 0 := by
    change R.rnd ((0 : ℚ) : K) = 0
    rw [Rat.cast_zero, R.rnd_zero]
  have ea : (fun s => (((dict.map fun x => (x.1, x.2.val)).lookup s).getD Cf.zero : K)) = fun s => ((dict.lookup s).getD Cf.zero).val := by
    funext s
    rw [lookup_map_snd Fl.val]
    cases dict.lookup s with
    | none => exact (Rat.cast_zero (α := K)).trans hz.symm
    | some y => rfl
  have eb : (fun s => (((dict.map fun x => (x.1, |x.2.val|)).lookup s).getD Cf.zero : K)) = fun s => |((dict.lookup s).getD Cf.zero).val| := by
    funext s
    rw [lookup_map_snd fun y : Fl R => |y.val|]
    cases dict.lookup s with
    | none => exact (Rat.cast_zero (α := K)).trans (by rw [Option.getD_none, hz, abs_zero])
    | some y => rfl
  change ca = eval (fun s => (((dict.map fun x => (x.1, x.2.val)).lookup s).getD Cf.zero : K)) _ at va
  change cb = eval (fun s => (((dict.map fun x => (x.1, |x.2.val|)).lookup s).getD Cf.zero : K)) _ at vb
  rw [ea] at va
  rw [eb] at vb
  rw [va, vb]
  exact h.1

end

/-- The natural numbers below `2 ^ 53` are numbers of the format with 53 binary digits. -/
theorem nearest_natCast {p n : ℕ} (hn : n ≤ 2 ^ p) : (Rounding.nearest p : Rounding ℝ).rnd (n : ℝ) = n := by
  have h := nearest_of_digits (K := ℝ) (p := p + 1) (by omega) (n := n) (by
    rw [abs_of_nonneg (by positivity)]
    exact_mod_cast hn.trans (Nat.pow_le_pow_right (by norm_num) (by omega))) 0
  rw [zpow_zero, mul_one] at h
  exact_mod_cast h

theorem exists_abs (A : MvPolynomial String ℝ) : ∃ B : MvPolynomial String ℝ, ∀ E, B.coeff E = |A.coeff E| := by
  classical
  refine ⟨∑ E ∈ A.support, monomial E |A.coeff E|, fun E => ?_⟩
  rw [coeff_sum]
  simp only [coeff_monomial]
  rw [Finset.sum_ite_eq' A.support E fun E => |A.coeff E|]
  split_ifs with h
  · rfl
  · rw [notMem_support_iff.mp h, abs_zero]

/-- The variable `x` at 1/3 with order 3 in the format with 53 binary digits, evaluated at a displacement of 1/10: its hypotheses hold, the exponents are numbers of the format, `partial` and `integrate` succeed, and
there are polynomials with the coefficients and with their absolute values. -/
example : ∃ (R : Rounding ℝ) (a : GDual (Fl R)) (q : GDual (Fl R)) (c : Fl R) (A B : MvPolynomial String ℝ), R.u = (2 ^ 53)⁻¹ ∧ a.Valid ∧ a.getOrder = 3 ∧
    a.evaluate [("dx", Fl.round R (1 / 10))] = .ok c ∧ (∀ s ∈ a.p.syms, (List.lookup s [("dx", Fl.round R (1 / 10))]).map Fl.val = some (R.rnd (1 / 10))) ∧
    (∀ E, A.coeff E = a.coeffOf E) ∧ (∀ E, B.coeff E = |a.coeffOf E|) ∧ a.integrate "x" = .ok q ∧ (∃ r, q.partial' "x" = .ok r) ∧
    ∀ n : ℕ, n ≤ 2 ^ 52 → R.rnd n = n := by
  let R : Rounding ℝ := Rounding.nearest 52
  have hs : ∃ c, "x".toList.head? = some c ∧ c ≠ 'd' := ⟨'x', by decide, by decide⟩
  have hx : checkVarName "x" = .ok () := rfl
  obtain ⟨r, a, b, h1, h2, h3, hc⟩ := Close.mk3 (Fl.round R (1 / 3)) (s := "x") (m := 3) (by decide) hs
  have hr := (mk3_ok (v := Fl.round R (1 / 3)) (s := "x") (n := 3)).mpr ⟨by decide, hs, rfl⟩
  have hsyms : r.p.syms = ["dx"] ∧ r.order = 3 := by
    rw [h1] at hr
    injection hr with hr
    rw [hr]
    exact ⟨rfl, rfl⟩
  have hlk : ∀ s ∈ r.p.syms, (List.lookup s [("dx", Fl.round R (1 / 10))]).map Fl.val = some (R.rnd (1 / 10)) := by
    rw [hsyms.1]
    simp [Fl.round]
  obtain ⟨c, hc'⟩ := (C15_evaluate_throws r [("dx", Fl.round R (1 / 10))]).1.mpr fun s hs => by
    rw [← Option.isSome_map (f := Fl.val), hlk s hs]; rfl
  obtain ⟨B, hB⟩ := exists_abs (r.p.exact.toMv ())
  exact ⟨R, r, _, c, r.p.exact.toMv (), B, rfl, hc.vr, hsyms.2, hc', hlk, fun E => rfl, hB, rfl, ⟨_, rfl⟩, fun n hn => nearest_natCast hn⟩

/-- `x * x - 2 * x` at order 3 meets the hypotheses of `C103_expression`. -/
example : ∃ (R : Rounding ℝ) (e : AExpr (Fl R)), R.u = (2 ^ 53)⁻¹ ∧ e = .bin .sub (.bin .mul (.var "x") (.var "x")) (.left .mul (Fl.round R 2) (.var "x")) ∧
    (3 < UINT_MAX - 10) ∧ e.Legal fun c => c.val = 0 :=
  ⟨Rounding.nearest 52, _, rfl, rfl, by decide, ⟨⟨'x', by decide, by decide⟩, ⟨'x', by decide, by decide⟩⟩, ⟨'x', by decide, by decide⟩⟩

end Audi
