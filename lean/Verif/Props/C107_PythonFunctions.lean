import Verif.Spec.PyExpr
import Verif.Props.C21_AD
import Verif.Props.C13_Terms

/-!
# C107: functions written in Python

A function that is written for numbers can be called with any mixture of numbers and gduals. Python finds the operators at run time (Model/PyOps.lean).
-/

namespace Audi

open Spec GDual

namespace PyExpr

variable {G : String → Bool} {v : String → ℝ} {m : ℕ}

/-- The outcome of the translation of a Python expression: a number, or an expression of gduals. -/
inductive Part (G : String → Bool) (v : String → ℝ) (m : ℕ) (σ : String → PyV) (e : PyExpr) : Prop
  | num (hu : e.Uses G = false) (hs : ∀ x, e.sem (mixed G v x) = e.sem v) (he : e.eval σ = .ok (.num (e.sem v)))
  | gd (t : Expr ℝ) (hu : e.Uses G = true) (hs : ∀ x, e.sem (mixed G v x) = t.sem () x) (hl : t.Legal m) (hd : t.Dom () v) (hf : t.full = e.Full G)
      (he : e.eval σ = PyV.lift (t.run v m))

theorem mixed_self : mixed G v v = v := by funext s; simp [mixed]

theorem toRat_cast (q : ℚ) : PyV.toRat (q : ℝ) = some q := by
  unfold PyV.toRat
  have h : ∃ q' : ℚ, (q' : ℝ) = q := ⟨q, rfl⟩
  rw [dif_pos h]
  exact congrArg some (Rat.cast_injective h.choose_spec)

theorem numPow_ok {x y : ℝ} (h : PowDom false false x y) : PyV.numPow x y = .ok (.num (x ^ y)) := by
  unfold PyV.numPow
  rcases h with h | ⟨n, rfl, h⟩
  · rw [if_neg (fun k => h.ne' k.1), if_neg (fun k => not_lt.mpr h.le k.1)]
  · rw [if_neg, if_neg]
    · exact fun k => k.2 ⟨n, rfl⟩
    · rintro ⟨h0, hn⟩
      rcases h with h | h
      · have : (0 : ℝ) ≤ n := by exact_mod_cast h
        linarith
      · exact h h0

/-- The variables of the function, as Python values: gduals for those in `G`, numbers for the others. -/
def Args (G : String → Bool) (v : String → ℝ) (m : ℕ) (σ : String → PyV) : Prop :=
  ∀ s, if G s then ∃ d, GDual.mk3 (v s) s m = .ok d ∧ σ s = .gd d else σ s = .num (v s)

theorem name_of_mk3 {x : ℝ} {s : String} {d : GDual ℝ} (h : GDual.mk3 x s m = .ok d) : ∃ c, s.toList.head? = some c ∧ c ≠ 'd' := by
  unfold GDual.mk3 at h
  obtain ⟨_, -, h⟩ := bind_ok_iff.mp h
  obtain ⟨_, h1, -⟩ := bind_ok_iff.mp h
  unfold checkVarName at h1
  obtain ⟨c, h2, h3⟩ := bind_ok_iff.mp h1
  refine ⟨c, ?_, ?_⟩
  · unfold nameAt0 at h2
    split at h2 <;> simp_all
  · rintro rfl
    simp at h3

theorem full_le {e : PyExpr} (h : e.Uses G = false) : e.Full G = false := by
  induction e with
  | var s => exact h
  | const c => rfl
  | bin op e1 e2 ih1 ih2 => simp only [Uses, Bool.or_eq_false_iff] at h; simp [Full, ih1 h.1, ih2 h.2]
  | fn f e ih => exact ih h
  | pow e1 e2 ih1 ih2 => simp only [Uses, Bool.or_eq_false_iff] at h; simp [Full, h.1]

theorem lift_ok {r : Res (GDual ℝ)} {d : GDual ℝ} (h : r = .ok d) : PyV.lift r = .ok (.gd d) := by rw [h]; rfl

/-- Every Python expression is, for given kinds of its arguments, a number or an expression of gduals. -/
theorem part {σ : String → PyV} (hσ : Args G v m σ) (hm : m < UINT_MAX - 10) (e : PyExpr) (hl : e.Legal G m) (hd : e.Dom G v) : Part G v m σ e := by
  induction e with
  | var s =>
    have h := hσ s
    cases hg : G s with
    | false =>
      rw [hg] at h
      exact .num hg (fun x => by simp [sem, mixed, hg]) (by simpa [eval, sem] using h)
    | true =>
      rw [hg, if_pos rfl] at h
      obtain ⟨d, hd, h⟩ := h
      exact .gd (.var s) hg (fun x => by simp [sem, mixed, hg, Expr.sem]) (name_of_mk3 hd) trivial (by simp [Expr.full, Full, hg])
        (by simp [eval, h, Expr.run, hd, PyV.lift])
  | const c => exact .num rfl (fun _ => rfl) rfl
  | bin op e1 e2 ih1 ih2 =>
    have hrun : ∀ t : Expr ℝ, t.Legal m → t.Dom () v → ∃ d, t.run v m = .ok d := fun t h1 h2 => by
      obtain ⟨r, hr, -⟩ := C21_ad_partial (ι := Unit) hm t h1 fun _ => h2
      exact ⟨r, hr⟩
    rcases ih1 hl.1 hd.1 with ⟨hu1, hs1, he1⟩ | ⟨t1, hu1, hs1, hl1, hd1, hf1, he1⟩ <;>
      rcases ih2 hl.2 hd.2.1 with ⟨hu2, hs2, he2⟩ | ⟨t2, hu2, hs2, hl2, hd2, hf2, he2⟩
    · refine .num (by simp [Uses, hu1, hu2]) (fun x => by simp only [sem, hs1, hs2]) ?_
      simp only [eval, he1, he2]
      have h3 := hd.2.2
      cases op <;> simp_all [PyV.bin, PyV.method, PyV.numOp, sem, Op.real, Op.Dom, bind, Except.bind]
    · obtain ⟨d2, hr2⟩ := hrun t2 hl2 hd2
      have h3 : op.Dom (t2.sem () v) := by rw [← hs2, mixed_self]; exact hd.2.2
      refine .gd (.left op (e1.sem v) t2) (by simp [Uses, hu2]) (fun x => by simp only [sem, hs1, hs2]; rfl) hl2 ⟨hd2, h3⟩ ?_ ?_
      · have : e1.Full G = false := full_le hu1
        simp [Expr.full, Full, hf2, this]
      · simp only [eval, he1, he2, hr2, Expr.run, PyV.lift, PyV.bin, PyV.method, PyV.rmethod, bind, Except.bind]
    · obtain ⟨d1, hr1⟩ := hrun t1 hl1 hd1
      have h3 : op.Dom (e2.sem v) := hd.2.2
      refine .gd (.right op t1 (e2.sem v)) (by simp [Uses, hu1]) (fun x => by simp only [sem, hs1, hs2]; rfl) hl1 ⟨hd1, h3⟩ ?_ ?_
      · have : e2.Full G = false := full_le hu2
        simp [Expr.full, Full, hf1, this]
      · simp only [eval, he1, he2, hr1, Expr.run, PyV.lift, PyV.bin, PyV.method, bind, Except.bind]
    · obtain ⟨d1, hr1⟩ := hrun t1 hl1 hd1
      obtain ⟨d2, hr2⟩ := hrun t2 hl2 hd2
      have h3 : op.Dom (t2.sem () v) := by rw [← hs2, mixed_self]; exact hd.2.2
      refine .gd (.bin op t1 t2) (by simp [Uses, hu1]) (fun x => by simp only [sem, hs1, hs2]; rfl) ⟨hl1, hl2⟩ ⟨hd1, hd2, h3⟩ ?_ ?_
      · simp [Expr.full, Full, hf1, hf2]
      · simp only [eval, he1, he2, hr1, hr2, Expr.run, PyV.lift, PyV.bin, PyV.method, bind, Except.bind]
  | fn f e ih =>
    have hrun : ∀ t : Expr ℝ, t.Legal m → t.Dom () v → ∃ d, t.run v m = .ok d := fun t h1 h2 => by
      obtain ⟨r, hr, -⟩ := C21_ad_partial (ι := Unit) hm t h1 fun _ => h2
      exact ⟨r, hr⟩
    rcases ih hl.1 hd.1 with ⟨hu, hs, he⟩ | ⟨t, hu, hs, ht, hd1, hf, he⟩
    · have h3 := hd.2
      rw [hu, if_neg Bool.false_ne_true] at h3
      refine .num hu (fun x => by simp only [sem, hs]) ?_
      simp only [eval, he, bind, Except.bind, PyV.fn, hl.2.1, if_true, sem]
      exact if_pos h3
    · have h3 := hd.2
      rw [hu, if_pos rfl, ← mixed_self (G := G) (v := v), hs, ] at h3
      refine .gd (.fn f t) hu (fun x => by simp only [sem, hs]; rfl) ⟨ht, hl.2.2 hu⟩ ⟨hd1, h3⟩ ?_ ?_
      · have := hl.2.1
        cases f <;> simp_all [Expr.full, Full, Fn.InModule]
      · obtain ⟨d, hr⟩ := hrun t ht hd1
        simp only [eval, he, hr, Expr.run, PyV.lift, PyV.fn, bind, Except.bind, hl.2.1, if_true]
  | pow e1 e2 ih1 ih2 =>
    have hrun : ∀ t : Expr ℝ, t.Legal m → t.Dom () v → ∃ d, t.run v m = .ok d := fun t h1 h2 => by
      obtain ⟨r, hr, -⟩ := C21_ad_partial (ι := Unit) hm t h1 fun _ => h2
      exact ⟨r, hr⟩
    have hp := hd.2.2
    rcases ih1 hl.1 hd.1 with ⟨hu1, hs1, he1⟩ | ⟨t1, hu1, hs1, hl1, hd1, hf1, he1⟩ <;>
      rcases ih2 hl.2 hd.2.1 with ⟨hu2, hs2, he2⟩ | ⟨t2, hu2, hs2, hl2, hd2, hf2, he2⟩ <;> rw [hu1, hu2] at hp
    · refine .num (by simp [Uses, hu1, hu2]) (fun x => by simp only [sem, hs1, hs2]) ?_
      simp only [eval, he1, he2, bind, Except.bind, PyV.pow, PyV.powMethod, numPow_ok hp, sem]
    · obtain ⟨q, hq, h0⟩ := hp
      obtain ⟨d2, hr2⟩ := hrun t2 hl2 hd2
      refine .gd (.fn (.powBase q) t2) (by simp [Uses, hu2]) (fun x => ?_) ⟨hl2, trivial⟩ ⟨hd2, h0⟩ ?_ ?_
      · simp only [sem, hs1, hs2, hq]; rfl
      · simp [Expr.full, Full, hu1]
      · simp only [eval, he1, he2, hr2, hq, toRat_cast, Expr.run, PyV.lift, PyV.pow, PyV.powMethod, PyV.rpowMethod, bind, Except.bind, Fn.run]
    · obtain ⟨q, hq, h0⟩ := hp
      obtain ⟨d1, hr1⟩ := hrun t1 hl1 hd1
      rw [← mixed_self (G := G) (v := v), hs1] at h0
      refine .gd (.fn (.powQ q) t1) (by simp [Uses, hu1]) (fun x => ?_) ⟨hl1, trivial⟩ ⟨hd1, h0⟩ ?_ ?_
      · simp only [sem, hs1, hs2, hq]; rfl
      · simp [Expr.full, Full, hu1, hf1, full_le hu2]
      · simp only [eval, he1, he2, hr1, hq, toRat_cast, Expr.run, PyV.lift, PyV.pow, PyV.powMethod, bind, Except.bind, Fn.run]
    · obtain ⟨d1, hr1⟩ := hrun t1 hl1 hd1
      obtain ⟨d2, hr2⟩ := hrun t2 hl2 hd2
      have h3 : 0 < t1.sem () v := by rw [← hs1, mixed_self]; exact hp
      refine .gd (.pow t1 t2) (by simp [Uses, hu1]) (fun x => by simp only [sem, hs1, hs2]; rfl) ⟨hl1, hl2⟩ ⟨hd1, hd2, h3⟩ ?_ ?_
      · simp [Expr.full, Full, hf1, hf2, hu1]
      · simp only [eval, he1, he2, hr1, hr2, Expr.run, PyV.lift, PyV.pow, PyV.powMethod, bind, Except.bind]

end PyExpr

open PyExpr

/-- **C107 (numbers).** Called with numbers only, or using only those of its arguments that are numbers, the function returns the number. -/
theorem C107_numbers {G : String → Bool} {v : String → ℝ} {m : ℕ} {σ : String → PyV} (hσ : Args G v m σ) (hm : m < UINT_MAX - 10) (e : PyExpr) (hl : e.Legal G m) (hd : e.Dom G v)
    (hu : e.Uses G = false) : e.eval σ = .ok (.num (e.sem v)) := by
  rcases part hσ hm e hl hd with ⟨-, -, he⟩ | ⟨t, h, -⟩
  · exact he
  · rw [hu] at h; cases h

/-- **C107 (derivatives, partial).** Let the arguments in `G` be variables `gdual_double(v s, s, m)` and the other ones numbers, in any combination. If the function uses one of the gduals, it
returns a gdual, whose derivatives are those of the real function with respect to the variables in `G`, the others being constants. In particular there is no `TypeError`.

Restrictions: those of C21 (order 30 for `atan`, `asin`, `acos` of gduals); numbers in the exponent of a gdual, or with a gdual in the exponent, are rational. -/
theorem C107_derivatives_partial {G : String → Bool} {v : String → ℝ} {m : ℕ} {σ : String → PyV} (hσ : Args G v m σ) (hm : m < UINT_MAX - 10) (e : PyExpr) (hl : e.Legal G m)
    (hd : e.Dom G v) (hu : e.Uses G = true) :
    ∃ r, e.eval σ = .ok (.gd r) ∧ r.Valid ∧ r.getOrder ≤ m ∧ (e.Full G = true → r.getOrder = m) ∧
      (∀ l : List String, l.length ≤ r.getOrder → (∀ s ∈ l, "d" ++ s ∈ r.p.syms) →
        r.getDerivative (r.p.syms.map fun u => (l.map fun s => "d" ++ s).count u) = .ok (pds l (fun x => e.sem (mixed G v x)) v)) ∧
      (∀ l : List String, l.length ≤ r.getOrder → ∀ dict : List (String × ℕ), (dict.map (·.1)).Nodup → (∀ p ∈ dict, 0 < p.2) →
        (∀ u, (dict.lookup u).getD 0 = (l.map fun s => "d" ++ s).count u) →
        r.getDerivativeDict dict = .ok (pds l (fun x => e.sem (mixed G v x)) v)) := by
  rcases part hσ hm e hl hd with ⟨h, -, -⟩ | ⟨t, -, hs, hl', hd', hf, he⟩
  · rw [hu] at h; cases h
  · obtain ⟨r, hr, h1, h2, h3, h4, h5⟩ := C21_ad_partial (ι := Unit) hm t hl' fun _ => hd'
    have hsem : (fun x => e.sem (mixed G v x)) = t.sem () := funext hs
    rw [hsem]
    refine ⟨r, by rw [he, lift_ok hr], h1, h2, fun h => h3 (by rw [hf, h]), fun l hl hsy => ?_, fun l hl dict a b c => ?_⟩
    · obtain ⟨c, hc, hv⟩ := h4 l hl hsy
      rw [hc]; exact congrArg Except.ok (hv ())
    · obtain ⟨c', hc, hv⟩ := h5 l hl dict a b c
      rw [hc]; exact congrArg Except.ok (hv ())

theorem value_of_derivatives {r : GDual ℝ} {y : ℝ} (hr : r.Valid)
    (h : r.getDerivative (r.p.syms.map fun u => (([] : List String).map fun s => "d" ++ s).count u) = .ok y) : r.constantCf = .ok y := by
  obtain ⟨c, hc, h0, -⟩ := C19_constant_cf (ι := Unit) (K := ℝ) hr
  obtain ⟨c', hc', h1⟩ := getDerivative_count (ι := Unit) (K := ℝ) (l := []) hr (by simp) (Nat.zero_le _)
  have h2 : c' = y := by
    have h3 : r.getDerivative (r.p.syms.map fun u => (([] : List String).map fun s => "d" ++ s).count u) = .ok c' := hc'
    rw [h] at h3; injection h3 with h3; exact h3.symm
  rw [hc, ← h2]
  have a := h0 ()
  have b := h1 ()
  have e : (MvPolynomial.eval (fun _ => 0) (r.toMv ()) : ℝ) = MvPolynomial.coeff 0 (r.toMv ()) := by
    rw [MvPolynomial.eval_zero', MvPolynomial.constantCoeff_eq]
  exact congrArg Except.ok (a.trans (e.trans b.symm))

/-- **C107 (comparisons, partial).** If both sides of a comparison use gduals, or neither does, `<` and `>` have the same outcome as on numbers; otherwise there is a `TypeError`. -/
theorem C107_compare_partial {G : String → Bool} {v : String → ℝ} {m : ℕ} {σ : String → PyV} (hσ : Args G v m σ) (hm : m < UINT_MAX - 10) (e1 e2 : PyExpr) (hl1 : e1.Legal G m)
    (hl2 : e2.Legal G m) (hd1 : e1.Dom G v) (hd2 : e2.Dom G v) :
    ∃ a b, e1.eval σ = .ok a ∧ e2.eval σ = .ok b ∧
      (e1.Uses G = e2.Uses G → PyV.lt a b = .ok (decide (e1.sem v < e2.sem v)) ∧ PyV.gt a b = .ok (decide (e1.sem v > e2.sem v))) ∧
      (e1.Uses G ≠ e2.Uses G → PyV.lt a b = .error .typeError ∧ PyV.gt a b = .error .typeError ∧ PyV.eq a b = false ∧ PyV.ne a b = true) := by
  have key : ∀ e : PyExpr, e.Legal G m → e.Dom G v → e.Uses G = true → ∃ r, e.eval σ = .ok (.gd r) ∧ r.constantCf = .ok (e.sem v) := fun e hl hd hu => by
    obtain ⟨r, hr, hv, -, -, h4, -⟩ := C107_derivatives_partial hσ hm e hl hd hu
    refine ⟨r, hr, ?_⟩
    have := value_of_derivatives hv (h4 [] (Nat.zero_le _) (by simp))
    rw [this]
    simp only [pds, mixed_self]
  cases hu1 : e1.Uses G <;> cases hu2 : e2.Uses G
  · exact ⟨_, _, C107_numbers hσ hm e1 hl1 hd1 hu1, C107_numbers hσ hm e2 hl2 hd2 hu2, fun _ => ⟨rfl, rfl⟩, fun h => absurd rfl h⟩
  · obtain ⟨r, hr, -⟩ := key e2 hl2 hd2 hu2
    exact ⟨_, _, C107_numbers hσ hm e1 hl1 hd1 hu1, hr, (fun h => nomatch h), fun _ => ⟨rfl, rfl, rfl, rfl⟩⟩
  · obtain ⟨r, hr, -⟩ := key e1 hl1 hd1 hu1
    exact ⟨_, _, hr, C107_numbers hσ hm e2 hl2 hd2 hu2, (fun h => nomatch h), fun _ => ⟨rfl, rfl, rfl, rfl⟩⟩
  · obtain ⟨r1, hr1, hc1⟩ := key e1 hl1 hd1 hu1
    obtain ⟨r2, hr2, hc2⟩ := key e2 hl2 hd2 hu2
    refine ⟨_, _, hr1, hr2, fun _ => ?_, fun h => absurd rfl h⟩
    obtain ⟨a, b, ha, hb, h1, h2⟩ := C19_lt_gt r1 r2
    rw [hc1] at ha; rw [hc2] at hb
    injection ha with ha; injection hb with hb
    subst ha hb
    constructor
    · show (r1.lt r2).mapError _ = _
      rw [h1]; rfl
    · show (r1.gt r2).mapError _ = _
      rw [h2]; rfl

/-- **C107 (counterexample).** In Python, a gdual is never equal to a number: `gdual_double(1.0) == 1.0` is `False` and `!=` is `True`, although `gdual_double(1.0) == gdual_double(1.0)`, and
`1.0 == 1.0` for numbers. `gdual_double(1.0) < 2.0` raises a `TypeError`. So, a function with such a test takes the wrong branch, or fails, when it is called with gduals. -/
theorem C107_compare_counterexample : PyV.eq (.gd (.ofCf 1)) (.num 1) = false ∧ PyV.eq (.num 1) (.gd (.ofCf 1)) = false ∧ PyV.ne (.gd (.ofCf 1)) (.num 1) = true ∧
    PyV.eq (.gd (.ofCf 1)) (.gd (.ofCf 1)) = true ∧ PyV.eq (.num 1) (.num 1) = true ∧
    PyV.lt (.gd (.ofCf 1)) (.num 2) = .error .typeError ∧ PyV.gt (.num 2) (.gd (.ofCf 1)) = .error .typeError := by
  refine ⟨rfl, rfl, rfl, ?_, by simp [PyV.eq], rfl, rfl⟩
  exact (C16_equivalence (ι := Unit) (K := ℝ) (valid_ofCf 1) (valid_ofCf 1) (valid_ofCf 1)).1

/-- **C107 (`!=`).** `a != b` is the negation of `a == b`, for all combinations of numbers and gduals. -/
theorem C107_not_equal (a b : PyV) : PyV.ne a b = !PyV.eq a b := by
  cases a <;> cases b <;> simp [PyV.ne, PyV.eq, GDual.ne]

/-- `x ** n * sin(y) / 2 - 1 / x` with a gdual `x` and numbers `n = 2`, `y`. -/
example (d : GDual ℝ) (hd : GDual.mk3 3 "x" 5 = .ok d) : ∃ r, (PyExpr.bin .sub (.bin .div (.bin .mul (.pow (.var "x") (.var "n")) (.fn .sin (.var "y"))) (.const 2))
    (.bin .div (.const 1) (.var "x"))).eval (fun s => if s = "x" then .gd d else if s = "n" then .num 2 else .num 0) = .ok (.gd r) ∧ r.getOrder = 5 := by
  have hσ : Args (fun s => s = "x") (fun s => if s = "x" then 3 else if s = "n" then 2 else 0) 5 (fun s => if s = "x" then .gd d else if s = "n" then .num 2 else .num 0) := fun s => by
    by_cases h : s = "x"
    · subst h; simpa using hd
    · by_cases h2 : s = "n" <;> simp [h, h2]
  obtain ⟨r, hr, -, -, h, -⟩ := C107_derivatives_partial hσ (by decide) (PyExpr.bin .sub (.bin .div (.bin .mul (.pow (.var "x") (.var "n")) (.fn .sin (.var "y"))) (.const 2))
    (.bin .div (.const 1) (.var "x"))) (by simp [Legal, Fn.InModule, Fn.MaxOrder]) (by
      simp only [Dom, Uses, sem, Op.Dom, PyExpr.PowDom, Fn.Dom, Fn.Defined]
      norm_num [PyExpr.PowDom]
      refine ⟨2, ?_, by norm_num, by norm_num⟩
      rw [if_neg (by decide)]; norm_num) (by simp [Uses])
  exact ⟨r, hr, h (by simp [Full, Uses])⟩

end Audi
