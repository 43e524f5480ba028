import Verif.Spec.PyTaylor
import Verif.Props.C46_TaylorModels
import Verif.Props.C48_TaylorSums
import Verif.Props.C50_TaylorProducts
import Verif.Props.C66_ArithmeticEnclosure
import Verif.Props.C107_PythonFunctions

/-!
# C110: functions written in Python, called with Taylor models

A function that is written for numbers can be called with a mixture of numbers and Taylor models. Python finds the operators at run time (Model/PyTaylor.lean).
-/

namespace Audi

open Spec GDual TM

namespace PyT

/-- The conditions under which an operator is proved sound for these operands: those of C66 for Taylor models; numbers must not be divided by 0. -/
def SafeBin (op : Op) : PyT → PyT → Prop
  | num _, num y => op.Dom y.val
  | tm a, tm b => op.SafeArgs a b
  | num x, tm a => op.SafeL x.val a
  | tm _, num y => op.SafeR y.val
  | _, _ => False

/-- The same for a function. -/
def SafeFn (m : ℕ) (f : Fn) : PyT → Prop
  | num x => f.InModule = true ∧ f.Defined x.val
  | tm a => f.InModule = true ∧ f.MaxOrder m ∧ f.SafeArg a
  | itv _ => False

/-- The same for a power. -/
def SafePower : PyT → PyT → Prop
  | num x, num y => 0 < x.val ∨ ∃ n : ℤ, y.val = n ∧ (0 ≤ n ∨ x.val ≠ 0)
  | tm a, num (.int z) => -(2 ^ 31) ≤ z ∧ z < 2 ^ 31 ∧ SafePow z a
  | tm a, num (.float x) => ∃ q : ℚ, x = q ∧ (Fn.powQ q).SafeArg a
  | _, _ => False

end PyT

namespace PyTExpr

open PyT

/-- Each operation of the evaluation meets its conditions. -/
def Safe (ord : List String → List String) (m : ℕ) (σ : String → PyT) : PyTExpr → Prop
  | var _ => True
  | const _ => True
  | bin op e1 e2 => e1.Safe ord m σ ∧ e2.Safe ord m σ ∧ ∀ a b, e1.eval ord σ = .ok a → e2.eval ord σ = .ok b → SafeBin op a b
  | fn f e => e.Safe ord m σ ∧ ∀ a, e.eval ord σ = .ok a → SafeFn m f a
  | pow e1 e2 => e1.Safe ord m σ ∧ e2.Safe ord m σ ∧ ∀ a b, e1.eval ord σ = .ok a → e2.eval ord σ = .ok b → SafePower a b

variable {ord : List String → List String} {v : String → ℝ} {D R : String → Itv ℝ} {m : ℕ} {vs : List String} {σ : String → PyT}

/-- The arguments of the function: the Taylor models of the variables `vs`, with polynomial `gdual(v s, s, m)`, remainder `R s`, expansion point `v s`, domain `D s`; numbers for the others. -/
def Args (ord : List String → List String) (v : String → ℝ) (D R : String → Itv ℝ) (m : ℕ) (vs : List String) (σ : String → PyT) : Prop :=
  ∀ s, if s ∈ vs then ∃ g t, GDual.mk3 (v s) s m = .ok g ∧ TM.make g (R s) [(s, v s)] [(s, D s)] = .ok t ∧ σ s = .tm t else ∃ n, σ s = .num n ∧ n.val = v s

/-- The variables `vs` have the values `y`, the others the values `v`. -/
def at_ (vs : List String) (v y : String → ℝ) : String → ℝ := fun s => if s ∈ vs then y s else v s

/-- A Taylor model is among the variables that are used. -/
def Uses (vs : List String) : PyTExpr → Prop
  | var s => s ∈ vs
  | const _ => False
  | bin _ e1 e2 => e1.Uses vs ∨ e2.Uses vs
  | fn _ e => e.Uses vs
  | pow e1 e2 => e1.Uses vs ∨ e2.Uses vs

/-- The outcome of the translation: a number, or an expression of Taylor models. -/
inductive Part (ord : List String → List String) (v : String → ℝ) (D R : String → Itv ℝ) (m : ℕ) (vs : List String) (σ : String → PyT) (e : PyTExpr) : Prop
  | num (n : PyNum) (hu : ¬ e.Uses vs) (he : e.eval ord σ = .ok (.num n)) (hs : ∀ y, e.sem (at_ vs v y) = n.val)
  | tm (t : Expr ℝ) (r : TM ℝ) (hu : e.Uses vs) (he : e.eval ord σ = .ok (.tm r)) (hr : t.runTM ord v D R m = .ok r) (hl : t.Legal m) (ho : t.Over vs) (hf : t.Safe ord v D R m)
      (hs : ∀ y, e.sem (at_ vs v y) = t.sem () y)

theorem op_ok {op : Op} {x y : PyNum} (h : op.Dom y.val) : ∃ n, PyNum.op op x y = .ok n ∧ n.val = op.real x.val y.val := by
  cases op <;> cases x <;> cases y <;> simp_all [PyNum.op, PyNum.val, Op.real, Op.Dom]

theorem pow_ok {x y : PyNum} (h : 0 < x.val ∨ ∃ n : ℤ, y.val = n ∧ (0 ≤ n ∨ x.val ≠ 0)) : ∃ n, PyNum.pow x y = .ok n ∧ n.val = x.val ^ y.val := by
  have h1 : ¬ (x.val = 0 ∧ y.val < 0) := by
    rintro ⟨h0, h1⟩
    rcases h with h | ⟨n, hn, h | h⟩
    · exact h.ne' h0
    · rw [hn] at h1
      have : (0 : ℝ) ≤ n := by exact_mod_cast h
      linarith
    · exact h h0
  have h2 : ¬ (x.val < 0 ∧ ¬ ∃ n : ℤ, y.val = n) := by
    rintro ⟨h0, h1⟩
    rcases h with h | ⟨n, hn, -⟩
    · linarith
    · exact h1 ⟨n, hn⟩
  unfold PyNum.pow
  rw [if_neg h1, if_neg h2]
  rcases x with a | a <;> rcases y with b | b
  · simp only
    split
    · refine ⟨_, rfl, ?_⟩
      obtain ⟨n, rfl⟩ := Int.eq_ofNat_of_zero_le ‹0 ≤ b›
      simp [PyNum.val]
    · exact ⟨_, rfl, by simp [PyNum.val, Real.rpow_intCast]⟩
  all_goals exact ⟨_, rfl, rfl⟩

theorem fn_ok {f : Fn} {x : PyNum} (h1 : f.InModule = true) (h2 : f.Defined x.val) : ∃ n, PyNum.fn f x = .ok n ∧ n.val = f.real x.val := by
  unfold PyNum.fn
  split
  · exact ⟨_, rfl, by simp [PyNum.val, Fn.real]⟩
  · rw [if_pos h1, if_pos h2]
    exact ⟨_, rfl, rfl⟩

/-- Every Python expression is, for given kinds of its arguments, a number or an expression of Taylor models. -/
theorem part (hord : ∀ l, (ord l).Perm l) (hf : Faithful ord vs) (h1 : 1 ≤ m) (hm : m ≤ 31) (hv : ∀ s, InItv (D s) (v s)) (hR : ∀ s, InItv (R s) 0)
    (hσ : Args ord v D R m vs σ) (e : PyTExpr) (he : e.Safe ord m σ) : Part ord v D R m vs σ e := by
  have run : ∀ t : Expr ℝ, t.Legal m → t.Over vs → t.Safe ord v D R m → ∃ r, t.runTM ord v D R m = .ok r := fun t a b c => by
    obtain ⟨-, r, hr, -⟩ := runTM_enclosesAll hord hf h1 hm hv hR t a b c
    exact ⟨r, hr⟩
  induction e with
  | var s =>
    have h := hσ s
    by_cases hs : s ∈ vs
    · rw [if_pos hs] at h
      obtain ⟨g, t, g1, g2, g3⟩ := h
      exact .tm (.var s) t hs (by rw [eval, g3]) (by rw [Expr.runTM, bind_ok g1, g2]) (PyExpr.name_of_mk3 g1) hs trivial (fun y => by simp [sem, at_, hs, Expr.sem])
    · rw [if_neg hs] at h
      obtain ⟨n, g1, g2⟩ := h
      exact .num n hs (by rw [eval, g1]) (fun y => by simp [sem, at_, hs, g2])
  | const c => exact .num c id rfl fun _ => rfl
  | bin op e1 e2 ih1 ih2 =>
    obtain ⟨s1, s2, s3⟩ := he
    rcases ih1 s1 with ⟨n1, a0, a1, a2⟩ | ⟨t1, r1, a0, a1, a2, a3, a4, a5, a6⟩ <;> rcases ih2 s2 with ⟨n2, b0, b1, b2⟩ | ⟨t2, r2, b0, b1, b2, b3, b4, b5, b6⟩
    · obtain ⟨n, c1, c2⟩ := op_ok (x := n1) (s3 _ _ a1 b1)
      refine .num n (fun h => h.elim a0 b0) ?_ (fun y => by simp only [sem, a2, b2, c2])
      simp only [eval, a1, b1, bind, Except.bind, PyT.bin, PyT.method, c1, PyT.liftN]
    · have hs : (Expr.left op n1.val t2).Safe ord v D R m := ⟨b5, fun a ha => by
        rw [b2] at ha; injection ha with ha; subst ha
        exact s3 _ _ a1 b1⟩
      obtain ⟨r, hr⟩ := run (.left op n1.val t2) b3 b4 hs
      refine .tm (.left op n1.val t2) r (.inr b0) ?_ hr b3 b4 hs (fun y => by simp only [sem, a2, b6]; rfl)
      rw [Expr.runTM, bind_ok b2] at hr
      simp only [eval, a1, b1, bind, Except.bind, PyT.bin, PyT.method, PyT.rmethod, hr, PyT.lift]
    · have hs : (Expr.right op t1 n2.val).Safe ord v D R m := ⟨a5, s3 _ _ a1 b1⟩
      obtain ⟨r, hr⟩ := run (.right op t1 n2.val) a3 a4 hs
      refine .tm (.right op t1 n2.val) r (.inl a0) ?_ hr a3 a4 hs (fun y => by simp only [sem, a6, b2]; rfl)
      rw [Expr.runTM, bind_ok a2] at hr
      simp only [eval, a1, b1, bind, Except.bind, PyT.bin, PyT.method, hr, PyT.lift]
    · have hs : (Expr.bin op t1 t2).Safe ord v D R m := ⟨a5, b5, fun a b ha hb => by
        rw [a2] at ha; injection ha with ha; subst ha
        rw [b2] at hb; injection hb with hb; subst hb
        exact s3 _ _ a1 b1⟩
      obtain ⟨r, hr⟩ := run (.bin op t1 t2) ⟨a3, b3⟩ ⟨a4, b4⟩ hs
      refine .tm (.bin op t1 t2) r (.inl a0) ?_ hr ⟨a3, b3⟩ ⟨a4, b4⟩ hs (fun y => by simp only [sem, a6, b6]; rfl)
      rw [Expr.runTM, bind_ok a2, bind_ok b2] at hr
      simp only [eval, a1, b1, bind, Except.bind, PyT.bin, PyT.method, hr, PyT.lift]
  | fn f e ih =>
    obtain ⟨s1, s2⟩ := he
    rcases ih s1 with ⟨n1, a0, a1, a2⟩ | ⟨t1, r1, a0, a1, a2, a3, a4, a5, a6⟩
    · obtain ⟨h3, h4⟩ := s2 _ a1
      obtain ⟨n, c1, c2⟩ := fn_ok h3 h4
      refine .num n a0 ?_ (fun y => by simp only [sem, a2, c2])
      simp only [eval, a1, bind, Except.bind, PyT.fn, c1, PyT.liftN]
    · obtain ⟨h3, h4, h5⟩ := s2 _ a1
      have hs : (Expr.fn f t1).Safe ord v D R m := ⟨a5, fun a ha => by
        rw [a2] at ha; injection ha with ha; subst ha
        exact h5⟩
      obtain ⟨r, hr⟩ := run (.fn f t1) ⟨a3, h4⟩ a4 hs
      refine .tm (.fn f t1) r a0 ?_ hr ⟨a3, h4⟩ a4 hs (fun y => by simp only [sem, a6]; rfl)
      rw [Expr.runTM, bind_ok a2] at hr
      have hmod : f.InModuleTM = true := by
        cases f <;> first | exact h3 | exact h5.elim
      simp only [eval, a1, bind, Except.bind, PyT.fn, hmod, if_true, hr, PyT.lift]
  | pow e1 e2 ih1 ih2 =>
    obtain ⟨s1, s2, s3⟩ := he
    rcases ih1 s1 with ⟨n1, a0, a1, a2⟩ | ⟨t1, r1, a0, a1, a2, a3, a4, a5, a6⟩ <;> rcases ih2 s2 with ⟨n2, b0, b1, b2⟩ | ⟨t2, r2, b0, b1, b2, b3, b4, b5, b6⟩
    · obtain ⟨n, c1, c2⟩ := pow_ok (x := n1) (s3 _ _ a1 b1)
      refine .num n (fun h => h.elim a0 b0) ?_ (fun y => by simp only [sem, a2, b2, c2])
      simp only [eval, a1, b1, bind, Except.bind, PyT.pow, c1, PyT.liftN]
    · exact (s3 _ _ a1 b1).elim
    · have h := s3 _ _ a1 b1
      rcases n2 with z | x
      · obtain ⟨h3, h4, h5⟩ := h
        have hs : (Expr.fn (.powInt z) t1).Safe ord v D R m := ⟨a5, fun a ha => by
          rw [a2] at ha; injection ha with ha; subst ha
          exact h5⟩
        obtain ⟨r, hr⟩ := run (.fn (.powInt z) t1) ⟨a3, trivial⟩ a4 hs
        refine .tm (.fn (.powInt z) t1) r (.inl a0) ?_ hr ⟨a3, trivial⟩ a4 hs (fun y => by simp only [sem, a6, b2, PyNum.val, Real.rpow_intCast]; rfl)
        rw [Expr.runTM, bind_ok a2] at hr
        replace hr : TM.powInt ord r1 z = .ok r := hr
        simp only [eval, a1, b1, bind, Except.bind, PyT.pow]
        rw [if_pos ⟨h3, h4⟩, hr]
        rfl
      · obtain ⟨q, rfl, h5⟩ := h
        have hs : (Expr.fn (.powQ q) t1).Safe ord v D R m := ⟨a5, fun a ha => by
          rw [a2] at ha; injection ha with ha; subst ha
          exact h5⟩
        obtain ⟨r, hr⟩ := run (.fn (.powQ q) t1) ⟨a3, trivial⟩ a4 hs
        refine .tm (.fn (.powQ q) t1) r (.inl a0) ?_ hr ⟨a3, trivial⟩ a4 hs (fun y => by simp only [sem, a6, b2, PyNum.val]; rfl)
        rw [Expr.runTM, bind_ok a2] at hr
        replace hr : TM.powT ord (1 / 2 ^ 52) r1 q = .ok r := hr
        simp only [eval, a1, b1, bind, Except.bind, PyT.pow, PyT.powDouble]
        rw [PyExpr.toRat_cast]
        simp only [hr]
        rfl
    · exact (s3 _ _ a1 b1).elim

end PyTExpr

open PyTExpr

/-- **C110 (numbers).** A function that uses none of the Taylor models returns a number, the right one. -/
theorem C110_numbers {ord : List String → List String} {v : String → ℝ} {D R : String → Itv ℝ} {m : ℕ} {vs : List String} {σ : String → PyT} (hord : ∀ l, (ord l).Perm l)
    (hf : Faithful ord vs) (h1 : 1 ≤ m) (hm : m ≤ 31) (hv : ∀ s, InItv (D s) (v s)) (hR : ∀ s, InItv (R s) 0) (hσ : Args ord v D R m vs σ) {e : PyTExpr} (he : e.Safe ord m σ)
    (hu : ¬ e.Uses vs) : ∃ n, e.eval ord σ = .ok (.num n) ∧ n.val = e.sem v := by
  rcases part hord hf h1 hm hv hR hσ e he with ⟨n, -, h2, h3⟩ | ⟨_, _, h, -⟩
  · refine ⟨n, h2, ?_⟩
    rw [← h3 v]
    congr 1
    funext s
    simp [at_]
  · exact absurd h hu

/-- **C110 (enclosure, partial).** Let the arguments in `vs` be Taylor models of variables and the other ones numbers, `int` or `float`, in any combination. If the function uses one of the
Taylor models, and each operation meets the conditions under which it is proved sound (C66), then it returns a Taylor model that encloses the real function over the whole domain, the numbers
being constants. In particular there is no `TypeError`. Missing: operations outside these conditions. -/
theorem C110_enclosure_partial {ord : List String → List String} {v : String → ℝ} {D R : String → Itv ℝ} {m : ℕ} {vs : List String} {σ : String → PyT} (hord : ∀ l, (ord l).Perm l)
    (hf : Faithful ord vs) (h1 : 1 ≤ m) (hm : m ≤ 31) (hv : ∀ s, InItv (D s) (v s)) (hR : ∀ s, InItv (R s) 0) (hσ : Args ord v D R m vs σ) {e : PyTExpr} (he : e.Safe ord m σ)
    (hu : e.Uses vs) : ∃ r, e.eval ord σ = .ok (.tm r) ∧ r.WF ∧ ∀ x : String → ℝ, (∀ s ∈ vs, InItv (D s) (x s)) → r.InDom x ∧
      ∀ y : String → ℝ, (∀ s ∈ vs, InItv (R s) (y s - x s)) → r.Allows x (e.sem fun s => if s ∈ vs then y s else v s) := by
  rcases part hord hf h1 hm hv hR hσ e he with ⟨_, h, -⟩ | ⟨t, r, -, h2, h3, h4, h5, h6, h7⟩
  · exact absurd hu h
  · obtain ⟨r', k1, k2, k3⟩ := C66_enclosure_partial hord hf h1 hm hv hR h4 h5 h6
    rw [h3] at k1
    injection k1 with k1
    subst k1
    refine ⟨r, h2, k2, fun x hx => ⟨(k3 x hx).1, fun y hy => ?_⟩⟩
    have := (k3 x hx).2 y hy
    rwa [← h7] at this

/-- **C110 (`int` and `float` exponents).** `t ** 2` and `t ** 2.0` call different functions, with the same result, for all exponents in the range of a C++ `int`. -/
theorem C110_exponent {ord : List String → List String} {t : TM ℝ} (ht : t.WF) (h62 : t.order ≤ 62) (ho : ord (t.tpol.p.syms.map varName) = t.tpol.p.syms.map varName) {z : ℤ}
    (h1 : -(2 ^ 31) ≤ z) (h2 : z < 2 ^ 31) : PyT.pow ord (.tm t) (.num (.int z)) = PyT.pow ord (.tm t) (.num (.float z)) := by
  obtain ⟨c, B, b, e1, -⟩ := prologue_ok ht h62 ho
  have hq : (z : ℝ) = ((z : ℚ) : ℝ) := by push_cast; rfl
  simp only [PyT.pow, PyT.powDouble]
  rw [if_pos ⟨h1, h2⟩, hq, PyExpr.toRat_cast]
  simp only
  rw [powT_int e1 (by simpa using h1) (by simpa using h2) (by norm_num)]

/-- **C110 (counterexample, operations).** Whatever the Taylor model and the number: `x ** t`, `t ** t`, `cbrt(t)`, `t < x` and `x < t` raise a `TypeError`. So functions with such operations, which can be
called with numbers (and, except for the comparison, with gduals: C107), cannot be called with Taylor models. -/
theorem C110_operations_counterexample (ord : List String → List String) (t : TM ℝ) (x : PyNum) :
    PyT.pow ord (.num x) (.tm t) = .error .typeError ∧ PyT.pow ord (.tm t) (.tm t) = .error .typeError ∧ PyT.fn ord .cbrt (.tm t) = .error .typeError ∧
      PyT.lt (.tm t) (.num x) = .error .typeError ∧ PyT.lt (.num x) (.tm t) = .error .typeError ∧
    (∀ d : GDual ℝ, PyV.pow (.num 2) (.gd d) ≠ .error .typeError ∧ PyV.pow (.gd d) (.gd d) ≠ .error .typeError ∧ PyV.fn .cbrt (.gd d) ≠ .error .typeError) ∧
    PyV.pow (.num 2) (.num 3) = .ok (.num 8) := by
  have hl : ∀ r : Res (GDual ℝ), PyV.lift r ≠ .error .typeError := fun r h => by cases r <;> simp [PyV.lift] at h
  refine ⟨by cases x <;> rfl, rfl, rfl, rfl, rfl, fun d => ⟨?_, hl _, hl _⟩, ?_⟩
  · have : PyV.pow (.num 2) (.gd d) = PyV.lift (d.powBase 2) := by
      have h2 : PyV.toRat (2 : ℝ) = some 2 := by simpa using PyExpr.toRat_cast 2
      simp only [PyV.pow, PyV.powMethod, PyV.rpowMethod, h2]
    rw [this]
    exact hl _
  · have := PyExpr.numPow_ok (x := 2) (y := 3) (.inl (by norm_num))
    simp only [PyV.pow, PyV.powMethod, this]
    norm_num

/-- **C110 (counterexample, equality).** A Taylor model is never equal to a number, not even `taylor_model(1.0)` to `1.0`. -/
theorem C110_equal_counterexample : (∀ (t : TM ℝ) (x : PyNum), PyT.eq (.tm t) (.num x) = false ∧ PyT.eq (.num x) (.tm t) = false) ∧
    PyT.ne (.tm (TM.ofConst 1)) (.num (.float 1)) = true ∧ PyT.eq (.num (.int 1)) (.num (.float 1)) = true :=
  ⟨fun _ _ => ⟨rfl, rfl⟩, rfl, by simp [PyT.eq, PyNum.val]⟩

/-- **C110 (equality).** Between Taylor models `==` compares polynomials and expansion points exactly, remainders and domains up to a tolerance (C56); `!=` is the negation of `==`
for all values. -/
theorem C110_equal {a b : TM ℝ} (ha : a.WF) (hb : b.WF) : (PyT.eq (.tm a) (.tm b) = true ↔
    (a.tpol.toMv () : MvPolynomial String ℝ) = b.tpol.toMv () ∧ (|a.rem.lo - b.rem.lo| < ((10 / 2 ^ 52 : ℚ) : ℝ) ∧ |a.rem.hi - b.rem.hi| < ((10 / 2 ^ 52 : ℚ) : ℝ)) ∧
    (∀ v, a.exp.lookup v = b.exp.lookup v) ∧ (∀ v, (a.dom.lookup v).isSome = (b.dom.lookup v).isSome) ∧
    ∀ v I J, a.dom.lookup v = some I → b.dom.lookup v = some J → |I.lo - J.lo| < ((10 / 2 ^ 52 : ℚ) : ℝ) ∧ |I.hi - J.hi| < ((10 / 2 ^ 52 : ℚ) : ℝ)) ∧
    ∀ u w : PyT, PyT.ne u w = !PyT.eq u w := by
  refine ⟨C56_meaning ha hb, fun u w => ?_⟩
  cases u <;> cases w <;> simp [PyT.ne, PyT.eq, C56_ne]

/-- **C110 (counterexample, intervals).** Intervals are values like numbers in `int_d + t`, but `int_d + 1.0`, `1.0 + int_d`, `int_d + int_d` and all functions of an `int_d` raise a `TypeError`: in Python `(J + t) + 1.0` works and
`(J + 1.0) + t` does not. -/
theorem C110_interval_counterexample (ord : List String → List String) (op : Op) (J : Itv ℝ) (x : PyNum) :
    PyT.bin ord op (.itv J) (.num x) = .error .typeError ∧ PyT.bin ord op (.num x) (.itv J) = .error .typeError ∧ PyT.bin ord op (.itv J) (.itv J) = .error .typeError ∧
      (∀ f, PyT.fn ord f (.itv J) = .error .typeError) ∧ ∀ t : TM ℝ, PyT.bin ord .add (.itv J) (.tm t) = PyT.lift (TM.addIT J t) :=
  ⟨rfl, rfl, rfl, fun _ => rfl, fun _ => rfl⟩

theorem PyT.lift_tm {r : Res (TM ℝ)} {a : PyT} (h : PyT.lift r = .ok a) : ∃ t, r = .ok t ∧ a = .tm t := by
  cases r with
  | error e => cases h
  | ok t => injection h with h; exact ⟨t, rfl, h.symm⟩

/-- **C110 (operators with intervals, partial).** `t + J`, `J + t` and `t - J` are Taylor models that enclose the results for all numbers in `J`. Missing: the other operators, see
`C110_interval_operators_counterexample`. -/
theorem C110_intervals_partial (ord : List String → List String) {t : TM ℝ} (ht : t.WF) {J : Itv ℝ} (hJ : J.lo ≤ J.hi) (op : Op) (ho : op = .add ∨ op = .sub) :
    (∃ r, PyT.bin ord op (.tm t) (.itv J) = .ok (.tm r) ∧ r.WF ∧ ∀ x, t.InDom x → r.InDom x ∧ ∀ y c, t.Allows x y → InItv J c → r.Allows x (op.real y c)) ∧
    ∃ r, PyT.bin ord .add (.itv J) (.tm t) = .ok (.tm r) ∧ r.WF ∧ ∀ x, t.InDom x → r.InDom x ∧ ∀ y c, t.Allows x y → InItv J c → r.Allows x (c + y) := by
  refine ⟨?_, ?_⟩
  · rcases ho with rfl | rfl
    · obtain ⟨r, h1, h2, -, h3, h4⟩ := C48_add_interval ht hJ
      exact ⟨r, congrArg PyT.lift h1, h2, fun x hx => ⟨(h3 x).2 hx, fun y c hy hc => h4 x hx y _ hy ⟨c, hc, rfl⟩⟩⟩
    · obtain ⟨r, h1, h2, -, h3, h4⟩ := C48_sub_interval ht hJ
      exact ⟨r, congrArg PyT.lift h1, h2, fun x hx => ⟨(h3 x).2 hx, fun y c hy hc => h4 x hx y _ hy ⟨c, hc, rfl⟩⟩⟩
  · obtain ⟨r, h1, h2, -, h3, h4⟩ := C48_interval_add ht hJ
    exact ⟨r, congrArg PyT.lift h1, h2, fun x hx => ⟨(h3 x).2 hx, fun y c hy hc => h4 x hx y _ hy ⟨c, hc, rfl⟩⟩⟩

/-- **C110 (counterexample, operators with intervals).** `J * t` and `J / t` raise an exception whenever `t` has a variable, `t * J` and `t / J` whenever it has two; `J - t` has the polynomial of `t` instead of its negative, so that
it does not enclose the result (C51). -/
theorem C110_interval_operators_counterexample (ord : List String → List String) {t : TM ℝ} (ht : t.WF) (h : 2 ≤ t.ndim) (J : Itv ℝ) :
    (∀ op, op = .mul ∨ op = .div → PyT.bin ord op (.itv J) (.tm t) = .error (.cpp .invalidArgument) ∧ PyT.bin ord op (.tm t) (.itv J) = .error (.cpp .invalidArgument)) ∧
      ∀ r, PyT.bin ord .sub (.itv J) (.tm t) = .ok (.tm r) → r.tpol = t.tpol ∧ r.rem = J.sub t.rem := by
  obtain ⟨h1, h2⟩ := C51_interval_mul_throws ht (by omega) ord J
  obtain ⟨h3, h4⟩ := C51_mul_interval_throws ht (by omega) ord J
  refine ⟨?_, fun r hr => ?_⟩
  · rintro op (rfl | rfl)
    · exact ⟨congrArg PyT.lift h1, congrArg PyT.lift h3⟩
    · exact ⟨congrArg PyT.lift h2, congrArg PyT.lift h4⟩
  · obtain ⟨t', h5, h6⟩ := PyT.lift_tm (r := TM.subIT J t) hr
    injection h6 with h6
    subst h6
    unfold TM.subIT TM.make at h5
    obtain ⟨_, -, h5⟩ := bind_ok_iff.1 h5
    injection h5 with h5
    subst h5
    exact ⟨rfl, rfl⟩

/-- A Taylor model with two variables. -/
example : ∃ t : TM ℝ, t.WF ∧ 2 ≤ t.ndim ∧ (⟨3, 4⟩ : Itv ℝ).lo ≤ (⟨3, 4⟩ : Itv ℝ).hi := by
  refine ⟨⟨⟨⟨["dx", "dy"], []⟩, 1⟩, 1, 2, ⟨0, 0⟩, [("x", 0), ("y", 0)], [("x", ⟨-1, 1⟩), ("y", ⟨-1, 1⟩)]⟩, ⟨⟨⟨?_, ?_, ?_, ?_⟩, ?_⟩, ?_, rfl, rfl, ?_, ?_, ?_, le_refl _⟩, le_refl _, by norm_num⟩
  all_goals first | (simp; done) | skip
  · change List.Pairwise (· < ·) ["dx", "dy"]
    decide
  · intro s hs
    simp only [List.mem_cons, List.not_mem_nil, or_false] at hs
    rcases hs with rfl | rfl
    · exact ⟨"x", by decide⟩
    · exact ⟨"y", by decide⟩
  · change List.Perm ["x", "y"] (["dx", "dy"].map varName)
    decide
  · change List.Perm ["x", "y"] (["dx", "dy"].map varName)
    decide
  · intro e he
    simp only [List.mem_cons, List.not_mem_nil, or_false] at he
    rcases he with rfl | rfl <;> exact ⟨0, by simp, by constructor <;> norm_num⟩

/-- All hypotheses hold for `def f(x, c, n): return c * x ** n + exp(x)`, called with a Taylor model `x` (order 1, domain [-1, 1]), a `float` 2.5 and the `int` 2. -/
example (g : GDual ℝ) (t : TM ℝ) (hg : GDual.mk3 0 "x" 1 = .ok g) (ht : TM.make g ⟨0, 0⟩ [("x", 0)] [("x", ⟨-1, 1⟩)] = .ok t) :
    ∃ r, (PyTExpr.bin .add (.bin .mul (.var "c") (.pow (.var "x") (.var "n"))) (.fn .exp (.var "x"))).eval id
      (fun s => if s = "x" then .tm t else if s = "n" then .num (.int 2) else .num (.float 2.5)) = .ok (.tm r) ∧
      ∀ x : String → ℝ, |x "x"| ≤ 1 → r.Allows x (2.5 * x "x" ^ 2 + Real.exp (x "x")) := by
  have lx : ∃ c, "x".toList.head? = some c ∧ c ≠ 'd' := ⟨'x', by decide, by decide⟩
  have hrun : (Expr.var "x" : Expr ℝ).runTM id (fun s => if s = "x" then 0 else if s = "n" then 2 else 2.5) (fun s => if s = "x" then ⟨-1, 1⟩ else if s = "n" then ⟨2, 2⟩ else ⟨2.5, 2.5⟩)
      (fun _ => ⟨0, 0⟩) 1 = .ok t := by
    rw [Expr.runTM]
    simp only [if_true]
    rw [bind_ok hg, ht]
  have hl : Line t 0 1 ⟨-1, 1⟩ ∧ t.rem = ⟨0, 0⟩ := by
    obtain ⟨c1, c2⟩ := Centred.var (m := 1) (by decide) lx (by norm_num [InItv]) hrun
    obtain ⟨g', g1, rfl⟩ := var_run hrun
    refine ⟨⟨c1.wf, c2, ?_, by simp, by simp, ?_⟩, rfl⟩
    · rw [GDual.syms_mk3 g1]
      intro s hs
      exact List.mem_singleton.1 hs
    · rw [GDual.toMv_mk3 (ι := Unit) (K := ℝ) g1]
      rfl
  have hsq : SafePow 2 t := by
    have hp : (t.tpol.toMv () : MvPolynomial String ℝ) = MvPolynomial.X "dx" := by
      rw [hl.1.poly, MvPolynomial.monomial_zero, zero_add]
      rfl
    refine ⟨by rw [hl.1.order], .inl ⟨by norm_num, by rw [hp]; exact MvPolynomial.X_ne_zero _, fun i h1 h2 Q q1 q2 => ?_⟩⟩
    obtain rfl : i = 1 := by
      have : (2 : ℤ).toNat = 2 := rfl
      omega
    have hc : MvPolynomial.coeff (Finsupp.single "dx" 1) Q = 1 := by
      rw [q2 _ (by rw [hl.1.order]; simp), hp, pow_one, MvPolynomial.coeff_X, if_pos rfl]
    refine ⟨fun h0 => by rw [h0, MvPolynomial.coeff_zero] at hc; exact zero_ne_one hc, .inl ⟨Finsupp.single "dx" 1 + Finsupp.single "dx" 1, by simp [hl.1.order], ?_⟩⟩
    rw [hp, MvPolynomial.coeff_mul_X, hc]
    norm_num
  obtain ⟨r, r1, -, r2⟩ := C110_enclosure_partial (ord := id) (v := fun s => if s = "x" then 0 else if s = "n" then 2 else 2.5)
    (D := fun s => if s = "x" then ⟨-1, 1⟩ else if s = "n" then ⟨2, 2⟩ else ⟨2.5, 2.5⟩) (R := fun _ => ⟨0, 0⟩) (vs := ["x"]) (m := 1)
    (σ := fun s => if s = "x" then .tm t else if s = "n" then .num (.int 2) else .num (.float 2.5)) (fun _ => .refl _) (fun _ _ _ => rfl) le_rfl (by norm_num)
    (fun s => by
      by_cases h : s = "x"
      · norm_num [h, InItv]
      · by_cases h' : s = "n"
        · simp only [if_neg h, if_pos h']; norm_num [InItv]
        · simp only [if_neg h, if_neg h']; norm_num [InItv]) (fun _ => ⟨le_rfl, le_rfl⟩)
    (fun s => by
      by_cases h : s = "x"
      · subst h
        simp only [List.mem_singleton, if_true]
        exact ⟨g, t, hg, ht, rfl⟩
      · rw [if_neg (by simpa using h)]
        by_cases h' : s = "n"
        · exact ⟨.int 2, by simp [h'], by simp [h', PyNum.val]⟩
        · exact ⟨.float 2.5, by simp [h, h'], by simp [h, h', PyNum.val]⟩)
    (e := .bin .add (.bin .mul (.var "c") (.pow (.var "x") (.var "n"))) (.fn .exp (.var "x"))) (by
      refine ⟨⟨trivial, ⟨trivial, trivial, fun a b ha hb => ?_⟩, fun a b ha hb => ?_⟩, ⟨trivial, fun a ha => ?_⟩, fun a b ha hb => ?_⟩
      · injection ha with ha; injection hb with hb
        subst ha hb
        exact ⟨by norm_num, by norm_num, hsq⟩
      · injection ha with ha
        subst ha
        obtain ⟨t', -, rfl⟩ := PyT.lift_tm (r := TM.powInt id t 2) (a := b) hb
        exact trivial
      · injection ha with ha
        subst ha
        exact ⟨rfl, trivial, .inr ⟨hl.1.lin, hl.2⟩⟩
      · obtain ⟨t2, -, rfl⟩ := PyT.lift_tm (r := TM.rexp id t) (a := b) hb
        have : ∃ t1, a = .tm t1 := by
          have hm : ((PyTExpr.pow (.var "x") (.var "n")).eval id fun s => if s = "x" then .tm t else if s = "n" then .num (.int 2) else .num (.float 2.5)) =
            PyT.lift (TM.powInt id t 2) := rfl
          rw [PyTExpr.eval, hm] at ha
          cases hp : TM.powInt id t 2 with
          | error e => rw [hp] at ha; cases ha
          | ok t1 =>
            rw [hp] at ha
            obtain ⟨t2, -, rfl⟩ := PyT.lift_tm (r := TM.mulST 2.5 t1) (a := a) ha
            exact ⟨t2, rfl⟩
        obtain ⟨t1, rfl⟩ := this
        exact trivial) (.inr (show "x" ∈ ["x"] by simp))
  refine ⟨r, r1, fun x hx => ?_⟩
  have := (r2 x fun s hs => by
    rw [List.mem_singleton.1 hs]
    simpa [InItv] using abs_le.1 hx).2 x fun s _ => by simp [InItv]
  simpa [PyTExpr.sem, Op.real, Fn.real, PyNum.val] using this

end Audi
