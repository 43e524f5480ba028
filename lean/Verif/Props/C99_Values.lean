import Verif.Proofs.Cst
import Verif.Spec.NumProgram

/-!
# C99: the values are those of the program run with numbers

The constant coefficient of a gdual computed with a program is exactly, rounding included, the number which the program computes when it is run with the coefficient type.
-/

namespace Audi
open GDual Prog

variable {F : XFormat} [XLibm F]

theorem XF.add_comm (x y : XF F) : Cf.add x y = Cf.add y x := by
  refine XF.ext ?_
  rw [XF.add_def, XF.add_def]
  unfold XF.add
  rcases x.v with _ | s | p <;> rcases y.v with _ | t | q <;> try rfl
  · simp only
    by_cases h : s = t
    · rw [if_pos h, if_pos h.symm, h]
    · rw [if_neg h, if_neg (Ne.symm h)]
  · simp only; rw [_root_.add_comm]

theorem Expr.Finite.fin {s : String → XF F} {e : Expr (XF F)} (h : e.Finite s) : (e.num s).Fin := by
  cases e with
  | var x => exact h
  | const c => exact h
  | bin op e1 e2 => exact h.2.2
  | left op c e => exact h.2.2
  | right op e c => exact h.2.2
  | fn f e => exact h.2
  | pow e1 e2 => exact h.2.2

theorem Op.run_cst {op : Op} (hop : op.Same) {a b : GDual (XF F)} {x y : XF F} (ha : Cst False a x) (hb : Cst False b y) (hx : x.Fin) (hy : y.Fin) :
    ∃ r, op.run a b = .ok r ∧ Cst False r (op.num x y) := by
  obtain ⟨p, hp⟩ := hx
  obtain ⟨q, hq⟩ := hy
  cases op with
  | add => exact ⟨_, rfl, ha.add hb⟩
  | sub => exact ⟨_, rfl, ha.sub hb⟩
  | mul =>
    have := ha.mul hb
    rw [cmul_fin hp hq] at this
    exact ⟨_, rfl, this⟩
  | div => exact hop.elim

theorem Fn.run_cst {f : Fn} (hf : f.Same) {a : GDual (XF F)} {x : XF F} (ha : Cst False a x) (hx : x.Fin) : ∃ r, f.run a = .ok r ∧ Cst False r (f.num x) := by
  have hq : False ∨ ∃ q, x.v = .fin q := Or.inr hx
  cases f with
  | exp => exact ha.exp hq
  | log => exact ha.log hq
  | sqrt => exact ha.sqrt hq
  | cbrt => exact ha.cbrt hq
  | sin => exact ha.sin hq
  | cos => exact ha.cos hq
  | tan => exact ha.tan hq
  | sinh => exact ha.sinh hq
  | cosh => exact ha.cosh hq
  | tanh => exact ha.tanh hq
  | atanh => exact ha.atanh hq
  | atan => exact ha.atanWith hq _
  | neg => exact ⟨_, rfl, ha.neg⟩
  | powQ α => exact ha.powQ hq hf.1 hf.2
  | asinh => exact hf.elim
  | acosh => exact hf.elim
  | asin => exact hf.elim
  | acos => exact hf.elim
  | powInt z => exact hf.elim
  | powBase b => exact hf.elim

theorem Expr.eval_cst {e : Expr (XF F)} (he : e.Same) {s : String → XF F} {σ : String → GDual (XF F)} (hσ : ∀ x, Cst False (σ x) (s x)) (hf : e.Finite s) :
    ∃ r, e.eval σ = .ok r ∧ Cst False r (e.num s) := by
  induction e with
  | var x => exact ⟨_, rfl, hσ x⟩
  | const c => exact ⟨_, rfl, Cst.ofCf c⟩
  | bin op e1 e2 ih1 ih2 =>
    obtain ⟨r1, h1, h2⟩ := ih1 he.2.1 hf.1
    obtain ⟨r2, h3, h4⟩ := ih2 he.2.2 hf.2.1
    obtain ⟨r, h5, h6⟩ := Op.run_cst he.1 h2 h4 hf.1.fin hf.2.1.fin
    exact ⟨r, by rw [Expr.eval, h1, res_bind, h3, res_bind, h5], h6⟩
  | left op c e ih =>
    obtain ⟨r1, h1, h2⟩ := ih he.2 hf.2.1
    obtain ⟨p, hp⟩ := hf.1
    obtain ⟨q, hq⟩ := hf.2.1.fin
    rw [Expr.eval, h1, res_bind]
    have hop := he.1
    cases op with
    | add => exact ⟨_, rfl, h2.addSG c⟩
    | sub => exact ⟨_, rfl, h2.subSG c⟩
    | mul =>
      have := h2.mulSG c
      rw [cmul_fin hp hq] at this
      exact ⟨_, rfl, this⟩
    | div => exact hop.elim
  | right op e c ih =>
    obtain ⟨r1, h1, h2⟩ := ih he.2 hf.1
    obtain ⟨p, hp⟩ := hf.2.1
    obtain ⟨q, hq⟩ := hf.1.fin
    rw [Expr.eval, h1, res_bind]
    have hop := he.1
    cases op with
    | add =>
      have := h2.addGS c
      rw [XF.add_comm] at this
      exact ⟨_, rfl, this⟩
    | sub => exact ⟨_, rfl, h2.subGS c⟩
    | mul =>
      have := h2.mulGS c
      rw [cmul_fin hq hp] at this
      exact ⟨_, rfl, this⟩
    | div => exact hop.elim
  | fn f e ih =>
    obtain ⟨r1, h1, h2⟩ := ih he.2 hf.1
    obtain ⟨r, h3, h4⟩ := Fn.run_cst he.1 h2 hf.1.fin
    exact ⟨r, by rw [Expr.eval, h1, res_bind, h3], h4⟩
  | pow e1 e2 ih1 ih2 => exact he.elim

theorem Cmp.run_cst {c : Cmp} (hc : c ≠ .eq) {a b : GDual (XF F)} {x y : XF F} (ha : Cst False a x) (hb : Cst False b y) : c.run a b = .ok (c.num x y) := by
  cases c with
  | lt => change GDual.lt a b = _; unfold GDual.lt; rw [ha.ok, res_bind, hb.ok, res_bind]; rfl
  | gt => change GDual.gt a b = _; unfold GDual.gt; rw [ha.ok, res_bind, hb.ok, res_bind]; rfl
  | eq => exact absurd rfl hc

/-- The store of gduals has the values of the store of numbers. -/
def Agree (σ : String → GDual (XF F)) (s : String → XF F) : Prop := ∀ x, (σ x).p.WF ∧ (σ x).constantCf = .ok (s x)

theorem Agree.cst {σ : String → GDual (XF F)} {s : String → XF F} (h : Agree σ s) (x : String) : Cst False (σ x) (s x) := Cst.of_ok (h x).1 (h x).2

theorem Agree.update {σ : String → GDual (XF F)} {s : String → XF F} (h : Agree σ s) {x : String} {r : GDual (XF F)} {v : XF F} (hr : Cst False r v) :
    Agree (Function.update σ x r) (Function.update s x v) := by
  intro y
  by_cases hy : y = x
  · subst hy; simp only [Function.update_self]; exact ⟨hr.wf, hr.ok⟩
  · simp only [Function.update_of_ne hy]; exact h y

/-- **C99** (partial: without `/`, `==`, `asin`, `acos`, `asinh`, `acosh` and powers with integers and gduals; see C99_div, C97_div_counterexample, C99_powers.) A program with branches and loops,
run on gduals, follows the same path as on numbers and ends with the same values, bit for bit. -/
theorem C99_program_partial {p : Prog (XF F)} (hp : p.Same) {s s' : String → XF F} (h : NRun p s s') {σ : String → GDual (XF F)} (hσ : Agree σ s) :
    ∃ σ', Run p σ σ' ∧ Agree σ' s' := by
  induction h generalizing σ with
  | skip s => exact ⟨σ, .skip σ, hσ⟩
  | assign s x e hf =>
    obtain ⟨r, h1, h2⟩ := Expr.eval_cst hp hσ.cst hf
    exact ⟨_, .assign σ x e r h1, hσ.update h2⟩
  | opAssign s op x e hx hf =>
    obtain ⟨r, h1, h2⟩ := Expr.eval_cst hp.2 hσ.cst hf
    obtain ⟨r', h3, h4⟩ := Op.run_cst hp.1 (hσ.cst x) h2 hx hf.fin
    exact ⟨_, .opAssign σ op x e r r' h1 h3, hσ.update h4⟩
  | seq s s' s'' p q _ _ ih1 ih2 =>
    obtain ⟨σ', h1, h2⟩ := ih1 hp.1 hσ
    obtain ⟨σ'', h3, h4⟩ := ih2 hp.2 h2
    exact ⟨σ'', .seq σ σ' σ'' p q h1 h3, h4⟩
  | iteT s s' c e1 e2 p q hf1 hf2 hc _ ih =>
    obtain ⟨r1, h1, h2⟩ := Expr.eval_cst hp.2.1 hσ.cst hf1
    obtain ⟨r2, h3, h4⟩ := Expr.eval_cst hp.2.2.1 hσ.cst hf2
    obtain ⟨σ', h5, h6⟩ := ih hp.2.2.2.1 hσ
    exact ⟨σ', .iteT σ σ' c e1 e2 p q r1 r2 h1 h3 (by rw [Cmp.run_cst hp.1 h2 h4, hc]) h5, h6⟩
  | iteF s s' c e1 e2 p q hf1 hf2 hc _ ih =>
    obtain ⟨r1, h1, h2⟩ := Expr.eval_cst hp.2.1 hσ.cst hf1
    obtain ⟨r2, h3, h4⟩ := Expr.eval_cst hp.2.2.1 hσ.cst hf2
    obtain ⟨σ', h5, h6⟩ := ih hp.2.2.2.2 hσ
    exact ⟨σ', .iteF σ σ' c e1 e2 p q r1 r2 h1 h3 (by rw [Cmp.run_cst hp.1 h2 h4, hc]) h5, h6⟩
  | loopT s s' s'' c e1 e2 p hf1 hf2 hc _ _ ih1 ih2 =>
    obtain ⟨r1, h1, h2⟩ := Expr.eval_cst hp.2.1 hσ.cst hf1
    obtain ⟨r2, h3, h4⟩ := Expr.eval_cst hp.2.2.1 hσ.cst hf2
    obtain ⟨σ', h5, h6⟩ := ih1 hp.2.2.2 hσ
    obtain ⟨σ'', h7, h8⟩ := ih2 hp h6
    exact ⟨σ'', .loopT σ σ' σ'' c e1 e2 p r1 r2 h1 h3 (by rw [Cmp.run_cst hp.1 h2 h4, hc]) h5 h7, h8⟩
  | loopF s c e1 e2 p hf1 hf2 hc =>
    obtain ⟨r1, h1, h2⟩ := Expr.eval_cst hp.2.1 hσ.cst hf1
    obtain ⟨r2, h3, h4⟩ := Expr.eval_cst hp.2.2.1 hσ.cst hf2
    exact ⟨σ, .loopF σ c e1 e2 p r1 r2 h1 h3 (by rw [Cmp.run_cst hp.1 h2 h4, hc]), hσ⟩

/-- **C99** Quotients: the value is the numerator times the rounded reciprocal of the denominator, which is not the rounded quotient in general (`C97_div_counterexample`). -/
theorem C99_div {a b : GDual (XF F)} (ha : a.Valid) (hb : b.Valid) {x y : XF F} (hx : a.constantCf = .ok x) (hy : b.constantCf = .ok y) {p q r : ℚ} (hp : x.v = .fin p)
    (hq : y.v = .fin q) (hr : (Cf.div Cf.one y).v = .fin r) : ∃ d, a.div b = .ok d ∧ d.constantCf = .ok (Cf.mul x (Cf.div Cf.one y)) := by
  obtain ⟨d, h1, h2⟩ := (Cst.of_ok (P := False) ha.wf hx).div (Cst.of_ok hb.wf hy) (Or.inr ⟨q, hq⟩)
  rw [cmul_fin hp hr] at h2
  exact ⟨d, h1, h2.ok⟩

theorem Cst.inverse {a : GDual (XF F)} {x : XF F} (hc : Cst False a x) {p : ℚ} (hp : x.v = .fin p) :
    (∀ r t, (Cf.add Cf.one (Cf.mul x x)).v = .fin r → (Cf.add x (XLibm.sqrt (Cf.add Cf.one (Cf.mul x x)))).v = .fin t →
      ∃ d, asinh a = .ok d ∧ Cst False d (XLibm.log (Cf.add x (XLibm.sqrt (Cf.add Cf.one (Cf.mul x x)))))) ∧
    (∀ r t, (Cf.sub (Cf.mul x x) Cf.one).v = .fin r → (Cf.add x (XLibm.sqrt (Cf.sub (Cf.mul x x) Cf.one))).v = .fin t →
      ∃ d, acosh a = .ok d ∧ Cst False d (XLibm.log (Cf.add x (XLibm.sqrt (Cf.sub (Cf.mul x x) Cf.one))))) ∧
    (∀ r t u w, (Cf.sub Cf.one (Cf.mul x x)).v = .fin r → (XLibm.sqrt (Cf.sub Cf.one (Cf.mul x x))).v = .fin t →
      (Cf.div Cf.one (XLibm.sqrt (Cf.sub Cf.one (Cf.mul x x)))).v = .fin u → (Cf.mul x (Cf.div Cf.one (XLibm.sqrt (Cf.sub Cf.one (Cf.mul x x))))).v = .fin w →
      (∃ d, asin a = .ok d ∧ Cst False d (XLibm.atan (Cf.mul x (Cf.div Cf.one (XLibm.sqrt (Cf.sub Cf.one (Cf.mul x x))))))) ∧
      ∃ d, acos a = .ok d ∧ Cst False d (Cf.sub (Cf.mul (Cf.ofRat (1 / 2)) XLibm.pi) (XLibm.atan (Cf.mul x (Cf.div Cf.one (XLibm.sqrt (Cf.sub Cf.one (Cf.mul x x)))))))) := by
  have h2 : Cst False (a.mul a) (Cf.mul x x) := by have := hc.mul hc; rwa [cmul_fin hp hp] at this
  refine ⟨fun r t hr ht => ?_, fun r t hr ht => ?_, fun r t u w hr ht hu hw => ?_⟩
  · obtain ⟨s, h3, h4⟩ := (h2.addSG (Cf.ofRat 1)).sqrt (Or.inr ⟨r, hr⟩)
    obtain ⟨d, h5, h6⟩ := (hc.add h4).log (Or.inr ⟨t, ht⟩)
    exact ⟨d, by unfold GDual.asinh; rw [h3, res_bind, h5], h6⟩
  · obtain ⟨s, h3, h4⟩ := (h2.subGS (Cf.ofRat 1)).sqrt (Or.inr ⟨r, hr⟩)
    obtain ⟨d, h5, h6⟩ := (hc.add h4).log (Or.inr ⟨t, ht⟩)
    exact ⟨d, by unfold GDual.acosh; rw [h3, res_bind, h5], h6⟩
  · obtain ⟨s, h3, h4⟩ := (h2.subSG (Cf.ofRat 1)).sqrt (Or.inr ⟨r, hr⟩)
    obtain ⟨d, h5, h6⟩ := hc.div h4 (Or.inr ⟨t, ht⟩)
    rw [show cmul x (Cf.div Cf.one (XLibm.sqrt (Cf.add (Cf.ofRat 1) (Cf.neg (Cf.mul x x))))) = _ from cmul_fin hp hu] at h6
    obtain ⟨d', h7, h8⟩ := h6.atanWith (Or.inr ⟨w, hw⟩) binomialU32
    have h9 : asin a = .ok d' := by unfold GDual.asin GDual.asinWith; rw [h3, res_bind, h5, res_bind, h7]
    refine ⟨⟨d', h9, h8⟩, _, by unfold GDual.acos GDual.acosWith; rw [show asinWith binomialU32 a = .ok d' from h9, res_bind], ?_⟩
    exact h8.subSG (Cf.mul (Cf.ofRat (1 / 2)) XLibm.pi)

/-- **C99** `asinh`, `acosh`, `asin`, `acos` do not call the library functions: their values are those of these formulas, in the arithmetic of the format, when the
intermediate results are numbers. -/
theorem C99_inverse {a : GDual (XF F)} (ha : a.Valid) {x : XF F} (hx : a.constantCf = .ok x) {p : ℚ} (hp : x.v = .fin p) :
    (∀ r t, (Cf.add Cf.one (Cf.mul x x)).v = .fin r → (Cf.add x (XLibm.sqrt (Cf.add Cf.one (Cf.mul x x)))).v = .fin t →
      ∃ d, asinh a = .ok d ∧ d.constantCf = .ok (XLibm.log (Cf.add x (XLibm.sqrt (Cf.add Cf.one (Cf.mul x x)))))) ∧
    (∀ r t, (Cf.sub (Cf.mul x x) Cf.one).v = .fin r → (Cf.add x (XLibm.sqrt (Cf.sub (Cf.mul x x) Cf.one))).v = .fin t →
      ∃ d, acosh a = .ok d ∧ d.constantCf = .ok (XLibm.log (Cf.add x (XLibm.sqrt (Cf.sub (Cf.mul x x) Cf.one))))) ∧
    (∀ r t u w, (Cf.sub Cf.one (Cf.mul x x)).v = .fin r → (XLibm.sqrt (Cf.sub Cf.one (Cf.mul x x))).v = .fin t →
      (Cf.div Cf.one (XLibm.sqrt (Cf.sub Cf.one (Cf.mul x x)))).v = .fin u → (Cf.mul x (Cf.div Cf.one (XLibm.sqrt (Cf.sub Cf.one (Cf.mul x x))))).v = .fin w →
      (∃ d, asin a = .ok d ∧ d.constantCf = .ok (XLibm.atan (Cf.mul x (Cf.div Cf.one (XLibm.sqrt (Cf.sub Cf.one (Cf.mul x x))))))) ∧
      ∃ d, acos a = .ok d ∧ d.constantCf = .ok (Cf.sub (Cf.mul (Cf.ofRat (1 / 2)) XLibm.pi) (XLibm.atan (Cf.mul x (Cf.div Cf.one (XLibm.sqrt (Cf.sub Cf.one (Cf.mul x x)))))))) := by
  have h := Cst.inverse (Cst.of_ok (P := False) ha.wf hx) hp
  refine ⟨fun r t hr ht => ?_, fun r t hr ht => ?_, fun r t u w hr ht hu hw => ?_⟩
  · obtain ⟨d, h1, h2⟩ := h.1 r t hr ht; exact ⟨d, h1, h2.ok⟩
  · obtain ⟨d, h1, h2⟩ := h.2.1 r t hr ht; exact ⟨d, h1, h2.ok⟩
  · obtain ⟨⟨d, h1, h2⟩, e, h3, h4⟩ := h.2.2 r t u w hr ht hu hw
    exact ⟨⟨d, h1, h2.ok⟩, e, h3, h4.ok⟩

end Audi
