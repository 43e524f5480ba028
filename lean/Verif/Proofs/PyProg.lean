import Verif.Spec.PyProg
import Verif.Proofs.Program
import Verif.Props.C107_PythonFunctions

/-! Running Python programs on numbers and gduals. -/

namespace Audi

open MvPolynomial Spec GDual Topology
open Filter hiding bind

variable {m : ℕ} {a : String → ℝ} {κ : String → Bool} {F : String → (String → ℝ) → ℝ} {σ : String → PyV}

/-- The value is the number `G`, constant, or (`k`) a gdual with the Taylor expansion of `G`. -/
def PyRel (m : ℕ) (a : String → ℝ) (k : Bool) (G : (String → ℝ) → ℝ) (r : PyV) : Prop :=
  if k then ∃ d, r = .gd d ∧ Good m (fun _ : Unit => a) (fun _ => G) d else ∃ c, r = .num c ∧ ∀ z, G z = c

theorem PyRel.num {G : (String → ℝ) → ℝ} {r : PyV} (h : PyRel m a false G r) : r = .num (G a) ∧ ∀ z, G z = G a := by
  obtain ⟨c, rfl, hc⟩ := h
  exact ⟨by rw [hc], fun z => by rw [hc, hc]⟩

theorem PyRel.mkNum {G : (String → ℝ) → ℝ} (h : ∀ z, G z = G a) : PyRel m a false G (.num (G a)) := ⟨_, rfl, h⟩

theorem PyRel.cont {k : Bool} {G : (String → ℝ) → ℝ} {r : PyV} (h : PyRel m a k G r) : ContinuousAt G a := by
  cases k with
  | false =>
    have : G = fun _ => G a := funext h.num.2
    rw [this]; exact continuousAt_const
  | true =>
    obtain ⟨d, -, h⟩ := h
    exact (h.taylor ()).cont

theorem Fn.liftPy {f : Fn} (hm : f.MaxOrder m) {d : GDual ℝ} {G : (String → ℝ) → ℝ} (hd : Good m (fun _ : Unit => a) (fun _ => G) d) (h : f.Dom (G a)) :
    ∃ r, f.run d = .ok r ∧ Good m (fun _ : Unit => a) (fun _ z => f.real (G z)) r :=
  Good.fn (f := f.run) (g := fun _ => f.real) (dom := fun _ => f.Dom)
    (fun d hdv hle hdom => by
      obtain ⟨r, e1, e2, -⟩ := Fn.lift (ι := Unit) f hdv (Fn.maxOrder_mono hm hle) hdom
      exact ⟨r, e1, e2⟩) hd fun _ => h

theorem Good.powG {d1 d2 : GDual ℝ} {G1 G2 : (String → ℝ) → ℝ} (h1 : Good m (fun _ : Unit => a) (fun _ => G1) d1) (h2 : Good m (fun _ : Unit => a) (fun _ => G2) d2)
    (h : 0 < G1 a) : ∃ r, d1.powG d2 = .ok r ∧ Good m (fun _ : Unit => a) (fun _ z => G1 z ^ G2 z) r := by
  obtain ⟨l, hl', gl⟩ := Good.fn (f := GDual.log) (g := fun _ => Real.log) (dom := fun _ x => 0 < x)
    (fun d hdv _ hdom => by
      obtain ⟨r, e1, e2⟩ := computes_log.lift (ι := Unit) d hdv hdom
      exact ⟨r, e1, e2.w⟩) h1 fun i => h
  obtain ⟨r, hr, gr⟩ := Good.fn (f := GDual.exp) (g := fun _ => Real.exp) (dom := fun _ _ => True)
    (fun d hdv _ hdom => by
      obtain ⟨r, e1, e2⟩ := computes_exp.lift (ι := Unit) d hdv hdom
      exact ⟨r, e1, e2.w⟩) (h2.mul gl) fun i => trivial
  refine ⟨r, ?_, ⟨gr.valid, gr.le, gr.order, fun i => (gr.taylor i).congr_fun ?_⟩⟩
  · unfold GDual.powG
    rw [bind_ok hl', hr]
  · filter_upwards [(h1.taylor i).cont.eventually (lt_mem_nhds h)] with x hx
    change _ = G1 x ^ G2 x
    rw [Real.rpow_def_of_pos hx, mul_comm]

/-- Evaluation of an expression. -/
theorem PyExpr.eval_rel (hσ : ∀ s, PyRel m a (κ s) (F s) (σ s)) :
    ∀ e : PyExpr, e.FnOk m → e.Dom κ (fun s => F s a) → ∃ r, e.eval σ = .ok r ∧ PyRel m a (e.Uses κ) (fun z => e.sem fun s => F s z) r := by
  intro e
  induction e with
  | var s => exact fun _ _ => ⟨_, rfl, hσ s⟩
  | const c => exact fun _ _ => ⟨_, rfl, c, rfl, fun _ => rfl⟩
  | bin op e1 e2 ih1 ih2 =>
    intro hl hd
    obtain ⟨r1, h1, g1⟩ := ih1 hl.1 hd.1
    obtain ⟨r2, h2, g2⟩ := ih2 hl.2 hd.2.1
    have h3 := hd.2.2
    cases k1 : e1.Uses κ <;> cases k2 : e2.Uses κ <;> rw [k1] at g1 <;> rw [k2] at g2 <;> simp only [Uses, k1, k2, Bool.or_true, Bool.or_false]
    · obtain ⟨rfl, n1⟩ := g1.num
      obtain ⟨rfl, n2⟩ := g2.num
      refine ⟨.num (op.real (e1.sem fun s => F s a) (e2.sem fun s => F s a)), ?_, PyRel.mkNum (G := fun z => op.real (e1.sem fun s => F s z) (e2.sem fun s => F s z)) fun z => by
        simp only [n1 z, n2 z]⟩
      simp only [eval, h1, h2]
      cases op <;> simp_all [PyV.bin, PyV.method, PyV.numOp, Op.real, Op.Dom, bind, Except.bind]
    · obtain ⟨rfl, n1⟩ := g1.num
      obtain ⟨d, rfl, gd⟩ := g2
      obtain ⟨r, hr, gr⟩ := Good.opL op (e1.sem fun s => F s a) gd fun _ => h3
      refine ⟨.gd r, ?_, r, rfl, ?_⟩
      · simp only [eval, h1, h2, bind, Except.bind, PyV.bin, PyV.method, PyV.rmethod, hr, PyV.lift]
      · have : (fun (_ : Unit) z => sem (bin op e1 e2) fun s => F s z) = fun i z => op.real (Lanes.lane i (e1.sem fun s => F s a)) (e2.sem fun s => F s z) := by
          funext _ z
          simp only [sem, n1 z]
          rfl
        rw [this]; exact gr
    · obtain ⟨d, rfl, gd⟩ := g1
      obtain ⟨rfl, n2⟩ := g2.num
      obtain ⟨r, hr, gr⟩ := Good.opR op (e2.sem fun s => F s a) gd fun _ => h3
      refine ⟨.gd r, ?_, r, rfl, ?_⟩
      · simp only [eval, h1, h2, bind, Except.bind, PyV.bin, PyV.method, hr, PyV.lift]
      · have : (fun (_ : Unit) z => sem (bin op e1 e2) fun s => F s z) = fun i z => op.real (e1.sem fun s => F s z) (Lanes.lane i (e2.sem fun s => F s a)) := by
          funext _ z
          simp only [sem, n2 z]
          rfl
        rw [this]; exact gr
    · obtain ⟨d, rfl, gd⟩ := g1
      obtain ⟨d', rfl, gd'⟩ := g2
      obtain ⟨r, hr, gr⟩ := Good.op op gd gd' fun _ => h3
      refine ⟨.gd r, ?_, r, rfl, gr⟩
      simp only [eval, h1, h2, bind, Except.bind, PyV.bin, PyV.method, hr, PyV.lift]
  | fn f e ih =>
    intro hl hd
    obtain ⟨r1, h1, g1⟩ := ih hl.1 hd.1
    have h3 := hd.2
    cases k1 : e.Uses κ <;> rw [k1] at g1 h3 <;> simp only [Uses, k1]
    · obtain ⟨rfl, n1⟩ := g1.num
      refine ⟨.num (f.real (e.sem fun s => F s a)), ?_, PyRel.mkNum (G := fun z => f.real (e.sem fun s => F s z)) fun z => by simp only [n1 z]⟩
      simp only [eval, h1, bind, Except.bind, PyV.fn, hl.2.1, if_true]
      exact if_pos h3
    · obtain ⟨d, rfl, gd⟩ := g1
      obtain ⟨r, hr, gr⟩ := Fn.liftPy hl.2.2 gd h3
      refine ⟨.gd r, ?_, r, rfl, gr⟩
      simp only [eval, h1, bind, Except.bind, PyV.fn, hl.2.1, if_true, hr, PyV.lift]
  | pow e1 e2 ih1 ih2 =>
    intro hl hd
    obtain ⟨r1, h1, g1⟩ := ih1 hl.1 hd.1
    obtain ⟨r2, h2, g2⟩ := ih2 hl.2 hd.2.1
    have h3 := hd.2.2
    cases k1 : e1.Uses κ <;> cases k2 : e2.Uses κ <;> rw [k1] at g1 h3 <;> rw [k2] at g2 h3 <;> simp only [Uses, k1, k2, Bool.or_true, Bool.or_false]
    · obtain ⟨rfl, n1⟩ := g1.num
      obtain ⟨rfl, n2⟩ := g2.num
      refine ⟨.num ((e1.sem fun s => F s a) ^ (e2.sem fun s => F s a)), ?_, PyRel.mkNum (G := fun z => (e1.sem fun s => F s z) ^ (e2.sem fun s => F s z)) fun z => by
        simp only [n1 z, n2 z]⟩
      simp only [eval, h1, h2, bind, Except.bind, PyV.pow, PyV.powMethod]
      exact numPow_ok h3
    · obtain ⟨rfl, n1⟩ := g1.num
      obtain ⟨d, rfl, gd⟩ := g2
      obtain ⟨q, hq, hq0⟩ := h3
      obtain ⟨r, hr, gr⟩ := Fn.liftPy (f := .powBase q) trivial gd hq0
      replace hr : d.powBase q = .ok r := hr
      refine ⟨.gd r, ?_, r, rfl, ?_⟩
      · simp only [eval, h1, h2, bind, Except.bind, PyV.pow, PyV.powMethod, PyV.rpowMethod, hq, toRat_cast, hr, PyV.lift]
      · have : (fun (_ : Unit) z => sem (pow e1 e2) fun s => F s z) = fun _ z => (Fn.powBase q).real (e2.sem fun s => F s z) := by
          funext _ z
          simp only [sem, n1 z, hq]
          rfl
        rw [this]; exact gr
    · obtain ⟨d, rfl, gd⟩ := g1
      obtain ⟨rfl, n2⟩ := g2.num
      obtain ⟨q, hq, hq0⟩ := h3
      obtain ⟨r, hr, gr⟩ := Fn.liftPy (f := .powQ q) trivial gd hq0
      replace hr : d.powQ q = .ok r := hr
      refine ⟨.gd r, ?_, r, rfl, ?_⟩
      · simp only [eval, h1, h2, bind, Except.bind, PyV.pow, PyV.powMethod, hq, toRat_cast, hr, PyV.lift]
      · have : (fun (_ : Unit) z => sem (pow e1 e2) fun s => F s z) = fun _ z => (Fn.powQ q).real (e1.sem fun s => F s z) := by
          funext _ z
          simp only [sem, n2 z, hq]
          rfl
        rw [this]; exact gr
    · obtain ⟨d, rfl, gd⟩ := g1
      obtain ⟨d', rfl, gd'⟩ := g2
      obtain ⟨r, hr, gr⟩ := Good.powG gd gd' h3
      refine ⟨.gd r, ?_, r, rfl, gr⟩
      simp only [eval, h1, h2, bind, Except.bind, PyV.pow, PyV.powMethod, hr, PyV.lift]

/-- The domain is a neighbourhood. -/
theorem PyExpr.dom_near (hσ : ∀ s, PyRel m a (κ s) (F s) (σ s)) :
    ∀ e : PyExpr, e.FnOk m → e.Dom κ (fun s => F s a) → ∀ᶠ y in 𝓝 a, e.Dom κ fun s => F s y := by
  intro e
  induction e with
  | var s => exact fun _ _ => Eventually.of_forall fun _ => trivial
  | const c => exact fun _ _ => Eventually.of_forall fun _ => trivial
  | bin op e1 e2 ih1 ih2 =>
    intro hl hd
    obtain ⟨r2, -, g2⟩ := eval_rel hσ e2 hl.2 hd.2.1
    filter_upwards [ih1 hl.1 hd.1, ih2 hl.2 hd.2.1, g2.cont.eventually (op.isOpen_dom.mem_nhds hd.2.2)] with y a b c
    exact ⟨a, b, c⟩
  | fn f e ih =>
    intro hl hd
    obtain ⟨r, -, g⟩ := eval_rel hσ e hl.1 hd.1
    have h3 := hd.2
    cases k : e.Uses κ <;> rw [k] at g h3
    · obtain ⟨-, n⟩ := g.num
      filter_upwards [ih hl.1 hd.1] with y b
      refine ⟨b, ?_⟩
      simp only [k]
      have := n y
      rw [this]
      exact h3
    · filter_upwards [ih hl.1 hd.1, g.cont.eventually (f.isOpen_dom.mem_nhds h3)] with y b c
      refine ⟨b, ?_⟩
      simp only [k]
      exact c
  | pow e1 e2 ih1 ih2 =>
    intro hl hd
    obtain ⟨r1, -, g1⟩ := eval_rel hσ e1 hl.1 hd.1
    obtain ⟨r2, -, g2⟩ := eval_rel hσ e2 hl.2 hd.2.1
    have h3 := hd.2.2
    suffices ∀ᶠ y in 𝓝 a, PyExpr.PowDom (e1.Uses κ) (e2.Uses κ) (e1.sem fun s => F s y) (e2.sem fun s => F s y) by
      filter_upwards [ih1 hl.1 hd.1, ih2 hl.2 hd.2.1, this] with y a b c
      exact ⟨a, b, c⟩
    cases k1 : e1.Uses κ <;> cases k2 : e2.Uses κ <;> rw [k1] at g1 h3 <;> rw [k2] at g2 h3
    · obtain ⟨-, n1⟩ := g1.num
      obtain ⟨-, n2⟩ := g2.num
      refine Eventually.of_forall fun y => ?_
      have e1 := n1 y
      have e2 := n2 y
      rw [e1, e2]
      exact h3
    · obtain ⟨-, n1⟩ := g1.num
      refine Eventually.of_forall fun y => ?_
      have e1 := n1 y
      rw [e1]
      exact h3
    · obtain ⟨-, n2⟩ := g2.num
      obtain ⟨q, hq, hq0⟩ := h3
      filter_upwards [g1.cont.eventually ((Fn.powQ q).isOpen_dom.mem_nhds hq0)] with y hy
      exact ⟨q, (n2 y).trans hq, hy⟩
    · exact g1.cont.eventually (isOpen_Ioi.mem_nhds h3)

/-- What is in the domain for gduals is in the domain for numbers. -/
theorem Fn.defined_of_dom {f : Fn} {x : ℝ} (h : f.Dom x) : f.Defined x := by
  cases f with
  | sqrt => exact le_of_lt h
  | acosh => exact le_of_lt h
  | asin => exact le_of_lt h
  | acos => exact le_of_lt h
  | log => exact h
  | tan => exact h
  | atanh => exact h
  | _ => trivial

theorem PyExpr.dom_numbers {s : String → ℝ} (κ' : String → Bool) (hf : ∀ x, κ' x = false) :
    ∀ e : PyExpr, e.Dom κ s → e.Dom κ' s := by
  have hu : ∀ e : PyExpr, e.Uses κ' = false := fun e => by
    induction e with
    | var s => exact hf s
    | const c => rfl
    | bin op e1 e2 ih1 ih2 => simp [Uses, ih1, ih2]
    | fn f e ih => exact ih
    | pow e1 e2 ih1 ih2 => simp [Uses, ih1, ih2]
  intro e
  induction e with
  | var s => exact fun _ => trivial
  | const c => exact fun _ => trivial
  | bin op e1 e2 ih1 ih2 => exact fun h => ⟨ih1 h.1, ih2 h.2.1, h.2.2⟩
  | fn f e ih =>
    intro h
    refine ⟨ih h.1, ?_⟩
    rw [hu]
    have h2 := h.2
    cases k : e.Uses κ <;> rw [k] at h2
    · exact h2
    · exact Fn.defined_of_dom h2
  | pow e1 e2 ih1 ih2 =>
    intro h
    refine ⟨ih1 h.1, ih2 h.2.1, ?_⟩
    rw [hu, hu]
    have h2 := h.2.2
    cases k1 : e1.Uses κ <;> cases k2 : e2.Uses κ <;> rw [k1, k2] at h2
    · exact h2
    · obtain ⟨q, hq, h0⟩ := h2
      exact .inl (by rw [hq]; exact_mod_cast h0)
    · obtain ⟨q, hq, -, -, h0 | ⟨h0, h4⟩⟩ := h2
      · exact .inl h0
      · have : (q.num : ℚ) = q := Rat.den_eq_one_iff q |>.1 h0
        refine .inr ⟨q.num, by rw [hq, ← this]; push_cast; rfl, h4.imp (fun h => ?_) id⟩
        exact Rat.num_nonneg.2 h
    · exact .inl h2

theorem Cmp.py_num (c : Cmp) (x y : ℝ) : ∃ b : Bool, c.py (.num x) (.num y) = .ok b ∧ (b = true ↔ c.real x y) := by
  cases c with
  | lt => exact ⟨_, rfl, by simp [Cmp.real]⟩
  | gt => exact ⟨_, rfl, by simp [Cmp.real]⟩
  | eq => exact ⟨_, rfl, by simp [Cmp.real, PyV.eq]⟩

/-- The comparison decides as the comparison of the values. -/
theorem Cmp.py_rel (c : Cmp) {k1 k2 : Bool} {G1 G2 : (String → ℝ) → ℝ} {r1 r2 : PyV} (h1 : PyRel m a k1 G1 r1) (h2 : PyRel m a k2 G2 r2)
    (ho : c.Ok k1 k2 (G1 a) (G2 a)) :
    (∃ b : Bool, c.py r1 r2 = .ok b ∧ (b = true ↔ c.real (G1 a) (G2 a))) ∧
      ∀ᶠ y in 𝓝 a, c.Ok k1 k2 (G1 y) (G2 y) ∧ (c.real (G1 y) (G2 y) ↔ c.real (G1 a) (G2 a)) := by
  have c1 := h1.cont
  have c2 := h2.cont
  refine ⟨?_, ?_⟩
  · cases k1 <;> cases k2
    · obtain ⟨rfl, -⟩ := h1.num
      obtain ⟨rfl, -⟩ := h2.num
      exact Cmp.py_num c _ _
    · obtain ⟨rfl, -⟩ := h1.num
      obtain ⟨d, rfl, gd⟩ := h2
      obtain ⟨rfl⟩ : c = .eq := ho.1.resolve_left (by simp)
      exact ⟨false, rfl, by simpa [Cmp.real] using ho.2.resolve_left (by simp)⟩
    · obtain ⟨d, rfl, gd⟩ := h1
      obtain ⟨rfl, -⟩ := h2.num
      obtain ⟨rfl⟩ : c = .eq := ho.1.resolve_left (by simp)
      exact ⟨false, rfl, by simpa [Cmp.real] using ho.2.resolve_left (by simp)⟩
    · obtain ⟨d, rfl, gd⟩ := h1
      obtain ⟨d', rfl, gd'⟩ := h2
      obtain ⟨b, hb, hbi⟩ := Cmp.run_eq c gd gd' (ho.2.resolve_left (by simp))
      refine ⟨b, ?_, hbi⟩
      cases c with
      | lt => replace hb : d.lt d' = .ok b := hb; simp only [Cmp.py, PyV.lt, hb]; rfl
      | gt => replace hb : d.gt d' = .ok b := hb; simp only [Cmp.py, PyV.gt, hb]; rfl
      | eq => exact congrArg _ (by injection hb)
  · rcases ho.2 with ⟨rfl, rfl⟩ | hne
    · refine Eventually.of_forall fun y => ⟨⟨.inl rfl, .inl ⟨rfl, rfl⟩⟩, ?_⟩
      rw [h1.num.2 y, h2.num.2 y]
    · exact (Cmp.real_near c c1 c2 hne).mono fun y hy => ⟨⟨ho.1, .inr hy.1⟩, hy.2⟩

theorem pyRel_update (hσ : ∀ s, PyRel m a (κ s) (F s) (σ s)) {x : String} {k : Bool} {r : PyV} {G : (String → ℝ) → ℝ} (hr : PyRel m a k G r) (s : String) :
    PyRel m a (Function.update κ x k s) (Function.update F x G s) (Function.update σ x r s) := by
  by_cases h : s = x
  · subst h; simp only [Function.update_self]; exact hr
  · simp only [Function.update_of_ne h]; exact hσ s

namespace PyProg

/-- Running is deterministic. -/
theorem Run.unique {q : PyProg} {σ s t : String → PyV} (h1 : Run q σ s) (h2 : Run q σ t) : s = t := by
  induction h1 generalizing t with
  | skip => cases h2; rfl
  | assign σ x e r h =>
    cases h2 with
    | assign _ _ _ r' h' => rw [h] at h'; injection h' with h'; rw [h']
  | seq σ σ' σ'' p q _ _ ih1 ih2 =>
    cases h2 with
    | seq _ τ _ _ _ a b => obtain rfl := ih1 a; exact ih2 b
  | iteT σ σ' c e1 e2 p q r1 r2 a b d _ ih =>
    cases h2 with
    | iteT _ _ _ _ _ _ _ r1' r2' a' b' d' h => exact ih h
    | iteF _ _ _ _ _ _ _ r1' r2' a' b' d' h =>
      rw [a] at a'; rw [b] at b'; injection a' with a'; injection b' with b'; subst a' b'
      rw [d] at d'; cases d'
  | iteF σ σ' c e1 e2 p q r1 r2 a b d _ ih =>
    cases h2 with
    | iteF _ _ _ _ _ _ _ r1' r2' a' b' d' h => exact ih h
    | iteT _ _ _ _ _ _ _ r1' r2' a' b' d' h =>
      rw [a] at a'; rw [b] at b'; injection a' with a'; injection b' with b'; subst a' b'
      rw [d] at d'; cases d'
  | loopT σ σ' σ'' c e1 e2 p r1 r2 a b d _ _ ih1 ih2 =>
    cases h2 with
    | loopT _ _ _ _ _ _ _ r1' r2' a' b' d' h h' => obtain rfl := ih1 h; exact ih2 h'
    | loopF _ _ _ _ _ r1' r2' a' b' d' =>
      rw [a] at a'; rw [b] at b'; injection a' with a'; injection b' with b'; subst a' b'
      rw [d] at d'; cases d'
  | loopF σ c e1 e2 p r1 r2 a b d =>
    cases h2 with
    | loopT _ _ _ _ _ _ _ r1' r2' a' b' d' h h' =>
      rw [a] at a'; rw [b] at b'; injection a' with a'; injection b' with b'; subst a' b'
      rw [d] at d'; cases d'
    | loopF => rfl

/-- A program which runs on the values runs on numbers and gduals along the same path. -/
theorem run_rel {q : PyProg} {κ κ' : String → Bool} {s s' : String → ℝ} (h : q.Exec κ s κ' s') (hm : q.FnOk m) :
    ∀ {σ : String → PyV} {F : String → (String → ℝ) → ℝ}, (∀ x, PyRel m a (κ x) (F x) (σ x)) → (s = fun x => F x a) →
      ∃ (σ' : String → PyV) (F' : String → (String → ℝ) → ℝ), q.Run σ σ' ∧ (∀ x, PyRel m a (κ' x) (F' x) (σ' x)) ∧
        (s' = fun x => F' x a) ∧ ∀ᶠ y in 𝓝 a, q.Exec κ (fun x => F x y) κ' fun x => F' x y := by
  induction h with
  | skip κ s => exact fun hσ hs => ⟨_, _, .skip _, hσ, hs, Eventually.of_forall fun _ => .skip _ _⟩
  | assign κ s x e hd =>
    intro σ F hσ hs
    subst hs
    obtain ⟨r, hr, gr⟩ := PyExpr.eval_rel hσ e hm hd
    refine ⟨_, Function.update F x fun y => e.sem fun s => F s y, .assign _ _ _ _ hr, pyRel_update hσ gr,
      (apply_update F x (fun y => e.sem fun s => F s y) a).symm, ?_⟩
    filter_upwards [PyExpr.dom_near hσ e hm hd] with y hy
    rw [apply_update]
    exact .assign _ _ _ _ hy
  | seq κ s κ' s' κ'' s'' p q _ _ ih1 ih2 =>
    intro σ F hσ hs
    obtain ⟨σ1, F1, r1, g1, e1, n1⟩ := ih1 hm.1 hσ hs
    obtain ⟨σ2, F2, r2, g2, e2, n2⟩ := ih2 hm.2 g1 e1
    refine ⟨σ2, F2, .seq _ _ _ _ _ r1 r2, g2, e2, ?_⟩
    filter_upwards [n1, n2] with y a b
    exact .seq _ _ _ _ _ _ _ _ a b
  | iteT κ s κ' s' c e1 e2 p q d1 d2 o d _ ih =>
    intro σ F hσ hs
    subst hs
    obtain ⟨r1, h1, g1⟩ := PyExpr.eval_rel hσ e1 hm.1 d1
    obtain ⟨r2, h2, g2⟩ := PyExpr.eval_rel hσ e2 hm.2.1 d2
    obtain ⟨⟨b, hb, hbi⟩, hn⟩ := Cmp.py_rel c g1 g2 o
    obtain rfl : b = true := hbi.2 d
    obtain ⟨σ1, F1, ru, gu, eu, nu⟩ := ih hm.2.2.1 hσ rfl
    refine ⟨σ1, F1, .iteT _ _ _ _ _ _ _ _ _ h1 h2 hb ru, gu, eu, ?_⟩
    filter_upwards [nu, PyExpr.dom_near hσ e1 hm.1 d1, PyExpr.dom_near hσ e2 hm.2.1 d2, hn] with y hy a1 a2 a3
    exact .iteT _ _ _ _ _ _ _ _ _ a1 a2 a3.1 (a3.2.2 d) hy
  | iteF κ s κ' s' c e1 e2 p q d1 d2 o d _ ih =>
    intro σ F hσ hs
    subst hs
    obtain ⟨r1, h1, g1⟩ := PyExpr.eval_rel hσ e1 hm.1 d1
    obtain ⟨r2, h2, g2⟩ := PyExpr.eval_rel hσ e2 hm.2.1 d2
    obtain ⟨⟨b, hb, hbi⟩, hn⟩ := Cmp.py_rel c g1 g2 o
    obtain rfl : b = false := Bool.eq_false_iff.2 fun hh => d (hbi.1 hh)
    obtain ⟨σ1, F1, ru, gu, eu, nu⟩ := ih hm.2.2.2 hσ rfl
    refine ⟨σ1, F1, .iteF _ _ _ _ _ _ _ _ _ h1 h2 hb ru, gu, eu, ?_⟩
    filter_upwards [nu, PyExpr.dom_near hσ e1 hm.1 d1, PyExpr.dom_near hσ e2 hm.2.1 d2, hn] with y hy a1 a2 a3
    exact .iteF _ _ _ _ _ _ _ _ _ a1 a2 a3.1 (fun hh => d (a3.2.1 hh)) hy
  | loopT κ s κ' s' κ'' s'' c e1 e2 p d1 d2 o d _ _ ih1 ih2 =>
    intro σ F hσ hs
    subst hs
    obtain ⟨r1, h1, g1⟩ := PyExpr.eval_rel hσ e1 hm.1 d1
    obtain ⟨r2, h2, g2⟩ := PyExpr.eval_rel hσ e2 hm.2.1 d2
    obtain ⟨⟨b, hb, hbi⟩, hn⟩ := Cmp.py_rel c g1 g2 o
    obtain rfl : b = true := hbi.2 d
    obtain ⟨σ1, F1, ru, gu, eu, nu⟩ := ih1 hm.2.2 hσ rfl
    obtain ⟨σ2, F2, ru', gu', eu', nu'⟩ := ih2 hm gu eu
    refine ⟨σ2, F2, .loopT _ _ _ _ _ _ _ _ _ h1 h2 hb ru ru', gu', eu', ?_⟩
    filter_upwards [nu, nu', PyExpr.dom_near hσ e1 hm.1 d1, PyExpr.dom_near hσ e2 hm.2.1 d2, hn] with y hy hy' a1 a2 a3
    exact .loopT _ _ _ _ _ _ _ _ _ _ a1 a2 a3.1 (a3.2.2 d) hy hy'
  | loopF κ s c e1 e2 p d1 d2 o d =>
    intro σ F hσ hs
    subst hs
    obtain ⟨r1, h1, g1⟩ := PyExpr.eval_rel hσ e1 hm.1 d1
    obtain ⟨r2, h2, g2⟩ := PyExpr.eval_rel hσ e2 hm.2.1 d2
    obtain ⟨⟨b, hb, hbi⟩, hn⟩ := Cmp.py_rel c g1 g2 o
    obtain rfl : b = false := Bool.eq_false_iff.2 fun hh => d (hbi.1 hh)
    refine ⟨σ, F, .loopF _ _ _ _ _ _ _ h1 h2 hb, hσ, rfl, ?_⟩
    filter_upwards [PyExpr.dom_near hσ e1 hm.1 d1, PyExpr.dom_near hσ e2 hm.2.1 d2, hn] with y a1 a2 a3
    exact .loopF _ _ _ _ _ _ a1 a2 a3.1 fun hh => d (a3.2.1 hh)

/-- The same program run on numbers. -/
theorem Exec.numbers {q : PyProg} {κ κ' : String → Bool} {s s' : String → ℝ} (h : q.Exec κ s κ' s') (hm : q.FnOk m) :
    q.Run (fun x => .num (s x)) fun x => .num (s' x) := by
  have ev : ∀ {κ : String → Bool} {s : String → ℝ} (e : PyExpr), e.FnOk m → e.Dom κ s → e.eval (fun x => .num (s x)) = .ok (.num (e.sem s)) := by
    intro κ s e hm hd
    obtain ⟨r, hr, g⟩ := PyExpr.eval_rel (m := m) (a := s) (κ := fun _ => false) (F := fun x _ => s x) (σ := fun x => .num (s x))
      (fun x => ⟨s x, rfl, fun _ => rfl⟩) e hm (PyExpr.dom_numbers _ (fun _ => rfl) e hd)
    have hu : e.Uses (fun _ => false) = false := by
      clear hm hd hr g
      induction e with
      | var s => rfl
      | const c => rfl
      | bin op e1 e2 ih1 ih2 => simp [PyExpr.Uses, ih1, ih2]
      | fn f e ih => exact ih
      | pow e1 e2 ih1 ih2 => simp [PyExpr.Uses, ih1, ih2]
    rw [hu] at g
    rw [hr, g.num.1]
  induction h with
  | skip κ s => exact .skip _
  | assign κ s x e hd =>
    have : (fun y => PyV.num (Function.update s x (e.sem s) y)) = Function.update (fun y => PyV.num (s y)) x (.num (e.sem s)) := by
      funext y
      by_cases h : y = x
      · subst h; simp
      · simp [Function.update_of_ne h]
    rw [this]
    exact .assign _ _ _ _ (ev e hm hd)
  | seq κ s κ' s' κ'' s'' p q _ _ ih1 ih2 => exact .seq _ _ _ _ _ (ih1 hm.1) (ih2 hm.2)
  | iteT κ s κ' s' c e1 e2 p q d1 d2 o d _ ih =>
    obtain ⟨b, hb, hbi⟩ := Cmp.py_num c (e1.sem s) (e2.sem s)
    obtain rfl : b = true := hbi.2 d
    exact .iteT _ _ _ _ _ _ _ _ _ (ev e1 hm.1 d1) (ev e2 hm.2.1 d2) hb (ih hm.2.2.1)
  | iteF κ s κ' s' c e1 e2 p q d1 d2 o d _ ih =>
    obtain ⟨b, hb, hbi⟩ := Cmp.py_num c (e1.sem s) (e2.sem s)
    obtain rfl : b = false := Bool.eq_false_iff.2 fun hh => d (hbi.1 hh)
    exact .iteF _ _ _ _ _ _ _ _ _ (ev e1 hm.1 d1) (ev e2 hm.2.1 d2) hb (ih hm.2.2.2)
  | loopT κ s κ' s' κ'' s'' c e1 e2 p d1 d2 o d _ _ ih1 ih2 =>
    obtain ⟨b, hb, hbi⟩ := Cmp.py_num c (e1.sem s) (e2.sem s)
    obtain rfl : b = true := hbi.2 d
    exact .loopT _ _ _ _ _ _ _ _ _ (ev e1 hm.1 d1) (ev e2 hm.2.1 d2) hb (ih1 hm.2.2) (ih2 hm)
  | loopF κ s c e1 e2 p d1 d2 o d =>
    obtain ⟨b, hb, hbi⟩ := Cmp.py_num c (e1.sem s) (e2.sem s)
    obtain rfl : b = false := Bool.eq_false_iff.2 fun hh => d (hbi.1 hh)
    exact .loopF _ _ _ _ _ _ _ (ev e1 hm.1 d1) (ev e2 hm.2.1 d2) hb

end PyProg
end Audi
