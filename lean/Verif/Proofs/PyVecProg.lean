import Verif.Proofs.PyProg
import Verif.Props.C113_PythonVectorized

/-! Running Python programs on numbers and objects of type `gdual_vdouble`. -/

namespace Audi

open MvPolynomial Spec GDual Topology
open Filter hiding bind

variable {n : ℕ} [NeZero n] {m : ℕ} {a : Fin n → String → ℝ} {κ : String → Bool} {F : String → Fin n → (String → ℝ) → ℝ} {σ : String → PyW n}

/-- The value is the number `G`, constant and the same in all components, or (`k`) a gdual with the Taylor expansions of `G`. -/
def PyRelW (m : ℕ) (a : Fin n → String → ℝ) (k : Bool) (G : Fin n → (String → ℝ) → ℝ) (r : PyW n) : Prop :=
  if k then ∃ d, r = .gv d ∧ Good m a G d else ∃ c, r = .base (.num c) ∧ ∀ i z, G i z = c

theorem PyRelW.cont {k : Bool} {G : Fin n → (String → ℝ) → ℝ} {r : PyW n} (h : PyRelW m a k G r) (i : Fin n) : ContinuousAt (G i) (a i) := by
  cases k with
  | false =>
    obtain ⟨c, -, hc⟩ := h
    have : G i = fun _ => c := funext (hc i)
    rw [this]; exact continuousAt_const
  | true =>
    obtain ⟨d, -, h⟩ := h
    exact (h.taylor i).cont

theorem Fn.liftPyW {f : Fn} (hm : f.MaxOrder m) {d : GDual (VecN n ℝ)} {G : Fin n → (String → ℝ) → ℝ} (hd : Good m a G d) (h : ∀ i, f.Dom (G i (a i))) :
    ∃ r, f.run d = .ok r ∧ Good m a (fun i z => f.real (G i z)) r :=
  Good.fn (f := f.run) (g := fun _ => f.real) (dom := fun _ => f.Dom)
    (fun d hdv hle hdom => by
      obtain ⟨r, e1, e2, -⟩ := Fn.lift (ι := Fin n) f hdv (Fn.maxOrder_mono hm hle) hdom
      exact ⟨r, e1, e2⟩) hd h

theorem Good.powGW {d1 d2 : GDual (VecN n ℝ)} {G1 G2 : Fin n → (String → ℝ) → ℝ} (h1 : Good m a G1 d1) (h2 : Good m a G2 d2)
    (h : ∀ i, 0 < G1 i (a i)) : ∃ r, d1.powG d2 = .ok r ∧ Good m a (fun i z => G1 i z ^ G2 i z) r := by
  obtain ⟨l, hl', gl⟩ := Good.fn (f := GDual.log) (g := fun _ => Real.log) (dom := fun _ x => 0 < x)
    (fun d hdv _ hdom => by
      obtain ⟨r, e1, e2⟩ := computes_log.lift (ι := Fin n) d hdv hdom
      exact ⟨r, e1, e2.w⟩) h1 h
  obtain ⟨r, hr, gr⟩ := Good.fn (f := GDual.exp) (g := fun _ => Real.exp) (dom := fun _ _ => True)
    (fun d hdv _ hdom => by
      obtain ⟨r, e1, e2⟩ := computes_exp.lift (ι := Fin n) d hdv hdom
      exact ⟨r, e1, e2.w⟩) (h2.mul gl) fun i => trivial
  refine ⟨r, ?_, ⟨gr.valid, gr.le, gr.order, fun i => (gr.taylor i).congr_fun ?_⟩⟩
  · unfold GDual.powG
    rw [bind_ok hl', hr]
  · filter_upwards [(h1.taylor i).cont.eventually (lt_mem_nhds (h i))] with x hx
    change _ = G1 i x ^ G2 i x
    rw [Real.rpow_def_of_pos hx, mul_comm]

theorem someLane : Nonempty (Fin n) := ⟨⟨0, Nat.pos_of_ne_zero (NeZero.ne n)⟩⟩

/-- Evaluation of an expression. -/
theorem PyExpr.evalW_rel (hσ : ∀ s, PyRelW m a (κ s) (F s) (σ s)) :
    ∀ e : PyExpr, e.FnOk m → (∀ i, e.Dom κ (fun s => F s i (a i))) → ∃ r, e.evalW σ = .ok r ∧ PyRelW m a (e.Uses κ) (fun i z => e.sem fun s => F s i z) r := by
  obtain ⟨i0⟩ := someLane (n := n)
  intro e
  induction e with
  | var s => exact fun _ _ => ⟨_, rfl, hσ s⟩
  | const c => exact fun _ _ => ⟨_, rfl, c, rfl, fun _ _ => rfl⟩
  | bin op e1 e2 ih1 ih2 =>
    intro hl hd
    obtain ⟨r1, h1, g1⟩ := ih1 hl.1 fun i => (hd i).1
    obtain ⟨r2, h2, g2⟩ := ih2 hl.2 fun i => (hd i).2.1
    have h3 := fun i => (hd i).2.2
    cases k1 : e1.Uses κ <;> cases k2 : e2.Uses κ <;> rw [k1] at g1 <;> rw [k2] at g2 <;> simp only [Uses, k1, k2, Bool.or_true, Bool.or_false]
    · obtain ⟨c1, rfl, n1⟩ := g1
      beta_reduce at n1
      obtain ⟨c2, rfl, n2⟩ := g2
      beta_reduce at n2
      refine ⟨.base (.num (op.real c1 c2)), ?_, _, rfl, fun i z => by simp only [sem, n1 i z, n2 i z]⟩
      have h4 := h3 i0
      rw [n2] at h4
      simp only [evalW, h1, h2]
      cases op <;> simp_all [PyW.bin, PyW.method, PyV.method, PyV.numOp, Op.real, Op.Dom, bind, Except.bind, Except.map]
    · obtain ⟨c1, rfl, n1⟩ := g1
      beta_reduce at n1
      obtain ⟨d, rfl, gd⟩ := g2
      obtain ⟨r, hr, gr⟩ := Good.opL op (VecN.ofScalar c1) gd h3
      refine ⟨.gv r, ?_, r, rfl, ?_⟩
      · simp only [evalW, h1, h2, bind, Except.bind, PyW.bin, PyW.method, PyW.rmethod, hr, PyW.lift]
      · have : (fun (i : Fin n) z => sem (bin op e1 e2) fun s => F s i z) = fun i z => op.real (Lanes.lane i (VecN.ofScalar c1 : VecN n ℝ)) (e2.sem fun s => F s i z) := by
          funext i z
          simp only [sem, n1 i z, lane_scalar]
        rw [this]; exact gr
    · obtain ⟨d, rfl, gd⟩ := g1
      obtain ⟨c2, rfl, n2⟩ := g2
      beta_reduce at n2
      obtain ⟨r, hr, gr⟩ := Good.opR op (VecN.ofScalar c2) gd fun i => by have := h3 i; rw [n2] at this; rw [lane_scalar]; exact this
      refine ⟨.gv r, ?_, r, rfl, ?_⟩
      · simp only [evalW, h1, h2, bind, Except.bind, PyW.bin, PyW.method, hr, PyW.lift]
      · have : (fun (i : Fin n) z => sem (bin op e1 e2) fun s => F s i z) = fun i z => op.real (e1.sem fun s => F s i z) (Lanes.lane i (VecN.ofScalar c2 : VecN n ℝ)) := by
          funext i z
          simp only [sem, n2 i z, lane_scalar]
        rw [this]; exact gr
    · obtain ⟨d, rfl, gd⟩ := g1
      obtain ⟨d', rfl, gd'⟩ := g2
      obtain ⟨r, hr, gr⟩ := Good.op op gd gd' h3
      refine ⟨.gv r, ?_, r, rfl, gr⟩
      simp only [evalW, h1, h2, bind, Except.bind, PyW.bin, PyW.method, hr, PyW.lift]
  | fn f e ih =>
    intro hl hd
    obtain ⟨r1, h1, g1⟩ := ih hl.1 fun i => (hd i).1
    have h3 := fun i => (hd i).2
    cases k1 : e.Uses κ <;> rw [k1] at g1 h3 <;> simp only [Uses, k1]
    · obtain ⟨c, rfl, n1⟩ := g1
      beta_reduce at n1
      refine ⟨.base (.num (f.real c)), ?_, _, rfl, fun i z => by simp only [sem, n1 i z]⟩
      have h4 := h3 i0
      rw [if_neg Bool.false_ne_true, n1] at h4
      simp only [evalW, h1, bind, Except.bind, PyW.fn, PyV.fn, hl.2.1, if_true]
      rw [if_pos h4]; rfl
    · obtain ⟨d, rfl, gd⟩ := g1
      obtain ⟨r, hr, gr⟩ := Fn.liftPyW hl.2.2 gd fun i => by have := h3 i; rwa [if_pos rfl] at this
      refine ⟨.gv r, ?_, r, rfl, gr⟩
      simp only [evalW, h1, bind, Except.bind, PyW.fn, hl.2.1, if_true, hr, PyW.lift]
  | pow e1 e2 ih1 ih2 =>
    intro hl hd
    obtain ⟨r1, h1, g1⟩ := ih1 hl.1 fun i => (hd i).1
    obtain ⟨r2, h2, g2⟩ := ih2 hl.2 fun i => (hd i).2.1
    have h3 := fun i => (hd i).2.2
    cases k1 : e1.Uses κ <;> cases k2 : e2.Uses κ <;> rw [k1] at g1 h3 <;> rw [k2] at g2 h3 <;> simp only [Uses, k1, k2, Bool.or_true, Bool.or_false]
    · obtain ⟨c1, rfl, n1⟩ := g1
      beta_reduce at n1
      obtain ⟨c2, rfl, n2⟩ := g2
      beta_reduce at n2
      refine ⟨.base (.num (c1 ^ c2)), ?_, _, rfl, fun i z => by simp only [sem, n1 i z, n2 i z]⟩
      have h4 := h3 i0
      rw [n1, n2] at h4
      simp only [evalW, h1, h2, bind, Except.bind, PyW.pow, PyV.pow, PyV.powMethod, numPow_ok h4, Except.map]
    · obtain ⟨c1, rfl, n1⟩ := g1
      beta_reduce at n1
      obtain ⟨d, rfl, gd⟩ := g2
      obtain ⟨q, hq, hq0⟩ := h3 i0
      rw [n1] at hq
      obtain ⟨r, hr, gr⟩ := Fn.liftPyW (f := .powBase q) trivial gd fun _ => hq0
      replace hr : d.powBase q = .ok r := hr
      refine ⟨.gv r, ?_, r, rfl, ?_⟩
      · simp only [evalW, h1, h2, bind, Except.bind, PyW.pow, hq, toRat_cast, hr, PyW.lift]
      · have : (fun (i : Fin n) z => sem (pow e1 e2) fun s => F s i z) = fun i z => (Fn.powBase q).real (e2.sem fun s => F s i z) := by
          funext i z
          simp only [sem, n1 i z, hq]
          rfl
        rw [this]; exact gr
    · obtain ⟨d, rfl, gd⟩ := g1
      obtain ⟨c2, rfl, n2⟩ := g2
      beta_reduce at n2
      obtain ⟨q, hq, -⟩ := h3 i0
      rw [n2] at hq
      obtain ⟨r, hr, gr⟩ := Fn.liftPyW (f := .powQ q) trivial gd fun i => by
        obtain ⟨q', hq', h⟩ := h3 i
        rw [n2, hq] at hq'
        have : q' = q := (Rat.cast_injective hq').symm
        subst this
        exact h
      replace hr : d.powQ q = .ok r := hr
      refine ⟨.gv r, ?_, r, rfl, ?_⟩
      · simp only [evalW, h1, h2, bind, Except.bind, PyW.pow, hq, toRat_cast, hr, PyW.lift]
      · have : (fun (i : Fin n) z => sem (pow e1 e2) fun s => F s i z) = fun i z => (Fn.powQ q).real (e1.sem fun s => F s i z) := by
          funext i z
          simp only [sem, n2 i z, hq]
          rfl
        rw [this]; exact gr
    · obtain ⟨d, rfl, gd⟩ := g1
      obtain ⟨d', rfl, gd'⟩ := g2
      obtain ⟨r, hr, gr⟩ := Good.powGW gd gd' h3
      refine ⟨.gv r, ?_, r, rfl, gr⟩
      simp only [evalW, h1, h2, bind, Except.bind, PyW.pow, hr, PyW.lift]

/-- The domain is a neighbourhood, in each component. -/
theorem PyExpr.domW_near (hσ : ∀ s, PyRelW m a (κ s) (F s) (σ s)) (i : Fin n) :
    ∀ e : PyExpr, e.FnOk m → (∀ i, e.Dom κ (fun s => F s i (a i))) → ∀ᶠ y in 𝓝 (a i), e.Dom κ fun s => F s i y := by
  intro e
  induction e with
  | var s => exact fun _ _ => Eventually.of_forall fun _ => trivial
  | const c => exact fun _ _ => Eventually.of_forall fun _ => trivial
  | bin op e1 e2 ih1 ih2 =>
    intro hl hd
    obtain ⟨r2, -, g2⟩ := evalW_rel hσ e2 hl.2 fun i => (hd i).2.1
    filter_upwards [ih1 hl.1 fun i => (hd i).1, ih2 hl.2 fun i => (hd i).2.1, (g2.cont i).eventually (op.isOpen_dom.mem_nhds (hd i).2.2)] with y a b c
    exact ⟨a, b, c⟩
  | fn f e ih =>
    intro hl hd
    obtain ⟨r, -, g⟩ := evalW_rel hσ e hl.1 fun i => (hd i).1
    have h3 := (hd i).2
    cases k : e.Uses κ <;> rw [k] at g h3
    · obtain ⟨c, -, nc⟩ := g
      beta_reduce at nc
      filter_upwards [ih hl.1 fun i => (hd i).1] with y b
      refine ⟨b, ?_⟩
      simp only [k]
      rw [nc] at h3 ⊢
      exact h3
    · filter_upwards [ih hl.1 fun i => (hd i).1, (g.cont i).eventually (f.isOpen_dom.mem_nhds h3)] with y b c
      refine ⟨b, ?_⟩
      simp only [k]
      exact c
  | pow e1 e2 ih1 ih2 =>
    intro hl hd
    obtain ⟨r1, -, g1⟩ := evalW_rel hσ e1 hl.1 fun i => (hd i).1
    obtain ⟨r2, -, g2⟩ := evalW_rel hσ e2 hl.2 fun i => (hd i).2.1
    have h3 := (hd i).2.2
    suffices ∀ᶠ y in 𝓝 (a i), PyExpr.PowDom (e1.Uses κ) (e2.Uses κ) (e1.sem fun s => F s i y) (e2.sem fun s => F s i y) by
      filter_upwards [ih1 hl.1 fun i => (hd i).1, ih2 hl.2 fun i => (hd i).2.1, this] with y a b c
      exact ⟨a, b, c⟩
    cases k1 : e1.Uses κ <;> cases k2 : e2.Uses κ <;> rw [k1] at g1 h3 <;> rw [k2] at g2 h3
    · obtain ⟨c1, -, n1⟩ := g1
      beta_reduce at n1
      obtain ⟨c2, -, n2⟩ := g2
      beta_reduce at n2
      refine Eventually.of_forall fun y => ?_
      rw [n1, n2] at h3 ⊢
      exact h3
    · obtain ⟨c1, -, n1⟩ := g1
      beta_reduce at n1
      refine Eventually.of_forall fun y => ?_
      rw [n1] at h3 ⊢
      exact h3
    · obtain ⟨c2, -, n2⟩ := g2
      beta_reduce at n2
      obtain ⟨q, hq, hq0⟩ := h3
      filter_upwards [(g1.cont i).eventually ((Fn.powQ q).isOpen_dom.mem_nhds hq0)] with y hy
      exact ⟨q, by rw [← hq, n2, n2], hy⟩
    · exact (g1.cont i).eventually (isOpen_Ioi.mem_nhds h3)

/-- The constant coefficient holds the values. -/
theorem Good.valueW {G : Fin n → (String → ℝ) → ℝ} {d : GDual (VecN n ℝ)} (h : Good m a G d) : ∃ y, d.constantCf = .ok y ∧ ∀ i, VecN.laneOf i y = G i (a i) := by
  obtain ⟨y, hy⟩ := constantCf_isOk d
  refine ⟨y, hy, fun i => ?_⟩
  rw [(h.taylor i).val]
  exact lane_constantCf (ι := Fin n) (K := ℝ) h.valid hy i

/-- The comparison decides as the comparisons of the values, if these agree. -/
theorem Cmp.pyW_rel (c : Cmp) {k1 k2 : Bool} {G1 G2 : Fin n → (String → ℝ) → ℝ} {r1 r2 : PyW n} (h1 : PyRelW m a k1 G1 r1) (h2 : PyRelW m a k2 G2 r2)
    (ho : ∀ i, c.Ok k1 k2 (G1 i (a i)) (G2 i (a i))) :
    ((∀ i, c.real (G1 i (a i)) (G2 i (a i))) → c.pyW r1 r2 = .ok true) ∧ ((∀ i, ¬ c.real (G1 i (a i)) (G2 i (a i))) → c.pyW r1 r2 = .ok false) ∧
      ∀ i, ∀ᶠ y in 𝓝 (a i), c.Ok k1 k2 (G1 i y) (G2 i y) ∧ (c.real (G1 i y) (G2 i y) ↔ c.real (G1 i (a i)) (G2 i (a i))) := by
  obtain ⟨i0⟩ := someLane (n := n)
  have near : ∀ i, ∀ᶠ y in 𝓝 (a i), c.Ok k1 k2 (G1 i y) (G2 i y) ∧ (c.real (G1 i y) (G2 i y) ↔ c.real (G1 i (a i)) (G2 i (a i))) := fun i => by
    rcases (ho i).2 with ⟨rfl, rfl⟩ | hne
    · obtain ⟨c1, -, n1⟩ := h1
      obtain ⟨c2, -, n2⟩ := h2
      refine Eventually.of_forall fun y => ⟨⟨.inl rfl, .inl ⟨rfl, rfl⟩⟩, ?_⟩
      rw [n1, n2, n1, n2]
    · exact (Cmp.real_near c (h1.cont i) (h2.cont i) hne).mono fun y hy => ⟨⟨(ho i).1, .inr hy.1⟩, hy.2⟩
  rw [← and_assoc]
  refine ⟨?_, near⟩
  cases k1 <;> cases k2
  · obtain ⟨c1, rfl, n1⟩ := h1
    obtain ⟨c2, rfl, n2⟩ := h2
    simp only [n1, n2]
    have e : c.pyW (.base (.num c1) : PyW n) (.base (.num c2)) = c.py (.num c1) (.num c2) := by cases c <;> rfl
    rw [e]
    obtain ⟨b, hb, hbi⟩ := Cmp.py_num c c1 c2
    rw [hb]
    refine ⟨fun h => ?_, fun h => ?_⟩
    · rw [hbi.2 (h i0)]
    · rw [Bool.eq_false_iff.2 fun hh => h i0 (hbi.1 hh)]
  · obtain ⟨c1, rfl, n1⟩ := h1
    obtain ⟨d, rfl, gd⟩ := h2
    obtain ⟨rfl⟩ : c = .eq := (ho i0).1.resolve_left (by simp)
    exact ⟨fun h => absurd (h i0) ((ho i0).2.resolve_left (by simp)), fun _ => rfl⟩
  · obtain ⟨d, rfl, gd⟩ := h1
    obtain ⟨c2, rfl, n2⟩ := h2
    obtain ⟨rfl⟩ : c = .eq := (ho i0).1.resolve_left (by simp)
    exact ⟨fun h => absurd (h i0) ((ho i0).2.resolve_left (by simp)), fun _ => rfl⟩
  · obtain ⟨d, rfl, gd⟩ := h1
    obtain ⟨d', rfl, gd'⟩ := h2
    have hne : ∀ i, G1 i (a i) ≠ G2 i (a i) := fun i => (ho i).2.resolve_left (by simp)
    obtain ⟨y1, hy1, v1⟩ := gd.valueW
    obtain ⟨y2, hy2, v2⟩ := gd'.valueW
    cases c with
    | lt =>
      have hlt : PyW.lt (.gv d) (.gv d') = .ok (Vec.lt y1.1 y2.1) := by
        show (d.lt d').mapError _ = _
        unfold GDual.lt
        rw [hy1, hy2]; rfl
      change (_ → PyW.lt (.gv d) (.gv d') = _) ∧ (_ → PyW.lt (.gv d) (.gv d') = _)
      rw [hlt]
      exact ⟨fun h => by rw [vec_lt_uniform.1 fun i => by rw [v1, v2]; exact h i], fun h => by rw [vec_lt_uniform.2 fun i => by rw [v1, v2]; exact h i]⟩
    | gt =>
      have hgt : PyW.gt (.gv d) (.gv d') = .ok (Vec.lt y2.1 y1.1) := by
        show (d.gt d').mapError _ = _
        unfold GDual.gt
        rw [hy1, hy2, C36_lt_gt]; rfl
      change (_ → PyW.gt (.gv d) (.gv d') = _) ∧ (_ → PyW.gt (.gv d) (.gv d') = _)
      rw [hgt]
      exact ⟨fun h => by rw [vec_lt_uniform.1 fun i => by rw [v1, v2]; exact h i], fun h => by rw [vec_lt_uniform.2 fun i => by rw [v1, v2]; exact h i]⟩
    | eq =>
      refine ⟨fun h => absurd (h i0) (hne i0), fun _ => ?_⟩
      have : d.eq d' = false := by
        rw [Bool.eq_false_iff]
        intro h
        have := (Poly.eq_iff (ι := Fin n) (K := ℝ) gd.valid.wf gd'.valid.wf).1 h i0
        apply hne i0
        rw [(gd.taylor i0).val, (gd'.taylor i0).val]
        exact congrArg (coeff 0) this
      exact congrArg Except.ok this

theorem pyRelW_update (hσ : ∀ s, PyRelW m a (κ s) (F s) (σ s)) {x : String} {k : Bool} {r : PyW n} {G : Fin n → (String → ℝ) → ℝ} (hr : PyRelW m a k G r) (s : String) :
    PyRelW m a (Function.update κ x k s) (Function.update F x G s) (Function.update σ x r s) := by
  by_cases h : s = x
  · subst h; simp only [Function.update_self]; exact hr
  · simp only [Function.update_of_ne h]; exact hσ s

omit [NeZero n] in
theorem apply_updateW (F : String → Fin n → (String → ℝ) → ℝ) (x : String) (G : Fin n → (String → ℝ) → ℝ) (i : Fin n) (y : String → ℝ) :
    (fun s => Function.update F x G s i y) = Function.update (fun s => F s i y) x (G i y) := by
  funext s
  by_cases h : s = x
  · subst h; simp
  · rw [Function.update_of_ne h, Function.update_of_ne h]

namespace PyProg

/-- Running is deterministic. -/
theorem RunW.unique {q : PyProg} {σ s t : String → PyW n} (h1 : RunW q σ s) (h2 : RunW q σ t) : s = t := by
  induction h1 generalizing t with
  | skip => cases h2; rfl
  | assign σ x e r h =>
    cases h2 with
    | assign _ _ _ r' h' => rw [h] at h'; injection h' with h'; rw [h']
  | seq σ σ' σ'' p q _ _ ih1 ih2 =>
    cases h2 with
    | seq _ τ _ _ _ a b => obtain rfl := ih1 a; exact ih2 b
  | iteT σ σ' c e1 e2 p q r1 r2 a b d _ ih =>
    cases h2 with
    | iteT _ _ _ _ _ _ _ r1' r2' a' b' d' h => exact ih h
    | iteF _ _ _ _ _ _ _ r1' r2' a' b' d' h =>
      rw [a] at a'; rw [b] at b'; injection a' with a'; injection b' with b'; subst a' b'
      rw [d] at d'; cases d'
  | iteF σ σ' c e1 e2 p q r1 r2 a b d _ ih =>
    cases h2 with
    | iteF _ _ _ _ _ _ _ r1' r2' a' b' d' h => exact ih h
    | iteT _ _ _ _ _ _ _ r1' r2' a' b' d' h =>
      rw [a] at a'; rw [b] at b'; injection a' with a'; injection b' with b'; subst a' b'
      rw [d] at d'; cases d'
  | loopT σ σ' σ'' c e1 e2 p r1 r2 a b d _ _ ih1 ih2 =>
    cases h2 with
    | loopT _ _ _ _ _ _ _ r1' r2' a' b' d' h h' => obtain rfl := ih1 h; exact ih2 h'
    | loopF _ _ _ _ _ r1' r2' a' b' d' =>
      rw [a] at a'; rw [b] at b'; injection a' with a'; injection b' with b'; subst a' b'
      rw [d] at d'; cases d'
  | loopF σ c e1 e2 p r1 r2 a b d =>
    cases h2 with
    | loopT _ _ _ _ _ _ _ r1' r2' a' b' d' h h' =>
      rw [a] at a'; rw [b] at b'; injection a' with a'; injection b' with b'; subst a' b'
      rw [d] at d'; cases d'
    | loopF => rfl

/-- Programs whose executions on the values take the same branches in all components run along this path. -/
theorem runW_rel {q : PyProg} {κ κ' : String → Bool} {s s' : Fin n → String → ℝ} (h : q.ExecW κ s κ' s') (hm : q.FnOk m) :
    ∀ {σ : String → PyW n} {F : String → Fin n → (String → ℝ) → ℝ}, (∀ x, PyRelW m a (κ x) (F x) (σ x)) → (s = fun i x => F x i (a i)) →
      ∃ (σ' : String → PyW n) (F' : String → Fin n → (String → ℝ) → ℝ), q.RunW σ σ' ∧ (∀ x, PyRelW m a (κ' x) (F' x) (σ' x)) ∧
        (s' = fun i x => F' x i (a i)) ∧ ∀ i, ∀ᶠ y in 𝓝 (a i), q.Exec κ (fun x => F x i y) κ' fun x => F' x i y := by
  induction h with
  | skip κ s => exact fun hσ hs => ⟨_, _, .skip _, hσ, hs, fun _ => Eventually.of_forall fun _ => .skip _ _⟩
  | assign κ s x e hd =>
    intro σ F hσ hs
    subst hs
    obtain ⟨r, hr, gr⟩ := PyExpr.evalW_rel hσ e hm hd
    refine ⟨_, Function.update F x fun i y => e.sem fun s => F s i y, .assign _ _ _ _ hr, pyRelW_update hσ gr,
      funext fun i => (apply_updateW F x (fun i y => e.sem fun s => F s i y) i (a i)).symm, fun i => ?_⟩
    filter_upwards [PyExpr.domW_near hσ i e hm hd] with y hy
    rw [apply_updateW]
    exact .assign _ _ _ _ hy
  | seq κ s κ' s' κ'' s'' p q _ _ ih1 ih2 =>
    intro σ F hσ hs
    obtain ⟨σ1, F1, r1, g1, e1, n1⟩ := ih1 hm.1 hσ hs
    obtain ⟨σ2, F2, r2, g2, e2, n2⟩ := ih2 hm.2 g1 e1
    refine ⟨σ2, F2, .seq _ _ _ _ _ r1 r2, g2, e2, fun i => ?_⟩
    filter_upwards [n1 i, n2 i] with y a b
    exact .seq _ _ _ _ _ _ _ _ a b
  | iteT κ s κ' s' c e1 e2 p q d1 d2 o d _ ih =>
    intro σ F hσ hs
    subst hs
    obtain ⟨r1, h1, g1⟩ := PyExpr.evalW_rel hσ e1 hm.1 d1
    obtain ⟨r2, h2, g2⟩ := PyExpr.evalW_rel hσ e2 hm.2.1 d2
    obtain ⟨hT, -, hn⟩ := Cmp.pyW_rel c g1 g2 o
    obtain ⟨σ1, F1, ru, gu, eu, nu⟩ := ih hm.2.2.1 hσ rfl
    refine ⟨σ1, F1, .iteT _ _ _ _ _ _ _ _ _ h1 h2 (hT d) ru, gu, eu, fun i => ?_⟩
    filter_upwards [nu i, PyExpr.domW_near hσ i e1 hm.1 d1, PyExpr.domW_near hσ i e2 hm.2.1 d2, hn i] with y hy a1 a2 a3
    exact .iteT _ _ _ _ _ _ _ _ _ a1 a2 a3.1 (a3.2.2 (d i)) hy
  | iteF κ s κ' s' c e1 e2 p q d1 d2 o d _ ih =>
    intro σ F hσ hs
    subst hs
    obtain ⟨r1, h1, g1⟩ := PyExpr.evalW_rel hσ e1 hm.1 d1
    obtain ⟨r2, h2, g2⟩ := PyExpr.evalW_rel hσ e2 hm.2.1 d2
    obtain ⟨-, hT, hn⟩ := Cmp.pyW_rel c g1 g2 o
    obtain ⟨σ1, F1, ru, gu, eu, nu⟩ := ih hm.2.2.2 hσ rfl
    refine ⟨σ1, F1, .iteF _ _ _ _ _ _ _ _ _ h1 h2 (hT d) ru, gu, eu, fun i => ?_⟩
    filter_upwards [nu i, PyExpr.domW_near hσ i e1 hm.1 d1, PyExpr.domW_near hσ i e2 hm.2.1 d2, hn i] with y hy a1 a2 a3
    exact .iteF _ _ _ _ _ _ _ _ _ a1 a2 a3.1 (fun hh => d i (a3.2.1 hh)) hy
  | loopT κ s κ' s' κ'' s'' c e1 e2 p d1 d2 o d _ _ ih1 ih2 =>
    intro σ F hσ hs
    subst hs
    obtain ⟨r1, h1, g1⟩ := PyExpr.evalW_rel hσ e1 hm.1 d1
    obtain ⟨r2, h2, g2⟩ := PyExpr.evalW_rel hσ e2 hm.2.1 d2
    obtain ⟨hT, -, hn⟩ := Cmp.pyW_rel c g1 g2 o
    obtain ⟨σ1, F1, ru, gu, eu, nu⟩ := ih1 hm.2.2 hσ rfl
    obtain ⟨σ2, F2, ru', gu', eu', nu'⟩ := ih2 hm gu eu
    refine ⟨σ2, F2, .loopT _ _ _ _ _ _ _ _ _ h1 h2 (hT d) ru ru', gu', eu', fun i => ?_⟩
    filter_upwards [nu i, nu' i, PyExpr.domW_near hσ i e1 hm.1 d1, PyExpr.domW_near hσ i e2 hm.2.1 d2, hn i] with y hy hy' a1 a2 a3
    exact .loopT _ _ _ _ _ _ _ _ _ _ a1 a2 a3.1 (a3.2.2 (d i)) hy hy'
  | loopF κ s c e1 e2 p d1 d2 o d =>
    intro σ F hσ hs
    subst hs
    obtain ⟨r1, h1, g1⟩ := PyExpr.evalW_rel hσ e1 hm.1 d1
    obtain ⟨r2, h2, g2⟩ := PyExpr.evalW_rel hσ e2 hm.2.1 d2
    obtain ⟨-, hT, hn⟩ := Cmp.pyW_rel c g1 g2 o
    refine ⟨σ, F, .loopF _ _ _ _ _ _ _ h1 h2 (hT d), hσ, rfl, fun i => ?_⟩
    filter_upwards [PyExpr.domW_near hσ i e1 hm.1 d1, PyExpr.domW_near hσ i e2 hm.2.1 d2, hn i] with y a1 a2 a3
    exact .loopF _ _ _ _ _ _ a1 a2 a3.1 fun hh => d i (a3.2.1 hh)

end PyProg
end Audi
