import Verif.Spec.LibProgram
import Verif.Proofs.Program
import Verif.Proofs.LibExpr

/-! Running programs with all the functions on gduals. -/

namespace Audi

open MvPolynomial Spec GDual Filter Topology

section Syms

variable {C : Type} [CfFun C] {ι : Type} [Lanes C ι ℝ] {m : ℕ} {p : ι → String → ℝ}

/-- `Good`, with symbols which are sorted and are differentials of legal names. -/
structure GoodS (m : ℕ) (p : ι → String → ℝ) (F : ι → (String → ℝ) → ℝ) (r : GDual C) : Prop extends Good m p F r where
  syms : SymsOk r

theorem GoodS.const (c : C) : GoodS m p (fun (i : ι) _ => Lanes.lane i c) (ofCf c) :=
  ⟨Good.const c, List.Pairwise.nil, fun _ hs => absurd hs List.not_mem_nil⟩

theorem GoodS.op {a b : GDual C} {F G : ι → (String → ℝ) → ℝ} (op : Op) (ha : GoodS m p F a) (hb : GoodS m p G b)
    (h0 : ∀ i, op.Dom (G i (p i))) : ∃ r, op.run a b = .ok r ∧ GoodS m p (fun i x => op.real (F i x) (G i x)) r := by
  obtain ⟨r, hr, gr⟩ := Good.op op ha.toGood hb.toGood h0
  exact ⟨r, hr, gr, ha.syms.merge hb.syms (op.run_syms hb.syms.sorted ha.syms.sorted hr)⟩

theorem GoodS.opL {a : GDual C} {F : ι → (String → ℝ) → ℝ} (op : Op) (c : C) (ha : GoodS m p F a)
    (h0 : ∀ i, op.Dom (F i (p i))) : ∃ r, op.runL c a = .ok r ∧ GoodS m p (fun i x => op.real (Lanes.lane i c) (F i x)) r := by
  obtain ⟨r, hr, gr⟩ := Good.opL op c ha.toGood h0
  exact ⟨r, hr, gr, ha.syms.of_eq (op.runL_syms ha.syms.sorted hr)⟩

theorem GoodS.opR {a : GDual C} {F : ι → (String → ℝ) → ℝ} (op : Op) (c : C) (ha : GoodS m p F a)
    (h0 : ∀ i : ι, op.Dom (Lanes.lane i c)) : ∃ r, op.runR a c = .ok r ∧ GoodS m p (fun i x => op.real (F i x) (Lanes.lane i c)) r := by
  obtain ⟨r, hr, gr⟩ := Good.opR op c ha.toGood h0
  exact ⟨r, hr, gr, ha.syms.of_eq (op.runR_syms ha.syms.sorted hr)⟩

variable [LanesFun C ι]

theorem GoodS.fn [AbsFn C] {a : GDual C} {F : ι → (String → ℝ) → ℝ} (f : LFn) (hA : f ≠ .abs ∨ AbsLaw C ι) (hm : f.MaxOrder m) (ha : GoodS m p F a)
    (h0 : ∀ i, f.Dom (F i (p i))) : ∃ r, f.run a = .ok r ∧ GoodS m p (fun i x => f.real (F i x)) r := by
  obtain ⟨r, hr, gr⟩ := Good.fnP (P := fun q : Poly C => SymsOk (⟨q, 0⟩ : GDual C)) (f := f.run) (g := fun _ => f.real) (dom := fun _ => f.Dom)
    (fun d hdv hP hle hdom => by
      obtain ⟨r, e1, e2, -⟩ := LFn.lift (ι := ι) f hA hdv hP.sorted hP.names (LFn.maxOrder_mono hm hle) hdom
      exact ⟨r, e1, e2⟩) ⟨ha.syms.sorted, ha.syms.names⟩ ha.toGood h0
  obtain ⟨r', e1, -, e3, -⟩ := LFn.lift (ι := ι) f hA ha.valid ha.syms.sorted ha.syms.names (LFn.maxOrder_mono hm ha.le) fun i => by
    rw [← (ha.taylor i).val]; exact h0 i
  obtain rfl : r = r' := by rw [hr] at e1; injection e1
  exact ⟨r, hr, gr, ha.syms.of_sub e3⟩

theorem GoodS.pow {a b : GDual C} {F G : ι → (String → ℝ) → ℝ} (ha : GoodS m p F a) (hb : GoodS m p G b)
    (h0 : ∀ i, 0 < F i (p i)) : ∃ r, a.powG b = .ok r ∧ GoodS m p (fun i x => F i x ^ G i x) r := by
  obtain ⟨l, hl', gl⟩ := Good.fn (f := GDual.log) (g := fun _ => Real.log) (dom := fun _ x => 0 < x)
    (fun d hdv _ hdom => by
      obtain ⟨r, e1, e2⟩ := computes_log.lift (ι := ι) d hdv hdom
      exact ⟨r, e1, e2.w⟩) ha.toGood h0
  obtain ⟨r, hr, gr⟩ := Good.fn (f := GDual.exp) (g := fun _ => Real.exp) (dom := fun _ _ => True)
    (fun d hdv _ hdom => by
      obtain ⟨r, e1, e2⟩ := computes_exp.lift (ι := ι) d hdv hdom
      exact ⟨r, e1, e2.w⟩) (hb.toGood.mul gl) fun i => trivial
  have hpw : a.powG b = .ok r := by
    unfold powG
    rw [bind_ok hl', hr]
  refine ⟨r, hpw, ⟨gr.valid, gr.le, gr.order, fun i => (gr.taylor i).congr_fun ?_⟩, hb.syms.merge ha.syms (powG_syms hb.syms.sorted ha.syms.sorted hpw)⟩
  filter_upwards [(ha.taylor i).cont.eventually (lt_mem_nhds (h0 i))] with x hx
  rw [Real.rpow_def_of_pos hx, mul_comm]

end Syms

theorem LFn.isOpen_dom (f : LFn) : IsOpen {x | f.Dom x} := by
  cases f with
  | base f => exact f.isOpen_dom
  | abs => exact isOpen_ne
  | atanhD => exact isOpen_Iio.preimage continuous_abs
  | asinD => exact isOpen_Iio.preimage continuous_abs
  | acosD => exact isOpen_Iio.preimage continuous_abs
  | acoshD => exact isOpen_Ioi
  | log10 => exact isOpen_Ioi
  | log2 => exact isOpen_Ioi
  | log1p => exact isOpen_Ioi
  | _ => exact isOpen_univ

section Eval

variable {C : Type} [CfFun C] [AbsFn C] {ι : Type} [Lanes C ι ℝ] [LanesFun C ι] {m : ℕ} {p : ι → String → ℝ}

/-- Evaluation of an expression in a store of Taylor expansions. -/
theorem LExpr.eval_good {σ : String → GDual C} {F : ι → String → (String → ℝ) → ℝ} (hσ : ∀ s, GoodS m p (fun i => F i s) (σ s)) :
    ∀ e : LExpr C, (e.NoAbs ∨ AbsLaw C ι) → e.FnOrder m → (∀ i : ι, e.Dom i fun s => F i s (p i)) →
      ∃ r, e.eval σ = .ok r ∧ GoodS m p (fun (i : ι) y => e.sem i fun s => F i s y) r := by
  intro e
  induction e with
  | var s => exact fun _ _ _ => ⟨_, rfl, hσ s⟩
  | const c => exact fun _ _ _ => ⟨_, rfl, GoodS.const c⟩
  | bin op e1 e2 ih1 ih2 =>
    intro hA hl hd
    obtain ⟨r1, h1, g1⟩ := ih1 (hA.imp (·.1) id) hl.1 fun i => (hd i).1
    obtain ⟨r2, h2, g2⟩ := ih2 (hA.imp (·.2) id) hl.2 fun i => (hd i).2.1
    obtain ⟨r, hr, gr⟩ := GoodS.op op g1 g2 fun i => (hd i).2.2
    refine ⟨r, ?_, gr⟩
    change (do op.run (← e1.eval σ) (← e2.eval σ)) = _
    rw [bind2_ok h1 h2, hr]
  | left op c e ih =>
    intro hA hl hd
    obtain ⟨r1, h1, g1⟩ := ih hA hl fun i => (hd i).1
    obtain ⟨r, hr, gr⟩ := GoodS.opL op c g1 fun i => (hd i).2
    refine ⟨r, ?_, gr⟩
    change (e.eval σ >>= fun d => op.runL c d) = _
    rw [bind_ok h1, hr]
  | right op e c ih =>
    intro hA hl hd
    obtain ⟨r1, h1, g1⟩ := ih hA hl fun i => (hd i).1
    obtain ⟨r, hr, gr⟩ := GoodS.opR op c g1 fun i => (hd i).2
    refine ⟨r, ?_, gr⟩
    change (e.eval σ >>= fun d => op.runR d c) = _
    rw [bind_ok h1, hr]
  | fn f e ih =>
    intro hA hl hd
    obtain ⟨r1, h1, g1⟩ := ih (hA.imp (·.1) id) hl.1 fun i => (hd i).1
    obtain ⟨r, hr, gr⟩ := GoodS.fn f (hA.imp (·.2) id) hl.2 g1 fun i => (hd i).2
    refine ⟨r, ?_, gr⟩
    change (e.eval σ >>= fun d => f.run d) = _
    rw [bind_ok h1, hr]
  | pow e1 e2 ih1 ih2 =>
    intro hA hl hd
    obtain ⟨r1, h1, g1⟩ := ih1 (hA.imp (·.1) id) hl.1 fun i => (hd i).1
    obtain ⟨r2, h2, g2⟩ := ih2 (hA.imp (·.2) id) hl.2 fun i => (hd i).2.1
    obtain ⟨r, hr, gr⟩ := GoodS.pow g1 g2 fun i => (hd i).2.2
    refine ⟨r, ?_, gr⟩
    change (do GDual.powG (← e1.eval σ) (← e2.eval σ)) = _
    rw [bind2_ok h1 h2, hr]

/-- The domain is a neighbourhood. -/
theorem LExpr.dom_near {σ : String → GDual C} {F : ι → String → (String → ℝ) → ℝ} (hσ : ∀ s, GoodS m p (fun i => F i s) (σ s)) :
    ∀ e : LExpr C, (e.NoAbs ∨ AbsLaw C ι) → e.FnOrder m → (∀ i : ι, e.Dom i fun s => F i s (p i)) →
      ∀ i : ι, ∀ᶠ y in 𝓝 (p i), e.Dom i fun s => F i s y := by
  have cont : ∀ e : LExpr C, (e.NoAbs ∨ AbsLaw C ι) → e.FnOrder m → (∀ i : ι, e.Dom i fun s => F i s (p i)) → ∀ i : ι,
      ContinuousAt (fun y => e.sem i fun s => F i s y) (p i) := fun e hA h1 h2 i => by
    obtain ⟨r, -, hr⟩ := LExpr.eval_good hσ e hA h1 h2
    exact (hr.taylor i).cont
  intro e
  induction e with
  | var s => exact fun _ _ _ _ => Eventually.of_forall fun _ => trivial
  | const c => exact fun _ _ _ _ => Eventually.of_forall fun _ => trivial
  | bin op e1 e2 ih1 ih2 =>
    intro hA hl hd i
    have h3 := (cont e2 (hA.imp (·.2) id) hl.2 (fun i => (hd i).2.1) i).eventually (op.isOpen_dom.mem_nhds (hd i).2.2)
    filter_upwards [ih1 (hA.imp (·.1) id) hl.1 (fun i => (hd i).1) i, ih2 (hA.imp (·.2) id) hl.2 (fun i => (hd i).2.1) i, h3] with y a b c
    exact ⟨a, b, c⟩
  | left op c e ih =>
    intro hA hl hd i
    have h3 := (cont e hA hl (fun i => (hd i).1) i).eventually (op.isOpen_dom.mem_nhds (hd i).2)
    filter_upwards [ih hA hl (fun i => (hd i).1) i, h3] with y a c
    exact ⟨a, c⟩
  | right op e c ih =>
    intro hA hl hd i
    filter_upwards [ih hA hl (fun i => (hd i).1) i] with y a
    exact ⟨a, (hd i).2⟩
  | fn f e ih =>
    intro hA hl hd i
    have h3 := (cont e (hA.imp (·.1) id) hl.1 (fun i => (hd i).1) i).eventually (f.isOpen_dom.mem_nhds (hd i).2)
    filter_upwards [ih (hA.imp (·.1) id) hl.1 (fun i => (hd i).1) i, h3] with y a c
    exact ⟨a, c⟩
  | pow e1 e2 ih1 ih2 =>
    intro hA hl hd i
    have h3 := (cont e1 (hA.imp (·.1) id) hl.1 (fun i => (hd i).1) i).eventually (isOpen_Ioi.mem_nhds (hd i).2.2)
    filter_upwards [ih1 (hA.imp (·.1) id) hl.1 (fun i => (hd i).1) i, ih2 (hA.imp (·.2) id) hl.2 (fun i => (hd i).2.1) i, h3] with y a b c
    exact ⟨a, b, c⟩

end Eval

namespace LProg

variable {C : Type} [CfFun C] [AbsFn C] [CfOrd C]

set_option linter.overlappingInstances false in
/-- Running is deterministic. -/
theorem Run.unique {q : LProg C} {σ s t : String → GDual C} (h1 : Run q σ s) (h2 : Run q σ t) : s = t := by
  induction h1 generalizing t with
  | skip => cases h2; rfl
  | assign σ x e r h =>
    cases h2 with
    | assign _ _ _ r' h' => rw [h] at h'; injection h' with h'; rw [h']
  | opAssign σ op x e d r h h0 =>
    cases h2 with
    | opAssign _ _ _ _ d' r' h' h0' =>
      rw [h] at h'; injection h' with h'; subst h'
      rw [h0] at h0'; injection h0' with h0'; rw [h0']
  | seq σ σ' σ'' p q _ _ ih1 ih2 =>
    cases h2 with
    | seq _ τ _ _ _ a b => obtain rfl := ih1 a; exact ih2 b
  | iteT σ σ' c e1 e2 p q r1 r2 a b d _ ih =>
    cases h2 with
    | iteT _ _ _ _ _ _ _ r1' r2' a' b' d' h => exact ih h
    | iteF _ _ _ _ _ _ _ r1' r2' a' b' d' h =>
      rw [a] at a'; rw [b] at b'; injection a' with a'; injection b' with b'; subst a' b'
      rw [d] at d'; cases d'
  | iteF σ σ' c e1 e2 p q r1 r2 a b d _ ih =>
    cases h2 with
    | iteF _ _ _ _ _ _ _ r1' r2' a' b' d' h => exact ih h
    | iteT _ _ _ _ _ _ _ r1' r2' a' b' d' h =>
      rw [a] at a'; rw [b] at b'; injection a' with a'; injection b' with b'; subst a' b'
      rw [d] at d'; cases d'
  | loopT σ σ' σ'' c e1 e2 p r1 r2 a b d _ _ ih1 ih2 =>
    cases h2 with
    | loopT _ _ _ _ _ _ _ r1' r2' a' b' d' h h' => obtain rfl := ih1 h; exact ih2 h'
    | loopF _ _ _ _ _ r1' r2' a' b' d' =>
      rw [a] at a'; rw [b] at b'; injection a' with a'; injection b' with b'; subst a' b'
      rw [d] at d'; cases d'
  | loopF σ c e1 e2 p r1 r2 a b d =>
    cases h2 with
    | loopT _ _ _ _ _ _ _ r1' r2' a' b' d' h h' =>
      rw [a] at a'; rw [b] at b'; injection a' with a'; injection b' with b'; subst a' b'
      rw [d] at d'; cases d'
    | loopF => rfl

omit [AbsFn C] [CfOrd C] in
theorem Exec.mono {ι : Type} [Lanes C ι ℝ] {i : ι} {ok ok' : ℝ → ℝ → Prop} (hok : ∀ x y, ok x y → ok' x y) {q : LProg C} {s t : String → ℝ}
    (h : Exec i ok q s t) : Exec i ok' q s t := by
  induction h with
  | skip => exact .skip _
  | assign s x e h => exact .assign _ _ _ h
  | opAssign s op x e h h' => exact .opAssign _ _ _ _ h h'
  | seq s s' s'' p q _ _ ih1 ih2 => exact .seq _ _ _ _ _ ih1 ih2
  | iteT s s' c e1 e2 p q a b o d _ ih => exact .iteT _ _ _ _ _ _ _ a b (hok _ _ o) d ih
  | iteF s s' c e1 e2 p q a b o d _ ih => exact .iteF _ _ _ _ _ _ _ a b (hok _ _ o) d ih
  | loopT s s' s'' c e1 e2 p a b o d _ _ ih1 ih2 => exact .loopT _ _ _ _ _ _ _ a b (hok _ _ o) d ih1 ih2
  | loopF s c e1 e2 p a b o d => exact .loopF _ _ _ _ _ a b (hok _ _ o) d

omit [AbsFn C] [CfOrd C] in
theorem Exec.unique {ι : Type} [Lanes C ι ℝ] {i : ι} {ok : ℝ → ℝ → Prop} {q : LProg C} {σ s t : String → ℝ}
    (h1 : Exec i ok q σ s) (h2 : Exec i ok q σ t) : s = t := by
  induction h1 generalizing t with
  | skip => cases h2; rfl
  | assign s x e h => cases h2; rfl
  | opAssign s op x e h h' => cases h2; rfl
  | seq s s' s'' p q _ _ ih1 ih2 =>
    cases h2 with
    | seq _ τ _ _ _ a b => obtain rfl := ih1 a; exact ih2 b
  | iteT s s' c e1 e2 p q a b o d _ ih =>
    cases h2 with
    | iteT _ _ _ _ _ _ _ _ _ _ _ h => exact ih h
    | iteF _ _ _ _ _ _ _ _ _ _ d' h => exact absurd d d'
  | iteF s s' c e1 e2 p q a b o d _ ih =>
    cases h2 with
    | iteT _ _ _ _ _ _ _ _ _ _ d' h => exact absurd d' d
    | iteF _ _ _ _ _ _ _ _ _ _ _ h => exact ih h
  | loopT s s' s'' c e1 e2 p a b o d _ _ ih1 ih2 =>
    cases h2 with
    | loopT _ _ _ _ _ _ _ _ _ _ _ h h' => obtain rfl := ih1 h; exact ih2 h'
    | loopF _ _ _ _ _ _ _ _ d' => exact absurd d d'
  | loopF s c e1 e2 p a b o d =>
    cases h2 with
    | loopT _ _ _ _ _ _ _ _ _ _ d' h h' => exact absurd d' d
    | loopF => rfl

end LProg

section Real

variable {m : ℕ} {a : String → ℝ}

theorem goodS_update {σ : String → GDual ℝ} {F : String → (String → ℝ) → ℝ} (hσ : ∀ s, GoodS m (fun _ : Unit => a) (fun _ => F s) (σ s))
    {x : String} {r : GDual ℝ} {G : (String → ℝ) → ℝ} (hr : GoodS m (fun _ : Unit => a) (fun _ => G) r) (s : String) :
    GoodS m (fun _ : Unit => a) (fun _ => Function.update F x G s) (Function.update σ x r s) := by
  by_cases h : s = x
  · subst h; rw [Function.update_self, Function.update_self]; exact hr
  · rw [Function.update_of_ne h, Function.update_of_ne h]; exact hσ s

/-- A program which runs on the values with all comparisons strict runs on gduals along the same path, and the store stays a store of Taylor
expansions. -/
theorem LProg.run_good {q : LProg ℝ} {s s' : String → ℝ} (h : q.Exec () (· ≠ ·) s s') (hm : q.FnOrder m) :
    ∀ {σ : String → GDual ℝ} {F : String → (String → ℝ) → ℝ}, (∀ x, GoodS m (fun _ : Unit => a) (fun _ => F x) (σ x)) → (s = fun x => F x a) →
      ∃ (σ' : String → GDual ℝ) (F' : String → (String → ℝ) → ℝ), q.Run σ σ' ∧ (∀ x, GoodS m (fun _ : Unit => a) (fun _ => F' x) (σ' x)) ∧
        (s' = fun x => F' x a) ∧ ∀ᶠ y in 𝓝 a, q.Exec () (· ≠ ·) (fun x => F x y) fun x => F' x y := by
  induction h with
  | skip s => exact fun hσ hs => ⟨_, _, .skip _, hσ, hs, Eventually.of_forall fun _ => .skip _⟩
  | assign s x e hd =>
    intro σ F hσ hs
    subst hs
    obtain ⟨r, hr, gr⟩ := LExpr.eval_good (F := fun _ => F) hσ e (Or.inr absLaw_real) hm fun _ => hd
    refine ⟨_, Function.update F x fun y => e.sem () fun s => F s y, .assign _ _ _ _ hr, goodS_update hσ gr,
      (apply_update F x (fun y => e.sem () fun s => F s y) a).symm, ?_⟩
    filter_upwards [LExpr.dom_near (F := fun _ => F) hσ e (Or.inr absLaw_real) hm (fun _ => hd) ()] with y hy
    rw [apply_update]
    exact .assign _ _ _ hy
  | opAssign s op x e hd h0 =>
    intro σ F hσ hs
    subst hs
    obtain ⟨d, hdv, gd⟩ := LExpr.eval_good (F := fun _ => F) hσ e (Or.inr absLaw_real) hm fun _ => hd
    obtain ⟨r, hr, gr⟩ := GoodS.op op (hσ x) gd fun _ => h0
    refine ⟨_, Function.update F x fun y => op.real (F x y) (e.sem () fun s => F s y), .opAssign _ _ _ _ _ _ hdv hr, goodS_update hσ gr,
      (apply_update F x (fun y => op.real (F x y) (e.sem () fun s => F s y)) a).symm, ?_⟩
    filter_upwards [LExpr.dom_near (F := fun _ => F) hσ e (Or.inr absLaw_real) hm (fun _ => hd) (), (gd.taylor ()).cont.eventually (op.isOpen_dom.mem_nhds h0)] with y hy hy2
    rw [apply_update]
    exact .opAssign _ _ _ _ hy hy2
  | seq s s' s'' p q _ _ ih1 ih2 =>
    intro σ F hσ hs
    obtain ⟨σ1, F1, r1, g1, e1, n1⟩ := ih1 hm.1 hσ hs
    obtain ⟨σ2, F2, r2, g2, e2, n2⟩ := ih2 hm.2 g1 e1
    refine ⟨σ2, F2, .seq _ _ _ _ _ r1 r2, g2, e2, ?_⟩
    filter_upwards [n1, n2] with y a b
    exact .seq _ _ _ _ _ a b
  | iteT s s' c e1 e2 p q d1 d2 o d _ ih =>
    intro σ F hσ hs
    subst hs
    obtain ⟨r1, h1, g1⟩ := LExpr.eval_good (F := fun _ => F) hσ e1 (Or.inr absLaw_real) hm.1 fun _ => d1
    obtain ⟨r2, h2, g2⟩ := LExpr.eval_good (F := fun _ => F) hσ e2 (Or.inr absLaw_real) hm.2.1 fun _ => d2
    obtain ⟨b, hb, hbi⟩ := Cmp.run_eq c g1.toGood g2.toGood o
    obtain rfl : b = true := hbi.2 d
    obtain ⟨σ1, F1, ru, gu, eu, nu⟩ := ih hm.2.2.1 hσ rfl
    refine ⟨σ1, F1, .iteT _ _ _ _ _ _ _ _ _ h1 h2 hb ru, gu, eu, ?_⟩
    filter_upwards [nu, LExpr.dom_near (F := fun _ => F) hσ e1 (Or.inr absLaw_real) hm.1 (fun _ => d1) (), LExpr.dom_near (F := fun _ => F) hσ e2 (Or.inr absLaw_real) hm.2.1 (fun _ => d2) (),
      Cmp.real_near c (g1.taylor ()).cont (g2.taylor ()).cont o] with y hy a1 a2 a3
    exact .iteT _ _ _ _ _ _ _ a1 a2 a3.1 (a3.2.2 d) hy
  | iteF s s' c e1 e2 p q d1 d2 o d _ ih =>
    intro σ F hσ hs
    subst hs
    obtain ⟨r1, h1, g1⟩ := LExpr.eval_good (F := fun _ => F) hσ e1 (Or.inr absLaw_real) hm.1 fun _ => d1
    obtain ⟨r2, h2, g2⟩ := LExpr.eval_good (F := fun _ => F) hσ e2 (Or.inr absLaw_real) hm.2.1 fun _ => d2
    obtain ⟨b, hb, hbi⟩ := Cmp.run_eq c g1.toGood g2.toGood o
    obtain rfl : b = false := Bool.eq_false_iff.2 fun hh => d (hbi.1 hh)
    obtain ⟨σ1, F1, ru, gu, eu, nu⟩ := ih hm.2.2.2 hσ rfl
    refine ⟨σ1, F1, .iteF _ _ _ _ _ _ _ _ _ h1 h2 hb ru, gu, eu, ?_⟩
    filter_upwards [nu, LExpr.dom_near (F := fun _ => F) hσ e1 (Or.inr absLaw_real) hm.1 (fun _ => d1) (), LExpr.dom_near (F := fun _ => F) hσ e2 (Or.inr absLaw_real) hm.2.1 (fun _ => d2) (),
      Cmp.real_near c (g1.taylor ()).cont (g2.taylor ()).cont o] with y hy a1 a2 a3
    exact .iteF _ _ _ _ _ _ _ a1 a2 a3.1 (fun hh => d (a3.2.1 hh)) hy
  | loopT s s' s'' c e1 e2 p d1 d2 o d _ _ ih1 ih2 =>
    intro σ F hσ hs
    subst hs
    obtain ⟨r1, h1, g1⟩ := LExpr.eval_good (F := fun _ => F) hσ e1 (Or.inr absLaw_real) hm.1 fun _ => d1
    obtain ⟨r2, h2, g2⟩ := LExpr.eval_good (F := fun _ => F) hσ e2 (Or.inr absLaw_real) hm.2.1 fun _ => d2
    obtain ⟨b, hb, hbi⟩ := Cmp.run_eq c g1.toGood g2.toGood o
    obtain rfl : b = true := hbi.2 d
    obtain ⟨σ1, F1, ru, gu, eu, nu⟩ := ih1 hm.2.2 hσ rfl
    obtain ⟨σ2, F2, ru', gu', eu', nu'⟩ := ih2 hm gu eu
    refine ⟨σ2, F2, .loopT _ _ _ _ _ _ _ _ _ h1 h2 hb ru ru', gu', eu', ?_⟩
    filter_upwards [nu, nu', LExpr.dom_near (F := fun _ => F) hσ e1 (Or.inr absLaw_real) hm.1 (fun _ => d1) (), LExpr.dom_near (F := fun _ => F) hσ e2 (Or.inr absLaw_real) hm.2.1 (fun _ => d2) (),
      Cmp.real_near c (g1.taylor ()).cont (g2.taylor ()).cont o] with y hy hy' a1 a2 a3
    exact .loopT _ _ _ _ _ _ _ a1 a2 a3.1 (a3.2.2 d) hy hy'
  | loopF s c e1 e2 p d1 d2 o d =>
    intro σ F hσ hs
    subst hs
    obtain ⟨r1, h1, g1⟩ := LExpr.eval_good (F := fun _ => F) hσ e1 (Or.inr absLaw_real) hm.1 fun _ => d1
    obtain ⟨r2, h2, g2⟩ := LExpr.eval_good (F := fun _ => F) hσ e2 (Or.inr absLaw_real) hm.2.1 fun _ => d2
    obtain ⟨b, hb, hbi⟩ := Cmp.run_eq c g1.toGood g2.toGood o
    obtain rfl : b = false := Bool.eq_false_iff.2 fun hh => d (hbi.1 hh)
    refine ⟨σ, F, .loopF _ _ _ _ _ _ _ h1 h2 hb, hσ, rfl, ?_⟩
    filter_upwards [LExpr.dom_near (F := fun _ => F) hσ e1 (Or.inr absLaw_real) hm.1 (fun _ => d1) (), LExpr.dom_near (F := fun _ => F) hσ e2 (Or.inr absLaw_real) hm.2.1 (fun _ => d2) (),
      Cmp.real_near c (g1.taylor ()).cont (g2.taylor ()).cont o] with y a1 a2 a3
    exact .loopF _ _ _ _ _ a1 a2 a3.1 fun hh => d (a3.2.1 hh)

end Real
end Audi
