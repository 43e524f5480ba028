import Verif.Spec.Program
import Verif.Proofs.Expr
import Verif.Props.C13_Terms

/-! Running programs on gduals. -/

namespace Audi

open MvPolynomial Spec GDual Filter Topology

section Eval

variable {C : Type} [CfFun C] {ι : Type} [Lanes C ι ℝ] [LanesFun C ι] {m : ℕ} {p : ι → String → ℝ}

/-- Evaluation of an expression in a store of Taylor expansions. -/
theorem Expr.eval_good {σ : String → GDual C} {F : ι → String → (String → ℝ) → ℝ} (hσ : ∀ s, Good m p (fun i => F i s) (σ s)) :
    ∀ e : Expr C, e.FnOrder m → (∀ i : ι, e.Dom i fun s => F i s (p i)) →
      ∃ r, e.eval σ = .ok r ∧ Good m p (fun (i : ι) y => e.sem i fun s => F i s y) r := by
  intro e
  induction e with
  | var s => exact fun _ _ => ⟨_, rfl, hσ s⟩
  | const c => exact fun _ _ => ⟨_, rfl, Good.const c⟩
  | bin op e1 e2 ih1 ih2 =>
    intro hl hd
    obtain ⟨r1, h1, g1⟩ := ih1 hl.1 fun i => (hd i).1
    obtain ⟨r2, h2, g2⟩ := ih2 hl.2 fun i => (hd i).2.1
    obtain ⟨r, hr, gr⟩ := Good.op op g1 g2 fun i => (hd i).2.2
    refine ⟨r, ?_, gr⟩
    change (do op.run (← e1.eval σ) (← e2.eval σ)) = _
    rw [bind2_ok h1 h2, hr]
  | left op c e ih =>
    intro hl hd
    obtain ⟨r1, h1, g1⟩ := ih hl fun i => (hd i).1
    obtain ⟨r, hr, gr⟩ := Good.opL op c g1 fun i => (hd i).2
    refine ⟨r, ?_, gr⟩
    change (e.eval σ >>= fun d => op.runL c d) = _
    rw [bind_ok h1, hr]
  | right op e c ih =>
    intro hl hd
    obtain ⟨r1, h1, g1⟩ := ih hl fun i => (hd i).1
    obtain ⟨r, hr, gr⟩ := Good.opR op c g1 fun i => (hd i).2
    refine ⟨r, ?_, gr⟩
    change (e.eval σ >>= fun d => op.runR d c) = _
    rw [bind_ok h1, hr]
  | fn f e ih =>
    intro hl hd
    obtain ⟨r1, h1, g1⟩ := ih hl.1 fun i => (hd i).1
    obtain ⟨r, hr, gr⟩ := Good.fn (f := f.run) (g := fun _ => f.real) (dom := fun _ => f.Dom)
      (fun d hdv hle hdom => by
        obtain ⟨r, e1, e2, -⟩ := Fn.lift (ι := ι) f hdv (Fn.maxOrder_mono hl.2 hle) hdom
        exact ⟨r, e1, e2⟩) g1 fun i => (hd i).2
    refine ⟨r, ?_, gr⟩
    change (e.eval σ >>= fun d => f.run d) = _
    rw [bind_ok h1, hr]
  | pow e1 e2 ih1 ih2 =>
    intro hl hd
    obtain ⟨r1, h1, g1⟩ := ih1 hl.1 fun i => (hd i).1
    obtain ⟨r2, h2, g2⟩ := ih2 hl.2 fun i => (hd i).2.1
    obtain ⟨l, hl', gl⟩ := Good.fn (f := GDual.log) (g := fun _ => Real.log) (dom := fun _ x => 0 < x)
      (fun d hdv _ hdom => by
        obtain ⟨r, e1, e2⟩ := computes_log.lift (ι := ι) d hdv hdom
        exact ⟨r, e1, e2.w⟩) g1 fun i => (hd i).2.2
    obtain ⟨r, hr, gr⟩ := Good.fn (f := GDual.exp) (g := fun _ => Real.exp) (dom := fun _ _ => True)
      (fun d hdv _ hdom => by
        obtain ⟨r, e1, e2⟩ := computes_exp.lift (ι := ι) d hdv hdom
        exact ⟨r, e1, e2.w⟩) (g2.mul gl) fun i => trivial
    refine ⟨r, ?_, ⟨gr.valid, gr.le, gr.order, fun i => (gr.taylor i).congr_fun ?_⟩⟩
    · change (do GDual.powG (← e1.eval σ) (← e2.eval σ)) = _
      rw [bind2_ok h1 h2]
      unfold powG
      rw [bind_ok hl', hr]
    · have hpos : 0 < e1.sem i fun s => F i s (p i) := (hd i).2.2
      filter_upwards [(g1.taylor i).cont.eventually (lt_mem_nhds hpos)] with x hx
      change _ = (e1.sem i fun s => F i s x) ^ (e2.sem i fun s => F i s x)
      rw [Real.rpow_def_of_pos hx, mul_comm]

theorem Fn.isOpen_dom (f : Fn) : IsOpen {x | f.Dom x} := by
  cases f with
  | log => exact isOpen_Ioi
  | sqrt => exact isOpen_Ioi
  | cbrt => exact isOpen_ne
  | tan => exact isOpen_ne.preimage Real.continuous_cos
  | acosh => exact isOpen_Ioi
  | atanh => exact isOpen_Iio.preimage continuous_abs
  | asin => exact isOpen_Iio.preimage continuous_abs
  | acos => exact isOpen_Iio.preimage continuous_abs
  | powQ α =>
    change IsOpen {x : ℝ | -2147483649 < α ∧ α < 2147483648 ∧ (0 < x ∨ α.den = 1 ∧ (0 ≤ α ∨ x ≠ 0))}
    exact isOpen_const.and (isOpen_const.and (isOpen_Ioi.union (isOpen_const.and (isOpen_const.union isOpen_ne))))
  | powInt z =>
    change IsOpen {x : ℝ | -2147483648 < z ∧ (0 ≤ z ∨ x ≠ 0)}
    exact isOpen_const.and (isOpen_const.union isOpen_ne)
  | powBase q => exact isOpen_const
  | _ => exact isOpen_univ

theorem Op.isOpen_dom (op : Op) : IsOpen {x : ℝ | op.Dom x} := by
  cases op with
  | div => exact isOpen_ne
  | _ => exact isOpen_univ

/-- The domain is a neighbourhood. -/
theorem Expr.dom_near {σ : String → GDual C} {F : ι → String → (String → ℝ) → ℝ} (hσ : ∀ s, Good m p (fun i => F i s) (σ s)) :
    ∀ e : Expr C, e.FnOrder m → (∀ i : ι, e.Dom i fun s => F i s (p i)) →
      ∀ i : ι, ∀ᶠ y in 𝓝 (p i), e.Dom i fun s => F i s y := by
  have cont : ∀ e : Expr C, e.FnOrder m → (∀ i : ι, e.Dom i fun s => F i s (p i)) → ∀ i : ι,
      ContinuousAt (fun y => e.sem i fun s => F i s y) (p i) := fun e h1 h2 i => by
    obtain ⟨r, -, hr⟩ := Expr.eval_good hσ e h1 h2
    exact (hr.taylor i).cont
  intro e
  induction e with
  | var s => exact fun _ _ _ => Eventually.of_forall fun _ => trivial
  | const c => exact fun _ _ _ => Eventually.of_forall fun _ => trivial
  | bin op e1 e2 ih1 ih2 =>
    intro hl hd i
    have h3 := (cont e2 hl.2 (fun i => (hd i).2.1) i).eventually (op.isOpen_dom.mem_nhds (hd i).2.2)
    filter_upwards [ih1 hl.1 (fun i => (hd i).1) i, ih2 hl.2 (fun i => (hd i).2.1) i, h3] with y a b c
    exact ⟨a, b, c⟩
  | left op c e ih =>
    intro hl hd i
    have h3 := (cont e hl (fun i => (hd i).1) i).eventually (op.isOpen_dom.mem_nhds (hd i).2)
    filter_upwards [ih hl (fun i => (hd i).1) i, h3] with y a c
    exact ⟨a, c⟩
  | right op e c ih =>
    intro hl hd i
    filter_upwards [ih hl (fun i => (hd i).1) i] with y a
    exact ⟨a, (hd i).2⟩
  | fn f e ih =>
    intro hl hd i
    have h3 := (cont e hl.1 (fun i => (hd i).1) i).eventually (f.isOpen_dom.mem_nhds (hd i).2)
    filter_upwards [ih hl.1 (fun i => (hd i).1) i, h3] with y a c
    exact ⟨a, c⟩
  | pow e1 e2 ih1 ih2 =>
    intro hl hd i
    have h3 := (cont e1 hl.1 (fun i => (hd i).1) i).eventually (isOpen_Ioi.mem_nhds (hd i).2.2)
    filter_upwards [ih1 hl.1 (fun i => (hd i).1) i, ih2 hl.2 (fun i => (hd i).2.1) i, h3] with y a b c
    exact ⟨a, b, c⟩

end Eval

namespace Prog

variable {C : Type} [CfFun C] [CfOrd C]

set_option linter.overlappingInstances false in
/-- Running is deterministic. -/
theorem Run.unique {q : Prog C} {σ s t : String → GDual C} (h1 : Run q σ s) (h2 : Run q σ t) : s = t := by
  induction h1 generalizing t with
  | skip => cases h2; rfl
  | assign σ x e r h =>
    cases h2 with
    | assign _ _ _ r' h' => rw [h] at h'; injection h' with h'; rw [h']
  | opAssign σ op x e d r h h0 =>
    cases h2 with
    | opAssign _ _ _ _ d' r' h' h0' =>
      rw [h] at h'; injection h' with h'; subst h'
      rw [h0] at h0'; injection h0' with h0'; rw [h0']
  | seq σ σ' σ'' p q _ _ ih1 ih2 =>
    cases h2 with
    | seq _ τ _ _ _ a b => obtain rfl := ih1 a; exact ih2 b
  | iteT σ σ' c e1 e2 p q r1 r2 a b d _ ih =>
    cases h2 with
    | iteT _ _ _ _ _ _ _ r1' r2' a' b' d' h => exact ih h
    | iteF _ _ _ _ _ _ _ r1' r2' a' b' d' h =>
      rw [a] at a'; rw [b] at b'; injection a' with a'; injection b' with b'; subst a' b'
      rw [d] at d'; cases d'
  | iteF σ σ' c e1 e2 p q r1 r2 a b d _ ih =>
    cases h2 with
    | iteF _ _ _ _ _ _ _ r1' r2' a' b' d' h => exact ih h
    | iteT _ _ _ _ _ _ _ r1' r2' a' b' d' h =>
      rw [a] at a'; rw [b] at b'; injection a' with a'; injection b' with b'; subst a' b'
      rw [d] at d'; cases d'
  | loopT σ σ' σ'' c e1 e2 p r1 r2 a b d _ _ ih1 ih2 =>
    cases h2 with
    | loopT _ _ _ _ _ _ _ r1' r2' a' b' d' h h' => obtain rfl := ih1 h; exact ih2 h'
    | loopF _ _ _ _ _ r1' r2' a' b' d' =>
      rw [a] at a'; rw [b] at b'; injection a' with a'; injection b' with b'; subst a' b'
      rw [d] at d'; cases d'
  | loopF σ c e1 e2 p r1 r2 a b d =>
    cases h2 with
    | loopT _ _ _ _ _ _ _ r1' r2' a' b' d' h h' =>
      rw [a] at a'; rw [b] at b'; injection a' with a'; injection b' with b'; subst a' b'
      rw [d] at d'; cases d'
    | loopF => rfl

omit [CfOrd C] in
theorem Exec.mono {ι : Type} [Lanes C ι ℝ] {i : ι} {ok ok' : ℝ → ℝ → Prop} (hok : ∀ x y, ok x y → ok' x y) {q : Prog C} {s t : String → ℝ}
    (h : Exec i ok q s t) : Exec i ok' q s t := by
  induction h with
  | skip => exact .skip _
  | assign s x e h => exact .assign _ _ _ h
  | opAssign s op x e h h' => exact .opAssign _ _ _ _ h h'
  | seq s s' s'' p q _ _ ih1 ih2 => exact .seq _ _ _ _ _ ih1 ih2
  | iteT s s' c e1 e2 p q a b o d _ ih => exact .iteT _ _ _ _ _ _ _ a b (hok _ _ o) d ih
  | iteF s s' c e1 e2 p q a b o d _ ih => exact .iteF _ _ _ _ _ _ _ a b (hok _ _ o) d ih
  | loopT s s' s'' c e1 e2 p a b o d _ _ ih1 ih2 => exact .loopT _ _ _ _ _ _ _ a b (hok _ _ o) d ih1 ih2
  | loopF s c e1 e2 p a b o d => exact .loopF _ _ _ _ _ a b (hok _ _ o) d

omit [CfOrd C] in
theorem Exec.unique {ι : Type} [Lanes C ι ℝ] {i : ι} {ok : ℝ → ℝ → Prop} {q : Prog C} {σ s t : String → ℝ}
    (h1 : Exec i ok q σ s) (h2 : Exec i ok q σ t) : s = t := by
  induction h1 generalizing t with
  | skip => cases h2; rfl
  | assign s x e h => cases h2; rfl
  | opAssign s op x e h h' => cases h2; rfl
  | seq s s' s'' p q _ _ ih1 ih2 =>
    cases h2 with
    | seq _ τ _ _ _ a b => obtain rfl := ih1 a; exact ih2 b
  | iteT s s' c e1 e2 p q a b o d _ ih =>
    cases h2 with
    | iteT _ _ _ _ _ _ _ _ _ _ _ h => exact ih h
    | iteF _ _ _ _ _ _ _ _ _ _ d' h => exact absurd d d'
  | iteF s s' c e1 e2 p q a b o d _ ih =>
    cases h2 with
    | iteT _ _ _ _ _ _ _ _ _ _ d' h => exact absurd d' d
    | iteF _ _ _ _ _ _ _ _ _ _ _ h => exact ih h
  | loopT s s' s'' c e1 e2 p a b o d _ _ ih1 ih2 =>
    cases h2 with
    | loopT _ _ _ _ _ _ _ _ _ _ _ h h' => obtain rfl := ih1 h; exact ih2 h'
    | loopF _ _ _ _ _ _ _ _ d' => exact absurd d d'
  | loopF s c e1 e2 p a b o d =>
    cases h2 with
    | loopT _ _ _ _ _ _ _ _ _ _ d' h h' => exact absurd d' d
    | loopF => rfl

end Prog

section Real

variable {m : ℕ} {a : String → ℝ}

/-- The comparison of gduals decides as the comparison of the values, if these are different. -/
theorem Cmp.run_eq (c : Cmp) {F G : Unit → (String → ℝ) → ℝ} {r1 r2 : GDual ℝ} (h1 : Good m (fun _ => a) F r1) (h2 : Good m (fun _ => a) G r2)
    (hne : F () a ≠ G () a) : ∃ b : Bool, c.run r1 r2 = .ok b ∧ (b = true ↔ c.real (F () a) (G () a)) := by
  have e1 := (h1.taylor ()).val
  have e2 := (h2.taylor ()).val
  obtain ⟨u, v, hu, hv, hlt, hgt⟩ := C19_lt_gt r1 r2
  have eu : u = F () a := by rw [e1]; exact lane_constantCf (ι := Unit) (K := ℝ) h1.valid hu ()
  have ev : v = G () a := by rw [e2]; exact lane_constantCf (ι := Unit) (K := ℝ) h2.valid hv ()
  subst eu ev
  cases c with
  | lt => exact ⟨_, hlt, decide_eq_true_iff⟩
  | gt => exact ⟨_, hgt, decide_eq_true_iff⟩
  | eq =>
    refine ⟨_, rfl, ⟨fun h => absurd ?_ hne, fun h => absurd h hne⟩⟩
    have := (Poly.eq_iff (ι := Unit) (K := ℝ) h1.valid.wf h2.valid.wf).1 h ()
    rw [e1, e2]
    exact congrArg (coeff 0) this

theorem Cmp.real_near (c : Cmp) {F G : (String → ℝ) → ℝ} (hF : ContinuousAt F a) (hG : ContinuousAt G a) (hne : F a ≠ G a) :
    ∀ᶠ y in 𝓝 a, F y ≠ G y ∧ (c.real (F y) (G y) ↔ c.real (F a) (G a)) := by
  have hn : ∀ᶠ y in 𝓝 a, F y ≠ G y := (hF.sub hG).eventually_ne (sub_ne_zero.2 hne) |>.mono fun y hy => sub_ne_zero.1 hy
  rcases lt_or_gt_of_ne hne with h | h
  · filter_upwards [hn, hF.eventually_lt hG h] with y h1 h2
    refine ⟨h1, ?_⟩
    cases c with
    | lt => exact ⟨fun _ => h, fun _ => h2⟩
    | gt => exact ⟨fun h' => absurd h' h2.not_gt, fun h' => absurd h' h.not_gt⟩
    | eq => exact ⟨fun h' => absurd h' h1, fun h' => absurd h' hne⟩
  · filter_upwards [hn, hG.eventually_lt hF h] with y h1 h2
    refine ⟨h1, ?_⟩
    cases c with
    | gt => exact ⟨fun _ => h, fun _ => h2⟩
    | lt => exact ⟨fun h' => absurd h' h2.not_gt, fun h' => absurd h' h.not_gt⟩
    | eq => exact ⟨fun h' => absurd h' h1, fun h' => absurd h' hne⟩

theorem good_update {σ : String → GDual ℝ} {F : String → (String → ℝ) → ℝ} (hσ : ∀ s, Good m (fun _ : Unit => a) (fun _ => F s) (σ s))
    {x : String} {r : GDual ℝ} {G : (String → ℝ) → ℝ} (hr : Good m (fun _ : Unit => a) (fun _ => G) r) (s : String) :
    Good m (fun _ : Unit => a) (fun _ => Function.update F x G s) (Function.update σ x r s) := by
  by_cases h : s = x
  · subst h; rw [Function.update_self, Function.update_self]; exact hr
  · rw [Function.update_of_ne h, Function.update_of_ne h]; exact hσ s

theorem apply_update (F : String → (String → ℝ) → ℝ) (x : String) (G : (String → ℝ) → ℝ) (y : String → ℝ) :
    (fun s => Function.update F x G s y) = Function.update (fun s => F s y) x (G y) := by
  funext s
  by_cases h : s = x
  · subst h; simp
  · rw [Function.update_of_ne h, Function.update_of_ne h]

/-- A program which runs on the values with all comparisons strict runs on gduals along the same path, and the store stays a store of Taylor
expansions. -/
theorem Prog.run_good {q : Prog ℝ} {s s' : String → ℝ} (h : q.Exec () (· ≠ ·) s s') (hm : q.FnOrder m) :
    ∀ {σ : String → GDual ℝ} {F : String → (String → ℝ) → ℝ}, (∀ x, Good m (fun _ : Unit => a) (fun _ => F x) (σ x)) → (s = fun x => F x a) →
      ∃ (σ' : String → GDual ℝ) (F' : String → (String → ℝ) → ℝ), q.Run σ σ' ∧ (∀ x, Good m (fun _ : Unit => a) (fun _ => F' x) (σ' x)) ∧
        (s' = fun x => F' x a) ∧ ∀ᶠ y in 𝓝 a, q.Exec () (· ≠ ·) (fun x => F x y) fun x => F' x y := by
  induction h with
  | skip s => exact fun hσ hs => ⟨_, _, .skip _, hσ, hs, Eventually.of_forall fun _ => .skip _⟩
  | assign s x e hd =>
    intro σ F hσ hs
    subst hs
    obtain ⟨r, hr, gr⟩ := Expr.eval_good (F := fun _ => F) hσ e hm fun _ => hd
    refine ⟨_, Function.update F x fun y => e.sem () fun s => F s y, .assign _ _ _ _ hr, good_update hσ gr,
      (apply_update F x (fun y => e.sem () fun s => F s y) a).symm, ?_⟩
    filter_upwards [Expr.dom_near (F := fun _ => F) hσ e hm (fun _ => hd) ()] with y hy
    rw [apply_update]
    exact .assign _ _ _ hy
  | opAssign s op x e hd h0 =>
    intro σ F hσ hs
    subst hs
    obtain ⟨d, hdv, gd⟩ := Expr.eval_good (F := fun _ => F) hσ e hm fun _ => hd
    obtain ⟨r, hr, gr⟩ := Good.op op (hσ x) gd fun _ => h0
    refine ⟨_, Function.update F x fun y => op.real (F x y) (e.sem () fun s => F s y), .opAssign _ _ _ _ _ _ hdv hr, good_update hσ gr,
      (apply_update F x (fun y => op.real (F x y) (e.sem () fun s => F s y)) a).symm, ?_⟩
    filter_upwards [Expr.dom_near (F := fun _ => F) hσ e hm (fun _ => hd) (), (gd.taylor ()).cont.eventually (op.isOpen_dom.mem_nhds h0)] with y hy hy2
    rw [apply_update]
    exact .opAssign _ _ _ _ hy hy2
  | seq s s' s'' p q _ _ ih1 ih2 =>
    intro σ F hσ hs
    obtain ⟨σ1, F1, r1, g1, e1, n1⟩ := ih1 hm.1 hσ hs
    obtain ⟨σ2, F2, r2, g2, e2, n2⟩ := ih2 hm.2 g1 e1
    refine ⟨σ2, F2, .seq _ _ _ _ _ r1 r2, g2, e2, ?_⟩
    filter_upwards [n1, n2] with y a b
    exact .seq _ _ _ _ _ a b
  | iteT s s' c e1 e2 p q d1 d2 o d _ ih =>
    intro σ F hσ hs
    subst hs
    obtain ⟨r1, h1, g1⟩ := Expr.eval_good (F := fun _ => F) hσ e1 hm.1 fun _ => d1
    obtain ⟨r2, h2, g2⟩ := Expr.eval_good (F := fun _ => F) hσ e2 hm.2.1 fun _ => d2
    obtain ⟨b, hb, hbi⟩ := Cmp.run_eq c g1 g2 o
    obtain rfl : b = true := hbi.2 d
    obtain ⟨σ1, F1, ru, gu, eu, nu⟩ := ih hm.2.2.1 hσ rfl
    refine ⟨σ1, F1, .iteT _ _ _ _ _ _ _ _ _ h1 h2 hb ru, gu, eu, ?_⟩
    filter_upwards [nu, Expr.dom_near (F := fun _ => F) hσ e1 hm.1 (fun _ => d1) (), Expr.dom_near (F := fun _ => F) hσ e2 hm.2.1 (fun _ => d2) (),
      Cmp.real_near c (g1.taylor ()).cont (g2.taylor ()).cont o] with y hy a1 a2 a3
    exact .iteT _ _ _ _ _ _ _ a1 a2 a3.1 (a3.2.2 d) hy
  | iteF s s' c e1 e2 p q d1 d2 o d _ ih =>
    intro σ F hσ hs
    subst hs
    obtain ⟨r1, h1, g1⟩ := Expr.eval_good (F := fun _ => F) hσ e1 hm.1 fun _ => d1
    obtain ⟨r2, h2, g2⟩ := Expr.eval_good (F := fun _ => F) hσ e2 hm.2.1 fun _ => d2
    obtain ⟨b, hb, hbi⟩ := Cmp.run_eq c g1 g2 o
    obtain rfl : b = false := Bool.eq_false_iff.2 fun hh => d (hbi.1 hh)
    obtain ⟨σ1, F1, ru, gu, eu, nu⟩ := ih hm.2.2.2 hσ rfl
    refine ⟨σ1, F1, .iteF _ _ _ _ _ _ _ _ _ h1 h2 hb ru, gu, eu, ?_⟩
    filter_upwards [nu, Expr.dom_near (F := fun _ => F) hσ e1 hm.1 (fun _ => d1) (), Expr.dom_near (F := fun _ => F) hσ e2 hm.2.1 (fun _ => d2) (),
      Cmp.real_near c (g1.taylor ()).cont (g2.taylor ()).cont o] with y hy a1 a2 a3
    exact .iteF _ _ _ _ _ _ _ a1 a2 a3.1 (fun hh => d (a3.2.1 hh)) hy
  | loopT s s' s'' c e1 e2 p d1 d2 o d _ _ ih1 ih2 =>
    intro σ F hσ hs
    subst hs
    obtain ⟨r1, h1, g1⟩ := Expr.eval_good (F := fun _ => F) hσ e1 hm.1 fun _ => d1
    obtain ⟨r2, h2, g2⟩ := Expr.eval_good (F := fun _ => F) hσ e2 hm.2.1 fun _ => d2
    obtain ⟨b, hb, hbi⟩ := Cmp.run_eq c g1 g2 o
    obtain rfl : b = true := hbi.2 d
    obtain ⟨σ1, F1, ru, gu, eu, nu⟩ := ih1 hm.2.2 hσ rfl
    obtain ⟨σ2, F2, ru', gu', eu', nu'⟩ := ih2 hm gu eu
    refine ⟨σ2, F2, .loopT _ _ _ _ _ _ _ _ _ h1 h2 hb ru ru', gu', eu', ?_⟩
    filter_upwards [nu, nu', Expr.dom_near (F := fun _ => F) hσ e1 hm.1 (fun _ => d1) (), Expr.dom_near (F := fun _ => F) hσ e2 hm.2.1 (fun _ => d2) (),
      Cmp.real_near c (g1.taylor ()).cont (g2.taylor ()).cont o] with y hy hy' a1 a2 a3
    exact .loopT _ _ _ _ _ _ _ a1 a2 a3.1 (a3.2.2 d) hy hy'
  | loopF s c e1 e2 p d1 d2 o d =>
    intro σ F hσ hs
    subst hs
    obtain ⟨r1, h1, g1⟩ := Expr.eval_good (F := fun _ => F) hσ e1 hm.1 fun _ => d1
    obtain ⟨r2, h2, g2⟩ := Expr.eval_good (F := fun _ => F) hσ e2 hm.2.1 fun _ => d2
    obtain ⟨b, hb, hbi⟩ := Cmp.run_eq c g1 g2 o
    obtain rfl : b = false := Bool.eq_false_iff.2 fun hh => d (hbi.1 hh)
    refine ⟨σ, F, .loopF _ _ _ _ _ _ _ h1 h2 hb, hσ, rfl, ?_⟩
    filter_upwards [Expr.dom_near (F := fun _ => F) hσ e1 hm.1 (fun _ => d1) (), Expr.dom_near (F := fun _ => F) hσ e2 hm.2.1 (fun _ => d2) (),
      Cmp.real_near c (g1.taylor ()).cont (g2.taylor ()).cont o] with y a1 a2 a3
    exact .loopF _ _ _ _ _ a1 a2 a3.1 fun hh => d (a3.2.1 hh)

end Real
end Audi
