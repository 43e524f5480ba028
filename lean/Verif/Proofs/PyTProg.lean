import Verif.Spec.PyTProg
import Verif.Props.C110_PythonTaylor

/-! Running Python programs on numbers and Taylor models. -/

namespace Audi

open Spec GDual TM PyT PyTExpr

variable {ord : List String → List String} {v : String → ℝ} {D R : String → Itv ℝ} {m : ℕ} {vs : List String} {σ : String → PyT} {F : String → (String → ℝ) → ℝ}
  {G H : (String → ℝ) → ℝ} {a b : TM ℝ} {y : String → ℝ}

/-- The value `y` of the variables is allowed somewhere on the domain. -/
def InBox (vs : List String) (D R : String → Itv ℝ) (y : String → ℝ) : Prop :=
  ∃ x : String → ℝ, (∀ s ∈ vs, InItv (D s) (x s)) ∧ ∀ s ∈ vs, InItv (R s) (y s - x s)

/-- The value is the number `G`, constant, or a Taylor model that results from an expression with the meaning `G`. -/
inductive PyTRel (ord : List String → List String) (v : String → ℝ) (D R : String → Itv ℝ) (m : ℕ) (vs : List String) (G : (String → ℝ) → ℝ) (r : PyT) : Prop
  | num (n : PyNum) (h : r = .num n) (hs : ∀ y, G y = n.val)
  | tm (t : Expr ℝ) (a : TM ℝ) (h : r = .tm a) (hr : t.runTM ord v D R m = .ok a) (hl : t.Legal m) (ho : t.Over vs) (hf : t.Safe ord v D R m) (hs : ∀ y, G y = t.sem () y)

theorem allows_zero (hr : a.rem = ⟨0, 0⟩) {x : String → ℝ} {z : ℝ} (h : a.Allows x z) : z = a.polyAt x := by
  unfold TM.Allows at h
  rw [hr] at h
  have h1 : (0 : ℝ) ≤ z - a.polyAt x := h.1
  have h2 : z - a.polyAt x ≤ 0 := h.2
  linarith

theorem nonzero_of (hb : EnclosesAll vs D R H b) (hy : InBox vs D R y) (hr : b.rem = ⟨0, 0⟩) (h : ∀ x, b.InDom x → b.polyAt x ≠ 0) : H y ≠ 0 := by
  obtain ⟨x, hx, hxy⟩ := hy
  rw [allows_zero hr ((hb.2 x hx).2 y hxy)]
  exact h x (hb.2 x hx).1

theorem opDom_of_safe (hb : EnclosesAll vs D R H b) (hy : InBox vs D R y) {op : Op} (h : op.SafeArgs a b) : op.Dom (H y) := by
  cases op with
  | div => exact nonzero_of hb hy h.2.1 h.2.2.2.1
  | _ => trivial

theorem opDom_of_safeL (hb : EnclosesAll vs D R H b) (hy : InBox vs D R y) {op : Op} {c : ℝ} (h : op.SafeL c b) : op.Dom (H y) := by
  cases op with
  | div => exact nonzero_of hb hy h.2.2.1 h.2.2.2.2
  | _ => trivial

theorem opDom_of_safeR {op : Op} {c : ℝ} (h : op.SafeR c) : op.Dom c := by
  cases op with
  | div => exact h
  | _ => trivial

theorem pos_of (ha : EnclosesAll vs D R G a) (hy : InBox vs D R y) (h : ∀ x, a.InDom x → ∀ y, a.Allows x y → 0 < y) : 0 < G y := by
  obtain ⟨x, hx, hxy⟩ := hy
  exact h x (ha.2 x hx).1 _ ((ha.2 x hx).2 y hxy)

theorem defined_of_safe (ha : EnclosesAll vs D R G a) (hf : Faithful ord (a.tpol.p.syms.map varName)) (hy : InBox vs D R y) {f : Fn} (hm : f.InModule = true) (h : f.SafeArg a)
    {r : TM ℝ} (hr : f.runTM ord a = .ok r) : f.Defined (G y) := by
  have hasin : 1 ≤ a.order → a.order ≤ 17 → (∃ r, TM.rasin ord a = .ok r) ∨ (∃ r, TM.racos ord a = .ok r) → |G y| ≤ 1 := fun _ h17 hr => by
    by_contra hn
    obtain ⟨x, hx, hxy⟩ := hy
    obtain ⟨h1, h2⟩ := C55_domain (ord := ord) ha.1 (by omega) (hf _ ha.1.nodup fun _ h => h) ⟨x, G y, (ha.2 x hx).1, (ha.2 x hx).2 y hxy, fun h => hn (abs_le.2 h)⟩
    rcases hr with ⟨r, hr⟩ | ⟨r, hr⟩
    · rw [h1] at hr; cases hr
    · rw [h2] at hr; cases hr
  cases f with
  | log => exact pos_of ha hy h.2.2
  | sqrt => exact (pos_of ha hy h.2.2.2).le
  | tan => exact h.elim
  | acosh => exact h.elim
  | atanh => exact h.elim
  | asin => exact hasin h.1 h.2.1 (.inl ⟨r, hr⟩)
  | acos => exact hasin h.1.1 h.1.2.1 (.inr ⟨r, hr⟩)
  | _ => trivial

theorem powDom_of_safe (ha : EnclosesAll vs D R G a) (hy : InBox vs D R y) {z : ℤ} (h : SafePow z a) : 0 ≤ z ∨ G y ≠ 0 := by
  rcases h.2 with h | h
  · exact .inl (by have := h.1; omega)
  · exact .inr (nonzero_of ha hy h.2.2.1 h.2.2.2.2.1)

/-- The variables hold numbers with the values `F` at `y`. -/
def NumbersAt (F : String → (String → ℝ) → ℝ) (y : String → ℝ) (τ : String → PyT) : Prop := ∀ s, ∃ n, τ s = .num n ∧ n.val = F s y

/-- Evaluation of an expression, on Taylor models and on numbers. -/
theorem PyTExpr.eval_rel (hord : ∀ l, (ord l).Perm l) (hf : Faithful ord vs) (h1 : 1 ≤ m) (hm : m ≤ 31) (hv : ∀ s, InItv (D s) (v s)) (hR : ∀ s, InItv (R s) 0)
    (hσ : ∀ s, PyTRel ord v D R m vs (F s) (σ s)) (e : PyTExpr) (he : e.Safe ord m σ) :
    (∃ r, e.eval ord σ = .ok r ∧ PyTRel ord v D R m vs (fun y => e.sem fun s => F s y) r) ∧
      ∀ y, InBox vs D R y → ∀ τ, NumbersAt F y τ → ∃ n, e.eval ord τ = .ok (.num n) ∧ n.val = e.sem fun s => F s y := by
  have run : ∀ t : Expr ℝ, t.Legal m → t.Over vs → t.Safe ord v D R m → ∃ r, t.runTM ord v D R m = .ok r ∧ EnclosesAll vs D R (t.sem ()) r := fun t a b c =>
    (runTM_enclosesAll hord hf h1 hm hv hR t a b c).2
  have enc : ∀ {t : Expr ℝ} {a : TM ℝ}, t.runTM ord v D R m = .ok a → t.Legal m → t.Over vs → t.Safe ord v D R m → EnclosesAll vs D R (t.sem ()) a := fun {t a} h b c d => by
    obtain ⟨r, r1, r2⟩ := run t b c d
    rw [h] at r1; injection r1 with r1; subst r1
    exact r2
  have faith : ∀ {G : (String → ℝ) → ℝ} {a : TM ℝ}, EnclosesAll vs D R G a → Faithful ord (a.tpol.p.syms.map varName) :=
    fun h l n hl => hf l n fun w hw => h.names (fun s _ => hv s) (hl hw)
  induction e with
  | var s => exact ⟨⟨_, rfl, hσ s⟩, fun y _ τ hτ => by obtain ⟨n, h2, h3⟩ := hτ s; exact ⟨n, by rw [eval, h2], h3⟩⟩
  | const c => exact ⟨⟨_, rfl, .num c rfl fun _ => rfl⟩, fun y _ τ _ => ⟨c, rfl, rfl⟩⟩
  | bin op e1 e2 ih1 ih2 =>
    obtain ⟨s1, s2, s3⟩ := he
    obtain ⟨⟨q1, p1, g1⟩, k1⟩ := ih1 s1
    obtain ⟨⟨q2, p2, g2⟩, k2⟩ := ih2 s2
    have hs := s3 _ _ p1 p2
    have numeric : ∀ y, InBox vs D R y → op.Dom (e2.sem fun s => F s y) → ∀ τ, NumbersAt F y τ → ∃ n, (PyTExpr.bin op e1 e2).eval ord τ = .ok (.num n) ∧
        n.val = (PyTExpr.bin op e1 e2).sem fun s => F s y := fun y hy hd τ hτ => by
      obtain ⟨n1, a1, a2⟩ := k1 y hy τ hτ
      obtain ⟨n2, b1, b2⟩ := k2 y hy τ hτ
      obtain ⟨n, c1, c2⟩ := op_ok (op := op) (x := n1) (y := n2) (by rw [b2]; exact hd)
      refine ⟨n, ?_, by rw [c2, a2, b2, sem]⟩
      simp only [eval, a1, b1, bind, Except.bind, PyT.bin, PyT.method, c1, PyT.liftN]
    rcases g1 with ⟨n1, rfl, a2⟩ | ⟨t1, r1, rfl, a2, a3, a4, a5, a6⟩ <;> rcases g2 with ⟨n2, rfl, b2⟩ | ⟨t2, r2, rfl, b2, b3, b4, b5, b6⟩
    · obtain ⟨n, c1, c2⟩ := op_ok (x := n1) hs
      refine ⟨⟨.num n, ?_, .num n rfl fun y => by simp only [sem, a2, b2, c2]⟩, fun y hy => numeric y hy (by rw [b2]; exact hs)⟩
      simp only [eval, p1, p2, bind, Except.bind, PyT.bin, PyT.method, c1, PyT.liftN]
    · have hs' : (Expr.left op n1.val t2).Safe ord v D R m := ⟨b5, fun a ha => by
        rw [b2] at ha; injection ha with ha; subst ha
        exact hs⟩
      obtain ⟨r, hr, -⟩ := run (.left op n1.val t2) b3 b4 hs'
      refine ⟨⟨.tm r, ?_, .tm (.left op n1.val t2) r rfl hr b3 b4 hs' fun y => by simp only [sem, a2, b6]; rfl⟩,
        fun y hy => numeric y hy (by rw [b6]; exact opDom_of_safeL (enc b2 b3 b4 b5) hy hs)⟩
      rw [Expr.runTM, bind_ok b2] at hr
      simp only [eval, p1, p2, bind, Except.bind, PyT.bin, PyT.method, PyT.rmethod, hr, PyT.lift]
    · have hs' : (Expr.right op t1 n2.val).Safe ord v D R m := ⟨a5, hs⟩
      obtain ⟨r, hr, -⟩ := run (.right op t1 n2.val) a3 a4 hs'
      refine ⟨⟨.tm r, ?_, .tm (.right op t1 n2.val) r rfl hr a3 a4 hs' fun y => by simp only [sem, a6, b2]; rfl⟩,
        fun y hy => numeric y hy (by rw [b2]; exact opDom_of_safeR hs)⟩
      rw [Expr.runTM, bind_ok a2] at hr
      simp only [eval, p1, p2, bind, Except.bind, PyT.bin, PyT.method, hr, PyT.lift]
    · have hs' : (Expr.bin op t1 t2).Safe ord v D R m := ⟨a5, b5, fun a b ha hb => by
        rw [a2] at ha; injection ha with ha; subst ha
        rw [b2] at hb; injection hb with hb; subst hb
        exact hs⟩
      obtain ⟨r, hr, -⟩ := run (.bin op t1 t2) ⟨a3, b3⟩ ⟨a4, b4⟩ hs'
      refine ⟨⟨.tm r, ?_, .tm (.bin op t1 t2) r rfl hr ⟨a3, b3⟩ ⟨a4, b4⟩ hs' fun y => by simp only [sem, a6, b6]; rfl⟩,
        fun y hy => numeric y hy (by rw [b6]; exact opDom_of_safe (enc b2 b3 b4 b5) hy hs)⟩
      rw [Expr.runTM, bind_ok a2, bind_ok b2] at hr
      simp only [eval, p1, p2, bind, Except.bind, PyT.bin, PyT.method, hr, PyT.lift]
  | fn f e ih =>
    obtain ⟨s1, s2⟩ := he
    obtain ⟨⟨q1, p1, g1⟩, k1⟩ := ih s1
    have hs := s2 _ p1
    have numeric : f.InModule = true → ∀ y, InBox vs D R y → f.Defined (e.sem fun s => F s y) → ∀ τ, NumbersAt F y τ → ∃ n, (PyTExpr.fn f e).eval ord τ = .ok (.num n) ∧
        n.val = (PyTExpr.fn f e).sem fun s => F s y := fun hmod y hy hd τ hτ => by
      obtain ⟨n1, a1, a2⟩ := k1 y hy τ hτ
      obtain ⟨n, c1, c2⟩ := fn_ok (f := f) (x := n1) hmod (by rw [a2]; exact hd)
      refine ⟨n, ?_, by rw [c2, a2, sem]⟩
      simp only [eval, a1, bind, Except.bind, PyT.fn, c1, PyT.liftN]
    rcases g1 with ⟨n1, rfl, a2⟩ | ⟨t1, r1, rfl, a2, a3, a4, a5, a6⟩
    · obtain ⟨h3, h4⟩ := hs
      obtain ⟨n, c1, c2⟩ := fn_ok h3 h4
      refine ⟨⟨.num n, ?_, .num n rfl fun y => by simp only [sem, a2, c2]⟩, fun y hy => numeric h3 y hy (by rw [a2]; exact h4)⟩
      simp only [eval, p1, bind, Except.bind, PyT.fn, c1, PyT.liftN]
    · obtain ⟨h3, h4, h5⟩ := hs
      have hs' : (Expr.fn f t1).Safe ord v D R m := ⟨a5, fun a ha => by
        rw [a2] at ha; injection ha with ha; subst ha
        exact h5⟩
      obtain ⟨r, hr, -⟩ := run (.fn f t1) ⟨a3, h4⟩ a4 hs'
      have hr' := hr
      rw [Expr.runTM, bind_ok a2] at hr
      have ha := enc a2 a3 a4 a5
      refine ⟨⟨.tm r, ?_, .tm (.fn f t1) r rfl hr' ⟨a3, h4⟩ a4 hs' fun y => by simp only [sem, a6]; rfl⟩,
        fun y hy => numeric h3 y hy (by rw [a6]; exact defined_of_safe ha (faith ha) hy h3 h5 hr)⟩
      have hmod : f.InModuleTM = true := by
        cases f <;> first | exact h3 | exact h5.elim
      simp only [eval, p1, bind, Except.bind, PyT.fn, hmod, if_true, hr, PyT.lift]
  | pow e1 e2 ih1 ih2 =>
    obtain ⟨s1, s2, s3⟩ := he
    obtain ⟨⟨q1, p1, g1⟩, k1⟩ := ih1 s1
    obtain ⟨⟨q2, p2, g2⟩, k2⟩ := ih2 s2
    have hs := s3 _ _ p1 p2
    have numeric : ∀ y, InBox vs D R y → (0 < (e1.sem fun s => F s y) ∨ ∃ n : ℤ, (e2.sem fun s => F s y) = n ∧ (0 ≤ n ∨ (e1.sem fun s => F s y) ≠ 0)) →
        ∀ τ, NumbersAt F y τ → ∃ n, (PyTExpr.pow e1 e2).eval ord τ = .ok (.num n) ∧ n.val = (PyTExpr.pow e1 e2).sem fun s => F s y := fun y hy hd τ hτ => by
      obtain ⟨n1, a1, a2⟩ := k1 y hy τ hτ
      obtain ⟨n2, b1, b2⟩ := k2 y hy τ hτ
      obtain ⟨n, c1, c2⟩ := pow_ok (x := n1) (y := n2) (by rw [a2, b2]; exact hd)
      refine ⟨n, ?_, by rw [c2, a2, b2, sem]⟩
      simp only [eval, a1, b1, bind, Except.bind, PyT.pow, c1, PyT.liftN]
    rcases g1 with ⟨n1, rfl, a2⟩ | ⟨t1, r1, rfl, a2, a3, a4, a5, a6⟩ <;> rcases g2 with ⟨n2, rfl, b2⟩ | ⟨t2, r2, rfl, b2, b3, b4, b5, b6⟩
    · obtain ⟨n, c1, c2⟩ := pow_ok (x := n1) hs
      refine ⟨⟨.num n, ?_, .num n rfl fun y => by simp only [sem, a2, b2, c2]⟩, fun y hy => numeric y hy (by rw [a2, b2]; exact hs)⟩
      simp only [eval, p1, p2, bind, Except.bind, PyT.pow, c1, PyT.liftN]
    · exact hs.elim
    · have ha := enc a2 a3 a4 a5
      rcases n2 with z | x
      · obtain ⟨h3, h4, h5⟩ := hs
        have hs' : (Expr.fn (.powInt z) t1).Safe ord v D R m := ⟨a5, fun a ha => by
          rw [a2] at ha; injection ha with ha; subst ha
          exact h5⟩
        obtain ⟨r, hr, -⟩ := run (.fn (.powInt z) t1) ⟨a3, trivial⟩ a4 hs'
        refine ⟨⟨.tm r, ?_, .tm (.fn (.powInt z) t1) r rfl hr ⟨a3, trivial⟩ a4 hs' fun y => by simp only [sem, a6, b2, PyNum.val, Real.rpow_intCast]; rfl⟩,
          fun y hy => numeric y hy (by rw [a6, b2]; exact .inr ⟨z, rfl, powDom_of_safe ha hy h5⟩)⟩
        rw [Expr.runTM, bind_ok a2] at hr
        replace hr : TM.powInt ord r1 z = .ok r := hr
        simp only [eval, p1, p2, bind, Except.bind, PyT.pow]
        rw [if_pos ⟨h3, h4⟩, hr]
        rfl
      · obtain ⟨q, rfl, h5⟩ := hs
        have hs' : (Expr.fn (.powQ q) t1).Safe ord v D R m := ⟨a5, fun a ha => by
          rw [a2] at ha; injection ha with ha; subst ha
          exact h5⟩
        obtain ⟨r, hr, -⟩ := run (.fn (.powQ q) t1) ⟨a3, trivial⟩ a4 hs'
        refine ⟨⟨.tm r, ?_, .tm (.fn (.powQ q) t1) r rfl hr ⟨a3, trivial⟩ a4 hs' fun y => by simp only [sem, a6, b2, PyNum.val]; rfl⟩, fun y hy => numeric y hy ?_⟩
        · rw [Expr.runTM, bind_ok a2] at hr
          replace hr : TM.powT ord (1 / 2 ^ 52) r1 q = .ok r := hr
          simp only [eval, p1, p2, bind, Except.bind, PyT.pow, PyT.powDouble]
          rw [PyExpr.toRat_cast]
          simp only [hr]
          rfl
        · rw [a6, b2]
          obtain ⟨-, ⟨-, h6⟩ | ⟨-, h6⟩ | ⟨z, rfl, -, h6⟩⟩ := h5
          · exact .inl (pos_of ha hy h6.2.2.2)
          · exact .inl (pos_of ha hy h6.2.2.2.2)
          · exact .inr ⟨z, by simp [PyNum.val], powDom_of_safe ha hy h6⟩
    · exact hs.elim

/-- Equality is only used between numbers. -/
def NumericEq (c : Cmp) (a b : PyT) : Prop := c = .eq → (∃ n, a = .num n) ∧ ∃ n, b = .num n

theorem Cmp.pyT_num {c : Cmp} {r1 r2 : PyT} {b : Bool} (hT : NumericEq c r1 r2) (h : c.pyT r1 r2 = .ok b) : ∃ n1 n2, r1 = .num n1 ∧ r2 = .num n2 := by
  cases c with
  | eq => obtain ⟨⟨n1, h1⟩, n2, h2⟩ := hT rfl; exact ⟨n1, n2, h1, h2⟩
  | lt => cases r1 <;> cases r2 <;> first | exact ⟨_, _, rfl, rfl⟩ | cases h
  | gt => cases r1 <;> cases r2 <;> first | exact ⟨_, _, rfl, rfl⟩ | cases h

theorem Cmp.pyT_val {c : Cmp} {n1 n2 n1' n2' : PyNum} (h1 : n1.val = n1'.val) (h2 : n2.val = n2'.val) : c.pyT (.num n1) (.num n2) = c.pyT (.num n1') (.num n2') := by
  cases c <;> simp only [Cmp.pyT, PyT.lt, PyT.eq, h1, h2]

/-- A run on Taylor models, and the runs of the same program on numbers. -/
theorem PyTProg.run_rel (hord : ∀ l, (ord l).Perm l) (hf : Faithful ord vs) (h1 : 1 ≤ m) (hm : m ≤ 31) (hv : ∀ s, InItv (D s) (v s)) (hR : ∀ s, InItv (R s) 0)
    {q : PyTProg} {σ σ' : String → PyT} (h : q.RunWith ord (fun σ e => e.Safe ord m σ) NumericEq σ σ') :
    ∀ F, (∀ s, PyTRel ord v D R m vs (F s) (σ s)) → ∃ F', (∀ s, PyTRel ord v D R m vs (F' s) (σ' s)) ∧
      ∀ y, InBox vs D R y → ∀ τ, NumbersAt F y τ → ∃ τ', q.Run ord τ τ' ∧ NumbersAt F' y τ' := by
  have cond : ∀ {σ : String → PyT} {F} {e1 e2 : PyTExpr} {r1 r2 : PyT} {c : Cmp} {b : Bool}, (∀ s, PyTRel ord v D R m vs (F s) (σ s)) → e1.Safe ord m σ → e2.Safe ord m σ →
      NumericEq c r1 r2 → e1.eval ord σ = .ok r1 → e2.eval ord σ = .ok r2 → c.pyT r1 r2 = .ok b → ∀ y, InBox vs D R y → ∀ τ, NumbersAt F y τ →
        ∃ n1 n2, e1.eval ord τ = .ok (.num n1) ∧ e2.eval ord τ = .ok (.num n2) ∧ c.pyT (.num n1) (.num n2) = .ok b := by
    intro σ F e1 e2 r1 r2 c b hσ hs1 hs2 hT he1 he2 hc y hy τ hτ
    obtain ⟨⟨q1, p1, g1⟩, k1⟩ := PyTExpr.eval_rel hord hf h1 hm hv hR hσ e1 hs1
    obtain ⟨⟨q2, p2, g2⟩, k2⟩ := PyTExpr.eval_rel hord hf h1 hm hv hR hσ e2 hs2
    rw [he1] at p1; injection p1 with p1; subst p1
    rw [he2] at p2; injection p2 with p2; subst p2
    obtain ⟨n1, n2, rfl, rfl⟩ := Cmp.pyT_num hT hc
    obtain ⟨n1', a1, a2⟩ := k1 y hy τ hτ
    obtain ⟨n2', b1, b2⟩ := k2 y hy τ hτ
    refine ⟨n1', n2', a1, b1, ?_⟩
    rw [← hc]
    rcases g1 with ⟨_, e, g1⟩ | ⟨_, _, e, -⟩
    swap
    · cases e
    rcases g2 with ⟨_, e', g2⟩ | ⟨_, _, e', -⟩
    swap
    · cases e'
    injection e with e
    injection e' with e'
    subst e e'
    exact Cmp.pyT_val (a2.trans (g1 y)) (b2.trans (g2 y))
  induction h with
  | skip σ => exact fun F hF => ⟨F, hF, fun y _ τ hτ => ⟨τ, .skip τ, hτ⟩⟩
  | assign σ x e r hs he =>
    intro F hF
    obtain ⟨⟨r', p, g⟩, k⟩ := PyTExpr.eval_rel hord hf h1 hm hv hR hF e hs
    rw [he] at p; injection p with p; subst p
    refine ⟨Function.update F x fun y => e.sem fun s => F s y, fun s => ?_, fun y hy τ hτ => ?_⟩
    · by_cases hx : s = x
      · subst hx; rw [Function.update_self, Function.update_self]; exact g
      · rw [Function.update_of_ne hx, Function.update_of_ne hx]; exact hF s
    · obtain ⟨n, a1, a2⟩ := k y hy τ hτ
      refine ⟨_, .assign τ x e _ a1, fun s => ?_⟩
      by_cases hx : s = x
      · subst hx; rw [Function.update_self, Function.update_self]; exact ⟨n, rfl, a2⟩
      · rw [Function.update_of_ne hx, Function.update_of_ne hx]; exact hτ s
  | seq σ σ' σ'' p q _ _ ih1 ih2 =>
    intro F hF
    obtain ⟨F1, a1, a2⟩ := ih1 F hF
    obtain ⟨F2, b1, b2⟩ := ih2 F1 a1
    refine ⟨F2, b1, fun y hy τ hτ => ?_⟩
    obtain ⟨τ1, c1, c2⟩ := a2 y hy τ hτ
    obtain ⟨τ2, d1, d2⟩ := b2 y hy τ1 c2
    exact ⟨τ2, .seq _ _ _ _ _ c1 d1, d2⟩
  | iteT σ σ' c e1 e2 p q r1 r2 hs1 hs2 hT he1 he2 hc _ ih =>
    intro F hF
    obtain ⟨F1, a1, a2⟩ := ih F hF
    refine ⟨F1, a1, fun y hy τ hτ => ?_⟩
    obtain ⟨n1, n2, d1, d2, d3⟩ := cond hF hs1 hs2 hT he1 he2 hc y hy τ hτ
    obtain ⟨τ1, c1, c2⟩ := a2 y hy τ hτ
    exact ⟨τ1, .iteT _ _ _ _ _ _ _ _ _ d1 d2 d3 c1, c2⟩
  | iteF σ σ' c e1 e2 p q r1 r2 hs1 hs2 hT he1 he2 hc _ ih =>
    intro F hF
    obtain ⟨F1, a1, a2⟩ := ih F hF
    refine ⟨F1, a1, fun y hy τ hτ => ?_⟩
    obtain ⟨n1, n2, d1, d2, d3⟩ := cond hF hs1 hs2 hT he1 he2 hc y hy τ hτ
    obtain ⟨τ1, c1, c2⟩ := a2 y hy τ hτ
    exact ⟨τ1, .iteF _ _ _ _ _ _ _ _ _ d1 d2 d3 c1, c2⟩
  | loopT σ σ' σ'' c e1 e2 p r1 r2 hs1 hs2 hT he1 he2 hc _ _ ih1 ih2 =>
    intro F hF
    obtain ⟨F1, a1, a2⟩ := ih1 F hF
    obtain ⟨F2, b1, b2⟩ := ih2 F1 a1
    refine ⟨F2, b1, fun y hy τ hτ => ?_⟩
    obtain ⟨n1, n2, d1, d2, d3⟩ := cond hF hs1 hs2 hT he1 he2 hc y hy τ hτ
    obtain ⟨τ1, c1, c2⟩ := a2 y hy τ hτ
    obtain ⟨τ2, f1, f2⟩ := b2 y hy τ1 c2
    exact ⟨τ2, .loopT _ _ _ _ _ _ _ _ _ d1 d2 d3 c1 f1, f2⟩
  | loopF σ c e1 e2 p r1 r2 hs1 hs2 hT he1 he2 hc =>
    intro F hF
    refine ⟨F, hF, fun y hy τ hτ => ?_⟩
    obtain ⟨n1, n2, d1, d2, d3⟩ := cond hF hs1 hs2 hT he1 he2 hc y hy τ hτ
    exact ⟨τ, .loopF _ _ _ _ _ _ _ d1 d2 d3, hτ⟩

theorem PyTProg.RunWith.run {S : (String → PyT) → PyTExpr → Prop} {T : Cmp → PyT → PyT → Prop} {q : PyTProg} {σ σ' : String → PyT} (h : q.RunWith ord S T σ σ') : q.Run ord σ σ' := by
  induction h with
  | skip σ => exact .skip σ
  | assign σ x e r _ he => exact .assign σ x e r he
  | seq _ _ _ _ _ _ _ ih1 ih2 => exact .seq _ _ _ _ _ ih1 ih2
  | iteT _ _ _ _ _ _ _ _ _ _ _ _ h1 h2 h3 _ ih => exact .iteT _ _ _ _ _ _ _ _ _ h1 h2 h3 ih
  | iteF _ _ _ _ _ _ _ _ _ _ _ _ h1 h2 h3 _ ih => exact .iteF _ _ _ _ _ _ _ _ _ h1 h2 h3 ih
  | loopT _ _ _ _ _ _ _ _ _ _ _ _ h1 h2 h3 _ _ ih1 ih2 => exact .loopT _ _ _ _ _ _ _ _ _ h1 h2 h3 ih1 ih2
  | loopF _ _ _ _ _ _ _ _ _ _ h1 h2 h3 => exact .loopF _ _ _ _ _ _ _ h1 h2 h3

/-- A program ends in one way only. -/
theorem PyTProg.Run.unique {q : PyTProg} {σ σ' : String → PyT} (h : q.Run ord σ σ') : ∀ τ, q.Run ord σ τ → τ = σ' := by
  have two : ∀ {σ : String → PyT} {e1 e2 : PyTExpr} {c : Cmp} {r1 r2 r1' r2' : PyT} {b b' : Bool}, e1.eval ord σ = .ok r1 → e2.eval ord σ = .ok r2 → c.pyT r1 r2 = .ok b →
      e1.eval ord σ = .ok r1' → e2.eval ord σ = .ok r2' → c.pyT r1' r2' = .ok b' → b = b' := by
    intro σ e1 e2 c r1 r2 r1' r2' b b' h1 h2 h3 h4 h5 h6
    rw [h1] at h4; injection h4 with h4; subst h4
    rw [h2] at h5; injection h5 with h5; subst h5
    rw [h3] at h6; injection h6
  induction h with
  | skip σ => intro τ h; cases h; rfl
  | assign σ x e r he =>
    intro τ h
    cases h with
    | assign _ _ _ r' he' => rw [he] at he'; injection he' with he'; rw [he']
  | seq _ _ _ _ _ _ _ ih1 ih2 =>
    intro τ h
    cases h with
    | seq _ _ _ _ _ a b => rw [ih1 _ a] at b; exact ih2 _ b
  | iteT _ _ _ _ _ _ _ _ _ h1 h2 h3 _ ih =>
    intro τ h
    cases h with
    | iteT _ _ _ _ _ _ _ _ _ k1 k2 k3 k => exact ih _ k
    | iteF _ _ _ _ _ _ _ _ _ k1 k2 k3 k => exact absurd (two h1 h2 h3 k1 k2 k3) (by simp)
  | iteF _ _ _ _ _ _ _ _ _ h1 h2 h3 _ ih =>
    intro τ h
    cases h with
    | iteT _ _ _ _ _ _ _ _ _ k1 k2 k3 k => exact absurd (two h1 h2 h3 k1 k2 k3) (by simp)
    | iteF _ _ _ _ _ _ _ _ _ k1 k2 k3 k => exact ih _ k
  | loopT _ _ _ _ _ _ _ _ _ h1 h2 h3 _ _ ih1 ih2 =>
    intro τ h
    cases h with
    | loopT _ _ _ _ _ _ _ _ _ k1 k2 k3 a b => rw [ih1 _ a] at b; exact ih2 _ b
    | loopF _ _ _ _ _ _ _ k1 k2 k3 => exact absurd (two h1 h2 h3 k1 k2 k3) (by simp)
  | loopF _ _ _ _ _ _ _ h1 h2 h3 =>
    intro τ h
    cases h with
    | loopT _ _ _ _ _ _ _ _ _ k1 k2 k3 a b => exact absurd (two h1 h2 h3 k1 k2 k3) (by simp)
    | loopF _ _ _ _ _ _ _ k1 k2 k3 => rfl

end Audi
