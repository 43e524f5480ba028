import Verif.Props.C54_TaylorPowers
import Verif.Props.C55_TaylorInverse
import Verif.Props.C52_TaylorDivision
import Verif.Props.C64_TaylorExpressions

/-!
# C66: expressions of Taylor models enclose over the whole domain

The enclosure theorems of C48-C55 put together: for expressions in which each operation meets the conditions under which it is proved sound.
-/

namespace Audi

open TM MvPolynomial Spec GDual

/-- The conditions under which `asin` is proved sound (C55). -/
def SafeAsin (a : TM ℝ) : Prop :=
  1 ≤ a.order ∧ a.order ≤ 17 ∧ DegLE 1 (a.tpol.toMv () : MvPolynomial String ℝ) ∧ a.rem = ⟨0, 0⟩ ∧ a.polyAt a.expPoint = 0 ∧
    Clear a.order (a.tpol.toMv () : MvPolynomial String ℝ) (a.tpol.toMv ()) ∧ ∃ R : String → ℝ, (∀ s, 0 ≤ R s) ∧
      (∀ s, ∀ e ∈ a.dom, e.1 = varName s → ∀ f ∈ a.exp, f.1 = varName s → |e.2.lo - f.2| ≤ R s ∧ |e.2.hi - f.2| ≤ R s) ∧
      absVal R (a.tpol.toMv () : MvPolynomial String ℝ) < 1

/-- The conditions under which the power with the integer exponent `z` is proved sound (C54). -/
def SafePow (z : ℤ) (a : TM ℝ) : Prop :=
  1 ≤ a.order ∧
    (1 ≤ z ∧ (a.tpol.toMv () : MvPolynomial String ℝ) ≠ 0 ∧ (∀ i, 1 ≤ i → i < z.toNat → ∀ Q : MvPolynomial String ℝ,
      DegLE a.order Q → EqUpTo a.order Q (a.tpol.toMv () ^ i) → Clear a.order Q (a.tpol.toMv ())) ∨
    z ≤ -1 ∧ -2147483648 < z ∧ a.rem = ⟨0, 0⟩ ∧ DegLE 1 (a.tpol.toMv () : MvPolynomial String ℝ) ∧ (∀ x, a.InDom x → a.polyAt x ≠ 0) ∧
      ∀ I : MvPolynomial String ℝ, DegLE a.order I → EqUpTo a.order (I * a.tpol.toMv ()) 1 →
        ∀ i, 1 ≤ i → i < (-z).toNat → ∀ Q : MvPolynomial String ℝ, DegLE a.order Q → EqUpTo a.order Q (I ^ i) → Clear a.order Q I)

/-- The conditions under which the square root is proved sound (C54). -/
def SafeSqrt (a : TM ℝ) : Prop :=
  SimpleArg a ∧ a.order ≤ 17 ∧ 0 < a.polyAt a.expPoint ∧ ∀ x, a.InDom x → ∀ y, a.Allows x y → 0 < y

/-- The conditions under which the power with exponent -1/2 is proved sound (C54). -/
def SafeInvSqrt (a : TM ℝ) : Prop :=
  DegLE 1 (a.tpol.toMv () : MvPolynomial String ℝ) ∧ a.rem = ⟨0, 0⟩ ∧ a.order ≤ 16 ∧ 0 < a.polyAt a.expPoint ∧ ∀ x, a.InDom x → ∀ y, a.Allows x y → 0 < y

/-- The conditions under which a function of the Taylor model `a` is proved sound (C49, C53, C54, C55). -/
def Fn.SafeArg : Fn → TM ℝ → Prop
  | exp, a => SimpleArg a
  | sin, a => SimpleArg a
  | cos, a => SimpleArg a
  | sinh, a => SimpleArg a
  | cosh, a => SimpleArg a
  | log, a => SimpleArg a ∧ 0 < a.polyAt a.expPoint ∧ ∀ x, a.InDom x → ∀ y, a.Allows x y → 0 < y
  | sqrt, a => SafeSqrt a
  | atan, a => 1 ≤ a.order ∧ DegLE 1 (a.tpol.toMv () : MvPolynomial String ℝ) ∧ a.rem = ⟨0, 0⟩ ∧ a.polyAt a.expPoint = 0 ∧
      (a.tpol.toMv () : MvPolynomial String ℝ) ≠ 0
  | asin, a => SafeAsin a
  | acos, a => SafeAsin a ∧ ∀ x, a.InDom x → a.InDom fun v => 2 * a.expPoint v - x v
  | neg, a => a.rem.lo = -a.rem.hi
  | powInt z, a => SafePow z a
  | powQ α, a => 1 ≤ a.order ∧ (α = 1 / 2 ∧ SafeSqrt a ∨ α = -(1 / 2) ∧ SafeInvSqrt a ∨ ∃ z : ℤ, α = z ∧ z < 2147483648 ∧ SafePow z a)
  | _, _ => False

/-- The conditions under which a product or quotient of Taylor models is proved sound (C50, C52). Sums and differences need none. -/
def Op.SafeArgs : Op → TM ℝ → TM ℝ → Prop
  | mul, a, b => 1 ≤ a.order + b.order ∧ (b.tpol.toMv () : MvPolynomial String ℝ) ≠ 0 ∧
      Clear (max a.order b.order) (a.tpol.toMv () : MvPolynomial String ℝ) (b.tpol.toMv ())
  | div, a, b => 1 ≤ a.order + b.order ∧ b.rem = ⟨0, 0⟩ ∧ DegLE 1 (b.tpol.toMv () : MvPolynomial String ℝ) ∧ (∀ x, b.InDom x → b.polyAt x ≠ 0) ∧
      (a.tpol.toMv () : MvPolynomial String ℝ) ≠ 0 ∧ ∀ I : MvPolynomial String ℝ, DegLE b.order I → EqUpTo b.order (I * b.tpol.toMv ()) 1 →
        Clear (max a.order b.order) (a.tpol.toMv ()) I
  | _, _, _ => True

/-- The same with a number on the left. -/
def Op.SafeL : Op → ℝ → TM ℝ → Prop
  | sub, _, a => a.rem.lo = -a.rem.hi
  | div, c, a => 0 ≤ c ∧ c ≤ 1 ∧ a.rem = ⟨0, 0⟩ ∧ DegLE 1 (a.tpol.toMv () : MvPolynomial String ℝ) ∧ ∀ x, a.InDom x → a.polyAt x ≠ 0
  | _, _, _ => True

/-- The same with a number on the right. -/
def Op.SafeR : Op → ℝ → Prop
  | div, c => c ≠ 0
  | _, _ => True

/-- The variables of the expression are among `vs`. -/
def Expr.Over (vs : List String) : Expr ℝ → Prop
  | var s => s ∈ vs
  | const _ => True
  | bin _ e1 e2 => e1.Over vs ∧ e2.Over vs
  | left _ _ e => e.Over vs
  | right _ e _ => e.Over vs
  | fn _ e => e.Over vs
  | pow e1 e2 => e1.Over vs ∧ e2.Over vs

/-- Each operation of the expression meets its conditions when it is applied. -/
def Expr.Safe (ord : List String → List String) (v : String → ℝ) (D R : String → Itv ℝ) (m : ℕ) : Expr ℝ → Prop
  | var _ => True
  | const _ => True
  | bin op e1 e2 => e1.Safe ord v D R m ∧ e2.Safe ord v D R m ∧ ∀ a b, e1.runTM ord v D R m = .ok a → e2.runTM ord v D R m = .ok b → op.SafeArgs a b
  | left op c e => e.Safe ord v D R m ∧ ∀ a, e.runTM ord v D R m = .ok a → op.SafeL c a
  | right op e c => e.Safe ord v D R m ∧ op.SafeR c
  | fn f e => e.Safe ord v D R m ∧ ∀ a, e.runTM ord v D R m = .ok a → f.SafeArg a
  | pow _ _ => False

namespace TM

variable {ord : List String → List String} {v : String → ℝ} {D R : String → Itv ℝ} {m : ℕ} {vs : List String}

/-- Over the box `D`, whatever the values `y` of the variables within their remainders, `t` allows the value of `G`. -/
def EnclosesAll (vs : List String) (D R : String → Itv ℝ) (G : (String → ℝ) → ℝ) (t : TM ℝ) : Prop :=
  t.WF ∧ ∀ x : String → ℝ, (∀ s ∈ vs, InItv (D s) (x s)) → t.InDom x ∧
    ∀ y : String → ℝ, (∀ s ∈ vs, InItv (R s) (y s - x s)) → t.Allows x (G y)

variable {G H : (String → ℝ) → ℝ} {a b : TM ℝ}

theorem EnclosesAll.names (hv : ∀ s ∈ vs, InItv (D s) (v s)) (h : EnclosesAll vs D R G a) : a.tpol.p.syms.map varName ⊆ vs := by
  intro w hw
  by_contra hn
  obtain ⟨J, _, h1, -, -⟩ := h.1.lookup hw
  have := (h.2 (Function.update v w (J.hi + 1)) fun s hs => by rw [Function.update_of_ne (by rintro rfl; exact hn hs)]; exact hv s hs).1
  have := (this _ (VMap.mem_of_lookup h1)).2
  rw [Function.update_self] at this
  linarith

theorem EnclosesAll.step (h : EnclosesAll vs D R G a) {o : Res (TM ℝ)} {f : ℝ → ℝ} (ho : Sound₁ a o fun y z => z = f y) :
    ∃ r, o = .ok r ∧ EnclosesAll vs D R (fun y => f (G y)) r := by
  obtain ⟨r, r1, r2, -, r3, r4⟩ := ho
  exact ⟨r, r1, r2, fun x hx => ⟨(r3 x).2 (h.2 x hx).1, fun y hy => r4 x (h.2 x hx).1 _ _ ((h.2 x hx).2 y hy) rfl⟩⟩

theorem EnclosesAll.stepOn (h : EnclosesAll vs D R G a) {o : Res (TM ℝ)} {f : ℝ → ℝ} (ho : SoundOn a o f) :
    ∃ r, o = .ok r ∧ EnclosesAll vs D R (fun y => f (G y)) r := by
  obtain ⟨r, r1, r2, -, r3, r4⟩ := ho
  exact ⟨r, r1, r2, fun x hx => ⟨r3 x (h.2 x hx).1, fun y hy => r4 x (h.2 x hx).1 _ ((h.2 x hx).2 y hy)⟩⟩

theorem EnclosesAll.step₂ (h : EnclosesAll vs D R G a) (h' : EnclosesAll vs D R H b) {o : Res (TM ℝ)} {f : ℝ → ℝ → ℝ} (ho : Sound₂ a b o f) :
    ∃ r, o = .ok r ∧ EnclosesAll vs D R (fun y => f (G y) (H y)) r := by
  obtain ⟨r, r1, r2, -, r3, r4⟩ := ho
  exact ⟨r, r1, r2, fun x hx => ⟨r3 x (h.2 x hx).1 (h'.2 x hx).1,
    fun y hy => r4 x (h.2 x hx).1 (h'.2 x hx).1 _ _ ((h.2 x hx).2 y hy) ((h'.2 x hx).2 y hy)⟩⟩

theorem var_run {s : String} {r : TM ℝ} (h : (Expr.var s : Expr ℝ).runTM ord v D R m = .ok r) :
    ∃ g, GDual.mk3 (v s) s m = .ok g ∧ r = ⟨g, g.getOrder, g.symbolSetSize, R s, [(s, v s)], [(s, D s)]⟩ := by
  rw [Expr.runTM] at h
  obtain ⟨g, g1, h⟩ := bind_ok_iff.1 h
  unfold make at h
  obtain ⟨_, -, h⟩ := bind_ok_iff.1 h
  injection h with h
  exact ⟨g, g1, h.symm⟩

theorem powHalf_prologue (a : TM ℝ) (eps : ℚ) : powT ord eps a (1 / 2) = powHalf ord a := by
  unfold powT
  rw [if_pos rfl]
  unfold powHalf
  cases prologue ord a <;> rfl

theorem powT_int {r : ℝ × Itv ℝ × ℕ} (hp : prologue ord a = .ok r) {z : ℤ} (h1 : -2147483648 ≤ z) (h2 : z < 2147483648) {eps : ℚ} (he : 0 < eps) :
    powT ord eps a z = powInt ord a z := by
  have hh : ∀ k : ℤ, 2 * z ≠ k → (z : ℚ) ≠ k / 2 := fun k hk h => hk (by
    have : ((2 * z : ℤ) : ℚ) = k := by push_cast; rw [h]; ring
    exact_mod_cast this)
  have n1 : (z : ℚ) ≠ 1 / 2 := by simpa using hh 1 (by omega)
  have n2 : (z : ℚ) ≠ -(1 / 2) := by
    have := hh (-1) (by omega)
    norm_num at this ⊢
    exact this
  unfold powT
  rw [bind_ok hp, if_neg n1, if_neg n2, roundQ_int, sub_self, abs_zero, if_pos (by positivity)]
  have ht : truncQ (z : ℚ) = .ok z := by
    unfold truncQ
    simp only [Int.floor_intCast, Int.ceil_intCast, ite_self]
    rw [if_pos (by norm_num; exact ⟨h1, h2⟩)]
  rw [bind_ok ht]

theorem rpow_minus_half (y : ℝ) : 1 / √y = y ^ ((-(1 / 2) : ℚ) : ℝ) := by
  push_cast
  rcases lt_or_ge y 0 with h | h
  · rw [Real.sqrt_eq_zero_of_nonpos h.le, Real.rpow_def_of_neg h]
    have : -(1 / 2 : ℝ) * Real.pi = -(Real.pi / 2) := by ring
    rw [this, Real.cos_neg, Real.cos_pi_div_two]
    simp
  · rw [Real.rpow_neg h, Real.sqrt_eq_rpow, one_div]

/-- Powers with integer exponents. -/
theorem EnclosesAll.pow (h : EnclosesAll vs D R G a) (ho2 : 2 * a.order ≤ 62) (ho : Faithful ord (a.tpol.p.syms.map varName)) {z : ℤ} (hs : SafePow z a) :
    ∃ r, powInt ord a z = .ok r ∧ EnclosesAll vs D R (fun y => G y ^ z) r := by
  obtain ⟨h1, ⟨h2, h3, h4⟩ | ⟨h2, -, h3, h4, h5, h6⟩⟩ := hs
  · obtain ⟨n, rfl⟩ := Int.eq_ofNat_of_zero_le (by omega : 0 ≤ z)
    obtain ⟨r, r1, r2⟩ := h.stepOn (C54_pow_partial h.1 h1 ho2 ho h3 (n := n) (by omega) h4)
    exact ⟨r, r1, by simpa only [zpow_natCast] using r2⟩
  · obtain ⟨n, hn⟩ := Int.eq_ofNat_of_zero_le (by omega : 0 ≤ -z)
    obtain rfl : z = -(n : ℤ) := by omega
    obtain ⟨r, r1, r2⟩ := h.stepOn (C54_pow_negative_partial h.1 h1 ho2 ho h3 h4 h5 (n := n) (by omega) (by simpa using h6))
    exact ⟨r, r1, by simpa only [zpow_neg, zpow_natCast] using r2⟩

theorem runTM_enclosesAll (hord : ∀ l, (ord l).Perm l) (hf : Faithful ord vs) (h1 : 1 ≤ m) (hm : m ≤ 31) (hv : ∀ s, InItv (D s) (v s)) (hR : ∀ s, InItv (R s) 0) :
    ∀ e : Expr ℝ, e.Legal m → e.Over vs → e.Safe ord v D R m →
      e.Proper ord v D R m ∧ ∃ r, e.runTM ord v D R m = .ok r ∧ EnclosesAll vs D R (e.sem ()) r := by
  have hU : m < UINT_MAX - 10 := by
    have : (31 : ℕ) < UINT_MAX - 10 := by decide
    omega
  have hv' : ∀ s ∈ vs, InItv (D s) (v s) := fun s _ => hv s
  have faith : ∀ {G : (String → ℝ) → ℝ} {a : TM ℝ}, EnclosesAll vs D R G a → Faithful ord (a.tpol.p.syms.map varName) :=
    fun h l n hl => hf l n fun w hw => h.names hv' (hl hw)
  intro e
  induction e with
  | var s =>
    intro hl ho _
    obtain ⟨r, r1, r2, -⟩ := Centred.var_ok (ord := ord) (R := R) hU hl (hv s) (hR s)
    obtain ⟨g, g1, rfl⟩ := var_run r1
    refine ⟨trivial, _, r1, r2.wf, fun x hx => ⟨fun e he => ?_, fun y hy => ?_⟩⟩
    · rw [List.mem_singleton.1 he]
      exact hx s ho
    · have hp : eval (displacement [(s, v s)] x) (g.toMv () : MvPolynomial String ℝ) = x s := by
        rw [GDual.toMv_mk3 (ι := Unit) (K := ℝ) g1, if_neg (by omega), map_add, eval_C, eval_X, displacement, varName_d, List.lookup_cons, beq_self_eq_true]
        change v s + (x s - v s) = x s
        ring
      change InItv (R s) (y s - eval (displacement [(s, v s)] x) (g.toMv () : MvPolynomial String ℝ))
      rw [hp]
      exact hy s ho
  | const c =>
    intro _ _ _
    refine ⟨trivial, _, rfl, (Centred.ofConst (m := m) (E := v) (D := D) c).wf, fun x _ => ⟨fun e he => absurd he List.not_mem_nil, fun y _ => ?_⟩⟩
    have : (ofConst c).polyAt x = c := by
      unfold polyAt ofConst
      rw [GDual.toMv_ofCf, eval_C]
      rfl
    rw [Allows, this]
    change InItv ⟨0, 0⟩ (c - c)
    rw [sub_self]
    exact ⟨le_rfl, le_rfl⟩
  | bin op e1 e2 ih1 ih2 =>
    intro hl ho hs
    obtain ⟨p1, a, a1, a2⟩ := ih1 hl.1 ho.1 hs.1
    obtain ⟨p2, b, b1, b2⟩ := ih2 hl.2 ho.2 hs.2.1
    obtain ⟨-, a3⟩ := runTM_centred hord hm hR e1 hl.1 p1 a a1
    obtain ⟨-, b3⟩ := runTM_centred hord hm hR e2 hl.2 p2 b b1
    have hs' := hs.2.2 a b a1 b1
    have hc := a3.compatible b3
    have ho1 := a3.order_le
    have ho2 := b3.order_le
    have hff : Faithful ord (a.tpol.p.syms.map varName ++ b.tpol.p.syms.map varName) :=
      fun l n hl => hf l n fun w hw => (List.mem_append.1 (hl hw)).elim (fun h => a2.names hv' h) fun h => b2.names hv' h
    have hrun : (Expr.bin op e1 e2).runTM ord v D R m = op.runTM ord a b := by rw [Expr.runTM, bind_ok a1, bind_ok b1]
    have hprop : (1 ≤ a.order ∨ 1 ≤ b.order) → (Expr.bin op e1 e2).Proper ord v D R m := fun h => ⟨p1, p2, fun _ a' b' ha' hb' => by
      rw [a1] at ha'
      rw [b1] at hb'
      injection ha' with ha'
      injection hb' with hb'
      rwa [← ha', ← hb']⟩
    rw [hrun]
    cases op with
    | add => exact ⟨⟨p1, p2, fun h => h.elim⟩, a2.step₂ b2 (C48_add a3.wf b3.wf hc).1⟩
    | sub => exact ⟨⟨p1, p2, fun h => h.elim⟩, a2.step₂ b2 (C48_sub a3.wf b3.wf hc).1⟩
    | mul =>
      obtain ⟨h1, h2, h3, h4⟩ := hs'
      exact ⟨hprop (by omega), a2.step₂ b2 (C50_mul_partial a3.wf b3.wf hc h3 h2 h1 (by omega) hff h4)⟩
    | div =>
      obtain ⟨h1, h2, h3, h4, h5, h6⟩ := hs'
      exact ⟨hprop (by omega), a2.step₂ b2 (C52_quotient_partial a3.wf b3.wf hc h1 (by omega) hff h2 h3 h4 h5 fun I i1 i2 => (h6 I i1 i2).2)⟩
  | left op c e ih =>
    intro hl ho hs
    obtain ⟨p1, a, a1, a2⟩ := ih hl ho hs.1
    obtain ⟨-, a3⟩ := runTM_centred hord hm hR e hl p1 a a1
    have hs' := hs.2 a a1
    have ho1 := a3.order_le
    have hrun : (Expr.left op c e).runTM ord v D R m = op.runTML ord c a := by rw [Expr.runTM, bind_ok a1]
    rw [hrun]
    refine ⟨p1, ?_⟩
    cases op with
    | add => exact a2.step (C48_scalar_add a3.wf c)
    | sub => exact a2.step (C49_scalar_sub_partial a3.wf c hs')
    | mul => exact a2.step (C48_scalar_mul a3.wf c)
    | div =>
      obtain ⟨h1, h2, h3, h4, h5⟩ := hs'
      exact a2.step (C52_reciprocal_partial a3.wf (by omega) (faith a2) h3 h4 h5 h1 h2)
  | right op e c ih =>
    intro hl ho hs
    obtain ⟨p1, a, a1, a2⟩ := ih hl ho hs.1
    obtain ⟨-, a3⟩ := runTM_centred hord hm hR e hl p1 a a1
    have hrun : (Expr.right op e c).runTM ord v D R m = op.runTMR a c := by rw [Expr.runTM, bind_ok a1]
    rw [hrun]
    refine ⟨p1, ?_⟩
    cases op with
    | add => exact a2.step (C48_add_scalar a3.wf c)
    | sub => exact a2.step (C48_sub_scalar a3.wf c)
    | mul => exact a2.step (C48_mul_scalar a3.wf c)
    | div => exact a2.step (C48_div_scalar a3.wf hs.2)
  | fn f e ih =>
    intro hl ho hs
    obtain ⟨p1, a, a1, a2⟩ := ih hl.1 ho hs.1
    obtain ⟨-, a3⟩ := runTM_centred hord hm hR e hl.1 p1 a a1
    have hs' := hs.2 a a1
    have ho1 := a3.order_le
    have hrun : (Expr.fn f e).runTM ord v D R m = f.runTM ord a := by rw [Expr.runTM, bind_ok a1]
    have hprop : f.GoodExponent → (f.Multiplies → 1 ≤ a.order) → (Expr.fn f e).Proper ord v D R m := fun h h' => ⟨p1, h, fun hm a' ha' => by
      rw [a1] at ha'
      injection ha' with ha'
      exact ha' ▸ h' hm⟩
    rw [hrun]
    have h62 : a.order ≤ 62 := by omega
    cases f with
    | exp => exact ⟨hprop trivial fun h => h.elim, a2.step (C53_exp_partial a3.wf h62 (faith a2) hs')⟩
    | sin => exact ⟨hprop trivial fun h => h.elim, a2.step (C53_sin_partial a3.wf h62 (faith a2) hs')⟩
    | cos => exact ⟨hprop trivial fun h => h.elim, a2.step (C53_cos_partial a3.wf h62 (faith a2) hs')⟩
    | sinh => exact ⟨hprop trivial fun h => h.elim, a2.step (C53_sinh_partial a3.wf h62 (faith a2) hs')⟩
    | cosh => exact ⟨hprop trivial fun h => h.elim, a2.step (C53_cosh_partial a3.wf h62 (faith a2) hs')⟩
    | log =>
      obtain ⟨h1, h2, h3⟩ := hs'
      exact ⟨hprop trivial fun h => h.elim, a2.step (C53_log_partial a3.wf h62 (faith a2) h1 h2 h3)⟩
    | sqrt =>
      obtain ⟨h1, h2, h3, h4⟩ := hs'
      exact ⟨hprop trivial fun h => h.elim, a2.step (C54_sqrt_partial a3.wf h62 (faith a2) h1 h2 h3 h4)⟩
    | neg => exact ⟨hprop trivial fun h => h.elim, a2.step (C49_neg_partial a3.wf hs')⟩
    | atan =>
      obtain ⟨h1, h2, h3, h4, h5⟩ := hs'
      have h30 : m ≤ 30 := hl.2
      exact ⟨hprop trivial fun _ => h1, a2.step (C55_atan_partial a3.wf h1 (by omega) (faith a2) h2 h3 h4 h5)⟩
    | powInt z =>
      have hz : Fn.GoodExponent (.powInt z) := by
        obtain ⟨-, h | h⟩ := hs'
        · exact ⟨by have := h.1; omega, by have := h.1; omega⟩
        · exact ⟨by have := h.1; omega, h.2.1⟩
      exact ⟨hprop hz fun _ => hs'.1, a2.pow (by omega) (faith a2) hs'⟩
    | tan => exact hs'.elim
    | cbrt => exact hs'.elim
    | tanh => exact hs'.elim
    | asinh => exact hs'.elim
    | acosh => exact hs'.elim
    | atanh => exact hs'.elim
    | asin =>
      obtain ⟨h1, h2, h3, h4, h5, h6, ρ, h7, h8, h9⟩ := hs'
      exact ⟨hprop trivial fun _ => h1, a2.step (C55_asin_partial a3.wf h1 h2 (faith a2) h3 h4 h5 h6 h7 h8 h9)⟩
    | acos =>
      obtain ⟨⟨h1, h2, h3, h4, h5, h6, ρ, h7, h8, h9⟩, h10⟩ := hs'
      exact ⟨hprop trivial fun _ => h1, a2.step (C55_acos_partial a3.wf h1 h2 (faith a2) h3 h4 h5 h6 h7 h8 h9 h10)⟩
    | powQ α =>
      obtain ⟨h1, ⟨rfl, h2, h3, h4, h5⟩ | ⟨rfl, h2, h3, h4, h5, h6⟩ | ⟨z, rfl, h2, h3⟩⟩ := hs'
      · refine ⟨hprop ⟨by norm_num, by norm_num⟩ fun _ => h1, ?_⟩
        obtain ⟨r, r1, r2⟩ := a2.step (C54_sqrt_partial a3.wf h62 (faith a2) h2 h3 h4 h5)
        refine ⟨r, (powHalf_prologue a _).trans r1, ?_⟩
        have : (fun y => e.sem () y ^ ((1 / 2 : ℚ) : ℝ)) = fun y => √(e.sem () y) := by
          funext y
          rw [Real.sqrt_eq_rpow]
          push_cast
          rfl
        exact (congrArg (fun F => EnclosesAll vs D R F r) this).mpr r2
      · refine ⟨hprop ⟨by norm_num, by norm_num⟩ fun _ => h1, ?_⟩
        obtain ⟨r, r1, r2⟩ := a2.step (C54_inverse_sqrt_partial a3.wf h62 (faith a2) h2 h3 h4 h5 h6 (1 / 2 ^ 52))
        refine ⟨r, r1, ?_⟩
        have : (fun y => e.sem () y ^ ((-(1 / 2) : ℚ) : ℝ)) = fun y => 1 / √(e.sem () y) := by
          funext y
          rw [rpow_minus_half]
        exact (congrArg (fun F => EnclosesAll vs D R F r) this).mpr r2
      · have hz : z ≠ 0 ∧ -2147483648 ≤ z := by
          obtain ⟨-, h | h⟩ := h3
          · exact ⟨by have := h.1; omega, by have := h.1; omega⟩
          · exact ⟨by have := h.1; omega, h.2.1.le⟩
        have hd : ((z : ℚ) * 2).den = 1 := by
          have : ((z : ℚ) * 2) = ((z * 2 : ℤ) : ℚ) := by push_cast; rfl
          rw [this]; exact Rat.den_intCast _
        refine ⟨hprop ⟨by exact_mod_cast hz.1, hd⟩ fun _ => h1, ?_⟩
        obtain ⟨r, r1, r2⟩ := a2.pow (by omega) (faith a2) h3
        obtain ⟨c, B, b, e1, -⟩ := prologue_ok a3.wf h62 (faith a2 _ a3.wf.nodup fun _ h => h)
        refine ⟨r, (powT_int e1 hz.2 h2 (by norm_num)).trans r1, ?_⟩
        have : (fun y => e.sem () y ^ (((z : ℤ) : ℚ) : ℝ)) = fun y => e.sem () y ^ z := by
          funext y
          push_cast
          exact Real.rpow_intCast _ _
        exact (congrArg (fun F => EnclosesAll vs D R F r) this).mpr r2
    | powBase q => exact hs'.elim
  | pow e1 e2 => exact fun _ _ h => h.elim

end TM

/-- **C66 (partial).** An expression of Taylor models, evaluated where each operation meets the conditions under which it is sound (`Safe`), returns a Taylor model
that encloses the expression over the whole domain: at every point `x` of the box, for all values `y` of the variables that their Taylor models allow at `x`, the
result allows the value of the expression at `y`. For orders 1 to 31, maps in `get_bounds` traversed in the order of insertion. Missing: operations outside their
conditions, where it is false (counterexamples of C46, C49-C55, C63). -/
theorem C66_enclosure_partial {ord : List String → List String} {v : String → ℝ} {D R : String → Itv ℝ} {m : ℕ} {vs : List String} (hord : ∀ l, (ord l).Perm l)
    (hf : Faithful ord vs) (h1 : 1 ≤ m) (hm : m ≤ 31) (hv : ∀ s, InItv (D s) (v s)) (hR : ∀ s, InItv (R s) 0) {e : Expr ℝ} (hl : e.Legal m) (ho : e.Over vs)
    (hs : e.Safe ord v D R m) :
    ∃ r, e.runTM ord v D R m = .ok r ∧ r.WF ∧ ∀ x : String → ℝ, (∀ s ∈ vs, InItv (D s) (x s)) → r.InDom x ∧
      ∀ y : String → ℝ, (∀ s ∈ vs, InItv (R s) (y s - x s)) → r.Allows x (e.sem () y) :=
  (runTM_enclosesAll hord hf h1 hm hv hR e hl ho hs).2

/-- An expression with a product and functions: `x · sin x + exp x`. -/
def Ex.safe : Expr ℝ := .bin .add (.bin .mul (.var "x") (.fn .sin (.var "x"))) (.fn .exp (.var "x"))

/-- All hypotheses hold for it around 0, order 1, domain [-1, 1], remainder {0}. -/
example : ∃ r, Ex.safe.runTM id (fun _ => 0) (fun _ => ⟨-1, 1⟩) (fun _ => ⟨0, 0⟩) 1 = .ok r ∧ r.WF ∧ ∀ x : String → ℝ, (∀ s ∈ ["x"], InItv (⟨-1, 1⟩ : Itv ℝ) (x s)) → r.InDom x ∧
    ∀ y : String → ℝ, (∀ s ∈ ["x"], InItv (⟨0, 0⟩ : Itv ℝ) (y s - x s)) → r.Allows x (Ex.safe.sem () y) := by
  have lx : ∃ c, "x".toList.head? = some c ∧ c ≠ 'd' := ⟨'x', by decide, by decide⟩
  have hx : ∀ a, (Expr.var "x" : Expr ℝ).runTM id (fun _ => 0) (fun _ => ⟨-1, 1⟩) (fun _ => ⟨0, 0⟩) 1 = .ok a → Line a 0 1 ⟨-1, 1⟩ ∧ a.rem = ⟨0, 0⟩ := fun a ha => by
    obtain ⟨c1, c2⟩ := Centred.var (m := 1) (by decide) lx ⟨le_rfl, le_rfl⟩ ha
    obtain ⟨g, g1, rfl⟩ := var_run ha
    refine ⟨⟨c1.wf, c2, ?_, by simp, by simp, ?_⟩, rfl⟩
    · rw [GDual.syms_mk3 g1]
      intro s hs
      exact List.mem_singleton.1 hs
    · rw [GDual.toMv_mk3 (ι := Unit) (K := ℝ) g1]
      rfl
  have simple : ∀ {a : TM ℝ}, Line a 0 1 ⟨-1, 1⟩ ∧ a.rem = ⟨0, 0⟩ → SimpleArg a := fun h => .inr ⟨h.1.lin, h.2⟩
  refine C66_enclosure_partial (ord := id) (fun _ => .refl _) (fun _ _ _ => rfl) le_rfl (by norm_num) (fun _ => by norm_num [InItv]) (fun _ => ⟨le_rfl, le_rfl⟩)
    ⟨⟨lx, lx, trivial⟩, lx, trivial⟩ ⟨⟨by simp [Expr.Over], by simp [Expr.Over]⟩, by simp [Expr.Over]⟩ ?_
  refine ⟨⟨trivial, ⟨trivial, fun a ha => simple (hx a ha)⟩, fun a b ha hb => ?_⟩, ⟨trivial, fun a ha => simple (hx a ha)⟩, fun _ _ _ _ => trivial⟩
  have l1 := (hx a ha).1
  have l2 : Line b 0 1 ⟨-1, 1⟩ := by
    rw [Expr.runTM, bind_ok ha] at hb
    obtain ⟨t, _, t1, t2, -⟩ := l1.trig (hx a ha).2 (by norm_num [InItv]) (cond := sinCond) derivs_sin (fn := GDual.sin) (by simpa using GDual.computes_sin)
      (fun d r hd h => GDual.HasSyms.sin hd (d := d) rfl h)
    replace hb : TM.trig GDual.sin sinCond id a = .ok b := hb
    rw [t1] at hb
    injection hb with hb
    subst hb
    simpa using t2
  have hn : ∀ {t : TM ℝ}, Line t 0 1 ⟨-1, 1⟩ → (t.tpol.toMv () : MvPolynomial String ℝ) ≠ 0 := fun h h0 => by
    have := h.coeff_one
    rw [h0, MvPolynomial.coeff_zero] at this
    exact one_ne_zero this.symm
  refine ⟨by rw [l1.order]; omega, hn l2, hn l1, .inl ⟨Finsupp.single "dx" 1 + Finsupp.single "dx" 1, by simp [l1.order, l2.order], ?_⟩⟩
  rw [l1.poly, l2.poly, monomial_zero', map_zero, zero_add, monomial_mul, coeff_monomial, if_pos rfl]
  norm_num

end Audi
