import Verif.Props.C99_Powers

/-!
# C99: values of all programs

The constant coefficients are, bit for bit, what the program computes on numbers with the formulas of Spec/NumFormulas.lean.
-/

namespace Audi
open GDual Prog

variable {F : XFormat} [XLibm F]

theorem Expr.Steps.fin {s : String → XF F} {e : Expr (XF F)} (h : e.Steps s) : (e.formula s).Fin := by
  cases e with
  | var x => exact h
  | const c => exact h
  | bin op e1 e2 => exact h.2.2.2
  | left op c e => exact h.2.2.2
  | right op e c => exact h.2.2.2
  | fn f e => exact h.2.2
  | pow e1 e2 => exact h.2.2.2.2

theorem Op.run_formula {op : Op} {a b : GDual (XF F)} {x y : XF F} (ha : Cst False a x) (hb : Cst False b y) (hx : x.Fin) (hy : y.Fin) (hs : op.Steps x y) :
    ∃ r, op.run a b = .ok r ∧ Cst False r (op.formula x y) := by
  cases op with
  | add => exact Op.run_cst (op := .add) trivial ha hb hx hy
  | sub => exact Op.run_cst (op := .sub) trivial ha hb hx hy
  | mul => exact Op.run_cst (op := .mul) trivial ha hb hx hy
  | div =>
    obtain ⟨p, hp⟩ := hx
    obtain ⟨q, hq⟩ := hs
    obtain ⟨r, h1, h2⟩ := ha.div hb (Or.inr hy)
    rw [cmul_fin hp hq] at h2
    exact ⟨r, h1, h2⟩

theorem Fn.run_formula {f : Fn} (hf : f.HasFormula) {a : GDual (XF F)} {x : XF F} (ha : Cst False a x) (hx : x.Fin) (hs : f.Steps x) :
    ∃ r, f.run a = .ok r ∧ Cst False r (f.formula x) := by
  cases f with
  | asinh =>
    obtain ⟨p, hp⟩ := hx
    obtain ⟨⟨r, hr⟩, t, ht⟩ := hs
    exact (Cst.inverse ha hp).1 r t hr ht
  | acosh =>
    obtain ⟨p, hp⟩ := hx
    obtain ⟨⟨r, hr⟩, t, ht⟩ := hs
    exact (Cst.inverse ha hp).2.1 r t hr ht
  | asin =>
    obtain ⟨p, hp⟩ := hx
    obtain ⟨⟨r, hr⟩, ⟨t, ht⟩, ⟨u, hu⟩, w, hw⟩ := hs
    exact ((Cst.inverse ha hp).2.2 r t u w hr ht hu hw).1
  | acos =>
    obtain ⟨p, hp⟩ := hx
    obtain ⟨⟨r, hr⟩, ⟨t, ht⟩, ⟨u, hu⟩, w, hw⟩ := hs
    exact ((Cst.inverse ha hp).2.2 r t u w hr ht hu hw).2
  | powBase b => exact hf.elim
  | powInt z =>
    have hz := abs_lt.mp hf
    obtain ⟨h1, h2, h3⟩ := hs
    rcases lt_trichotomy z 0 with h | h | h
    · obtain ⟨k, rfl⟩ : ∃ k : ℕ, z = -(k + 1 : ℕ) := ⟨(-z).toNat - 1, by omega⟩
      obtain ⟨d, h4, h5⟩ := (ha.powers hx).2.2.1 k (by omega) (h2 h) fun j hj => h3 j (by omega)
      refine ⟨d, h4, ?_⟩
      simp only [Fn.formula]
      rw [if_neg (by omega), if_neg (by omega), show ((- -((k + 1 : ℕ) : ℤ)).toNat - 1) = k by omega]
      exact h5
    · subst h
      exact (ha.powers hx).2.1
    · obtain ⟨k, rfl⟩ : ∃ k : ℕ, z = (k + 1 : ℕ) := ⟨z.toNat - 1, by omega⟩
      obtain ⟨d, h4, h5⟩ := ((ha.powers hx).1 k (by omega) fun j hj => h1 j (by omega)).1
      refine ⟨d, h4, ?_⟩
      simp only [Fn.formula]
      rw [if_neg (by omega), if_pos (by omega), show (((k + 1 : ℕ) : ℤ).toNat - 1) = k by omega]
      exact h5
  | powQ α =>
    by_cases h : α.den = 1 ∧ α > 0
    · have hn : (α.num : ℚ) = α := by
        conv_rhs => rw [← Rat.num_div_den α, h.1]
        simp
      have hpos : 0 < α.num := Rat.num_pos.mpr h.2
      have hlt : α.num < 2147483648 := by
        have := (abs_lt.mp hf).2
        rw [← hn] at this
        exact_mod_cast this
      obtain ⟨k, hk⟩ : ∃ k : ℕ, α.num = (k + 1 : ℕ) := ⟨α.num.toNat - 1, by omega⟩
      obtain ⟨d, h4, h5⟩ := ((ha.powers hx).1 k (by omega) fun j hj => hs h.1 j (by omega)).2
      refine ⟨d, ?_, ?_⟩
      · change a.powQ α = _
        rw [← h4, ← hn, hk]; simp
      · simp only [Fn.formula]
        rw [if_pos h, hk, show (((k + 1 : ℕ) : ℤ).toNat - 1) = k by omega]
        exact h5
    · have := Fn.run_cst (f := .powQ α) ⟨hf, h⟩ ha hx
      simp only [Fn.formula]
      rw [if_neg h]
      exact this
  | _ => refine Fn.run_cst ?_ ha hx; trivial

theorem Expr.eval_formula {e : Expr (XF F)} (he : e.HasFormula) {s : String → XF F} {σ : String → GDual (XF F)} (hσ : ∀ x, Cst False (σ x) (s x)) (hf : e.Steps s) :
    ∃ r, e.eval σ = .ok r ∧ Cst False r (e.formula s) := by
  induction e with
  | var x => exact ⟨_, rfl, hσ x⟩
  | const c => exact ⟨_, rfl, Cst.ofCf c⟩
  | bin op e1 e2 ih1 ih2 =>
    obtain ⟨r1, h1, h2⟩ := ih1 he.1 hf.1
    obtain ⟨r2, h3, h4⟩ := ih2 he.2 hf.2.1
    obtain ⟨r, h5, h6⟩ := Op.run_formula h2 h4 hf.1.fin hf.2.1.fin hf.2.2.1
    exact ⟨r, by rw [Expr.eval, h1, res_bind, h3, res_bind, h5], h6⟩
  | left op c e ih =>
    obtain ⟨r1, h1, h2⟩ := ih he hf.2.1
    obtain ⟨p, hp⟩ := hf.1
    obtain ⟨q, hq⟩ := hf.2.1.fin
    have hs := hf.2.2.1
    rw [Expr.eval, h1, res_bind]
    cases op with
    | add => exact ⟨_, rfl, h2.addSG c⟩
    | sub => exact ⟨_, rfl, h2.subSG c⟩
    | mul =>
      have := h2.mulSG c
      rw [cmul_fin hp hq] at this
      exact ⟨_, rfl, this⟩
    | div =>
      obtain ⟨t, ht⟩ := hs
      obtain ⟨r, h3, h4⟩ := h2.divSG (P := False) c (Or.inr ⟨q, hq⟩)
      rw [cmul_fin hp ht] at h4
      exact ⟨r, h3, h4⟩
  | right op e c ih =>
    obtain ⟨r1, h1, h2⟩ := ih he hf.1
    obtain ⟨p, hp⟩ := hf.2.1
    obtain ⟨q, hq⟩ := hf.1.fin
    have hs := hf.2.2.1
    rw [Expr.eval, h1, res_bind]
    cases op with
    | add =>
      have := h2.addGS c
      rw [XF.add_comm] at this
      exact ⟨_, rfl, this⟩
    | sub => exact ⟨_, rfl, h2.subGS c⟩
    | mul =>
      have := h2.mulGS c
      rw [cmul_fin hq hp] at this
      exact ⟨_, rfl, this⟩
    | div =>
      obtain ⟨t, ht⟩ := hs
      obtain ⟨r, h3, h4⟩ := h2.divGS c
      rw [cmul_fin hq ht] at h4
      exact ⟨r, h3, h4⟩
  | fn f e ih =>
    obtain ⟨r1, h1, h2⟩ := ih he.2 hf.1
    obtain ⟨r, h3, h4⟩ := Fn.run_formula he.1 h2 hf.1.fin hf.2.1
    exact ⟨r, by rw [Expr.eval, h1, res_bind, h3], h4⟩
  | pow e1 e2 ih1 ih2 =>
    obtain ⟨r1, h1, h2⟩ := ih1 he.1 hf.1
    obtain ⟨r2, h3, h4⟩ := ih2 he.2 hf.2.1
    obtain ⟨r, h5, h6⟩ := (h2.powers hf.1.fin).2.2.2 r2 _ h4 hf.2.1.fin hf.2.2.1 hf.2.2.2.1
    exact ⟨r, by rw [Expr.eval, h1, res_bind, h3, res_bind, h5], h6⟩

/-- **C99** A program with branches and loops, with all operators and functions (except `==` and `pow` of a number with a gdual as the exponent, for which see `C99_base`), run on gduals, follows the
path that it takes on numbers with the formulas of the library, and ends with the same values, bit for bit, as long as the values are numbers. -/
theorem C99_formulas {p : Prog (XF F)} (hp : p.HasFormula) {s s' : String → XF F} (h : FRun p s s') {σ : String → GDual (XF F)} (hσ : Agree σ s) :
    ∃ σ', Run p σ σ' ∧ Agree σ' s' := by
  induction h generalizing σ with
  | skip s => exact ⟨σ, .skip σ, hσ⟩
  | assign s x e hf =>
    obtain ⟨r, h1, h2⟩ := Expr.eval_formula hp hσ.cst hf
    exact ⟨_, .assign σ x e r h1, hσ.update h2⟩
  | opAssign s op x e hx hf hs =>
    obtain ⟨r, h1, h2⟩ := Expr.eval_formula hp hσ.cst hf
    obtain ⟨r', h3, h4⟩ := Op.run_formula (hσ.cst x) h2 hx hf.fin hs
    exact ⟨_, .opAssign σ op x e r r' h1 h3, hσ.update h4⟩
  | seq s s' s'' p q _ _ ih1 ih2 =>
    obtain ⟨σ', h1, h2⟩ := ih1 hp.1 hσ
    obtain ⟨σ'', h3, h4⟩ := ih2 hp.2 h2
    exact ⟨σ'', .seq σ σ' σ'' p q h1 h3, h4⟩
  | iteT s s' c e1 e2 p q hf1 hf2 hc _ ih =>
    obtain ⟨r1, h1, h2⟩ := Expr.eval_formula hp.2.1 hσ.cst hf1
    obtain ⟨r2, h3, h4⟩ := Expr.eval_formula hp.2.2.1 hσ.cst hf2
    obtain ⟨σ', h5, h6⟩ := ih hp.2.2.2.1 hσ
    exact ⟨σ', .iteT σ σ' c e1 e2 p q r1 r2 h1 h3 (by rw [Cmp.run_cst hp.1 h2 h4, hc]) h5, h6⟩
  | iteF s s' c e1 e2 p q hf1 hf2 hc _ ih =>
    obtain ⟨r1, h1, h2⟩ := Expr.eval_formula hp.2.1 hσ.cst hf1
    obtain ⟨r2, h3, h4⟩ := Expr.eval_formula hp.2.2.1 hσ.cst hf2
    obtain ⟨σ', h5, h6⟩ := ih hp.2.2.2.2 hσ
    exact ⟨σ', .iteF σ σ' c e1 e2 p q r1 r2 h1 h3 (by rw [Cmp.run_cst hp.1 h2 h4, hc]) h5, h6⟩
  | loopT s s' s'' c e1 e2 p hf1 hf2 hc _ _ ih1 ih2 =>
    obtain ⟨r1, h1, h2⟩ := Expr.eval_formula hp.2.1 hσ.cst hf1
    obtain ⟨r2, h3, h4⟩ := Expr.eval_formula hp.2.2.1 hσ.cst hf2
    obtain ⟨σ', h5, h6⟩ := ih1 hp.2.2.2 hσ
    obtain ⟨σ'', h7, h8⟩ := ih2 hp h6
    exact ⟨σ'', .loopT σ σ' σ'' c e1 e2 p r1 r2 h1 h3 (by rw [Cmp.run_cst hp.1 h2 h4, hc]) h5 h7, h8⟩
  | loopF s c e1 e2 p hf1 hf2 hc =>
    obtain ⟨r1, h1, h2⟩ := Expr.eval_formula hp.2.1 hσ.cst hf1
    obtain ⟨r2, h3, h4⟩ := Expr.eval_formula hp.2.2.1 hσ.cst hf2
    exact ⟨σ, .loopF σ c e1 e2 p r1 r2 h1 h3 (by rw [Cmp.run_cst hp.1 h2 h4, hc]), hσ⟩

/-- **C99** `pow` of a number with a gdual as the exponent: the value depends on more than the value of the exponent. It is that of the library for gduals of degree 0, `exp(log(b) * x)` for the others. -/
theorem C99_base {a : GDual (XF F)} (ha : a.Valid) {x : XF F} (hx : a.constantCf = .ok x) (hf : x.Fin) (b : ℚ) :
    (a.degree = 0 → ∃ d, a.powBase b = .ok d ∧ d.constantCf = .ok (XLibm.powBase b x)) ∧
    (a.degree ≠ 0 → (XLibm.log (Cf.ofRat b : XF F)).Fin → (Cf.mul (XLibm.log (Cf.ofRat b)) x).Fin →
      ∃ d, a.powBase b = .ok d ∧ d.constantCf = .ok (XLibm.exp (Cf.mul (XLibm.log (Cf.ofRat b)) x))) := by
  have hc := Cst.of_ok (P := False) ha.wf hx
  refine ⟨fun h => ⟨GDual.ofCf (XLibm.powBase b x), ?_, (Cst.ofCf (P := False) _).ok⟩, fun h hl hm => ?_⟩
  · unfold GDual.powBase
    rw [if_pos h, hx, res_bind]; rfl
  · obtain ⟨p, hp⟩ := hl
    obtain ⟨q, hq⟩ := hf
    have h1 := hc.mulSG (XLibm.log (Cf.ofRat b))
    rw [cmul_fin hp hq] at h1
    obtain ⟨d, h2, h3⟩ := h1.exp (Or.inr hm)
    refine ⟨d, ?_, h3.ok⟩
    unfold GDual.powBase
    rw [if_neg h, ← h2]; rfl

/-- `while (x < 1) { } y = 1 / x; y /= pow(x, 2);`, started at 1. -/
def exFormulas : Prog (XF .binary64) :=
  .seq (.loop .lt (.var "x") (.const Cf.one) .skip) (.seq (.assign "y" (.left .div Cf.one (.var "x"))) (.opAssign .div "y" (.fn (.powInt 2) (.var "x"))))

attribute [local instance] lib64 in
example : ∃ σ', Run exFormulas (fun _ => oneX) σ' ∧ (σ' "y").constantCf = .ok Cf.one := by
  have hlt : CfOrd.lt (Cf.one : XF .binary64) Cf.one = false := by
    change XF.lt _ _ = false
    unfold XF.lt; rw [XF.one_v]; simp
  have hd : Cf.mul (Cf.one : XF .binary64) (Cf.div Cf.one Cf.one) = Cf.one := by rw [XF.one_div_one, XF.mul_one]
  have h1 : (Cf.div (Cf.one : XF .binary64) Cf.one).Fin := by rw [XF.one_div_one]; exact one_fin
  have hp : (Cf.one : XF .binary64).prods 1 = Cf.one := XF.prods_one 1
  let s0 : String → XF .binary64 := fun _ => Cf.one
  have hl : (Expr.left .div Cf.one (.var "x") : Expr (XF .binary64)).formula s0 = Cf.one := hd
  have hs1 : Function.update s0 "y" ((Expr.left .div Cf.one (.var "x") : Expr (XF .binary64)).formula s0) = s0 := by rw [hl]; exact Function.update_eq_self "y" s0
  have hw : (Expr.fn (.powInt 2) (.var "x") : Expr (XF .binary64)).formula s0 = Cf.one := hp
  have hrun : FRun exFormulas s0 (Function.update s0 "y" (Op.formula .div (s0 "y") ((Expr.fn (.powInt 2) (.var "x")).formula s0))) := by
    refine .seq _ s0 _ _ _ (.loopF _ _ _ _ _ one_fin one_fin hlt) (.seq _ s0 _ _ _ ?_ (.opAssign _ _ _ _ one_fin ⟨one_fin, ⟨fun j _ => ?_, fun h => absurd h (by decide), fun j h => ?_⟩, ?_⟩ ?_))
    · have := FRun.assign s0 "y" (.left .div Cf.one (.var "x")) ⟨one_fin, one_fin, h1, by rw [hl]; exact one_fin⟩
      rwa [hs1] at this
    · change ((Cf.one : XF .binary64).prods j).Fin
      rw [XF.prods_one]; exact one_fin
    · exact absurd h (by omega)
    · rw [hw]; exact one_fin
    · rw [hw]; exact h1
  obtain ⟨σ', h2, h3⟩ := C99_formulas (p := exFormulas) ⟨⟨by simp, trivial, trivial, trivial⟩, trivial, (by decide : |(2 : ℤ)| < 2147483648), trivial⟩ hrun
    (σ := fun _ => oneX) (fun _ => ⟨oneX_valid.wf, rfl⟩)
  refine ⟨σ', h2, ?_⟩
  rw [(h3 "y").2, Function.update_self, hw]
  exact congrArg Except.ok hd

attribute [local instance] lib64 in
example : ∃ d, oneX.powBase 1 = .ok d ∧ d.constantCf = .ok (XLibm.exp (Cf.mul (XLibm.log (Cf.ofRat 1)) Cf.one)) := by
  have h0 : (XLibm.log (Cf.ofRat 1 : XF .binary64)).v = .fin 0 := XLibm.log_one _ XF.one_v
  refine (C99_base oneX_valid rfl one_fin 1).2 (by simp [oneX, GDual.degree, Poly.degree, Poly.keyDegree]) ⟨0, h0⟩ ⟨0, ?_⟩
  rw [XF.mul_one]; exact h0

end Audi
