import Verif.Proofs.TMExpr
import Verif.Proofs.TMOrderZero
import Verif.Props.C63_Composed

/-!
# C64, C65: expressions of Taylor models at the expansion point; what holds of C63

The enclosure of C50-C57 and C63 is false in general. What does hold, through any number of operations: the polynomial is the Taylor polynomial, the same
as that of the gdual, and the value at the expansion point is enclosed.
-/

namespace Audi

open TM MvPolynomial Spec GDual

theorem TM.Centred.allows {m : ℕ} {E : String → ℝ} {D : String → Itv ℝ} {F : (String → ℝ) → ℝ} {t : TM ℝ} (h : Centred m E D F t) :
    t.Allows E (F (pt E)) := by
  have hp : t.polyAt E = coeff 0 (t.tpol.toMv () : MvPolynomial String ℝ) := by
    unfold polyAt
    have hz : ∀ s ∈ t.tpol.p.syms, displacement t.exp E s = 0 := fun s hs => by
      obtain ⟨_, x, _, h2, _⟩ := h.wf.lookup (List.mem_map_of_mem (f := varName) hs)
      have h3 : x = E (varName s) := h.exp _ (VMap.mem_of_lookup h2)
      rw [displacement, h2, h3]
      exact sub_self _
    rw [show (coeff 0 (t.tpol.toMv () : MvPolynomial String ℝ)) = eval 0 (t.tpol.toMv ()) by rw [eval_zero]; rfl]
    refine eval₂Hom_congr' rfl (fun s hs _ => ?_) rfl
    rw [hz s (mem_supported.1 (toMv_mem_supported t.tpol () (S := {s | s ∈ t.tpol.p.syms}) fun s hs => hs) hs), Pi.zero_apply]
  rw [Allows, hp, h.val, sub_self]
  exact h.zero

/-- The result `r` of a function `f` of the Taylor model `a` is right at the expansion point: for every function `F` of the variables whose Taylor polynomial,
at the expansion point and to the order of `a`, is the polynomial of `a`, the value of `F` is in the domain of `f`, the polynomial of `r` is the Taylor polynomial of
`f ∘ F`, and `r` allows the value of `f ∘ F` at the expansion point. -/
def RightAtCentre (a r : TM ℝ) (dom : ℝ → Prop) (f : ℝ → ℝ) : Prop :=
  r.WF ∧ ∀ x0 : String → ℝ, (∀ e ∈ a.exp, e.2 = x0 e.1) → ∀ F : (String → ℝ) → ℝ,
    IsTaylor (fun s => x0 (varName s)) a.order (fun y => F fun s => y ("d" ++ s)) (a.tpol.toMv ()) →
      dom (F x0) ∧ IsTaylor (fun s => x0 (varName s)) a.order (fun y => f (F fun s => y ("d" ++ s))) (r.tpol.toMv ()) ∧ r.Allows x0 (f (F x0))

theorem rightAtCentre {a r : TM ℝ} {dom : ℝ → Prop} {f : ℝ → ℝ} (ha : a.WF) (h0 : InItv a.rem 0)
    (h : ∀ E D F, Centred a.order E D F a → dom (F (pt E)) ∧ Centred a.order E D (fun x => f (F x)) r) : RightAtCentre a r dom f := by
  have key : ∀ x0 : String → ℝ, (∀ e ∈ a.exp, e.2 = x0 e.1) → ∀ F : (String → ℝ) → ℝ, IsTaylor (pt x0) a.order F (a.tpol.toMv ()) →
      Centred a.order x0 (fun v => (a.dom.lookup v).getD ⟨0, 0⟩) F a := by
    intro x0 hx F hF
    refine ⟨ha, hx, fun e he => ?_, ⟨ha.valid, ha.order.ge, .inl ha.order.symm, fun _ => hF⟩, h0⟩
    rw [VMap.lookup_of_mem ha.nodupDom he]
    rfl
  have hx0 : ∀ x0 : String → ℝ, (fun s => pt x0 ("d" ++ s)) = x0 := fun x0 => funext fun s => congrArg x0 (varName_d s)
  refine ⟨?_, fun x0 hx F hF => ?_⟩
  · have hE : ∀ e ∈ a.exp, e.2 = a.expPoint e.1 := fun e he => by
      rw [expPoint, VMap.lookup_of_mem ha.nodupExp he]
      rfl
    exact (h _ _ _ (key a.expPoint hE _ (isTaylor_poly _ _ _))).2.wf
  · obtain ⟨h1, h2⟩ := h _ _ _ (key x0 hx _ hF)
    have h3 := h2.allows
    rw [hx0] at h1 h3
    exact ⟨h1, h2.good.taylor (), h3⟩

section C63
variable {a r : TM ℝ} {ord : List String → List String}

/-- **C63 (partial).** `tan` is right at the expansion point, for orders 1 to 31 and remainders that contain 0, with any iteration order in `get_bounds`. Missing:
the enclosure away from the expansion point, which is false (`C63_tan_counterexample`). -/
theorem C63_tan_partial (hord : ∀ l, (ord l).Perm l) (ha : a.WF) (h1 : 1 ≤ a.order) (h31 : a.order ≤ 31) (h0 : InItv a.rem 0) (hr : rtan ord a = .ok r) :
    RightAtCentre a r (fun y => Real.cos y ≠ 0) Real.tan := rightAtCentre ha h0 fun _ _ _ h => h.rtan hord h31 h1 hr

/-- **C63 (partial).** The same for `tanh`. -/
theorem C63_tanh_partial (hord : ∀ l, (ord l).Perm l) (ha : a.WF) (h1 : 1 ≤ a.order) (h31 : a.order ≤ 31) (h0 : InItv a.rem 0) (hr : rtanh ord a = .ok r) :
    RightAtCentre a r (fun _ => True) Real.tanh := rightAtCentre ha h0 fun _ _ _ h => ⟨trivial, h.rtanh hord h31 h1 hr⟩

/-- **C63 (partial).** The same for `asinh`. -/
theorem C63_asinh_partial (hord : ∀ l, (ord l).Perm l) (ha : a.WF) (h1 : 1 ≤ a.order) (h31 : a.order ≤ 31) (h0 : InItv a.rem 0) (hr : rasinh ord a = .ok r) :
    RightAtCentre a r (fun _ => True) Real.arsinh := rightAtCentre ha h0 fun _ _ _ h => ⟨trivial, h.rasinh hord h31 h1 hr⟩

/-- **C63 (partial).** The same for `acosh`. -/
theorem C63_acosh_partial (hord : ∀ l, (ord l).Perm l) (ha : a.WF) (h1 : 1 ≤ a.order) (h31 : a.order ≤ 31) (h0 : InItv a.rem 0) (hr : racosh ord a = .ok r) :
    RightAtCentre a r (fun y => 1 < y) Real.arcosh := rightAtCentre ha h0 fun _ _ _ h => h.racosh hord h31 h1 hr

/-- **C63 (partial).** The same for `atanh`. -/
theorem C63_atanh_partial (hord : ∀ l, (ord l).Perm l) (ha : a.WF) (h1 : 1 ≤ a.order) (h31 : a.order ≤ 31) (h0 : InItv a.rem 0) (hr : ratanh ord a = .ok r) :
    RightAtCentre a r (fun y => |y| < 1) Real.artanh := rightAtCentre ha h0 fun _ _ _ h => h.ratanh hord h31 h1 hr

end C63

/-- The hypotheses hold for the Taylor model of `x`. -/
example : ∃ r, rtan id (Ex.slopeR 1 1 ⟨0, 0⟩ ⟨0, 1 / 2⟩) = .ok r ∧ RightAtCentre (Ex.slopeR 1 1 ⟨0, 0⟩ ⟨0, 1 / 2⟩) r (fun y => Real.cos y ≠ 0) Real.tan := by
  obtain ⟨r, -, -, ha, hr, -⟩ := C63_tan_counterexample
  exact ⟨r, hr, C63_tan_partial (fun _ => .refl _) ha le_rfl (by norm_num [Ex.slopeR]) ⟨le_rfl, le_rfl⟩ hr⟩

example : ∃ r, rtanh id (Ex.slopeR 1 1 ⟨0, 0⟩ ⟨0, 1 / 2⟩) = .ok r ∧ RightAtCentre (Ex.slopeR 1 1 ⟨0, 0⟩ ⟨0, 1 / 2⟩) r (fun _ => True) Real.tanh := by
  obtain ⟨r, -, -, ha, hr, -⟩ := C63_tanh_counterexample
  exact ⟨r, hr, C63_tanh_partial (fun _ => .refl _) ha le_rfl (by norm_num [Ex.slopeR]) ⟨le_rfl, le_rfl⟩ hr⟩

example : ∃ r, rasinh id (Ex.slopeR 1 1 ⟨0, 0⟩ ⟨-(1 / 4), 0⟩) = .ok r ∧
    RightAtCentre (Ex.slopeR 1 1 ⟨0, 0⟩ ⟨-(1 / 4), 0⟩) r (fun _ => True) Real.arsinh := by
  obtain ⟨r, -, -, ha, hr, -⟩ := C63_asinh_counterexample
  exact ⟨r, hr, C63_asinh_partial (fun _ => .refl _) ha le_rfl (by norm_num [Ex.slopeR]) ⟨le_rfl, le_rfl⟩ hr⟩

example : ∃ r, racosh id (Ex.lineR (5 / 4) 1 ⟨0, 0⟩ ⟨0, 4 / 105⟩) = .ok r ∧
    RightAtCentre (Ex.lineR (5 / 4) 1 ⟨0, 0⟩ ⟨0, 4 / 105⟩) r (fun y => 1 < y) Real.arcosh := by
  obtain ⟨r, -, -, ha, hr, -⟩ := C63_acosh_counterexample
  exact ⟨r, hr, C63_acosh_partial (fun _ => .refl _) ha le_rfl (by norm_num [Ex.lineR]) ⟨le_rfl, le_rfl⟩ hr⟩

example : ∃ r, ratanh id (Ex.slopeR 1 1 ⟨0, 0⟩ ⟨0, 1 / 10⟩) = .ok r ∧
    RightAtCentre (Ex.slopeR 1 1 ⟨0, 0⟩ ⟨0, 1 / 10⟩) r (fun y => |y| < 1) Real.artanh := by
  obtain ⟨r, -, -, ha, hr, -⟩ := C63_atanh_counterexample
  exact ⟨r, hr, C63_atanh_partial (fun _ => .refl _) ha le_rfl (by norm_num [Ex.slopeR]) ⟨le_rfl, le_rfl⟩ hr⟩

section C64
variable {ord : List String → List String} {v : String → ℝ} {D R : String → Itv ℝ} {m : ℕ}

/-- **C64 (partial).** When the evaluation of an expression on Taylor models returns, the point of expansion is in the domain of the expression, the evaluation on gduals of
the same order returns too, and the polynomials are the same. For orders up to 31, remainders of the variables that contain 0, and expressions in which no product involves
only models of order 0 (`Proper`); without that, it is false (`C64_order_zero_counterexample`). -/
theorem C64_polynomial_partial (hord : ∀ l, (ord l).Perm l) (hm : m ≤ 31) (hR : ∀ s, InItv (R s) 0) {e : Expr ℝ} (hl : e.Legal m) (hp : e.Proper ord v D R m)
    {r : TM ℝ} (hr : e.runTM ord v D R m = .ok r) :
    e.Dom () v ∧ ∃ g, e.run v m = .ok g ∧ (r.tpol.toMv () : MvPolynomial String ℝ) = g.toMv () := by
  obtain ⟨h1, h2⟩ := runTM_centred hord hm hR e hl hp r hr
  have hU : m < UINT_MAX - 10 := by
    have : (31 : ℕ) < UINT_MAX - 10 := by decide
    omega
  obtain ⟨g, g1, g2, -⟩ := Expr.run_good (ι := Unit) (C := ℝ) (m := m) (p := fun _ => pt v) (v := v) hU
    (fun _ s => congrArg v (varName_d s)) e hl fun _ => h1
  refine ⟨h1, g, g1, ((h2.good.taylor ()).unique (g2.taylor ())).eq_of_degLE ?_ ?_⟩
  · exact fun e he => GDual.Valid.degLE (ι := Unit) (K := ℝ) h2.good.valid () e (h2.good.le.trans_lt he)
  · exact fun e he => GDual.Valid.degLE (ι := Unit) (K := ℝ) g2.valid () e (g2.le.trans_lt he)

/-- **C65 (partial).** When the evaluation of an expression on Taylor models returns, the result is well formed, its expansion points and intervals are those of the
variables, and it allows the value of the expression at the expansion point. The limits are those of C64 (`C65_order_zero_counterexample`). Missing: other points, where it is false (C50-C57, C63). -/
theorem C65_centre_partial (hord : ∀ l, (ord l).Perm l) (hm : m ≤ 31) (hR : ∀ s, InItv (R s) 0) {e : Expr ℝ} (hl : e.Legal m) (hp : e.Proper ord v D R m)
    {r : TM ℝ} (hr : e.runTM ord v D R m = .ok r) :
    r.WF ∧ (∀ q ∈ r.exp, q.2 = v q.1) ∧ (∀ q ∈ r.dom, q.2 = D q.1) ∧ r.Allows v (e.sem () v) := by
  obtain ⟨-, h2⟩ := runTM_centred hord hm hR e hl hp r hr
  refine ⟨h2.wf, h2.exp, h2.dom, ?_⟩
  have h3 := h2.allows
  rwa [show (fun s => pt v ("d" ++ s)) = v from funext fun s => congrArg v (varName_d s)] at h3

/-- An expression with a product, a quotient and functions: `(x · sin x) / 2 + exp y`. -/
def Ex.mixed : Expr ℝ :=
  .bin .add (.right .div (.bin .mul (.var "x") (.fn .sin (.var "x"))) 2) (.fn .exp (.var "y"))

/-- All hypotheses of C64 and C65 hold for it, at every point of every domain. -/
theorem Ex.mixed_hyps (hv : ∀ s, InItv (D s) (v s)) (hR : ∀ s, InItv (R s) 0) (h1 : 1 ≤ m) (hm : m ≤ 31) :
    Ex.mixed.Legal m ∧ Ex.mixed.Proper id v D R m ∧ ∃ r, Ex.mixed.runTM id v D R m = .ok r := by
  have hU : m < UINT_MAX - 10 := by
    have : (31 : ℕ) < UINT_MAX - 10 := by decide
    omega
  have lx : ∃ c, "x".toList.head? = some c ∧ c ≠ 'd' := ⟨'x', by decide, by decide⟩
  have ly : ∃ c, "y".toList.head? = some c ∧ c ≠ 'd' := ⟨'y', by decide, by decide⟩
  obtain ⟨x, x1, x2, x3⟩ := Centred.var_ok (ord := id) hU lx (hv "x") (hR "x")
  obtain ⟨y, y1, y2, -⟩ := Centred.var_ok (ord := id) hU ly (hv "y") (hR "y")
  obtain ⟨s, s1, s2, -⟩ := x2.rsin (ord := id) (fun _ => .refl _) (by omega)
  obtain ⟨p, p1, p2, -⟩ := x2.mul (ord := id) (fun _ => .refl _) hm s2 (by omega)
  obtain ⟨q, q1, q2, -⟩ := p2.divTS (two_ne_zero (α := ℝ))
  obtain ⟨z, z1, z2, -⟩ := y2.rexp (ord := id) (fun _ => .refl _) (by omega)
  obtain ⟨r, r1, -, -⟩ := q2.add z2
  refine ⟨⟨⟨lx, lx, trivial⟩, ly, trivial⟩, ⟨⟨trivial, ⟨trivial, trivial, fun h => h.elim⟩, fun _ a b ha _ => .inl ?_⟩, ⟨trivial, trivial, fun h => h.elim⟩, fun h => h.elim⟩, r, ?_⟩
  · rw [x1] at ha
    injection ha with ha
    rw [← ha]
    omega
  · have e1 : (Expr.fn .sin (.var "x") : Expr ℝ).runTM id v D R m = .ok s := by
      rw [Expr.runTM, bind_ok x1]
      exact s1
    have e2 : (Expr.bin .mul (.var "x") (.fn .sin (.var "x")) : Expr ℝ).runTM id v D R m = .ok p := by
      rw [Expr.runTM, bind_ok x1, bind_ok e1]
      exact p1
    have e3 : (Expr.right .div (.bin .mul (.var "x") (.fn .sin (.var "x"))) 2 : Expr ℝ).runTM id v D R m = .ok q := by
      rw [Expr.runTM, bind_ok e2]
      exact q1
    have e4 : (Expr.fn .exp (.var "y") : Expr ℝ).runTM id v D R m = .ok z := by
      rw [Expr.runTM, bind_ok y1]
      exact z1
    rw [Ex.mixed, Expr.runTM, bind_ok e3, bind_ok e4]
    exact r1

example (hv : ∀ s, InItv (D s) (v s)) (hR : ∀ s, InItv (R s) 0) (h1 : 1 ≤ m) (hm : m ≤ 31) :
    Ex.mixed.Legal m ∧ Ex.mixed.Proper id v D R m ∧ ∃ r, Ex.mixed.runTM id v D R m = .ok r := Ex.mixed_hyps hv hR h1 hm

/-- **C64.** The product of two constants: 2 · 3 gives the polynomial 0 and the remainder {0}. -/
theorem C64_order_zero_counterexample : ∃ (e : Expr ℝ) (r : TM ℝ) (g : GDual ℝ), e.Legal 1 ∧ e.Dom () v ∧ e.runTM id v D R 1 = .ok r ∧ e.run v 1 = .ok g ∧
    (r.tpol.toMv () : MvPolynomial String ℝ) ≠ g.toMv () ∧ r.WF ∧ ¬ r.Allows v (e.sem () v) := by
  have nz : ∀ {c : ℝ}, c ≠ 0 → ((ofConst c).tpol.toMv () : MvPolynomial String ℝ) ≠ 0 := fun {c} hc => by
    rw [show (ofConst c).tpol = GDual.ofCf c from rfl, GDual.toMv_ofCf]
    exact (map_ne_zero_iff _ (C_injective _ _)).2 hc
  have wf : ∀ c : ℝ, (ofConst c).WF := fun c => (Centred.ofConst (m := 1) (E := v) (D := D) c).wf
  have hr := mul_order_zero_rem (ord := id) (wf 2) (wf 3) ⟨fun _ h => absurd h List.not_mem_nil, fun _ h => absurd h List.not_mem_nil⟩ (nz two_ne_zero)
    (nz three_ne_zero) rfl rfl rfl rfl rfl rfl
  have h0 : ((⟨noPoly, 0, 0, ⟨0, 0⟩, [], []⟩ : TM ℝ).tpol.toMv () : MvPolynomial String ℝ) = 0 := rfl
  refine ⟨.bin .mul (.const 2) (.const 3), _, _, ⟨trivial, trivial⟩, ⟨trivial, trivial, trivial⟩, hr, rfl, fun h => ?_,
    ⟨noPoly_valid, fun _ h => absurd h List.not_mem_nil, rfl, rfl, .refl _, .refl _, fun _ h => absurd h List.not_mem_nil, le_rfl⟩, fun h => ?_⟩
  · have h2 := GDual.toMv_mul (GDual.valid_ofCf (2 : ℝ)) (GDual.valid_ofCf (3 : ℝ)) () 0 (by simp)
    rw [h0] at h
    change 0 = ((GDual.ofCf (2 : ℝ)).mul (GDual.ofCf 3)).toMv () at h
    rw [← h, GDual.toMv_ofCf, GDual.toMv_ofCf, ← C_mul, coeff_zero, coeff_zero_C] at h2
    change (0 : ℝ) = 2 * 3 at h2
    norm_num at h2
  · rw [Allows, polyAt, h0, map_zero] at h
    change (0 : ℝ) ≤ 2 * 3 - 0 ∧ (2 * 3 - 0 : ℝ) ≤ 0 at h
    norm_num at h

/-- **C65.** The same for the value. -/
theorem C65_order_zero_counterexample : ∃ (e : Expr ℝ) (r : TM ℝ), e.Legal 1 ∧ e.Dom () v ∧ e.runTM id v D R 1 = .ok r ∧ r.WF ∧ ¬ r.Allows v (e.sem () v) := by
  obtain ⟨e, r, _, h1, h2, h3, -, -, h4, h5⟩ := C64_order_zero_counterexample (v := v) (D := D) (R := R)
  exact ⟨e, r, h1, h2, h3, h4, h5⟩

end C64

end Audi
