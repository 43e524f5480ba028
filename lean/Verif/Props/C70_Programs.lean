import Verif.Proofs.Program
import Verif.Props.C21_AD
import Verif.Props.C34_Vectorized

/-!
# C70: programs with assignments, branches and loops

A program written for a generic number type (`Prog`, Spec/Program.lean) is run on gduals. It takes the path which it takes on the values, and the
derivatives read from the variables at the end are the derivatives of the function computed by the program on real numbers, provided that
no comparison on the path is a tie.
-/

namespace Audi

open MvPolynomial Spec GDual Filter Topology

/-- The initial store: the variables in `I` are the arguments, the others are initialised with numbers. -/
def Spec.start (I : List String) (c y : String → ℝ) : String → ℝ := fun x => if x ∈ I then y x else c x

/-- The initial store of gduals: the arguments are `gdual(v x, x, m)`, the others are `gdual(c x)`. -/
def Spec.StartG (I : List String) (c v : String → ℝ) (m : ℕ) (σ : String → GDual ℝ) : Prop :=
  (∀ x ∈ I, GDual.mk3 (v x) x m = .ok (σ x)) ∧ ∀ x ∉ I, σ x = GDual.ofCf (c x)

/-- **C70 (partial).** Let `q` be a program of assignments, compound assignments, branches and loops, with conditions `a < b`, `a > b`, `a == b`. If
its execution on the real values `v` of the arguments ends, stays in the domains, and compares no equal values, then the program run on
gduals ends, in one store only, along the same path. Near `v` the program computes on real numbers functions `F x` of the arguments, one for each variable; the value
read from the gdual `x` is that of `F x`, and the derivatives read from it are the derivatives of `F x`; if the order of the gdual is not the
one of the arguments, then these derivatives are zero.

Restrictions: the order is at most 30 if `atan`, `asin` or `acos` occurs (finding 1). Without the condition on ties the claim is false
(`C70_tie_counterexample`, `C70_eq_counterexample`), and for vectorized coefficients also (`C70_vectorized_counterexample`). -/
theorem C70_programs_partial {I : List String} {c v s' : String → ℝ} {m : ℕ} {σ : String → GDual ℝ} (hσ : StartG I c v m σ)
    (q : Prog ℝ) (hq : q.FnOrder m) (hrun : q.Exec () (· ≠ ·) (start I c v) s') :
    ∃ σ', q.Run σ σ' ∧ (∀ τ, q.Run σ τ → τ = σ') ∧ ∃ F : String → (String → ℝ) → ℝ,
      (∀ᶠ y in 𝓝 v, q.Exec () (fun _ _ => True) (start I c y) fun x => F x y) ∧
      ∀ x, (σ' x).Valid ∧ F x v = s' x ∧ (σ' x).constantCf = .ok (s' x) ∧
        ((σ' x).getOrder = m ∨ (σ' x).getOrder ≤ m ∧ ∀ l : List String, l ≠ [] → l.length ≤ m → pds l (F x) v = 0) ∧
        ∀ l : List String, l.length ≤ (σ' x).getOrder → ∀ dict : List (String × ℕ), (dict.map (·.1)).Nodup →
          (∀ p ∈ dict, 0 < p.2) → (∀ u, (dict.lookup u).getD 0 = (l.map fun s => "d" ++ s).count u) →
          (σ' x).getDerivativeDict dict = .ok (pds l (F x) v) := by
  classical
  let ext : (String → ℝ) → String → ℝ := fun y => Function.extend (fun s => "d" ++ s) y 0
  have hext : ∀ y s, ext y ("d" ++ s) = y s := fun y s => d_append_injective.extend_apply _ _ s
  have hcont : Continuous ext := continuous_pi fun t => by
    by_cases ht : ∃ s, "d" ++ s = t
    · obtain ⟨s, rfl⟩ := ht
      simp only [hext]
      exact continuous_apply s
    · have : (fun y => ext y t) = fun _ => 0 := funext fun y => Function.extend_apply' _ _ _ ht
      rw [this]; exact continuous_const
  let cut : (String → ℝ) → String → ℝ := fun z s => z ("d" ++ s)
  have hcut : Continuous cut := continuous_pi fun s => continuous_apply _
  have hce : ∀ y, cut (ext y) = y := fun y => funext (hext y)
  let F0 : String → (String → ℝ) → ℝ := fun x z => start I c (cut z) x
  have hF0 : ∀ x, Good m (fun _ : Unit => ext v) (fun _ => F0 x) (σ x) := fun x => by
    by_cases hx : x ∈ I
    · have hr := hσ.1 x hx
      have ho := order_mk3 hr
      refine ⟨valid_mk3 (ι := Unit) (K := ℝ) hr, ho.le, Or.inl ho, fun i => ?_⟩
      have h1 := IsTaylor.coord (a := ext v) (m := m) ("d" ++ x)
      have h2 : F0 x = fun z => z ("d" ++ x) := funext fun z => if_pos hx
      change IsTaylor (ext v) m (F0 x) _
      rw [h2]
      refine h1.congr_poly ?_
      rw [toMv_mk3 hr, hext]
      change EqUpTo m (MvPolynomial.C (v x) + X ("d" ++ x)) (MvPolynomial.C (v x) + _)
      split_ifs with h0
      · subst h0
        intro e he
        have : e = 0 := by rw [← Finsupp.degree_eq_zero_iff]; omega
        rw [this]; simp
      · exact EqUpTo.of_eq rfl
    · rw [hσ.2 x hx]
      have h2 : F0 x = fun _ => c x := funext fun z => if_neg hx
      rw [h2]
      exact Good.const (c x)
  obtain ⟨σ', F', hr, hg, hs', hn⟩ := Prog.run_good hrun hq hF0 (by funext x; change _ = start I c (cut (ext v)) x; rw [hce])
  have hn' : ∀ᶠ z in 𝓝 (ext v), q.Exec () (fun _ _ => True) (start I c (cut z)) fun x => F' x z :=
    hn.mono fun z hz => hz.mono fun _ _ _ => trivial
  have hv : Tendsto ext (𝓝 v) (𝓝 (ext v)) := hcont.tendsto v
  have hloc : ∀ x, F' x =ᶠ[𝓝 (ext v)] fun z => F' x (ext (cut z)) := fun x => by
    have h2 : Tendsto (fun z => ext (cut z)) (𝓝 (ext v)) (𝓝 (ext v)) := by
      have h3 : Tendsto (fun z => ext (cut z)) (𝓝 (ext v)) (𝓝 (ext (cut (ext v)))) := (hcont.comp hcut).tendsto (ext v)
      rwa [hce] at h3
    filter_upwards [hn', h2.eventually hn'] with z h3 h4
    rw [hce] at h4
    exact congrFun (h3.unique h4) x
  refine ⟨σ', hr, fun τ hτ => hτ.unique hr, fun x y => F' x (ext y), ?_, fun x => ?_⟩
  · filter_upwards [hv.eventually hn'] with y hy
    rw [hce] at hy
    exact hy
  have hT : IsTaylor (ext v) m (fun z => F' x (ext (cut z))) ((σ' x).toMv ()) := ((hg x).taylor ()).congr_fun (hloc x)
  have hval : F' x (ext v) = s' x := (congrFun hs' x).symm
  have key : ∀ l : List String, l.length ≤ m →
      coeff 0 ((l.map fun s => "d" ++ s).foldl (fun Q s => pderiv s Q) ((σ' x).toMv () : MvPolynomial String ℝ)) =
        pds l (fun y => F' x (ext y)) v := fun l hle => by
    rw [← hT.pds_eq _ (by rw [List.length_map]; exact hle)]
    have := pds_rename l (fun y => F' x (ext y)) (ext v)
    refine Eq.trans this ?_
    congr 1
    exact hce v
  refine ⟨(hg x).valid, hval, ?_, ?_, fun l hle dict hk hpos hcount => ?_⟩
  · obtain ⟨u, hu⟩ := constantCf_isOk (σ' x)
    rw [hu, ← hval]
    have h1 : u = coeff 0 ((σ' x).toMv () : MvPolynomial String ℝ) := lane_constantCf (ι := Unit) (K := ℝ) (hg x).valid hu ()
    rw [h1, ← ((hg x).taylor ()).val]
  · refine (hg x).order.imp id fun hc => ⟨(hg x).le, fun l hl hle => ?_⟩
    rw [← key l hle, hc ()]
    cases l with
    | nil => exact absurd rfl hl
    | cons t l =>
      rw [List.map_cons, List.foldl_cons, pderiv_C]
      clear hl hle
      induction l with
      | nil => simp
      | cons u l ih => rw [List.map_cons, List.foldl_cons, map_zero]; exact ih
  · obtain ⟨w, hw, hlane⟩ := getDerivativeDict_count (ι := Unit) (K := ℝ) (hg x).valid (l := l.map fun s => "d" ++ s) (by simpa using hle) hk hpos hcount
    rw [hw, ← key l (hle.trans (hg x).le), ← hlane ()]
    rfl

/-- Newton's iteration for `√a`, `x = a; while (x * x - a > 1) x = (x + a / x) / 2;`, with the argument `a = 4`: three tests, two rounds. -/
example : ∃ q : Prog ℝ, q = .seq (.assign "x" (.var "a")) (.loop .gt (.bin .sub (.bin .mul (.var "x") (.var "x")) (.var "a")) (.const 1)
      (.seq (.opAssign .add "x" (.bin .div (.var "a") (.var "x"))) (.opAssign .div "x" (.const 2)))) ∧
    q.FnOrder 50 ∧ (∃ σ, StartG ["a"] (fun _ => 0) (fun _ => 4) 50 σ) ∧ ∃ s', q.Exec () (· ≠ ·) (start ["a"] (fun _ => 0) fun _ => 4) s' := by
  refine ⟨_, rfl, by simp [Prog.FnOrder, Expr.FnOrder], ?_, ?_⟩
  · obtain ⟨r, hr⟩ : ∃ r : GDual ℝ, GDual.mk3 4 "a" 50 = .ok r := ⟨_, mk3_ok.mpr ⟨by decide, ⟨'a', by decide, by decide⟩, rfl⟩⟩
    refine ⟨fun x => if x = "a" then r else ofCf 0, fun x hx => ?_, fun x hx => ?_⟩
    · obtain rfl : x = "a" := by simpa using hx
      exact hr
    · exact if_neg (by simpa using hx)
  · have ha : ("a" : String) ≠ "x" := by decide
    refine ⟨_, .seq _ _ _ _ _ (.assign _ _ _ trivial) (.loopT _ _ _ _ _ _ _ ?_ ?_ ?_ ?_
      (.seq _ _ _ _ _ (.opAssign _ _ _ _ ?_ ?_) (.opAssign _ _ _ _ ?_ ?_)) (.loopT _ _ _ _ _ _ _ ?_ ?_ ?_ ?_
      (.seq _ _ _ _ _ (.opAssign _ _ _ _ ?_ ?_) (.opAssign _ _ _ _ ?_ ?_)) (.loopF _ _ _ _ _ ?_ ?_ ?_ ?_)))⟩ <;>
    simp [Expr.Dom, Expr.sem, Op.Dom, Op.real, Cmp.real, start, Lanes.lane, Function.update, ha] <;> norm_num

/-- The gdual `gdual(v, "x", 1)`. -/
theorem Ex.real_one (v : ℝ) : ∃ r : GDual ℝ, GDual.mk3 v "x" 1 = .ok r ∧ r.Valid ∧ r.order = 1 ∧
    (r.toMv () : MvPolynomial String ℝ) = MvPolynomial.C v + X "dx" := by
  obtain ⟨r, hr⟩ : ∃ r : GDual ℝ, GDual.mk3 v "x" 1 = .ok r := ⟨_, mk3_ok.mpr ⟨by decide, ⟨'x', by decide, by decide⟩, rfl⟩⟩
  exact ⟨r, hr, valid_mk3 (ι := Unit) (K := ℝ) hr, order_mk3 hr, toMv_mk3 hr ()⟩

/-- The initial store with the argument `x`. -/
theorem Ex.startG {v : ℝ} {r : GDual ℝ} (hr : GDual.mk3 v "x" 1 = .ok r) :
    StartG ["x"] (fun _ => 0) (fun _ => v) 1 (fun x => if x = "x" then r else ofCf 0) := by
  refine ⟨fun x hx => ?_, fun x hx => ?_⟩
  · obtain rfl : x = "x" := by simpa using hx
    exact hr
  · exact if_neg (by simpa using hx)

/-- **C70 (counterexample, ties).** The program `if (x < 0) r = x; else if (x > 0) r = x; else r = 0;` computes `r = x` for every real `x`. Run on
`gdual(0, "x", 1)` it leaves in `r` the gdual 0, whose derivative is 0 instead of 1. -/
theorem C70_tie_counterexample : ∃ (q : Prog ℝ) (σ σ' : String → GDual ℝ), StartG ["x"] (fun _ => 0) (fun _ => 0) 1 σ ∧ q.Run σ σ' ∧
    (∀ y : String → ℝ, ∃ s', q.Exec () (fun _ _ => True) (start ["x"] (fun _ => 0) y) s' ∧ s' "r" = y "x") ∧
    (σ' "r").getDerivativeDict [("dx", 1)] = .ok 0 ∧ pds ["x"] (fun y => y "x") (fun _ : String => (0 : ℝ)) = 1 := by
  obtain ⟨r, hr, hv, ho, ht⟩ := Ex.real_one 0
  obtain ⟨u, w, hu, hw, hlt, hgt⟩ := C19_lt_gt r (ofCf 0)
  have eu : u = 0 := by
    have : u = coeff 0 (r.toMv () : MvPolynomial String ℝ) := lane_constantCf (ι := Unit) (K := ℝ) hv hu ()
    rw [this, ht]; simp
  have ew : w = 0 := by
    have : w = coeff 0 ((ofCf (0 : ℝ)).toMv () : MvPolynomial String ℝ) := lane_constantCf (ι := Unit) (K := ℝ) (valid_ofCf _) hw ()
    rw [this, toMv_ofCf]; simp [Lanes.lane]
  subst eu ew
  have hlt' : r.lt (ofCf 0) = .ok false := by rw [hlt]; simp
  have hgt' : r.gt (ofCf 0) = .ok false := by rw [hgt]; simp
  have hrx : ("r" : String) ≠ "x" := by decide
  refine ⟨.ite .lt (.var "x") (.const 0) (.assign "r" (.var "x")) (.ite .gt (.var "x") (.const 0) (.assign "r" (.var "x")) (.assign "r" (.const 0))),
    _, _, Ex.startG hr, .iteF _ _ _ _ _ _ _ _ _ rfl rfl hlt' (.iteF _ _ _ _ _ _ _ _ _ rfl rfl hgt' (.assign _ _ _ _ rfl)), fun y => ?_, ?_, ?_⟩
  · have h0 : start ["x"] (fun _ => 0) y "x" = y "x" := if_pos (by simp)
    rcases lt_trichotomy (y "x") 0 with h | h | h
    · exact ⟨_, .iteT _ _ _ _ _ _ _ trivial trivial trivial (by simpa [Cmp.real, Expr.sem, h0, Lanes.lane] using h) (.assign _ _ _ trivial), by
        simp [Expr.sem, h0]⟩
    · exact ⟨_, .iteF _ _ _ _ _ _ _ trivial trivial trivial (by simp [Cmp.real, Expr.sem, h0, Lanes.lane, h])
        (.iteF _ _ _ _ _ _ _ trivial trivial trivial (by simp [Cmp.real, Expr.sem, h0, Lanes.lane, h]) (.assign _ _ _ trivial)), by
        simp [Expr.sem, h, Lanes.lane]⟩
    · exact ⟨_, .iteF _ _ _ _ _ _ _ trivial trivial trivial (by simpa [Cmp.real, Expr.sem, h0, Lanes.lane] using h.le)
        (.iteT _ _ _ _ _ _ _ trivial trivial trivial (by simpa [Cmp.real, Expr.sem, h0, Lanes.lane] using h) (.assign _ _ _ trivial)), by
        simp [Expr.sem, h0]⟩
  · rw [Function.update_self]
    obtain ⟨c, hc, h0⟩ := C08_unknown_symbol_partial (ι := Unit) (K := ℝ) (d := (ofCf (0 : ℝ))) (dict := [("dx", 1)]) ⟨("dx", 1), by simp, by
      simp [ofCf, Poly.const]⟩
    rw [hc, ← h0 ()]
    rfl
  · have : (fun t : ℝ => Function.update (fun _ : String => (0 : ℝ)) "x" t "x") = fun t => t := funext fun t => Function.update_self _ _ _
    simp only [pds, pd, this]
    exact deriv_id _

/-- **C70 (counterexample, `==`).** The program `if (x == 1) r = 2; else r = x;` sets `r` to 2 on the number 1, and to a gdual with the value 1 on
`gdual(1, "x", 1)`: `==` compares the polynomials, not the values. -/
theorem C70_eq_counterexample : ∃ (q : Prog ℝ) (σ σ' : String → GDual ℝ) (s' : String → ℝ), StartG ["x"] (fun _ => 0) (fun _ => 1) 1 σ ∧ q.Run σ σ' ∧
    q.Exec () (fun _ _ => True) (start ["x"] (fun _ => 0) fun _ => 1) s' ∧ s' "r" = 2 ∧ (σ' "r").constantCf = .ok 1 := by
  obtain ⟨r, hr, hv, ho, ht⟩ := Ex.real_one 1
  have hne : Cmp.eq.run r (ofCf 1) = .ok false := by
    change Except.ok (Poly.eq r.p (ofCf (1 : ℝ)).p) = _
    congr 1
    rw [Bool.eq_false_iff]
    intro h
    have := (Poly.eq_iff (ι := Unit) (K := ℝ) hv.wf (valid_ofCf (1 : ℝ)).wf).1 h ()
    have h1 := congrArg (coeff (Finsupp.single "dx" 1)) (ht.symm.trans (this.trans (toMv_ofCf (1 : ℝ) ())))
    have h0 : (0 : String →₀ ℕ) ≠ Finsupp.single "dx" 1 := fun h => by simpa using DFunLike.congr_fun h "dx"
    rw [coeff_add, coeff_C, coeff_C, coeff_X, if_neg h0, if_neg h0] at h1
    simp at h1
  have hrx : ("r" : String) ≠ "x" := by decide
  refine ⟨.ite .eq (.var "x") (.const 1) (.assign "r" (.const 2)) (.assign "r" (.var "x")), _, _, _, Ex.startG hr,
    .iteF _ _ _ _ _ _ _ _ _ rfl rfl hne (.assign _ _ _ _ rfl),
    .iteT _ _ _ _ _ _ _ trivial trivial trivial (by simp [Cmp.real, Expr.sem, start, Lanes.lane]) (.assign _ _ _ trivial), ?_, ?_⟩
  · rw [Function.update_self]; rfl
  · rw [Function.update_self]
    obtain ⟨u, hu⟩ := constantCf_isOk r
    have : u = coeff 0 (r.toMv () : MvPolynomial String ℝ) := lane_constantCf (ι := Unit) (K := ℝ) hv hu ()
    refine hu.trans ?_
    rw [this, ht]; simp

/-- The vectorized coefficients `[0, 5]` and `[1, 0]`. -/
noncomputable def Ex.v05 : VecN 2 ℝ := ⟨⟨[0, 5]⟩, Or.inr rfl⟩
noncomputable def Ex.v10' : VecN 2 ℝ := ⟨⟨[1, 0]⟩, Or.inr rfl⟩

/-- **C70 (counterexample, vectorized coefficients).** The program `if (x < y) r = x; else r = y;` computes the minimum. Run on the gduals
with the vectorized constants `x = [0, 5]` and `y = [1, 0]` it sets `r = [0, 5]`: one branch is taken for all components, the one of the first
component. The second component is 5 instead of 0. -/
theorem C70_vectorized_counterexample : ∃ (q : Prog (VecN 2 ℝ)) (σ σ' : String → GDual (VecN 2 ℝ)), q.Run σ σ' ∧
    (σ "x").constantCf = .ok Ex.v05 ∧ (σ "y").constantCf = .ok Ex.v10' ∧
    (∀ (i : Fin 2) (s : String → ℝ), ∃ s', q.Exec i (fun _ _ => True) s s' ∧ s' "r" = min (s "x") (s "y")) ∧
    ∃ c, (σ' "r").constantCf = .ok c ∧ (Lanes.lane (1 : Fin 2) c : ℝ) = 5 ∧
      min (Lanes.lane (1 : Fin 2) Ex.v05 : ℝ) (Lanes.lane (1 : Fin 2) Ex.v10') = 0 := by
  have hc : ∀ v : VecN 2 ℝ, (Cf.isZero v = false) → (ofCf v).constantCf = .ok v := fun v hv => by
    have h1 : (ofCf v : GDual (VecN 2 ℝ)) = ⟨⟨[], [([], v)]⟩, 0⟩ := by
      unfold ofCf Poly.const Poly.insertTerm
      simp [hv]
    rw [h1]
    rfl
  have h1 := hc Ex.v05 (by simp [Cf.isZero, Vec.isZero, Ex.v05])
  have h2 := hc Ex.v10' (by simp [Cf.isZero, Vec.isZero, Ex.v10'])
  have hlt : (ofCf Ex.v05).lt (ofCf Ex.v10') = .ok true := by
    unfold GDual.lt
    have h1' : @GDual.constantCf (VecN 2 ℝ) CfOrd.toCf (ofCf Ex.v05) = .ok Ex.v05 := h1
    have h2' : @GDual.constantCf (VecN 2 ℝ) CfOrd.toCf (ofCf Ex.v10') = .ok Ex.v10' := h2
    rw [bind_ok h1', bind_ok h2']
    simp [CfOrd.lt, Vec.lt, Vec.size, Vec.lexLt, Ex.v05, Ex.v10']
  refine ⟨.ite .lt (.var "x") (.var "y") (.assign "r" (.var "x")) (.assign "r" (.var "y")),
    fun s => if s = "x" then ofCf Ex.v05 else ofCf Ex.v10', _, .iteT _ _ _ _ _ _ _ _ _ rfl rfl hlt (.assign _ _ _ _ rfl), h1, h2, fun i s => ?_,
    Ex.v05, h1, ?_, ?_⟩
  · rcases lt_or_ge (s "x") (s "y") with h | h
    · exact ⟨_, .iteT _ _ _ _ _ _ _ trivial trivial trivial h (.assign _ _ _ trivial), by
        rw [Function.update_self, min_eq_left h.le]; rfl⟩
    · exact ⟨_, .iteF _ _ _ _ _ _ _ trivial trivial trivial (not_lt.2 h) (.assign _ _ _ trivial), by
        rw [Function.update_self, min_eq_right h]; rfl⟩
  · rfl
  · change min (5 : ℝ) 0 = 0
    exact min_eq_right (by norm_num)

end Audi
