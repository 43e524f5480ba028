import Verif.Proofs.LibProgram
import Verif.Props.C70_Programs

/-!
# C70: programs with all the functions

As `C70_programs_partial` (Props/C70_Programs.lean), for programs (`LProg`, Spec/LibProgram.lean) which also use `abs`, the results of `sin_and_cos` and `sinh_and_cosh`, `erf`, the functions of
functions_from_d.hpp, and `log10`, `log2`, `log1p`, `expm1`, `erfc` of the Python module.
-/

namespace Audi

open MvPolynomial Spec GDual Filter Topology

/-- **C70 (partial).** Let `q` be a program of assignments, compound assignments, branches and loops, with all the functions of the library. If
its execution on the real values `v` of the arguments ends, stays in the domains (for `abs`: the argument is not zero), and compares no equal values, then the program run on
gduals ends, in one store only, along the same path, and the derivatives read from each variable are the derivatives of the function of the arguments which the program computes near `v`.

Restrictions: the order is at most 30 if `atan`, `asin` or `acos` occurs (finding 1); without the condition on ties the claim is false
(`C70_tie_counterexample`, `C70_eq_counterexample`). -/
theorem C70_all_partial {I : List String} {c v s' : String → ℝ} {m : ℕ} {σ : String → GDual ℝ} (hσ : StartG I c v m σ)
    (q : LProg ℝ) (hq : q.FnOrder m) (hrun : q.Exec () (· ≠ ·) (start I c v) s') :
    ∃ σ', q.Run σ σ' ∧ (∀ τ, q.Run σ τ → τ = σ') ∧ ∃ F : String → (String → ℝ) → ℝ,
      (∀ᶠ y in 𝓝 v, q.Exec () (fun _ _ => True) (start I c y) fun x => F x y) ∧
      ∀ x, (σ' x).Valid ∧ F x v = s' x ∧ (σ' x).constantCf = .ok (s' x) ∧
        ((σ' x).getOrder = m ∨ (σ' x).getOrder ≤ m ∧ ∀ l : List String, l ≠ [] → l.length ≤ m → pds l (F x) v = 0) ∧
        ∀ l : List String, l.length ≤ (σ' x).getOrder → ∀ dict : List (String × ℕ), (dict.map (·.1)).Nodup →
          (∀ p ∈ dict, 0 < p.2) → (∀ u, (dict.lookup u).getD 0 = (l.map fun s => "d" ++ s).count u) →
          (σ' x).getDerivativeDict dict = .ok (pds l (F x) v) := by
  classical
  let ext : (String → ℝ) → String → ℝ := fun y => Function.extend (fun s => "d" ++ s) y 0
  have hext : ∀ y s, ext y ("d" ++ s) = y s := fun y s => d_append_injective.extend_apply _ _ s
  have hcont : Continuous ext := continuous_pi fun t => by
    by_cases ht : ∃ s, "d" ++ s = t
    · obtain ⟨s, rfl⟩ := ht
      simp only [hext]
      exact continuous_apply s
    · have : (fun y => ext y t) = fun _ => 0 := funext fun y => Function.extend_apply' _ _ _ ht
      rw [this]; exact continuous_const
  let cut : (String → ℝ) → String → ℝ := fun z s => z ("d" ++ s)
  have hcut : Continuous cut := continuous_pi fun s => continuous_apply _
  have hce : ∀ y, cut (ext y) = y := fun y => funext (hext y)
  let F0 : String → (String → ℝ) → ℝ := fun x z => start I c (cut z) x
  have hF0 : ∀ x, GoodS m (fun _ : Unit => ext v) (fun _ => F0 x) (σ x) := fun x => by
    by_cases hx : x ∈ I
    · have hr := hσ.1 x hx
      have ho := order_mk3 hr
      refine ⟨⟨valid_mk3 (ι := Unit) (K := ℝ) hr, ho.le, Or.inl ho, fun i => ?_⟩, by rw [syms_mk3 hr]; exact List.pairwise_singleton _ _, goodNames_mk3 hr⟩
      have h1 := IsTaylor.coord (a := ext v) (m := m) ("d" ++ x)
      have h2 : F0 x = fun z => z ("d" ++ x) := funext fun z => if_pos hx
      change IsTaylor (ext v) m (F0 x) _
      rw [h2]
      refine h1.congr_poly ?_
      rw [toMv_mk3 hr, hext]
      change EqUpTo m (MvPolynomial.C (v x) + X ("d" ++ x)) (MvPolynomial.C (v x) + _)
      split_ifs with h0
      · subst h0
        intro e he
        have : e = 0 := by rw [← Finsupp.degree_eq_zero_iff]; omega
        rw [this]; simp
      · exact EqUpTo.of_eq rfl
    · rw [hσ.2 x hx]
      have h2 : F0 x = fun _ => c x := funext fun z => if_neg hx
      rw [h2]
      exact GoodS.const (c x)
  obtain ⟨σ', F', hr, hg, hs', hn⟩ := LProg.run_good hrun hq hF0 (by funext x; change _ = start I c (cut (ext v)) x; rw [hce])
  have hn' : ∀ᶠ z in 𝓝 (ext v), q.Exec () (fun _ _ => True) (start I c (cut z)) fun x => F' x z :=
    hn.mono fun z hz => hz.mono fun _ _ _ => trivial
  have hv : Tendsto ext (𝓝 v) (𝓝 (ext v)) := hcont.tendsto v
  have hloc : ∀ x, F' x =ᶠ[𝓝 (ext v)] fun z => F' x (ext (cut z)) := fun x => by
    have h2 : Tendsto (fun z => ext (cut z)) (𝓝 (ext v)) (𝓝 (ext v)) := by
      have h3 : Tendsto (fun z => ext (cut z)) (𝓝 (ext v)) (𝓝 (ext (cut (ext v)))) := (hcont.comp hcut).tendsto (ext v)
      rwa [hce] at h3
    filter_upwards [hn', h2.eventually hn'] with z h3 h4
    rw [hce] at h4
    exact congrFun (h3.unique h4) x
  refine ⟨σ', hr, fun τ hτ => hτ.unique hr, fun x y => F' x (ext y), ?_, fun x => ?_⟩
  · filter_upwards [hv.eventually hn'] with y hy
    rw [hce] at hy
    exact hy
  have hT : IsTaylor (ext v) m (fun z => F' x (ext (cut z))) ((σ' x).toMv ()) := ((hg x).taylor ()).congr_fun (hloc x)
  have hval : F' x (ext v) = s' x := (congrFun hs' x).symm
  have key : ∀ l : List String, l.length ≤ m →
      coeff 0 ((l.map fun s => "d" ++ s).foldl (fun Q s => pderiv s Q) ((σ' x).toMv () : MvPolynomial String ℝ)) =
        pds l (fun y => F' x (ext y)) v := fun l hle => by
    rw [← hT.pds_eq _ (by rw [List.length_map]; exact hle)]
    have := pds_rename l (fun y => F' x (ext y)) (ext v)
    refine Eq.trans this ?_
    congr 1
    exact hce v
  refine ⟨(hg x).valid, hval, ?_, ?_, fun l hle dict hk hpos hcount => ?_⟩
  · obtain ⟨u, hu⟩ := constantCf_isOk (σ' x)
    rw [hu, ← hval]
    have h1 : u = coeff 0 ((σ' x).toMv () : MvPolynomial String ℝ) := lane_constantCf (ι := Unit) (K := ℝ) (hg x).valid hu ()
    rw [h1, ← ((hg x).taylor ()).val]
  · refine (hg x).order.imp id fun hc => ⟨(hg x).le, fun l hl hle => ?_⟩
    rw [← key l hle, hc ()]
    cases l with
    | nil => exact absurd rfl hl
    | cons t l =>
      rw [List.map_cons, List.foldl_cons, pderiv_C]
      clear hl hle
      induction l with
      | nil => simp
      | cons u l ih => rw [List.map_cons, List.foldl_cons, map_zero]; exact ih
  · obtain ⟨w, hw, hlane⟩ := getDerivativeDict_count (ι := Unit) (K := ℝ) (hg x).valid (l := l.map fun s => "d" ++ s) (by simpa using hle) hk hpos hcount
    rw [hw, ← key l (hle.trans (hg x).le), ← hlane ()]
    rfl

/-- The hypotheses are met by `r = x; while (abs(r) > 1) r /= 2; r += atan_d(x);` at `x = -3/2` with order 100; the body of the loop is run once. -/
example : ∃ q : LProg ℝ, q = .seq (.assign "r" (.var "x")) (.seq (.loop .gt (.fn .abs (.var "r")) (.const 1)
      (.opAssign .div "r" (.const 2))) (.opAssign .add "r" (.fn .atanD (.var "x")))) ∧
    q.FnOrder 100 ∧ (∃ σ, StartG ["x"] (fun _ => 0) (fun _ => -3 / 2) 100 σ) ∧ ∃ s', q.Exec () (· ≠ ·) (start ["x"] (fun _ => 0) fun _ => -3 / 2) s' := by
  refine ⟨_, rfl, by simp [LProg.FnOrder, LExpr.FnOrder, LFn.MaxOrder], ?_, ?_⟩
  · obtain ⟨r, hr⟩ : ∃ r : GDual ℝ, GDual.mk3 (-3 / 2) "x" 100 = .ok r := ⟨_, mk3_ok.mpr ⟨by decide, ⟨'x', by decide, by decide⟩, rfl⟩⟩
    refine ⟨fun x => if x = "x" then r else ofCf 0, fun x hx => ?_, fun x hx => ?_⟩
    · obtain rfl : x = "x" := by simpa using hx
      exact hr
    · exact if_neg (by simpa using hx)
  · have ha : ("x" : String) ≠ "r" := by decide
    refine ⟨_, .seq _ _ _ _ _ (.assign _ _ _ trivial) (.seq _ _ _ _ _ (.loopT _ _ _ _ _ _ _ ?_ ?_ ?_ ?_ (.opAssign _ _ _ _ ?_ ?_)
      (.loopF _ _ _ _ _ ?_ ?_ ?_ ?_)) (.opAssign _ _ _ _ ?_ ?_))⟩ <;>
    simp [LExpr.Dom, LExpr.sem, LFn.Dom, LFn.real, Op.Dom, Op.real, Cmp.real, start, Lanes.lane, Function.update, ha] <;> norm_num [abs_div]

end Audi
