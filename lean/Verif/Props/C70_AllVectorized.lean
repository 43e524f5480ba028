import Verif.Proofs.LibVecProgram
import Verif.Props.C70_Vectorized

/-!
# C70: programs with all the functions, run on gduals with vectorized coefficients
-/

namespace Audi

open MvPolynomial Spec GDual Topology
open Filter hiding bind
open PyExpr (at')

variable {n : ℕ} [NeZero n]

/-- **C70 (partial, vectorized coefficients).** As `C70_vectorized_partial`, for programs with all the functions of Spec/LibExpr.lean except `abs`. -/
theorem C70_all_vectorized_partial {I : List String} {c v : String → VecN n ℝ} {s' : Fin n → String → ℝ} {m : ℕ} {σ : String → GDual (VecN n ℝ)} (hσ : StartV I c v m σ)
    (q : LProg (VecN n ℝ)) (hA : q.NoAbs) (hq : q.FnOrder m) (hrun : q.ExecAll (fun i => start I (at' c i) (at' v i)) s') :
    ∃ σ', q.Run σ σ' ∧ (∀ τ, q.Run σ τ → τ = σ') ∧ ∃ F : String → Fin n → (String → ℝ) → ℝ,
      (∀ i, ∀ᶠ y in 𝓝 (at' v i), q.Exec i (fun _ _ => True) (start I (at' c i) y) fun x => F x i y) ∧
      ∀ x, (σ' x).Valid ∧ (∀ i, F x i (at' v i) = s' i x) ∧ (∃ u, (σ' x).constantCf = .ok u ∧ ∀ i : Fin n, (Lanes.lane i u : ℝ) = s' i x) ∧
        ((σ' x).getOrder = m ∨ (σ' x).getOrder ≤ m ∧ ∀ i, ∀ l : List String, l ≠ [] → l.length ≤ m → pds l (F x i) (at' v i) = 0) ∧
        ∀ l : List String, l.length ≤ (σ' x).getOrder → ∀ dict : List (String × ℕ), (dict.map (·.1)).Nodup →
          (∀ p ∈ dict, 0 < p.2) → (∀ u, (dict.lookup u).getD 0 = (l.map fun s => "d" ++ s).count u) →
          ∃ w, (σ' x).getDerivativeDict dict = .ok w ∧ ∀ i : Fin n, (Lanes.lane i w : ℝ) = pds l (F x i) (at' v i) := by
  classical
  let ext : (String → ℝ) → String → ℝ := fun y => Function.extend (fun s => "d" ++ s) y 0
  have hext : ∀ y s, ext y ("d" ++ s) = y s := fun y s => d_append_injective.extend_apply _ _ s
  have hcont : Continuous ext := continuous_pi fun t => by
    by_cases ht : ∃ s, "d" ++ s = t
    · obtain ⟨s, rfl⟩ := ht
      simp only [hext]
      exact continuous_apply s
    · have : (fun y => ext y t) = fun _ => 0 := funext fun y => Function.extend_apply' _ _ _ ht
      rw [this]; exact continuous_const
  let cut : (String → ℝ) → String → ℝ := fun z s => z ("d" ++ s)
  have hcut : Continuous cut := continuous_pi fun s => continuous_apply _
  have hce : ∀ y, cut (ext y) = y := fun y => funext (hext y)
  let a : Fin n → String → ℝ := fun i => ext (at' v i)
  let F0 : String → Fin n → (String → ℝ) → ℝ := fun x i z => start I (at' c i) (cut z) x
  have hF0 : ∀ x, GoodS m a (F0 x) (σ x) := fun x => by
    by_cases hx : x ∈ I
    · have hr := hσ.1 x hx
      have ho := order_mk3 hr
      refine ⟨⟨valid_mk3 (ι := Fin n) (K := ℝ) hr, ho.le, Or.inl ho, fun i => ?_⟩, by rw [syms_mk3 hr]; exact List.pairwise_singleton _ _, goodNames_mk3 hr⟩
      have h1 := IsTaylor.coord (a := a i) (m := m) ("d" ++ x)
      have h2 : F0 x i = fun z => z ("d" ++ x) := funext fun z => if_pos hx
      rw [h2]
      refine h1.congr_poly ?_
      rw [toMv_mk3 hr]
      change EqUpTo m (MvPolynomial.C (ext (at' v i) ("d" ++ x)) + X ("d" ++ x)) (MvPolynomial.C (Lanes.lane i (v x)) + _)
      rw [hext]
      split_ifs with h0
      · subst h0
        intro e he
        have : e = 0 := by rw [← Finsupp.degree_eq_zero_iff]; omega
        rw [this]; simp [at']
      · exact EqUpTo.of_eq rfl
    · rw [hσ.2 x hx]
      have h2 : F0 x = fun i _ => Lanes.lane i (c x) := funext fun i => funext fun z => if_neg hx
      rw [h2]
      exact GoodS.const (c x)
  obtain ⟨σ', F', hr, hg, hs', hn⟩ := LProg.run_all hrun hA hq hF0 (by
    funext i x
    change _ = start I (at' c i) (cut (ext (at' v i))) x
    rw [hce])
  have hn' : ∀ i, ∀ᶠ z in 𝓝 (a i), q.Exec i (fun _ _ => True) (start I (at' c i) (cut z)) fun x => F' x i z :=
    fun i => (hn i).mono fun z hz => hz.mono fun _ _ _ => trivial
  have hv : ∀ i, Tendsto ext (𝓝 (at' v i)) (𝓝 (a i)) := fun i => hcont.tendsto (at' v i)
  have hloc : ∀ i x, F' x i =ᶠ[𝓝 (a i)] fun z => F' x i (ext (cut z)) := fun i x => by
    have h2 : Tendsto (fun z => ext (cut z)) (𝓝 (a i)) (𝓝 (a i)) := by
      have h3 : Tendsto (fun z => ext (cut z)) (𝓝 (a i)) (𝓝 (ext (cut (a i)))) := (hcont.comp hcut).tendsto (a i)
      have h4 : ext (cut (a i)) = a i := congrArg ext (hce (at' v i))
      rwa [h4] at h3
    filter_upwards [hn' i, h2.eventually (hn' i)] with z h3 h4
    rw [hce] at h4
    exact congrFun (h3.unique h4) x
  refine ⟨σ', hr, fun τ hτ => hτ.unique hr, fun x i y => F' x i (ext y), fun i => ?_, fun x => ?_⟩
  · filter_upwards [(hv i).eventually (hn' i)] with y hy
    rw [hce] at hy
    exact hy
  have hval : ∀ i, F' x i (ext (at' v i)) = s' i x := fun i => (congrFun (congrFun hs' i) x).symm
  have gd := hg x
  have hT : ∀ i, IsTaylor (a i) m (fun z => F' x i (ext (cut z))) ((σ' x).toMv i) := fun i => (gd.taylor i).congr_fun (hloc i x)
  have key : ∀ i, ∀ l : List String, l.length ≤ m →
      coeff 0 ((l.map fun s => "d" ++ s).foldl (fun Q s => pderiv s Q) ((σ' x).toMv i : MvPolynomial String ℝ)) =
        pds l (fun y => F' x i (ext y)) (at' v i) := fun i l hle => by
    rw [← (hT i).pds_eq _ (by rw [List.length_map]; exact hle)]
    have := pds_rename l (fun y => F' x i (ext y)) (a i)
    refine Eq.trans this ?_
    congr 1
    exact hce (at' v i)
  refine ⟨gd.valid, hval, ?_, ?_, fun l hle dict hk hpos hcount => ?_⟩
  · obtain ⟨u, hu, hv⟩ := gd.toGood.valueW
    exact ⟨u, hu, fun i => (hv i).trans (hval i)⟩
  · refine gd.order.imp id fun hc => ⟨gd.le, fun i l hl hle => ?_⟩
    rw [← key i l hle, hc i]
    cases l with
    | nil => exact absurd rfl hl
    | cons t l =>
      rw [List.map_cons, List.foldl_cons, pderiv_C]
      clear hl hle
      induction l with
      | nil => simp
      | cons u l ih => rw [List.map_cons, List.foldl_cons, map_zero]; exact ih
  · obtain ⟨w, hw, hlane⟩ := getDerivativeDict_count (ι := Fin n) (K := ℝ) gd.valid (l := l.map fun s => "d" ++ s) (by simpa using hle) hk hpos hcount
    exact ⟨w, hw, fun i => by rw [hlane i, key i l (hle.trans gd.le)]⟩

/-- `if (x < y) r = erf(x); else r = y;` with the arguments `x = [3, 4]` and `y = [5, 6]`: the condition holds in both components. -/
example : ∃ (q : LProg (VecN 2 ℝ)) (v : String → VecN 2 ℝ), q = .ite .lt (.var "x") (.var "y") (.assign "r" (.fn .erf (.var "x"))) (.assign "r" (.var "y")) ∧ v "x" = cf2 3 4 ∧ v "y" = cf2 5 6 ∧ q.NoAbs ∧ q.FnOrder 5 ∧
    (∃ σ, StartV ["x", "y"] (fun _ => VecN.ofScalar 0) v 5 σ) ∧ ∃ s', q.ExecAll (fun i => start ["x", "y"] (at' (fun _ => VecN.ofScalar 0) i) (at' v i)) s' := by
  refine ⟨_, fun s => if s = "x" then cf2 3 4 else cf2 5 6, rfl, rfl, rfl, by simp [LProg.NoAbs, LExpr.NoAbs], by simp [LProg.FnOrder, LExpr.FnOrder, LFn.MaxOrder], ?_, ?_⟩
  · obtain ⟨r, hr⟩ : ∃ r : GDual (VecN 2 ℝ), GDual.mk3 (cf2 3 4) "x" 5 = .ok r := ⟨_, mk3_ok.mpr ⟨by decide, ⟨'x', by decide, by decide⟩, rfl⟩⟩
    obtain ⟨t, ht⟩ : ∃ r : GDual (VecN 2 ℝ), GDual.mk3 (cf2 5 6) "y" 5 = .ok r := ⟨_, mk3_ok.mpr ⟨by decide, ⟨'y', by decide, by decide⟩, rfl⟩⟩
    refine ⟨fun x => if x = "x" then r else if x = "y" then t else ofCf (VecN.ofScalar 0), fun x hx => ?_, fun x hx => ?_⟩
    · obtain rfl | rfl : x = "x" ∨ x = "y" := by simpa using hx
      · exact hr
      · exact ht
    · have h : x ≠ "x" ∧ x ≠ "y" := by simpa using hx
      beta_reduce
      rw [if_neg h.1, if_neg h.2]
  · have hlt : ∀ i : Fin 2, (Lanes.lane i (cf2 3 4) : ℝ) < Lanes.lane i (cf2 5 6) := fun i => by
      fin_cases i
      · change (3 : ℝ) < 5; norm_num
      · change (4 : ℝ) < 6; norm_num
    exact ⟨_, .iteT _ _ _ _ _ _ _ (fun _ => trivial) (fun _ => trivial) (fun i => (hlt i).ne) hlt (.assign _ _ _ fun _ => ⟨trivial, trivial⟩)⟩

end Audi
