import Verif.Proofs.ConsistencyFn
import Verif.Proofs.RoundedDiff
import Verif.Proofs.LibSyms
import Verif.Model.RoundedBounds
import Verif.Spec.LibConsistency

/-! Limits of the remaining functions of gduals with rounded coefficients. -/

set_option linter.unusedSectionVars false

namespace Audi

open MvPolynomial Spec Filter Topology GDual

variable {A : ℕ}

namespace Ap
variable {g h : (S : Arith A) → GDual (Fl S.R)} {G H : GDual ℝ} {x : (S : Arith A) → Fl S.R} {X : ℝ}

/-! ### Calculus -/

theorem partial' (hg : Ap g G) {s : String} (hs : ∃ c, s.toList.head? = some c ∧ c ≠ 'd') : RR Ap (fun S => (g S).partial' s) (G.partial' s) := by
  refine ⟨fun S => ⟨(g S).p.diff ("d" ++ s), (g S).order⟩, ⟨G.p.diff ("d" ++ s), G.order⟩, ⟨?_, hg.order, valid_diff hg.limit _, fun E => ?_⟩, partial_ok.2 ⟨hs, rfl⟩,
    Eventually.of_forall fun S => partial_ok.2 ⟨hs, rfl⟩⟩
  · filter_upwards [hg.valid] with S h1
    exact valid_diff h1 _
  · have h1 : ((⟨G.p.diff ("d" ++ s), G.order⟩ : GDual ℝ).toMv () : MvPolynomial String ℝ) = pderiv ("d" ++ s) (G.toMv ()) := Poly.toMv_diff hg.limit.wf _ ()
    rw [h1, coeff_pderiv]
    have h2 : Lin (A := A) (fun S => S.R.rnd ((E ("d" ++ s) : ℝ) + 1)) ((E ("d" ++ s) : ℝ) + 1) := lin_rnd (Lin.const _)
    refine (lin_rnd ((hg.coef (E + Finsupp.single ("d" ++ s) 1)).mul h2)).congr' ?_
    filter_upwards [hg.valid] with S h3
    exact (Poly.cof_diff h3.wf _ E).symm

theorem integrate (hg : Ap g G) {s : String} (hs : ∃ c, s.toList.head? = some c ∧ c ≠ 'd') : RR Ap (fun S => (g S).integrate s) (G.integrate s) := by
  have hG := (integrate_ok (d := G)).2 ⟨hs, rfl⟩
  refine ⟨fun S => ⟨((g S).p.integrate ("d" ++ s)).truncate (g S).order, (g S).order⟩, ⟨(G.p.integrate ("d" ++ s)).truncate G.order, G.order⟩, ⟨?_, hg.order, hg.limit.integrate hG, fun E => ?_⟩, hG,
    Eventually.of_forall fun S => integrate_ok.2 ⟨hs, rfl⟩⟩
  · filter_upwards [hg.valid] with S h1
    exact h1.integrate (integrate_ok.2 ⟨hs, rfl⟩)
  · rw [coeff_integrate (ι := Unit) (K := ℝ) hg.limit hG]
    have key : ∀ S, (g S).Valid → (g S).order = G.order → (((g S).p.integrate ("d" ++ s)).truncate (g S).order).cof E =
        if E.degree ≤ G.order then (if E ("d" ++ s) = 0 then 0 else S.R.rnd ((g S).p.cof (E - Finsupp.single ("d" ++ s) 1) / S.R.rnd (E ("d" ++ s) : ℝ))) else 0 :=
      fun S h1 h2 => by rw [Poly.cof_truncate (h1.wf.integrate _), Poly.cof_integrate h1.wf, h2]
    have key' : ∀ᶠ S in toExact A, (if E.degree ≤ G.order then (if E ("d" ++ s) = 0 then 0 else
        S.R.rnd ((g S).p.cof (E - Finsupp.single ("d" ++ s) 1) / S.R.rnd (E ("d" ++ s) : ℝ))) else 0) = (((g S).p.integrate ("d" ++ s)).truncate (g S).order).cof E := by
      filter_upwards [hg.valid, hg.order] with S h1 h2
      exact (key S h1 h2).symm
    refine Lin.congr' ?_ key'
    split_ifs with h1 h2
    · exact Lin.const _
    · exact lin_rnd ((hg.coef _).div (lin_rnd (Lin.const _)) (by exact_mod_cast h2))
    · exact Lin.const _

theorem subsZero (hg : Ap g G) (s : String) : Ap (fun S => (g S).subsVal s (Cf.ofRat 0)) (G.subsVal s (Cf.ofRat 0)) where
  valid := by filter_upwards [hg.valid] with S h1; exact h1.subsVal _ _
  order := hg.order
  limit := hg.limit.subsVal _ _
  coef E := by
    have h0 : (Cf.ofRat 0 : ℝ) = 0 := by rw [ofRat_real]; simp
    have h1 : ((G.subsVal s (Cf.ofRat 0)).toMv () : MvPolynomial String ℝ) = Poly.substMap s (MvPolynomial.C 0) (G.toMv ()) := by
      have := toMv_subsVal hg.limit s (Cf.ofRat 0) (ι := Unit) (K := ℝ) ()
      rw [this, h0]
      rfl
    rw [h1, coeff_substMap_zero]
    have key : ∀ S, (g S).Valid → (g S).order = G.order → (E s ≠ 0 → ((g S).subsVal s (Cf.ofRat 0)).p.cof E = 0) ∧
        (E s = 0 → |((g S).subsVal s (Cf.ofRat 0)).p.cof E - (g S).p.cof E| ≤ ((1 + S.R.u) ^ (0 + (G.order - E.degree) + (G.order - E.degree)) - 1) * |(g S).p.cof E|) :=
      fun S v o => by
        have hz : (Cf.ofRat 0 : Fl S.R).val = 0 := by simp [Cf.ofRat, Fl.round, S.R.rnd_zero]
        have := Poly.near_subsVal v.wf s (Cf.ofRat 0) (n := G.order) (k₀ := 0) (by rw [← o]; exact v.deg) (x := (g S).p.cof) (X := fun E => |(g S).p.cof E|)
          (fun E => Rounding.Near.refl _ 0 _) E
        refine ⟨this.1, fun h => ?_⟩
        have h2 := (this.2 h).1
        rw [hz, abs_zero] at h2
        rw [Finset.sum_range_succ', Finset.sum_range_succ'] at h2
        simp at h2 ⊢
        exact h2
    split_ifs with hE
    · refine lin_of_err (k := 0 + (G.order - E.degree) + (G.order - E.degree)) (hg.coef E) (hg.coef E).tendsto.abs ?_
      filter_upwards [hg.valid, hg.order] with S h2 h3
      exact (key S h2 h3).2 hE
    · refine (Lin.const _).congr' ?_
      filter_upwards [hg.valid, hg.order] with S h2 h3
      exact ((key S h2 h3).1 hE).symm

/-! ### The functions which go through the derivative -/

theorem composeLoop (l : List String) (hl : ∀ s ∈ l, ∃ c, s.toList.head? = some c ∧ c ≠ 'd') : ∀ {prev : String} {f d r : (S : Arith A) → GDual (Fl S.R)} {F D R : GDual ℝ},
    Ap f F → Ap d D → Ap r R → RR Ap (fun S => GDual.composeLoop prev l (f S) (d S) (r S)) (GDual.composeLoop prev l F D R) := by
  induction l with
  | nil => exact fun _ _ hr => RR.pure hr
  | cons s l ih =>
    intro prev f d r F D R hf hd hr
    simp only [GDual.composeLoop]
    have hs := hl s List.mem_cons_self
    exact ((hf.subsZero _).partial' hs).bind fun fp FP hfp => (((hd.subsZero _).mul hfp).integrate hs).bind fun t T ht =>
      ih (fun u hu => hl u (List.mem_cons_of_mem _ hu)) (hf.subsZero _) (hd.subsZero _) (hr.add ht)

end Ap

/-- Gduals tending to a gdual with the same symbols. -/
structure ApS (g : (S : Arith A) → GDual (Fl S.R)) (G : GDual ℝ) : Prop extends Ap g G where
  syms : ∀ᶠ S in toExact A, (g S).p.syms = G.p.syms
  ok : SymsOk G
  ord : G.p.syms = [] ∨ 1 ≤ G.order

/-- As `composeFromDerivative`, for a given list of variables. -/
def composeWith {C : Type} [CfFun C] (l : List String) (f dg : GDual C) (g0 : C) : Res (GDual C) :=
  match l with
  | [] => .ok (ofCf g0)
  | s :: ss => do
    let fp ← f.partial' s
    let r0 ← (dg.mul fp).integrate s
    let r ← GDual.composeLoop s ss f dg r0
    .ok (r.addSG g0)

namespace ApS
variable {g h : (S : Arith A) → GDual (Fl S.R)} {G H : GDual ℝ} {x : (S : Arith A) → Fl S.R} {X : ℝ}

theorem composeD (hg : ApS g G) {d : (S : Arith A) → Res (GDual (Fl S.R))} {D : Res (GDual ℝ)} (hd : RR Ap d D) (hx : Apx x X) :
    RR Ap (fun S => GDual.composeD (g S) (d S) (x S)) (GDual.composeD G D X) := by
  obtain ⟨d', D', h1, rfl, h2⟩ := hd
  have hl : ∀ s ∈ G.symbolSet, ∃ c, s.toList.head? = some c ∧ c ≠ 'd' := fun s hs => by
    unfold GDual.symbolSet at hs
    obtain ⟨u, hu, rfl⟩ := List.mem_map.1 hs
    obtain ⟨t, rfl, ht⟩ := hg.ok.names u hu
    rw [drop_d]
    exact checkVarName_ok.1 ht
  have key : ∀ l : List String, (∀ s ∈ l, ∃ c, s.toList.head? = some c ∧ c ≠ 'd') → RR Ap (fun S => composeWith l (g S) (d' S) (x S)) (composeWith l G D' X) := fun l hl => by
    cases l with
    | nil => exact RR.pure (Ap.ofCf hx)
    | cons s ss =>
      simp only [composeWith]
      have hs := hl s List.mem_cons_self
      exact (hg.toAp.partial' hs).bind fun fp FP hfp => ((h1.mul hfp).integrate hs).bind fun r0 R0 h0 =>
        (Ap.composeLoop ss (fun u hu => hl u (List.mem_cons_of_mem _ hu)) hg.toAp h1 h0).bind fun r R hr => RR.pure (Ap.addSG hx hr)
  refine (key _ hl).congr ?_
  filter_upwards [h2, hg.syms] with S h3 h4
  have h5 : (g S).symbolSet = G.symbolSet := by unfold GDual.symbolSet; rw [h4]
  rw [h3]
  change composeWith (g S).symbolSet (g S) (d' S) (x S) = _
  rw [h5]

theorem atanD (hg : ApS g G) : RR Ap (fun S => (g S).atanD) G.atanD := by
  simp only [GDual.atanD]
  refine Ap.bind_constantCf hg.toAp fun p hp => hg.composeD (Ap.divSG (Apx.ofRat 1) (Ap.addSG (Apx.ofRat 1) (hg.toAp.mul hg.toAp)) ?_) ?_
  · rw [c0_addSG _ (hg.toAp.mul hg.toAp).limit, c0_mul hg.limit hg.limit, ofRat_real]
    push_cast
    nlinarith [mul_self_nonneg (c0 G)]
  · exact hp.fn (D := fun _ => True) (Real.differentiableAt_arctan _) (by simp) fun S t _ => S.atan_err t

theorem one_sub_sq (hG : G.Valid) (h0 : |c0 G| < 1) : 0 < c0 ((G.mul G).subSG (Cf.ofRat 1)) := by
  rw [c0_subSG _ (hG.mul hG), c0_mul hG hG, ofRat_real]
  have := (sq_lt_one_iff_abs_lt_one (c0 G)).2 h0
  push_cast
  nlinarith

theorem atanhD (hg : ApS g G) (h0 : |c0 G| < 1) : RR Ap (fun S => (g S).atanhD) G.atanhD := by
  simp only [GDual.atanhD]
  refine Ap.bind_constantCf hg.toAp fun p hp => ?_
  change |coeff 0 (G.toMv ())| < 1 at h0
  have hD : ∀ᶠ t in 𝓝 (coeff 0 (G.toMv ()) : ℝ), |t| < 1 := continuous_abs.continuousAt.eventually (gt_mem_nhds h0)
  refine RR.guard ?_ (by simpa [CfFun.atanhOk] using h0) (hg.composeD (Ap.divSG (Apx.ofRat 1) (Ap.subSG (Apx.ofRat 1) (hg.toAp.mul hg.toAp)) (one_sub_sq hg.limit h0).ne') ?_)
  · filter_upwards [hp.tendsto.eventually hD] with S h1
    simpa [CfFun.atanhOk] using h1
  · exact hp.fn (D := fun t => |t| < 1) (hasDerivAt_artanh h0).differentiableAt hD fun S t h => S.atanh_err t h

/-- The reciprocal of a square root. -/
theorem rootInv (hg : Ap g G) (h0 : 0 < c0 G) (q : ℚ) : RR Ap (fun S => (g S).sqrt >>= GDual.divSG (Cf.ofRat q)) (G.sqrt >>= GDual.divSG (Cf.ofRat q)) :=
  (Ap.sqrt_c0 hg h0).bind fun t T ht => Ap.divSG (Apx.ofRat q) ht.1 (by rw [ht.2]; exact (Real.sqrt_pos.2 h0).ne')

theorem asinD (hg : ApS g G) (h0 : |c0 G| < 1) : RR Ap (fun S => (g S).asinD) G.asinD := by
  simp only [GDual.asinD]
  refine Ap.bind_constantCf hg.toAp fun p hp => ?_
  change |coeff 0 (G.toMv ())| < 1 at h0
  have hD : ∀ᶠ t in 𝓝 (coeff 0 (G.toMv ()) : ℝ), |t| < 1 := continuous_abs.continuousAt.eventually (gt_mem_nhds h0)
  refine RR.guard ?_ (by simpa [CfFun.asinOk] using h0.le) (hg.composeD (rootInv (Ap.subSG (Apx.ofRat 1) (hg.toAp.mul hg.toAp)) (one_sub_sq hg.limit h0) 1) ?_)
  · filter_upwards [hp.tendsto.eventually hD] with S h1
    simpa [CfFun.asinOk] using h1.le
  · exact hp.fn (D := fun t => |t| < 1) (Real.differentiableAt_arcsin.2 ⟨(abs_lt.1 h0).1.ne', (abs_lt.1 h0).2.ne⟩) hD fun S t h => S.asin_err t h

theorem acosD (hg : ApS g G) (h0 : |c0 G| < 1) : RR Ap (fun S => (g S).acosD) G.acosD := by
  simp only [GDual.acosD]
  refine Ap.bind_constantCf hg.toAp fun p hp => ?_
  change |coeff 0 (G.toMv ())| < 1 at h0
  have hD : ∀ᶠ t in 𝓝 (coeff 0 (G.toMv ()) : ℝ), |t| < 1 := continuous_abs.continuousAt.eventually (gt_mem_nhds h0)
  refine RR.guard ?_ (by simpa [CfFun.asinOk] using h0.le) (hg.composeD (rootInv (Ap.subSG (Apx.ofRat 1) (hg.toAp.mul hg.toAp)) (one_sub_sq hg.limit h0) (-1)) ?_)
  · filter_upwards [hp.tendsto.eventually hD] with S h1
    simpa [CfFun.asinOk] using h1.le
  · exact hp.fn (D := fun t => |t| < 1) (Real.differentiableAt_arccos.2 ⟨(abs_lt.1 h0).1.ne', (abs_lt.1 h0).2.ne⟩) hD fun S t h => S.acos_err t h

theorem asinhD (hg : ApS g G) : RR Ap (fun S => (g S).asinhD) G.asinhD := by
  simp only [GDual.asinhD]
  refine Ap.bind_constantCf hg.toAp fun p hp => hg.composeD (rootInv (Ap.addSG (Apx.ofRat 1) (hg.toAp.mul hg.toAp)) ?_ 1) ?_
  · rw [c0_addSG _ (hg.toAp.mul hg.toAp).limit, c0_mul hg.limit hg.limit, ofRat_real]
    push_cast
    nlinarith [mul_self_nonneg (c0 G)]
  · exact hp.fn (D := fun _ => True) (Real.differentiable_arsinh _) (by simp) fun S t _ => S.asinh_err t

theorem acoshD (hg : ApS g G) (h0 : 1 < c0 G) : RR Ap (fun S => (g S).acoshD) G.acoshD := by
  simp only [GDual.acoshD]
  refine Ap.bind_constantCf hg.toAp fun p hp => ?_
  have hm := Ap.subGS (Apx.ofRat 1) hg.toAp
  have hq := Ap.addGS (Apx.ofRat 1) hg.toAp
  have hpos : 0 < c0 ((G.subGS (Cf.ofRat 1)).mul (G.addGS (Cf.ofRat 1))) := by
    have e1 : c0 (G.addGS (Cf.ofRat 1)) = Cf.ofRat 1 + c0 G := c0_addSG _ hg.limit
    rw [c0_mul hm.limit hq.limit, c0_subGS _ hg.limit, e1, ofRat_real]
    push_cast
    nlinarith
  change 1 < coeff 0 (G.toMv ()) at h0
  have hD : ∀ᶠ t in 𝓝 (coeff 0 (G.toMv ()) : ℝ), 1 < t := lt_mem_nhds h0
  refine RR.guard ?_ (by simpa [CfFun.acoshOk] using h0.le) (hg.composeD (rootInv (hm.mul hq) hpos 1) ?_)
  · filter_upwards [hp.tendsto.eventually hD] with S h1
    simpa [CfFun.acoshOk] using h1.le
  · exact hp.fn (D := fun t => 1 < t) (Real.hasDerivAt_arcosh h0).differentiableAt hD fun S t h => S.acosh_err t h

theorem erf (hg : ApS g G) : RR Ap (fun S => (g S).erf) G.erf := by
  simp only [GDual.erf]
  refine Ap.bind_constantCf hg.toAp fun p hp => hg.composeD ?_ ?_
  · have hc : Apx (A := A) (fun S => (CfFun.twoOverSqrtPi : Fl S.R)) (CfFun.twoOverSqrtPi : ℝ) :=
      lin_of_err (k := A) (Lin.const _) tendsto_const_nhds (Eventually.of_forall fun S => S.twoOverSqrtPi_err)
    obtain ⟨e, E, h1, h2, h3⟩ := Ap.exp (hg.toAp.neg.mul hg.toAp)
    refine ⟨_, _, Ap.mulSG hc h1, by rw [h2]; rfl, ?_⟩
    filter_upwards [h3] with S h4
    rw [h4]
    rfl
  · exact hp.fn (D := fun _ => True) (Spec.hasDerivAt_erf _).differentiableAt (by simp) fun S t _ => S.erf_err t

/-! ### The other functions -/

theorem sinAndCos (hg : Ap g G) : RR (fun r R => Ap (fun S => (r S).1) R.1 ∧ Ap (fun S => (r S).2) R.2) (fun S => (g S).sinAndCos) G.sinAndCos := by
  refine hg.fixed (fun S d => d.sinAndCos) fun q hq => ?_
  simp only [GDual.sinAndCos]
  refine Ap.bind_constantCf hq fun p hp => ?_
  have h1 := Ap.subGS hp hq
  exact (Ap.cosTaylor _ (h1.mul h1)).bind fun c C hc => (Ap.sinTaylor _ h1 (h1.mul h1)).bind fun s S hs =>
    RR.pure ⟨(Ap.mulSG hp.sin hc).add (Ap.mulSG hp.cos hs), (Ap.mulSG hp.cos hc).sub (Ap.mulSG hp.sin hs)⟩

theorem sinhAndCosh (hg : Ap g G) : RR (fun r R => Ap (fun S => (r S).1) R.1 ∧ Ap (fun S => (r S).2) R.2) (fun S => (g S).sinhAndCosh) G.sinhAndCosh := by
  refine hg.fixed (fun S d => d.sinhAndCosh) fun q hq => ?_
  simp only [GDual.sinhAndCosh]
  refine Ap.bind_constantCf hq fun p hp => ?_
  have h1 := Ap.subGS hp hq
  exact (Ap.coshTaylor _ (h1.mul h1)).bind fun c C hc => (Ap.sinhTaylor _ h1 (h1.mul h1)).bind fun s S hs =>
    RR.pure ⟨(Ap.mulSG hp.sinh hc).add (Ap.mulSG hp.cosh hs), (Ap.mulSG hp.cosh hc).add (Ap.mulSG hp.sinh hs)⟩

theorem abs (hg : Ap g G) (h0 : c0 G ≠ 0) : RR Ap (fun S => GDual.absScalar (g S)) (GDual.absScalar G) := by
  simp only [GDual.absScalar]
  refine Ap.bind_constantCf hg fun p hp => ?_
  change coeff 0 (G.toMv ()) ≠ 0 at h0
  rcases lt_or_gt_of_ne h0 with h1 | h1
  · rw [if_neg (not_le.2 h1)]
    refine (RR.pure hg.neg).congr ?_
    filter_upwards [hp.tendsto.eventually (gt_mem_nhds h1)] with S h2
    exact if_neg (not_le.2 h2)
  · rw [if_pos h1.le]
    refine (RR.pure hg).congr ?_
    filter_upwards [hp.tendsto.eventually (lt_mem_nhds h1)] with S h2
    exact if_pos (le_of_lt h2)

theorem logBase (hg : Ap g G) (h0 : 0 < c0 G) {q : ℚ} (hq : 1 < q) : RR Ap (fun S => (g S).log >>= fun l => l.divGS (CfFun.log (Cf.ofRat q)))
    (G.log >>= fun l => l.divGS (CfFun.log (Cf.ofRat q))) := by
  have h1 : (1 : ℝ) < q := by exact_mod_cast hq
  have h2 : Apx (A := A) (fun S => (CfFun.log (Cf.ofRat q) : Fl S.R)) (CfFun.log (Cf.ofRat q) : ℝ) :=
    (Apx.ofRat q).fn (D := fun t => 0 < t) (Real.differentiableAt_log (by rw [ofRat_real]; linarith)) (lt_mem_nhds (by rw [ofRat_real]; linarith))
      fun S t h => S.acc_err (S.libm.log_err t h)
  exact (Ap.log hg h0).bind fun l L hl => Ap.divGS h2 (Real.log_pos (by rw [ofRat_real]; exact h1)).ne' hl

theorem lfn {f : LFn} (hf : ∀ q, f ≠ .base (.powBase q)) (hg : ApS g G) (h : f.Dom (c0 G)) : RR Ap (fun S => f.run (g S)) (f.run G) := by
  have hA := hg.toAp
  cases f with
  | base f => exact hA.fn (fun q hq => hf q (by rw [hq])) h
  | abs => exact abs hA h
  | sinOf => exact (sinAndCos hA).bind fun r R hr => RR.pure hr.1
  | cosOf => exact (sinAndCos hA).bind fun r R hr => RR.pure hr.2
  | sinhOf => exact (sinhAndCosh hA).bind fun r R hr => RR.pure hr.1
  | coshOf => exact (sinhAndCosh hA).bind fun r R hr => RR.pure hr.2
  | erf => exact hg.erf
  | atanD => exact hg.atanD
  | atanhD => exact hg.atanhD h
  | asinD => exact hg.asinD h
  | acosD => exact hg.acosD h
  | asinhD => exact hg.asinhD
  | acoshD => exact hg.acoshD h
  | log10 => exact logBase hA h (by norm_num)
  | log2 => exact logBase hA h (by norm_num)
  | log1p =>
    refine Ap.log (Ap.addGS (Apx.ofRat 1) hA) ?_
    have e1 : c0 (G.addGS (Cf.ofRat 1)) = Cf.ofRat 1 + c0 G := c0_addSG _ hg.limit
    rw [e1, ofRat_real]
    have : -1 < c0 G := h
    push_cast
    linarith
  | expm1 => exact (Ap.exp hA).bind fun e E he => RR.pure (Ap.subGS (Apx.ofRat 1) he)
  | erfc => exact hg.erf.bind fun e E he => RR.pure (Ap.subSG (Apx.ofRat 1) he)

end ApS
end Audi
