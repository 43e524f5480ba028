import Verif.Proofs.FunctionsPow
import Mathlib.Analysis.Calculus.ContDiff.Deriv
import Mathlib.Analysis.SpecialFunctions.Trigonometric.InverseDeriv
import Mathlib.Analysis.SpecialFunctions.Trigonometric.ArctanDeriv
import Mathlib.Analysis.SpecialFunctions.Sqrt

/-! `_compose_from_derivative` and the functions built on it. -/

set_option linter.unusedSectionVars false

namespace Audi

open MvPolynomial Spec Topology Filter

namespace Spec

/-- A function `n` times continuously differentiable at a point has a Taylor expansion of order `n`. -/
theorem exists_isTaylor₁ {c : ℝ} {n : ℕ} {g : ℝ → ℝ} (h : ContDiffAt ℝ n g c) : ∃ b, IsTaylor₁ c n g b := by
  induction n generalizing g with
  | zero => exact ⟨fun _ => g c, h.continuousAt, rfl⟩
  | succ n ih =>
    rw [Nat.cast_succ] at h
    obtain ⟨f', ⟨u, hu, hf⟩, hf'⟩ := contDiffAt_succ_iff_hasFDerivAt.mp h
    obtain ⟨b, hb⟩ := ih (g := fun t => f' t 1) (hf'.clm_apply contDiffAt_const)
    refine ⟨fun j => if j = 0 then g c else b (j - 1) / j, IsTaylor₁.succ (g' := fun t => f' t 1) (by simp) ?_ ?_⟩
    · filter_upwards [hu] with t ht using (hf t ht).hasDerivAt
    · refine hb.congr fun i _ => ?_
      simp only [Nat.succ_ne_zero, if_false, Nat.add_sub_cancel]
      have : (i + 1 : ℝ) ≠ 0 := by positivity
      push_cast
      field_simp

end Spec

section zs
variable {K : Type} [Field K]

theorem coeff_substMap_zero (s : String) (P : MvPolynomial String K) (e : String →₀ ℕ) :
    coeff e (Poly.substMap s (MvPolynomial.C 0) P) = if e s = 0 then coeff e P else 0 := by
  induction P using MvPolynomial.induction_on' with
  | monomial m c =>
    rw [Poly.substMap_monomial, map_zero, coeff_monomial]
    by_cases hm : m s = 0
    · have : m.erase s = m := by
        ext t
        rw [Finsupp.erase_apply]
        split_ifs with h
        · rw [h, hm]
        · rfl
      rw [hm, pow_zero, mul_one, this, coeff_monomial]
      by_cases he : m = e
      · subst he; rw [if_pos rfl, if_pos hm]
      · rw [if_neg he]; simp
    · rw [zero_pow hm, mul_zero, coeff_zero]
      split_ifs with h1 h2
      · subst h2; exact absurd h1 hm
      · rfl
      · rfl
  | add p q hp hq =>
    rw [map_add, coeff_add, hp, hq, coeff_add]; split_ifs <;> simp

/-- The variables in the list set to zero. -/
noncomputable def zs (Z : List String) (P : MvPolynomial String K) : MvPolynomial String K :=
  Z.foldr (fun s Q => Poly.substMap s (MvPolynomial.C 0) Q) P

theorem coeff_zs (Z : List String) (P : MvPolynomial String K) (e : String →₀ ℕ) :
    coeff e (zs Z P) = if ∀ t ∈ Z, e t = 0 then coeff e P else 0 := by
  induction Z with
  | nil => simp [zs]
  | cons s Z ih =>
    change coeff e (Poly.substMap s (MvPolynomial.C 0) (zs Z P)) = _
    rw [coeff_substMap_zero, ih]
    simp only [List.mem_cons, forall_eq_or_imp]
    split_ifs <;> tauto

theorem zs_mul (Z : List String) (P Q : MvPolynomial String K) : zs Z (P * Q) = zs Z P * zs Z Q := by
  induction Z with
  | nil => rfl
  | cons s Z ih =>
    change Poly.substMap s (MvPolynomial.C 0) (zs Z (P * Q)) = _
    rw [ih, map_mul]; rfl

theorem pderiv_zs {Z : List String} {s : String} (hs : s ∉ Z) (P : MvPolynomial String K) :
    pderiv s (zs Z P) = zs Z (pderiv s P) := by
  ext e
  rw [coeff_zs, coeff_pderiv, coeff_pderiv, coeff_zs]
  have : (∀ t ∈ Z, (e + Finsupp.single s 1 : String →₀ ℕ) t = 0) ↔ ∀ t ∈ Z, e t = 0 := by
    refine forall₂_congr fun t ht => ?_
    rw [Finsupp.add_apply, Finsupp.single_apply, if_neg (fun h : s = t => hs (h ▸ ht)), add_zero]
  simp only [this]
  split_ifs <;> simp

end zs

namespace GDual

variable {C : Type} [CfFun C] {ι : Type} [Lanes C ι ℝ] {d r : GDual C} {n : ℕ}

/-- The relation between the expansion of `g ∘ f`, that of `g' ∘ f` and that of `f` used by the algorithm. -/
theorem compose_key {n : ℕ} {b b' : ℕ → ℝ} (hb : ∀ j : ℕ, (j + 1 : ℝ) * b (j + 1) = b' j) {P DG : MvPolynomial String ℝ}
    (hDG : EqUpTo n DG (compPoly n b' P)) {e : String →₀ ℕ} {s : String} (he : e.degree ≤ n) (hs : e s ≠ 0) :
    coeff (e - Finsupp.single s 1) (DG * pderiv s P) = e s * coeff e (compPoly n b P) := by
  have hle : Finsupp.single s 1 ≤ e := by
    rw [Finsupp.single_le_iff]; omega
  have hdeg : (e - Finsupp.single s 1).degree + 1 = e.degree := by
    conv_rhs => rw [← tsub_add_cancel_of_le hle]
    rw [map_add, Finsupp.degree_single]
  obtain ⟨m, rfl⟩ : ∃ m, n = m + 1 := ⟨n - 1, by omega⟩
  have h1 : EqUpTo m (DG * pderiv s P) (pderiv s (compPoly (m + 1) b P)) := by
    rw [pderiv_compPoly]
    refine EqUpTo.mul ((hDG.mono (Nat.le_succ m)).trans ?_) (EqUpTo.refl _)
    have h2 : (fun i : ℕ => (i + 1 : ℝ) * b (i + 1)) = b' := funext hb
    rw [h2]
    exact sum_pow_eqUpTo (coeff_zero_hat P) b' (by omega)
  rw [h1 _ (by omega), coeff_pderiv, tsub_add_cancel_of_le hle, mul_comm]
  congr 1
  rw [Finsupp.tsub_apply, Finsupp.single_eq_same]
  push_cast [Nat.one_le_iff_ne_zero.mpr hs]
  ring

section loop
variable {b b' : ι → ℕ → ℝ} {P DG : ι → MvPolynomial String ℝ}

/-- One term of the sum. -/
theorem composeStep (hb : ∀ (i : ι) (j : ℕ), (j + 1 : ℝ) * b i (j + 1) = b' i j)
    (hDG : ∀ i, EqUpTo n (DG i) (compPoly n (b' i) (P i))) {Z : List String} {s : String}
    (hs : "d" ++ s ∉ Z) (hname : ∃ c, s.toList.head? = some c ∧ c ≠ 'd') {f dg : GDual C}
    (hf : f.Valid) (hfo : f.order = n) (hfP : ∀ i, f.toMv i = zs Z (P i))
    (hg : dg.Valid) (hgo : dg.order = n) (hgP : ∀ i, dg.toMv i = zs Z (DG i)) :
    ∃ fp t, f.partial' s = .ok fp ∧ (dg.mul fp).integrate s = .ok t ∧ t.Valid ∧ t.order = n ∧
      ∀ (i : ι) (e : String →₀ ℕ), e.degree ≤ n → coeff e (t.toMv i) =
        if e ("d" ++ s) = 0 then 0 else if ∀ t ∈ Z, e t = 0 then coeff e (compPoly n (b i) (P i)) else 0 := by
  have hp := partial_ok.mpr (⟨hname, rfl⟩ : _ ∧ (⟨f.p.diff ("d" ++ s), f.order⟩ : GDual C) = _)
  set fp : GDual C := ⟨f.p.diff ("d" ++ s), f.order⟩ with hfp
  have hfpv : fp.Valid := hf.partial' hp
  have ht := integrate_ok.mpr (⟨hname, rfl⟩ :
    _ ∧ (⟨((dg.mul fp).p.integrate ("d" ++ s)).truncate (dg.mul fp).order, (dg.mul fp).order⟩ : GDual C) = _)
  set t : GDual C := ⟨((dg.mul fp).p.integrate ("d" ++ s)).truncate (dg.mul fp).order, (dg.mul fp).order⟩ with htd
  have hmv : (dg.mul fp).Valid := hg.mul hfpv
  have hmo : (dg.mul fp).order = n := by change max dg.order f.order = n; rw [hgo, hfo, max_self]
  refine ⟨fp, t, hp, ht, hmv.integrate ht, hmo, fun i e he => ?_⟩
  rw [coeff_integrate hmv ht, hmo, if_pos he]
  by_cases h0 : e ("d" ++ s) = 0
  · rw [if_pos h0, if_pos h0]
  · rw [if_neg h0, if_neg h0]
    have hle : Finsupp.single ("d" ++ s) 1 ≤ e := by
      rw [Finsupp.single_le_iff]; omega
    have hdeg : (e - Finsupp.single ("d" ++ s) 1).degree ≤ n := (Finsupp.degree_mono tsub_le_self).trans he
    rw [coeff_mul' hg hfpv, if_pos (by change _ ≤ max dg.order f.order; rw [hgo, hfo, max_self]; exact hdeg), hgP,
      toMv_partial hf hp, hfP, pderiv_zs hs, ← zs_mul, coeff_zs]
    have hiff : (∀ t ∈ Z, (e - Finsupp.single ("d" ++ s) 1 : String →₀ ℕ) t = 0) ↔ ∀ t ∈ Z, e t = 0 := by
      refine forall₂_congr fun t ht => ?_
      rw [Finsupp.tsub_apply, Finsupp.single_apply, if_neg (fun h : "d" ++ s = t => hs (h ▸ ht)), tsub_zero]
    simp only [hiff]
    split_ifs with hz
    · rw [compose_key (hb i) (hDG i) he h0]
      have : ((e ("d" ++ s) : ℕ) : ℝ) ≠ 0 := by exact_mod_cast h0
      field_simp
    · simp

theorem composeLoop_spec (hb : ∀ (i : ι) (j : ℕ), (j + 1 : ℝ) * b i (j + 1) = b' i j)
    (hDG : ∀ i, EqUpTo n (DG i) (compPoly n (b' i) (P i))) (ss : List String) :
    ∀ (prev : String) (Z : List String) (f dg ret : GDual C),
    (∀ s ∈ ss, ∃ c, s.toList.head? = some c ∧ c ≠ 'd') → (ss.map ("d" ++ ·)).Nodup →
    (∀ s ∈ ss, "d" ++ s ∉ ("d" ++ prev) :: Z) →
    f.Valid → f.order = n → (∀ i, f.toMv i = zs Z (P i)) →
    dg.Valid → dg.order = n → (∀ i, dg.toMv i = zs Z (DG i)) →
    ret.Valid → ret.order = n → (∀ (i : ι) (e : String →₀ ℕ), e.degree ≤ n → coeff e (ret.toMv i) =
      if ∀ t ∈ ("d" ++ prev) :: Z, e t = 0 then 0 else coeff e (compPoly n (b i) (P i))) →
    ∃ r, composeLoop prev ss f dg ret = .ok r ∧ r.Valid ∧ r.order = n ∧
      ∀ (i : ι) (e : String →₀ ℕ), e.degree ≤ n → coeff e (r.toMv i) =
        if (∀ t ∈ ("d" ++ prev) :: Z, e t = 0) ∧ ∀ s ∈ ss, e ("d" ++ s) = 0 then 0 else coeff e (compPoly n (b i) (P i)) := by
  induction ss with
  | nil =>
    intro prev Z f dg ret _ _ _ _ _ _ _ _ _ h1 h2 h3
    exact ⟨ret, rfl, h1, h2, fun i e he => by rw [h3 i e he]; simp⟩
  | cons s ss ih =>
    intro prev Z f dg ret hn hnd hZ hf hfo hfP hg hgo hgP hr hro hrP
    have h0 : ∀ i : ι, (Lanes.lane i (Cf.ofRat 0 : C) : ℝ) = 0 := fun i => by rw [Lanes.lane_ofRat]; simp
    have hf' : (f.subsVal ("d" ++ prev) (Cf.ofRat 0)).Valid := hf.subsVal _ _
    have hg' : (dg.subsVal ("d" ++ prev) (Cf.ofRat 0)).Valid := hg.subsVal _ _
    have hfP' : ∀ i, (f.subsVal ("d" ++ prev) (Cf.ofRat 0)).toMv i = zs (("d" ++ prev) :: Z) (P i) := fun i => by
      rw [toMv_subsVal hf, hfP, h0]; rfl
    have hgP' : ∀ i, (dg.subsVal ("d" ++ prev) (Cf.ofRat 0)).toMv i = zs (("d" ++ prev) :: Z) (DG i) := fun i => by
      rw [toMv_subsVal hg, hgP, h0]; rfl
    obtain ⟨fp, t, hp, ht, htv, hto, htc⟩ := composeStep hb hDG (hZ s (by simp)) (hn s (by simp)) hf' hfo hfP' hg' hgo hgP'
    rw [List.map_cons, List.nodup_cons] at hnd
    have hret : ∀ (i : ι) (e : String →₀ ℕ), e.degree ≤ n → coeff e ((ret.add t).toMv i) =
        if ∀ u ∈ ("d" ++ s) :: ("d" ++ prev) :: Z, e u = 0 then 0 else coeff e (compPoly n (b i) (P i)) := fun i e he => by
      rw [toMv_add hr htv, coeff_add, hrP i e he, htc i e he]
      by_cases h1 : e ("d" ++ s) = 0
      · rw [if_pos h1, add_zero]
        simp [h1]
      · rw [if_neg h1]
        rw [if_neg (c := ∀ u ∈ ("d" ++ s) :: ("d" ++ prev) :: Z, e u = 0) (fun h => h1 (h _ (by simp)))]
        split_ifs <;> simp
    obtain ⟨r, hr1, hr2, hr3, hr4⟩ := ih s (("d" ++ prev) :: Z) _ _ (ret.add t) (fun u hu => hn u (by simp [hu])) hnd.2
      (fun u hu => by
        intro hc
        rcases List.mem_cons.mp hc with hc | hc
        · exact hnd.1 (hc ▸ List.mem_map_of_mem hu)
        · exact hZ u (by simp [hu]) hc)
      hf' hfo hfP' hg' hgo hgP' (hr.add htv) (by change max ret.order t.order = n; rw [hro, hto, max_self]) hret
    refine ⟨r, ?_, hr2, hr3, fun i e he => ?_⟩
    · rw [composeLoop]
      rw [bind_ok hp, bind_ok ht, hr1]
    · rw [hr4 i e he]
      refine if_congr ?_ rfl rfl
      simp only [List.mem_cons, forall_eq_or_imp]
      tauto

end loop

theorem goodNames_symbolSet {f : GDual C} (h : GoodNames f) :
    f.symbolSet.map ("d" ++ ·) = f.p.syms ∧ ∀ s ∈ f.symbolSet, ∃ c, s.toList.head? = some c ∧ c ≠ 'd' := by
  unfold symbolSet
  have key : ∀ s ∈ f.p.syms, "d" ++ String.ofList (s.toList.drop 1) = s ∧
      ∃ c, (String.ofList (s.toList.drop 1)).toList.head? = some c ∧ c ≠ 'd' := by
    intro s hs
    obtain ⟨m, rfl, hm⟩ := h s hs
    have e : String.ofList (("d" ++ m).toList.drop 1) = m := by
      rw [String.toList_append]
      change String.ofList m.toList = m
      exact String.ofList_toList
    rw [e]
    exact ⟨rfl, checkVarName_ok.mp hm⟩
  refine ⟨?_, fun s hs => ?_⟩
  · rw [List.map_map]
    conv_rhs => rw [← List.map_id f.p.syms]
    exact List.map_congr_left fun s hs => (key s hs).1
  · obtain ⟨u, hu, rfl⟩ := List.mem_map.mp hs
    exact (key u hu).2

/-- `_compose_from_derivative`. The order is lost when there are no symbols. -/
theorem compose_lift {f dg : GDual C} {g0 : C} {g g' : ι → ℝ → ℝ} (hf : f.Valid) (hnames : GoodNames f)
    (hdg : IsLift g' f dg) (hg0 : ∀ i : ι, (Lanes.lane i g0 : ℝ) = g i (coeff 0 (f.toMv i)))
    (hsm : ∀ i : ι, ContDiffAt ℝ f.order (g' i) (coeff 0 (f.toMv i)))
    (hder : ∀ i : ι, ∀ᶠ t in 𝓝 (coeff 0 (f.toMv i) : ℝ), HasDerivAt (g i) (g' i t) t) :
    ∃ r, composeFromDerivative f dg g0 = .ok r ∧ r.Valid ∧
      r.order = (if f.p.syms = [] then 0 else f.order) ∧
      ∀ (i : ι) (F : (String → ℝ) → ℝ) (a : String → ℝ), IsTaylor a f.order F (f.toMv i) →
        IsTaylor a f.order (fun x => g i (F x)) (r.toMv i) := by
  choose b' hb' using fun i => exists_isTaylor₁ (hsm i)
  set n := f.order with hn
  set b : ι → ℕ → ℝ := fun i j => if j = 0 then g i (coeff 0 (f.toMv i)) else b' i (j - 1) / j with hbd
  have hbb : ∀ (i : ι) (j : ℕ), (j + 1 : ℝ) * b i (j + 1) = b' i j := fun i j => by
    simp only [hbd, Nat.succ_ne_zero, if_false, Nat.add_sub_cancel]
    have : (j + 1 : ℝ) ≠ 0 := by positivity
    push_cast
    field_simp
  have hbT : ∀ i, IsTaylor₁ (coeff 0 (f.toMv i)) n (g i) (b i) := fun i => by
    refine IsTaylor₁.of_succ (IsTaylor₁.succ (g' := g' i) (by simp [hbd]) (hder i) ((hb' i).congr fun j _ => (hbb i j).symm))
  have hDG : ∀ i : ι, EqUpTo n (dg.toMv i) (compPoly n (b' i) (f.toMv i)) := fun i => by
    have hF := isTaylor_poly (fun _ => 0) n (f.toMv i : MvPolynomial String ℝ)
    refine (hdg.taylor i _ _ hF).unique (hF.comp ?_)
    rw [hF.val]
    exact hb' i
  suffices h : ∃ r, composeFromDerivative f dg g0 = .ok r ∧ r.Valid ∧ r.order = (if f.p.syms = [] then 0 else n) ∧
      ∀ i : ι, EqUpTo n (r.toMv i) (compPoly n (b i) (f.toMv i)) by
    obtain ⟨r, h1, h2, h3, h4⟩ := h
    refine ⟨r, h1, h2, h3, fun i F a hF => ?_⟩
    exact (hF.comp (by rw [hF.val]; exact hbT i)).congr_poly (h4 i).symm
  -- exponents without symbols of `f`
  have hout : ∀ (i : ι) (e : String →₀ ℕ), e ≠ 0 → (∀ s ∈ f.p.syms, e s = 0) → e.degree ≤ n →
      coeff e (compPoly n (b i) (f.toMv i)) = 0 := by
    intro i e he hs hle
    obtain ⟨s, hse⟩ : ∃ s, e s ≠ 0 := by
      by_contra hc
      push Not at hc
      exact he (Finsupp.ext hc)
    have h1 := compose_key (hbb i) (hDG i) hle hse
    have h2 : pderiv s (f.toMv i : MvPolynomial String ℝ) = 0 := by
      ext m
      rw [coeff_pderiv, coeff_zero]
      by_contra h
      have hne : coeff (m + Finsupp.single s 1) (f.toMv i) ≠ (0 : ℝ) := fun h0 => h (by rw [h0, zero_mul])
      obtain ⟨u, _, hu⟩ := Poly.exists_mem_of_coeff_ne hne
      have := DFunLike.congr_fun hu s
      rw [toExp_apply hf.wf.ndsyms, expOf_of_notMem (fun hc => hse (hs s hc))] at this
      simp at this
    rw [h2, mul_zero, coeff_zero] at h1
    have h3 : ((e s : ℕ) : ℝ) ≠ 0 := by exact_mod_cast hse
    exact (mul_eq_zero.mp h1.symm).resolve_left h3
  obtain ⟨hss, hsn⟩ := goodNames_symbolSet hnames
  unfold composeFromDerivative
  rcases hcase : f.symbolSet with _ | ⟨s, ss⟩
  · have hnil : f.p.syms = [] := by rw [← hss, hcase]; rfl
    refine ⟨ofCf g0, rfl, valid_ofCf _, by rw [if_pos hnil]; rfl, fun i e he => ?_⟩
    rw [toMv_ofCf]
    by_cases h0 : e = 0
    · rw [h0, coeff_zero_compPoly, hg0]; simp [hbd]
    · rw [hout i e h0 (by simp [hnil]) he, coeff_C, if_neg (Ne.symm h0)]
  · rw [hcase] at hss hsn
    have hnd : (("d" ++ s) :: ss.map ("d" ++ ·)).Nodup := by
      have := hf.wf.ndsyms
      rw [← hss] at this; exact this
    have hne : f.p.syms ≠ [] := by rw [← hss]; simp
    rw [List.nodup_cons] at hnd
    obtain ⟨fp, t, hp, ht, htv, hto, htc⟩ := composeStep (Z := []) hbb hDG (by simp) (hsn s (by simp)) hf rfl
      (fun i => rfl) hdg.valid hdg.order (fun i => rfl)
    obtain ⟨r, hr1, hr2, hr3, hr4⟩ := composeLoop_spec hbb hDG ss s [] f dg t (fun u hu => hsn u (by simp [hu])) hnd.2
      (fun u hu hc => by
        rw [List.mem_singleton] at hc
        exact hnd.1 (hc ▸ List.mem_map_of_mem hu))
      hf rfl (fun i => rfl) hdg.valid hdg.order (fun i => rfl) htv hto
      (fun i e he => by rw [htc i e he]; simp)
    refine ⟨r.addSG g0, ?_, hr2.addSG g0, by rw [if_neg hne]; exact hr3, fun i e he => ?_⟩
    · simp only
      rw [bind_ok hp, bind_ok ht, bind_ok hr1]
    · rw [toMv_addSG g0 hr2, coeff_add, hr4 i e he, coeff_C]
      by_cases h0 : e = 0
      · subst h0
        rw [if_pos rfl, if_pos (by simp), coeff_zero_compPoly, hg0]; simp [hbd]
      · rw [if_neg (Ne.symm h0), zero_add]
        split_ifs with hz
        · refine (hout i e h0 (fun u hu => ?_) he).symm
          rw [← hss] at hu
          rcases List.mem_cons.mp hu with rfl | hu
          · exact hz.1 _ (by simp)
          · obtain ⟨v, hv, rfl⟩ := List.mem_map.mp hu
            exact hz.2 v hv
        · rfl

end GDual
end Audi
