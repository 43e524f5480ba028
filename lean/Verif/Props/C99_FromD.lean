import Verif.Props.C100_Examples
import Verif.Proofs.Compose

/-!
# C99, C100: the functions composed from their derivatives

The functions of functions_from_d.hpp take their value from the C library, whatever the value is, and they show infinite derivatives.
-/

namespace Audi

open Spec Poly GDual

variable {F : XFormat}

theorem check_ok {s : String} (h : ∃ c, s.toList.head? = some c ∧ c ≠ 'd') : checkVarName s = .ok () := checkVarName_ok.mpr h

theorem wf_partialF {d r : GDual (XF F)} {s : String} (hd : d.p.WF) (hr : d.partial' s = .ok r) : r.p.WF ∧ r.order = d.order := by
  unfold GDual.partial' at hr
  rw [bind_ok_iff] at hr
  obtain ⟨_, -, hr⟩ := hr
  cases hr
  exact ⟨WF.diff hd _, rfl⟩

/-- A primitive has no constant coefficient. -/
theorem cst_integrate {d r : GDual (XF F)} {s : String} (hd : d.p.WF) (hr : d.integrate s = .ok r) : Cst False r Cf.zero := by
  unfold GDual.integrate at hr
  rw [bind_ok_iff] at hr
  obtain ⟨_, -, hr⟩ := hr
  cases hr
  refine .exact ((WF.integrate hd _).truncate _) (cfAt_of_not ?_)
  rintro ⟨t, ht, h⟩
  have ht := (List.mem_filter.mp ht).1
  have hw := hd.addSymbols ["d" ++ s]
  rcases mem_insertTerms_keys (List.mem_map_of_mem (f := Prod.fst) ht) with h1 | h1
  rotate_left
  · simp at h1
  · obtain ⟨x, hx, hx'⟩ := List.mem_map.mp h1
    obtain ⟨u, hu, rfl⟩ := List.mem_map.mp hx
    have hm : "d" ++ s ∈ (d.p.addSymbols ["d" ++ s]).syms := mem_addSymbols_syms _ _
    have h2 : toExp (d.p.addSymbols ["d" ++ s]).syms t.1 = 0 := h
    rw [← hx'] at h2
    simp only at h2
    rw [toExp_setExp_succ hw.ndsyms (hw.len u hu) hm] at h2
    have h3 := DFunLike.congr_fun h2 ("d" ++ s)
    simp at h3

/-- A special coefficient of the integrand. -/
theorem phas_integrate {N : XF F → Prop} (hN : Absorbing N) {d r : GDual (XF F)} {s : String} {E : String →₀ ℕ} (hd : d.p.WF) (hE : PHas N d.p E)
    (hr : d.integrate s = .ok r) (hdeg : E.degree + 1 ≤ d.order) : PHas N r.p (E + Finsupp.single ("d" ++ s) 1) := by
  unfold GDual.integrate at hr
  rw [bind_ok_iff] at hr
  obtain ⟨_, -, hr⟩ := hr
  cases hr
  have hw := hd.addSymbols ["d" ++ s]
  obtain ⟨t, ht, h1, rfl⟩ := (phas_addSymbols hd ["d" ++ s]).mpr hE
  have hm : "d" ++ s ∈ (d.p.addSymbols ["d" ++ s]).syms := mem_addSymbols_syms _ _
  rw [← toExp_setExp_succ hw.ndsyms (hw.len t ht) hm]
  have h2 : TabHas N (d.p.integrate ("d" ++ s)).terms (setExp (d.p.addSymbols ["d" ++ s]).syms t.1 ("d" ++ s) (expOf (d.p.addSymbols ["d" ++ s]).syms t.1 ("d" ++ s) + 1)) :=
    hN.tabs_new ⟨_, List.mem_map_of_mem ht, hN.div_left _ _ h1, rfl⟩
  obtain ⟨x, hx, hx1, hx2⟩ := h2
  refine ⟨x, List.mem_filter.mpr ⟨hx, decide_eq_true ?_⟩, hx1, by rw [hx2]; rfl⟩
  change x.1.sum ≤ d.order
  have hl : x.1.length = (d.p.addSymbols ["d" ++ s]).syms.length := by rw [hx2, length_setExp]; exact hw.len t ht
  rw [← degree_toExp hl, hx2, toExp_setExp_succ hw.ndsyms (hw.len t ht) hm, map_add, Finsupp.degree_single]
  exact hdeg

theorem partial_ok (d : GDual (XF F)) {s : String} (h : ∃ c, s.toList.head? = some c ∧ c ≠ 'd') : ∃ r, d.partial' s = .ok r :=
  ⟨_, by unfold GDual.partial'; rw [check_ok h]; rfl⟩

theorem integrate_ok (d : GDual (XF F)) {s : String} (h : ∃ c, s.toList.head? = some c ∧ c ≠ 'd') : ∃ r, d.integrate s = .ok r :=
  ⟨_, by unfold GDual.integrate; rw [check_ok h]; rfl⟩

variable [XLibm F]

/-- The loop over the variables: it returns, adds nothing to the constant coefficient, and keeps special coefficients. -/
theorem composeLoop_cst (prev : String) (ss : List String) (hs : ∀ s ∈ ss, ∃ c, s.toList.head? = some c ∧ c ≠ 'd') {f dg ret : GDual (XF F)} (hf : f.p.WF)
    (hg : dg.p.WF) (hr : Cst False ret Cf.zero) :
    ∃ r, composeLoop prev ss f dg ret = .ok r ∧ Cst False r Cf.zero ∧
      ∀ (N : XF F → Prop) (E : String →₀ ℕ), Absorbing N → PHas N ret.p E → PHas N r.p E := by
  induction ss generalizing prev f dg ret with
  | nil => exact ⟨ret, rfl, hr, fun _ _ _ h => h⟩
  | cons s ss ih =>
    have hf' : (f.subsVal ("d" ++ prev) (Cf.ofRat 0)).p.WF := WF.subsVal hf _ _
    have hg' : (dg.subsVal ("d" ++ prev) (Cf.ofRat 0)).p.WF := WF.subsVal hg _ _
    have h1 := hs s (List.mem_cons_self ..)
    obtain ⟨fp, hfp⟩ := partial_ok (f.subsVal ("d" ++ prev) (Cf.ofRat 0)) h1
    have hw := wf_gmul hg' (wf_partialF hf' hfp).1
    obtain ⟨t, ht⟩ := integrate_ok ((dg.subsVal ("d" ++ prev) (Cf.ofRat 0)).mul fp) h1
    have hc := cst_integrate hw ht
    obtain ⟨r, h2, h3, h4⟩ := ih s (fun u hu => hs u (List.mem_cons_of_mem _ hu)) hf' hg' (hr.add_z hc)
    refine ⟨r, ?_, h3, fun N E hN h => h4 N E hN (PHas.add_left hN hr.wf _ h)⟩
    rw [composeLoop]
    rw [hfp, res_bind, ht, res_bind]
    exact h2

/-- `_compose_from_derivative`: the value is `g0`, and special values of the derivative show. -/
theorem compose_cst {f dg : GDual (XF F)} (hf : f.p.WF) (hn : GoodNames f) (hg : dg.p.WF) (g0 : XF F) :
    ∃ r, composeFromDerivative f dg g0 = .ok r ∧ Cst False r g0 ∧
      ∀ (N : XF F → Prop) (s : String) (ss : List String) (fp : GDual (XF F)) (E : String →₀ ℕ), Absorbing N → f.symbolSet = s :: ss → f.partial' s = .ok fp →
        PHas N dg.p 0 → Occurs fp.p E → E.degree + 1 ≤ f.order → PHas N r.p (E + Finsupp.single ("d" ++ s) 1) := by
  have hgood := (goodNames_symbolSet hn).2
  unfold composeFromDerivative
  rcases hss : f.symbolSet with _ | ⟨s, ss⟩
  · exact ⟨_, rfl, .ofCf g0, fun _ _ _ _ _ _ h => by simp at h⟩
  · rw [hss] at hgood
    have h1 := hgood s (List.mem_cons_self ..)
    obtain ⟨fp, hfp⟩ := partial_ok f h1
    obtain ⟨hw, ho⟩ := wf_partialF hf hfp
    obtain ⟨t, ht⟩ := integrate_ok (dg.mul fp) h1
    have hwm := wf_gmul hg hw
    have hc := cst_integrate hwm ht
    obtain ⟨r, h2, h3, h4⟩ := composeLoop_cst s ss (fun u hu => hgood u (List.mem_cons_of_mem _ hu)) hf hg hc
    refine ⟨GDual.addSG g0 r, ?_, ?_, fun N s' ss' fp' E hN he hfp' hd hE hdeg => ?_⟩
    · simp only
      rw [hfp, res_bind, ht, res_bind, h2, res_bind]
    · have := h3.addSG g0
      rwa [CfZero.add_zero] at this
    · obtain ⟨rfl, rfl⟩ := List.cons.inj he
      rw [hfp] at hfp'
      cases hfp'
      have h5 : PHas N (dg.mul fp).p (0 + E) :=
        PHas.mul_left hN hg hw hd hE (by rw [zero_add, ho]; have := le_max_right dg.order f.order; omega)
      rw [zero_add] at h5
      exact PHas.add_right hN (wf_const g0) h3.wf (h4 N _ hN (phas_integrate hN hwm h5 ht (by
        rw [order_mulF, ho]
        have := le_max_right dg.order f.order
        omega)))

theorem divSG_total (s : XF F) {b : GDual (XF F)} (hb : b.p.WF) : ∃ r, GDual.divSG s b = .ok r ∧ r.p.WF :=
  ⟨_, divSG_eq XF.isUnit_true s (constantCf_cfAt hb), wf_mulGS (wf_mulSG (divRet_wf hb _) s) _⟩

theorem sqrt_total {b : GDual (XF F)} (hb : b.p.WF) : ∃ r, sqrt b = .ok r ∧ r.p.WF := by
  obtain ⟨r, h1, h2⟩ := Cst.sqrt (P := True) (.exact hb rfl) (Or.inl trivial)
  exact ⟨r, h1, h2.wf⟩

theorem exp_total {b : GDual (XF F)} (hb : b.p.WF) : ∃ r, exp b = .ok r ∧ r.p.WF := by
  obtain ⟨r, h1, h2⟩ := Cst.exp (P := True) (.exact hb rfl) (Or.inl trivial)
  exact ⟨r, h1, h2.wf⟩

theorem wf_addSGF {b : GDual (XF F)} (hb : b.p.WF) (s : XF F) : (GDual.addSG s b).p.WF := ((Cst.exact (P := True) hb rfl).addSG s).wf

theorem wf_subSGF {b : GDual (XF F)} (hb : b.p.WF) (s : XF F) : (GDual.subSG s b).p.WF := ((Cst.exact (P := True) hb rfl).subSG s).wf

/-- The value of `r`. -/
def HasValue (x : Res (GDual (XF F))) (v : XF F) : Prop := ∃ r, x = .ok r ∧ r.constantCf = .ok v

theorem composeD_value {f dg : GDual (XF F)} (hf : f.p.WF) (hn : GoodNames f) (hg : dg.p.WF) {x : Res (GDual (XF F))} (hx : x = .ok dg) (g0 : XF F) :
    HasValue (composeD f x g0) g0 := by
  obtain ⟨r, h1, h2, -⟩ := compose_cst hf hn hg g0
  exact ⟨r, by rw [hx]; exact h1, h2.ok⟩

theorem sqrtDiv_total {b : GDual (XF F)} (hb : b.p.WF) (s : XF F) : ∃ r, (sqrt b >>= GDual.divSG s) = .ok r ∧ r.p.WF := by
  obtain ⟨r, h1, h2⟩ := sqrt_total hb
  obtain ⟨r', h3, h4⟩ := divSG_total s h2
  exact ⟨r', by rw [h1, res_bind]; exact h3, h4⟩

/-- **C99** The functions of functions_from_d.hpp and `erf` have, bit for bit, the value of the library function, for every value, NaN and infinities included.
(Unlike `asin`, `acos`, `asinh`, `acosh`, C99_inverse.) -/
theorem C99_from_d {f : GDual (XF F)} (hf : f.Valid) (hn : GoodNames f) {p0 : XF F} (h0 : f.constantCf = .ok p0) :
    HasValue (atanhD f) (XLibm.atanh p0) ∧ HasValue (atanD f) (XLibm.atan p0) ∧ HasValue (asinD f) (XLibm.asin p0) ∧ HasValue (asinhD f) (XLibm.asinh p0) ∧
      HasValue (acosD f) (XLibm.acos p0) ∧ HasValue (acoshD f) (XLibm.acosh p0) ∧ HasValue (GDual.erf f) (XLibm.erf p0) := by
  have hw := hf.wf
  have h2 := wf_gmul hw hw
  refine ⟨?_, ?_, ?_, ?_, ?_, ?_, ?_⟩
  · obtain ⟨g, h3, h4⟩ := divSG_total (Cf.ofRat 1) (wf_subSGF h2 (Cf.ofRat 1))
    unfold atanhD
    rw [h0, res_bind, show guardFinite (CfFun.atanhOk p0) = .ok () from rfl, res_bind]
    exact composeD_value hw hn h4 h3 _
  · obtain ⟨g, h3, h4⟩ := divSG_total (Cf.ofRat 1) (wf_addSGF h2 (Cf.ofRat 1))
    unfold atanD
    rw [h0, res_bind]
    exact composeD_value hw hn h4 h3 _
  · obtain ⟨g, h3, h4⟩ := sqrtDiv_total (wf_subSGF h2 (Cf.ofRat 1)) (Cf.ofRat 1)
    unfold asinD
    rw [h0, res_bind, show guardFinite (CfFun.asinOk p0) = .ok () from rfl, res_bind]
    exact composeD_value hw hn h4 h3 _
  · obtain ⟨g, h3, h4⟩ := sqrtDiv_total (wf_addSGF h2 (Cf.ofRat 1)) (Cf.ofRat 1)
    unfold asinhD
    rw [h0, res_bind]
    exact composeD_value hw hn h4 h3 _
  · obtain ⟨g, h3, h4⟩ := sqrtDiv_total (wf_subSGF h2 (Cf.ofRat 1)) (Cf.ofRat (-1))
    unfold acosD
    rw [h0, res_bind, show guardFinite (CfFun.asinOk p0) = .ok () from rfl, res_bind]
    exact composeD_value hw hn h4 h3 _
  · obtain ⟨g, h3, h4⟩ := sqrtDiv_total (wf_gmul (wf_subGS hw (Cf.ofRat 1)) (wf_addSGF hw (Cf.ofRat 1))) (Cf.ofRat 1)
    unfold acoshD
    rw [h0, res_bind, show guardFinite (CfFun.acoshOk p0) = .ok () from rfl, res_bind]
    exact composeD_value hw hn h4 h3 _
  · obtain ⟨g, h3, h4⟩ := exp_total (wf_gmul (a := f.neg) (wf_neg hw) hw)
    unfold GDual.erf
    rw [h0, res_bind]
    exact composeD_value hw hn (wf_mulSG h4 CfFun.twoOverSqrtPi) (by rw [h3]; rfl) _

/-- The result has a special coefficient at the monomial `E`. -/
def ShowsAt (x : Res (GDual (XF F))) (E : String →₀ ℕ) : Prop := ∃ r, x = .ok r ∧ HasAt NonFinite r E

theorem composeD_shows {f dg fp : GDual (XF F)} (hf : f.p.WF) (hn : GoodNames f) {x : Res (GDual (XF F))} (hx : x = .ok dg) (hg : dg.p.WF)
    (hd : PHas NonFinite dg.p 0) (g0 : XF F) {s : String} {ss : List String} (hs : f.symbolSet = s :: ss) (hp : f.partial' s = .ok fp) {E : String →₀ ℕ}
    (hE : fp.Present E) (hdeg : E.degree + 1 ≤ f.order) : ShowsAt (composeD f x g0) (E + Finsupp.single ("d" ++ s) 1) := by
  obtain ⟨r, h1, -, h2⟩ := compose_cst hf hn hg g0
  exact ⟨r, by rw [hx]; exact h1, h2 NonFinite s ss fp E absorbing_nonFinite hs hp hd hE hdeg⟩

/-- One over a gdual with the value 0. -/
theorem divSG_zero_shows {s : XF F} {q : ℚ} (hs : s.v = .fin q) (hq : q ≠ 0) {b : GDual (XF F)} (hb : Cst False b Cf.zero) :
    ∃ r, GDual.divSG s b = .ok r ∧ r.p.WF ∧ PHas NonFinite r.p 0 := by
  obtain ⟨r, h1, h2⟩ := Cst.divSG (P := False) s hb (Or.inr ⟨0, XF.zero_v⟩)
  have h3 := XF.inv_zero (a := (Cf.zero : XF F)) XF.zero_v
  have h4 : NonFinite (cmul s (Cf.div Cf.one Cf.zero)) := by
    have h5 : cmul s (Cf.div Cf.one Cf.zero) = Cf.mul s (Cf.div Cf.one Cf.zero) := if_neg (by
      rw [XF.isZero_iff, XF.isZero_iff, hs, h3]; simpa using hq)
    rw [h5]
    exact absorbing_nonFinite.mul_right _ _ ((nonFinite_iff _).mpr (Or.inr ⟨_, h3⟩))
  have h6 := h2.cf.resolve_right fun h => h.1
  exact ⟨r, h1, h2.wf, phas_of_cfAt XF.isZero_zero (by rw [h6]; exact h4) (by rw [h6]; exact absorbing_nonFinite.nz _ h4) h2.wf⟩

theorem sqrtDiv_zero_shows {s : XF F} {q : ℚ} (hs : s.v = .fin q) (hq : q ≠ 0) {b : GDual (XF F)} (hb : Cst False b Cf.zero) :
    ∃ r, (sqrt b >>= GDual.divSG s) = .ok r ∧ r.p.WF ∧ PHas NonFinite r.p 0 := by
  obtain ⟨a, h1, h2, -⟩ := sqrt_zero_sub hb.wf hb.ok XF.zero_v
  obtain ⟨r, h3, h4, h5⟩ := divSG_zero_shows hs hq h2.cst
  exact ⟨r, by rw [h1, res_bind]; exact h3, h4, h5⟩

/-- **C100** Infinite derivatives show in the functions of functions_from_d.hpp, unlike in those of functions.hpp (C100_asin_one, C100_acosh_one): at the values 1 and -1 `asin_d`, `acos_d` and
`atanh_d`, and at the value 1 `acosh_d`, have an infinite or NaN coefficient for every monomial of the derivative of `f` with respect to its first variable. -/
theorem C100_from_d {f fp : GDual (XF F)} (hf : f.Valid) (hn : GoodNames f) {p0 : XF F} (h0 : f.constantCf = .ok p0) {q : ℚ} (hp : p0.v = .fin q) {s : String} {ss : List String}
    (hs : f.symbolSet = s :: ss) (hfp : f.partial' s = .ok fp) {E : String →₀ ℕ} (hE : fp.Present E) (hdeg : E.degree + 1 ≤ f.order) :
    (|q| = 1 → ShowsAt (asinD f) (E + Finsupp.single ("d" ++ s) 1) ∧ ShowsAt (acosD f) (E + Finsupp.single ("d" ++ s) 1) ∧
      ShowsAt (atanhD f) (E + Finsupp.single ("d" ++ s) 1)) ∧
    (q = 1 → ShowsAt (acoshD f) (E + Finsupp.single ("d" ++ s) 1)) := by
  have hc := Cst.of_ok (P := False) hf.wf h0
  have h1v : (Cf.ofRat 1 : XF F).v = .fin 1 := XF.one_v
  have hm : (Cf.ofRat (-1) : XF F).v = .fin (-1) := (F.rnd_neg 1).trans (by rw [F.rnd_one]; rfl)
  refine ⟨fun hq => ?_, fun hq => ?_⟩
  · have hq2 : q * q = 1 := by rw [← abs_mul_abs_self, hq, mul_one]
    have h2 : Cst False (GDual.subSG (Cf.ofRat 1) (f.mul f)) Cf.zero := by
      have := (hc.mul hc).subSG (Cf.ofRat 1)
      rw [cmul_fin hp hp] at this
      have h3 : Cf.mul p0 p0 = Cf.one := XF.ext (by rw [XF.mul_fin hp hp, hq2, XF.one_v]; exact F.rnd_one)
      rw [h3] at this
      rwa [show (Cf.add (Cf.ofRat 1 : XF F) (Cf.neg Cf.one)) = Cf.zero from XF.cancel' XF.one_v] at this
    refine ⟨?_, ?_, ?_⟩
    · obtain ⟨g, h3, h4, h5⟩ := sqrtDiv_zero_shows h1v one_ne_zero h2
      unfold asinD
      rw [h0, res_bind, show guardFinite (CfFun.asinOk p0) = .ok () from rfl, res_bind]
      exact composeD_shows hf.wf hn h3 h4 h5 _ hs hfp hE hdeg
    · obtain ⟨g, h3, h4, h5⟩ := sqrtDiv_zero_shows hm (by norm_num) h2
      unfold acosD
      rw [h0, res_bind, show guardFinite (CfFun.asinOk p0) = .ok () from rfl, res_bind]
      exact composeD_shows hf.wf hn h3 h4 h5 _ hs hfp hE hdeg
    · obtain ⟨g, h3, h4, h5⟩ := divSG_zero_shows h1v one_ne_zero h2
      unfold atanhD
      rw [h0, res_bind, show guardFinite (CfFun.atanhOk p0) = .ok () from rfl, res_bind]
      exact composeD_shows hf.wf hn h3 h4 h5 _ hs hfp hE hdeg
  · subst hq
    have hp1 : p0 = Cf.one := XF.ext (hp.trans XF.one_v.symm)
    subst hp1
    have h2 : Cst False (f.subGS (Cf.ofRat 1)) Cf.zero := by
      have := hc.subGS (Cf.ofRat 1)
      rwa [show (Cf.add (Cf.one : XF F) (Cf.neg (Cf.ofRat 1))) = Cf.zero from XF.cancel' XF.one_v] at this
    have h3 : Cst False ((f.subGS (Cf.ofRat 1)).mul (f.addGS (Cf.ofRat 1))) Cf.zero := by
      have := h2.mul (hc.addSG (Cf.ofRat 1))
      rwa [show cmul (Cf.zero : XF F) (Cf.add (Cf.ofRat 1) Cf.one) = Cf.zero from if_pos (Or.inl XF.isZero_zero)] at this
    obtain ⟨g, h4, h5, h6⟩ := sqrtDiv_zero_shows h1v one_ne_zero h3
    unfold acoshD
    rw [h0, res_bind, show guardFinite (CfFun.acoshOk (Cf.one : XF F)) = .ok () from rfl, res_bind]
    exact composeD_shows hf.wf hn h4 h5 h6 _ hs hfp hE hdeg

section Examples

attribute [local instance] lib64

theorem oneX1_names : GoodNames oneX1 := by
  intro s hs
  simp only [oneX1, List.mem_cons, List.not_mem_nil, or_false] at hs
  subst hs
  exact ⟨"x", by decide, rfl⟩

/-- `asin_d(1 + dx)`: the value is that of the library, the derivative is not finite. -/
example : HasValue (asinD oneX1) (XLibm.asin Cf.one) ∧ ShowsAt (asinD oneX1) (Finsupp.single "dx" 1) := by
  refine ⟨(C99_from_d oneX1_valid oneX1_names (p0 := Cf.one) rfl).2.2.1, ?_⟩
  obtain ⟨fp, hfp⟩ := partial_ok oneX1 (s := "x") ⟨'x', by decide, by decide⟩
  have h := ((C100_from_d oneX1_valid oneX1_names (p0 := Cf.one) rfl XF.one_v (s := "x") (ss := []) (by decide) hfp (E := 0) ?_ (by simp [oneX1])).1 abs_one).1
  · rwa [zero_add] at h
  · unfold GDual.partial' at hfp
    rw [check_ok ⟨'x', by decide, by decide⟩, res_bind] at hfp
    cases hfp
    have h1 : Cf.mul (Cf.one : XF .binary64) (Cf.ofRat ((1 : ℕ) : ℚ)) = Cf.one :=
      XF.ext (by rw [XF.mul_fin XF.one_v (show (Cf.ofRat ((1 : ℕ) : ℚ) : XF .binary64).v = .fin 1 from by rw [Nat.cast_one]; exact XF.one_v), mul_one, XF.one_v]; exact XFormat.rnd_one _)
    have h2 : (oneX1.p.diff ("d" ++ "x")).terms = insertTerm [0] (Cf.mul (Cf.one : XF .binary64) (Cf.ofRat ((1 : ℕ) : ℚ))) [] := rfl
    rw [h1] at h2
    refine ⟨([0], Cf.one), ?_, trivial, by simp [toExp, Poly.diff, oneX1]⟩
    change _ ∈ (oneX1.p.diff ("d" ++ "x")).terms
    rw [h2]
    simp [insertTerm, XF.isZero_one]

end Examples
end Audi
