import Verif.Spec.LibExpr
import Verif.Proofs.ExprSyms
import Verif.Proofs.Expr
import Verif.Props.C30_Inverse
import Verif.Props.C71_MoreFunctions

/-! Evaluation of expressions with all the functions. -/

namespace Audi

open MvPolynomial Spec GDual Filter Topology

/-! ### The symbols of the results of `_compose_from_derivative` -/

namespace GDual

section
variable {C : Type} [CfFun C] {S : List String} {f dg r : GDual C} (hS : S.Pairwise (· < ·))
include hS

theorem HasSyms.integrate {s : String} (hf : HasSyms S f) (hs : "d" ++ s ∈ S) (h : f.integrate s = .ok r) : HasSyms S r := by
  unfold GDual.integrate at h
  obtain ⟨_, -, h⟩ := bind_ok_iff.1 h
  injection h with h
  subst h
  change mergeSyms f.p.syms ["d" ++ s] = S
  rw [hf]
  exact mergeSyms_eq_left hS (by simpa using hs)

omit hS in
theorem HasSyms.partial' {s : String} (hf : HasSyms S f) (h : f.partial' s = .ok r) : HasSyms S r := by
  unfold GDual.partial' at h
  obtain ⟨_, -, h⟩ := bind_ok_iff.1 h
  injection h with h
  subst h
  exact hf

theorem composeLoop_syms (l : List String) : ∀ {prev : String} {f dg ret : GDual C}, HasSyms S f → SubSyms S dg → HasSyms S ret →
    (∀ s ∈ l, "d" ++ s ∈ S) → composeLoop prev l f dg ret = .ok r → HasSyms S r := by
  induction l with
  | nil =>
    intro prev f dg ret _ _ hr _ h
    injection h with h
    subst h
    exact hr
  | cons s l ih =>
    intro prev f dg ret hf hdg hr hl h
    obtain ⟨fp, h1, h⟩ := bind_ok_iff.1 (show (((f.subsVal ("d" ++ prev) (Cf.ofRat 0)).partial' s >>= fun fp =>
      ((dg.subsVal ("d" ++ prev) (Cf.ofRat 0)).mul fp).integrate s >>= fun t =>
        composeLoop s l (f.subsVal ("d" ++ prev) (Cf.ofRat 0)) (dg.subsVal ("d" ++ prev) (Cf.ofRat 0)) (ret.add t)) : Res (GDual C)) = .ok r from h)
    obtain ⟨t, h2, h⟩ := bind_ok_iff.1 h
    have hf' : HasSyms S (f.subsVal ("d" ++ prev) (Cf.ofRat 0)) := hf
    have hdg' : SubSyms S (dg.subsVal ("d" ++ prev) (Cf.ofRat 0)) := ⟨hdg.sorted, hdg.sub⟩
    have ht : HasSyms S t := (HasSyms.mul_right hS hdg' (hf'.partial' h1)).integrate hS (hl s List.mem_cons_self) h2
    exact ih hf' hdg' (hr.add_left hS (ht.sub hS)) (fun u hu => hl u (List.mem_cons_of_mem _ hu)) h

theorem composeFromDerivative_syms {g0 : C} (hf : HasSyms S f) (hn : GoodNames f) (hdg : SubSyms S dg)
    (h : composeFromDerivative f dg g0 = .ok r) : HasSyms S r := by
  have hmem : ∀ s ∈ f.symbolSet, "d" ++ s ∈ S := fun s hs => by
    unfold GDual.symbolSet at hs
    obtain ⟨u, hu, rfl⟩ := List.mem_map.1 hs
    obtain ⟨t, rfl, -⟩ := hn u hu
    rw [drop_d, ← hf]
    exact hu
  unfold composeFromDerivative at h
  cases hss : f.symbolSet with
  | nil =>
    rw [hss] at h
    injection h with h
    subst h
    have : f.p.syms = [] := by
      unfold GDual.symbolSet at hss
      exact List.map_eq_nil_iff.1 hss
    rw [hf] at this
    subst this
    rfl
  | cons s ss =>
    rw [hss] at h hmem
    obtain ⟨fp, h1, h⟩ := bind_ok_iff.1 h
    obtain ⟨r0, h2, h⟩ := bind_ok_iff.1 h
    obtain ⟨r1, h3, h⟩ := bind_ok_iff.1 h
    injection h with h
    subst h
    have hr0 : HasSyms S r0 := (HasSyms.mul_right hS hdg (hf.partial' h1)).integrate hS (hmem s List.mem_cons_self) h2
    exact (composeLoop_syms hS ss hf hdg hr0 (fun u hu => hmem u (List.mem_cons_of_mem _ hu)) h3).addSG hS g0

theorem composeD_syms {dg : Res (GDual C)} {g0 : C} (hf : HasSyms S f) (hn : GoodNames f) (hdg : ∀ x, dg = .ok x → SubSyms S x)
    (h : composeD f dg g0 = .ok r) : HasSyms S r := by
  unfold composeD at h
  cases dg with
  | ok dg => exact composeFromDerivative_syms hS hf hn (hdg dg rfl) h
  | error e =>
    change (if f.degree = 0 then composeFromDerivative f (f.sub f) g0 else .error e) = .ok r at h
    split_ifs at h
    exact composeFromDerivative_syms hS hf hn ((hf.sub_left hS (hf.sub hS)).sub hS) h

theorem atanD_syms (hf : HasSyms S f) (hn : GoodNames f) (h : atanD f = .ok r) : HasSyms S r := by
  unfold atanD at h
  obtain ⟨f0, -, h⟩ := bind_ok_iff.1 h
  exact composeD_syms hS hf hn (fun x hx => (((hf.mul_left hS (hf.sub hS)).addSG hS _).divSG hS hx).sub hS) h

theorem atanhD_syms (hf : HasSyms S f) (hn : GoodNames f) (h : atanhD f = .ok r) : HasSyms S r := by
  unfold atanhD at h
  obtain ⟨f0, -, h⟩ := bind_ok_iff.1 h
  obtain ⟨_, -, h⟩ := bind_ok_iff.1 h
  exact composeD_syms hS hf hn (fun x hx => (((hf.mul_left hS (hf.sub hS)).subSG hS _).divSG hS hx).sub hS) h

theorem rootInv_syms {g : GDual C} {c : C} (hg : HasSyms S g) : ∀ x, (sqrt g >>= divSG c) = .ok x → SubSyms S x := fun x hx => by
  obtain ⟨q, h1, h2⟩ := bind_ok_iff.1 hx
  exact ((hg.sqrt hS h1).divSG hS h2).sub hS

theorem asinD_syms (hf : HasSyms S f) (hn : GoodNames f) (h : asinD f = .ok r) : HasSyms S r := by
  unfold asinD at h
  obtain ⟨f0, -, h⟩ := bind_ok_iff.1 h
  obtain ⟨_, -, h⟩ := bind_ok_iff.1 h
  exact composeD_syms hS hf hn (rootInv_syms hS ((hf.mul_left hS (hf.sub hS)).subSG hS _)) h

theorem acosD_syms (hf : HasSyms S f) (hn : GoodNames f) (h : acosD f = .ok r) : HasSyms S r := by
  unfold acosD at h
  obtain ⟨f0, -, h⟩ := bind_ok_iff.1 h
  obtain ⟨_, -, h⟩ := bind_ok_iff.1 h
  exact composeD_syms hS hf hn (rootInv_syms hS ((hf.mul_left hS (hf.sub hS)).subSG hS _)) h

theorem asinhD_syms (hf : HasSyms S f) (hn : GoodNames f) (h : asinhD f = .ok r) : HasSyms S r := by
  unfold asinhD at h
  obtain ⟨f0, -, h⟩ := bind_ok_iff.1 h
  exact composeD_syms hS hf hn (rootInv_syms hS ((hf.mul_left hS (hf.sub hS)).addSG hS _)) h

theorem acoshD_syms (hf : HasSyms S f) (hn : GoodNames f) (h : acoshD f = .ok r) : HasSyms S r := by
  unfold acoshD at h
  obtain ⟨f0, -, h⟩ := bind_ok_iff.1 h
  obtain ⟨_, -, h⟩ := bind_ok_iff.1 h
  have h1 : HasSyms S (f.addGS (Cf.ofRat 1)) := hf.addSG hS _
  exact composeD_syms hS hf hn (rootInv_syms hS ((hf.subGS _).mul_left hS (h1.sub hS))) h

theorem erf_syms (hf : HasSyms S f) (hn : GoodNames f) (h : erf f = .ok r) : HasSyms S r := by
  unfold erf at h
  obtain ⟨f0, -, h⟩ := bind_ok_iff.1 h
  refine composeD_syms hS hf hn (fun x hx => ?_) h
  have hm : HasSyms S (f.neg.mul f) := HasSyms.mul_right hS (SubSyms.mk (by change f.p.syms.Pairwise _; rw [hf]; exact hS)
    fun s hs => by rw [← hf]; exact hs) hf
  cases he : exp (f.neg.mul f) with
  | error e => rw [he] at hx; cases hx
  | ok q =>
    rw [he] at hx
    injection hx with hx
    subst hx
    exact ((hm.exp hS he).mulSG hS _).sub hS

end
end GDual

section
variable {C : Type} [CfFun C] {ι : Type} {𝕜 : Type} [NontriviallyNormedField 𝕜] [CharZero 𝕜] [Lanes C ι 𝕜] {d : GDual C} {m : ℕ} {p : ι → String → 𝕜}

theorem GDual.IsLiftD.w {g : ι → 𝕜 → 𝕜} {d r : GDual C} (h : IsLiftD g d r) : WLift g d r := by
  refine ⟨h.valid, ?_, ?_, h.taylor⟩
  · rw [h.order]; split_ifs <;> omega
  · have := h.order
    split_ifs at this
    · exact Or.inr (isConst_of_order_zero h.valid this)
    · exact Or.inl this

/-- As `Good.fn`, for functions with a condition on the polynomial. -/
theorem Good.fnP {P : Poly C → Prop} {f : GDual C → Res (GDual C)} {g : ι → 𝕜 → 𝕜} {dom : ι → 𝕜 → Prop}
    (hf : ∀ d : GDual C, d.Valid → P d.p → d.order ≤ m → (∀ i : ι, dom i (coeff 0 (d.toMv i : MvPolynomial String 𝕜))) →
      ∃ r, f d = .ok r ∧ WLift g d r) (hP : P d.p) {F : ι → (String → 𝕜) → 𝕜} (h : Good m p F d) (hdom : ∀ i, dom i (F i (p i))) :
    ∃ r, f d = .ok r ∧ Good m p (fun i x => g i (F i x)) r := by
  have hdom' : ∀ i : ι, dom i (coeff 0 (d.toMv i : MvPolynomial String 𝕜)) := fun i => by rw [← (h.taylor i).val]; exact hdom i
  obtain ⟨r, hr, hw⟩ := hf d h.valid hP h.le hdom'
  obtain ⟨r', hr', hw'⟩ := hf (withOrder d m) (valid_withOrder h.valid h.le) hP le_rfl hdom'
  -- the two results are those of a function without a condition
  refine ⟨r, hr, ?_⟩
  have hc : ∀ {d r : GDual C}, WLift g d r → IsConst ι d → ∀ i : ι,
      (r.toMv i : MvPolynomial String 𝕜) = MvPolynomial.C (g i (coeff 0 (d.toMv i : MvPolynomial String 𝕜))) := by
    intro d r hw hc i
    have h1 := hw.taylor i (fun _ => coeff 0 (d.toMv i : MvPolynomial String 𝕜)) (p i) (by
      conv => arg 4; rw [hc i]
      exact IsTaylor.const _)
    exact EqUpTo.eq_of_degLE (m := d.order) (h1.unique (IsTaylor.const _))
      (fun e he => hw.valid.degLE (K := 𝕜) i e (lt_of_le_of_lt hw.le he)) (degLE_C _ _)
  rcases h.order with ho | hcc
  · refine ⟨hw.valid, hw.le.trans h.le, ho ▸ hw.order, fun i => ?_⟩
    have := hw.taylor i (F i) (p i) (ho.symm ▸ h.taylor i)
    rwa [ho] at this
  · refine ⟨hw.valid, hw.le.trans h.le, Or.inr fun i => by rw [hc hw hcc i]; simp, fun i => ?_⟩
    have h2 := hw'.taylor i (F i) (p i) (h.taylor i)
    rw [hc hw' hcc i] at h2
    rw [hc hw hcc i]
    exact h2

end

variable {C : Type} [CfFun C] [AbsFn C] {ι : Type} [Lanes C ι ℝ] {d : GDual C} {m : ℕ} {p : ι → String → ℝ}

/-- `abs` computes the absolute value where it is smooth. -/
def AbsLaw (C : Type) [CfFun C] [AbsFn C] (ι : Type) [Lanes C ι ℝ] : Prop := ∀ d : GDual C, d.Valid →
  (∀ i : ι, coeff 0 (d.toMv i : MvPolynomial String ℝ) ≠ 0) →
    ∃ r, AbsFn.abs d = .ok r ∧ IsLift (fun (_ : ι) x => |x|) d r ∧ r.p.syms = d.p.syms

theorem absLaw_real : AbsLaw ℝ Unit := fun d hd h => by
  obtain ⟨r, h1, -, -, h2, -⟩ := C32_abs hd
  refine ⟨r, h1, h2 (h ()), ?_⟩
  unfold absScalar at h1
  obtain ⟨p0, -, h1⟩ := bind_ok_iff.1 h1
  split_ifs at h1 <;> injection h1 with h1 <;> subst h1 <;> rfl

variable [LanesFun C ι]

/-- Every function of the list lifts. -/
theorem LFn.lift (f : LFn) (hA : f ≠ .abs ∨ AbsLaw C ι) (hd : d.Valid) (hs : d.p.syms.Pairwise (· < ·)) (hn : GoodNames d) (hm : f.MaxOrder d.order)
    (h : ∀ i : ι, f.Dom (coeff 0 (d.toMv i : MvPolynomial String ℝ))) :
    ∃ r, f.run d = .ok r ∧ WLift (fun _ : ι => f.real) d r ∧ SubSyms d.p.syms r ∧ ((∀ q, f ≠ .base (.powBase q)) →
      ((d.p.syms = [] → d.order = 0) → r.order = d.order) ∧ (1 ≤ d.order → r.p.syms = d.p.syms)) := by
  have hh : HasSyms d.p.syms d := rfl
  -- functions which keep the order
  have key : ∀ {f : GDual C → Res (GDual C)} {g : ι → ℝ → ℝ} {P : Prop}, (∀ r, f d = .ok r → HasSyms d.p.syms r) → (∃ r, f d = .ok r ∧ IsLift g d r) →
      ∃ r, f d = .ok r ∧ WLift g d r ∧ SubSyms d.p.syms r ∧ (P → ((d.p.syms = [] → d.order = 0) → r.order = d.order) ∧
        (1 ≤ d.order → r.p.syms = d.p.syms)) := fun hk ⟨r, h1, h2⟩ => ⟨r, h1, h2.w, (hk r h1).sub hs, fun _ => ⟨fun _ => h2.order, fun _ => hk r h1⟩⟩
  -- functions which go through the derivative
  have keyD : ∀ {f : GDual C → Res (GDual C)} {g : ι → ℝ → ℝ} {P : Prop}, (∀ r, f d = .ok r → HasSyms d.p.syms r) → (∃ r, f d = .ok r ∧ IsLiftD g d r) →
      ∃ r, f d = .ok r ∧ WLift g d r ∧ SubSyms d.p.syms r ∧ (P → ((d.p.syms = [] → d.order = 0) → r.order = d.order) ∧
        (1 ≤ d.order → r.p.syms = d.p.syms)) := fun hk ⟨r, h1, h2⟩ => ⟨r, h1, h2.w, (hk r h1).sub hs, fun _ => ⟨fun h0 => by
          rw [h2.order]; split_ifs with he
          · exact (h0 he).symm
          · rfl, fun _ => hk r h1⟩⟩
  cases f with
  | base f =>
    obtain ⟨r, h1, h2, h3⟩ := Fn.lift (ι := ι) f hd hm h
    have h4 := fn_syms f hs hh h1
    refine ⟨r, h1, h2, h4.2, fun hne => ⟨fun _ => h3 fun q hq => hne q (by rw [hq]), fun h5 => h4.1 ?_⟩⟩
    cases f <;> first | exact h5 | trivial | exact absurd rfl (hne _)
  | abs =>
    obtain ⟨r, h1, h2, h3⟩ := (hA.resolve_left fun h => h rfl) d hd h
    exact ⟨r, h1, h2.w, ⟨by rw [h3]; exact hs, fun s hs => by rwa [h3] at hs⟩, fun _ => ⟨fun _ => h2.order, fun _ => h3⟩⟩
  | sinOf =>
    obtain ⟨s, c, h1, h2, h3, h4, h5⟩ := sinAndCos_lift (ι := ι) hd
    have hr : (LFn.sinOf.run d : Res (GDual C)) = .ok s := by change (d.sinAndCos >>= fun r => Except.ok r.1) = _; rw [bind_ok h1]
    exact key (f := LFn.sinOf.run) (fun r h => by rw [hr] at h; injection h with h; subst h; exact hh.sin hs h2) ⟨s, hr, h4⟩
  | cosOf =>
    obtain ⟨s, c, h1, h2, h3, h4, h5⟩ := sinAndCos_lift (ι := ι) hd
    have hr : (LFn.cosOf.run d : Res (GDual C)) = .ok c := by change (d.sinAndCos >>= fun r => Except.ok r.2) = _; rw [bind_ok h1]
    exact key (f := LFn.cosOf.run) (fun r h => by rw [hr] at h; injection h with h; subst h; exact hh.cos hs h3) ⟨c, hr, h5⟩
  | sinhOf =>
    obtain ⟨s, c, h1, h2, h3, h4, h5⟩ := sinhAndCosh_lift (ι := ι) hd
    have hr : (LFn.sinhOf.run d : Res (GDual C)) = .ok s := by change (d.sinhAndCosh >>= fun r => Except.ok r.1) = _; rw [bind_ok h1]
    exact key (f := LFn.sinhOf.run) (fun r h => by rw [hr] at h; injection h with h; subst h; exact hh.sinh hs h2) ⟨s, hr, h4⟩
  | coshOf =>
    obtain ⟨s, c, h1, h2, h3, h4, h5⟩ := sinhAndCosh_lift (ι := ι) hd
    have hr : (LFn.coshOf.run d : Res (GDual C)) = .ok c := by change (d.sinhAndCosh >>= fun r => Except.ok r.2) = _; rw [bind_ok h1]
    exact key (f := LFn.coshOf.run) (fun r h => by rw [hr] at h; injection h with h; subst h; exact hh.cosh hs h3) ⟨c, hr, h5⟩
  | erf => exact keyD (fun r => erf_syms hs hh hn) (C31_erf.lift d hd hn h)
  | atanD => exact keyD (fun r => atanD_syms hs hh hn) (C31_atan_d.lift d hd hn h)
  | atanhD => exact keyD (fun r => atanhD_syms hs hh hn) (C31_atanh_d.lift d hd hn h)
  | asinD => exact keyD (fun r => asinD_syms hs hh hn) (C31_asin_d.lift d hd hn h)
  | acosD => exact keyD (fun r => acosD_syms hs hh hn) (C31_acos_d.lift d hd hn h)
  | asinhD => exact keyD (fun r => asinhD_syms hs hh hn) (C31_asinh_d.lift d hd hn h)
  | acoshD => exact keyD (fun r => acoshD_syms hs hh hn) (C31_acosh_d.lift d hd hn h)
  | log10 =>
    refine key (fun r h => ?_) (C72_log10.lift d hd h)
    obtain ⟨l, h1, h2⟩ := bind_ok_iff.1 (show pyLog10 d = .ok r from h)
    exact (hh.log hs h1).divGS hs h2
  | log2 =>
    refine key (fun r h => ?_) (C72_log2.lift d hd h)
    obtain ⟨l, h1, h2⟩ := bind_ok_iff.1 (show pyLog2 d = .ok r from h)
    exact (hh.log hs h1).divGS hs h2
  | log1p =>
    refine key (fun r h => ?_) (C72_log1p.lift d hd h)
    have h1 : HasSyms d.p.syms (d.addGS (Cf.ofRat 1)) := hh.addSG hs _
    exact h1.log hs h
  | expm1 =>
    refine key (fun r h => ?_) (C72_expm1.lift d hd h)
    obtain ⟨e, h1, h2⟩ := bind_ok_iff.1 (show pyExpm1 d = .ok r from h)
    injection h2 with h2
    subst h2
    exact (hh.exp hs h1).subGS _
  | erfc =>
    refine keyD (fun r h => ?_) (C72_erfc.lift d hd hn h)
    obtain ⟨e, h1, h2⟩ := bind_ok_iff.1 (show pyErfc d = .ok r from h)
    injection h2 with h2
    subst h2
    exact (erf_syms hs hh hn h1).subSG hs _

theorem LFn.maxOrder_mono {f : LFn} {k m : ℕ} (h : f.MaxOrder m) (hk : k ≤ m) : f.MaxOrder k := by
  cases f <;> first | exact Fn.maxOrder_mono h hk | trivial

/-- The symbols of `r` are sorted and are differentials of legal names. -/
structure SymsOk (r : GDual C) : Prop where
  sorted : r.p.syms.Pairwise (· < ·)
  names : GoodNames r

omit [AbsFn C] in
theorem SymsOk.merge {a b r : GDual C} (ha : SymsOk a) (hb : SymsOk b) (h : r.p.syms = mergeSyms a.p.syms b.p.syms) : SymsOk r :=
  ⟨by rw [h]; exact sorted_mergeSyms ha.sorted, fun u hu => by rw [h] at hu; exact (mem_mergeSyms.1 hu).elim (ha.names u) (hb.names u)⟩

omit [AbsFn C] in
theorem SymsOk.of_sub {a r : GDual C} (ha : SymsOk a) (h : SubSyms a.p.syms r) : SymsOk r := ⟨h.sorted, fun u hu => ha.names u (h.sub u hu)⟩

omit [AbsFn C] in
theorem SymsOk.of_eq {a r : GDual C} (ha : SymsOk a) (h : r.p.syms = a.p.syms) : SymsOk r :=
  ⟨by rw [h]; exact ha.sorted, fun u hu => ha.names u (by rwa [h] at hu)⟩

theorem mergeSyms_eq_nil {l l' : List String} (h : mergeSyms l l' = []) : l = [] ∧ l' = [] := by
  constructor <;> refine List.eq_nil_iff_forall_not_mem.2 fun s hs => ?_
  · have : s ∈ mergeSyms l l' := mem_mergeSyms.2 (Or.inl hs)
    rw [h] at this; exact List.not_mem_nil this
  · have : s ∈ mergeSyms l l' := mem_mergeSyms.2 (Or.inr hs)
    rw [h] at this; exact List.not_mem_nil this

/-- Evaluation of an expression computes its Taylor expansion. -/
theorem LExpr.run_good {v : String → C} (hm : m < UINT_MAX - 10) (hp : ∀ (i : ι) (s : String), p i ("d" ++ s) = Lanes.lane i (v s)) :
    ∀ e : LExpr C, (e.NoAbs ∨ AbsLaw C ι) → e.Legal m → (∀ i : ι, e.Dom i (fun s => Lanes.lane i (v s))) →
      ∃ r, e.run v m = .ok r ∧ Good m p (fun (i : ι) x => e.sem i (fun s => x ("d" ++ s))) r ∧ SymsOk r ∧
        (e.full = true → r.order = m ∧ (r.p.syms = [] → m = 0)) := by
  have hpv : ∀ i : ι, (fun s => p i ("d" ++ s)) = fun s => Lanes.lane i (v s) := fun i => _root_.funext (hp i)
  intro e
  induction e with
  | var s =>
    intro _ hl _
    obtain ⟨r, hr⟩ : ∃ r, GDual.mk3 (v s) s m = .ok r := ⟨_, mk3_ok.mpr ⟨hm, hl, rfl⟩⟩
    have hv := valid_mk3 (ι := ι) (K := ℝ) hr
    have ho := order_mk3 hr
    refine ⟨r, hr, ⟨hv, ho.le, Or.inl ho, fun i => ?_⟩, ⟨by rw [syms_mk3 hr]; exact List.pairwise_singleton _ _, goodNames_mk3 hr⟩,
      fun _ => ⟨ho, fun h => by rw [syms_mk3 hr] at h; cases h⟩⟩
    have h1 := IsTaylor.coord (a := p i) (m := m) ("d" ++ s)
    refine h1.congr_poly ?_
    rw [toMv_mk3 hr, hp]
    split_ifs with h0
    · subst h0
      intro e he
      have : e = 0 := by rw [← Finsupp.degree_eq_zero_iff]; omega
      rw [this]; simp
    · exact EqUpTo.of_eq (by ring)
  | const c => exact fun _ _ _ => ⟨_, rfl, Good.const c, ⟨List.Pairwise.nil, fun _ hs => absurd hs List.not_mem_nil⟩, fun h => by cases h⟩
  | bin op e1 e2 ih1 ih2 =>
    intro hA hl hd
    obtain ⟨r1, h1, g1, s1, f1⟩ := ih1 (hA.imp (·.1) id) hl.1 fun i => (hd i).1
    obtain ⟨r2, h2, g2, s2, f2⟩ := ih2 (hA.imp (·.2) id) hl.2 fun i => (hd i).2.1
    obtain ⟨r, hr, gr⟩ := Good.op op g1 g2 fun i => by rw [hpv]; exact (hd i).2.2
    have hord : r.order = max r1.order r2.order := by
      cases op with
      | add => injection hr with hr; rw [← hr]; rfl
      | sub => injection hr with hr; rw [← hr]; rfl
      | mul => injection hr with hr; rw [← hr]; rfl
      | div =>
        have h0' : ∀ i : ι, coeff 0 (r2.toMv i : MvPolynomial String ℝ) ≠ 0 := fun i => by
          rw [← (g2.taylor i).val, hpv]; exact (hd i).2.2
        obtain ⟨r', hr', -, ho, -⟩ := div_spec' g1.valid g2.valid h0'
        have : Op.div.run r1 r2 = .ok r' := hr'
        rw [hr] at this; injection this with this; rw [this, ho]
    have hsym := op.run_syms s2.sorted s1.sorted hr
    refine ⟨r, ?_, gr, s1.merge s2 hsym, fun hf => ?_⟩
    · change (do op.run (← e1.run v m) (← e2.run v m)) = _
      rw [bind2_ok h1 h2, hr]
    · rw [hord]
      simp only [LExpr.full, Bool.or_eq_true] at hf
      rcases hf with hf | hf
      · rw [(f1 hf).1]; exact ⟨max_eq_left g2.le, fun h => (f1 hf).2 (mergeSyms_eq_nil (hsym.symm.trans h)).1⟩
      · rw [(f2 hf).1]; exact ⟨max_eq_right g1.le, fun h => (f2 hf).2 (mergeSyms_eq_nil (hsym.symm.trans h)).2⟩
  | left op c e ih =>
    intro hA hl hd
    obtain ⟨r1, h1, g1, s1, f1⟩ := ih hA hl fun i => (hd i).1
    obtain ⟨r, hr, gr⟩ := Good.opL op c g1 fun i => by rw [hpv]; exact (hd i).2
    have hsym := op.runL_syms s1.sorted hr
    refine ⟨r, ?_, gr, s1.of_eq hsym, fun hf => ?_⟩
    · change (e.run v m >>= fun d => op.runL c d) = _
      rw [bind_ok h1, hr]
    · have hord : r.order = r1.order := by
        cases op with
        | add => injection hr with hr; rw [← hr]; rfl
        | sub => injection hr with hr; rw [← hr]; rfl
        | mul => injection hr with hr; rw [← hr]; exact ((IsLift.id (ι := ι) g1.valid).mulSG c).order
        | div =>
          have h0' : ∀ i : ι, coeff 0 (r1.toMv i : MvPolynomial String ℝ) ≠ 0 := fun i => by
            rw [← (g1.taylor i).val, hpv]; exact (hd i).2
          obtain ⟨r', hr', -, ho, -⟩ := divSG_spec c g1.valid h0'
          have : Op.div.runL c r1 = .ok r' := hr'
          rw [hr] at this; injection this with this; rw [this, ho]
      rw [hord, hsym]
      exact f1 hf
  | right op e c ih =>
    intro hA hl hd
    obtain ⟨r1, h1, g1, s1, f1⟩ := ih hA hl fun i => (hd i).1
    obtain ⟨r, hr, gr⟩ := Good.opR op c g1 fun i => (hd i).2
    have hsym := op.runR_syms s1.sorted hr
    refine ⟨r, ?_, gr, s1.of_eq hsym, fun hf => ?_⟩
    · change (e.run v m >>= fun d => op.runR d c) = _
      rw [bind_ok h1, hr]
    · have hord : r.order = r1.order := by
        cases op with
        | add => injection hr with hr; rw [← hr]; rfl
        | sub => injection hr with hr; rw [← hr]; rfl
        | mul => injection hr with hr; rw [← hr]; exact ((IsLift.id (ι := ι) g1.valid).mulGS c).order
        | div =>
          obtain ⟨r', hr', hw⟩ := (IsLift.id (ι := ι) g1.valid).divGS (c := c) fun i => (hd i).2
          have : Op.div.runR r1 c = .ok r' := hr'
          rw [hr] at this; injection this with this; rw [this, hw.order]
      rw [hord, hsym]
      exact f1 hf
  | fn f e ih =>
    intro hA hl hd
    have hAf : f ≠ .abs ∨ AbsLaw C ι := hA.imp (·.2) id
    obtain ⟨r1, h1, g1, s1, f1⟩ := ih (hA.imp (·.1) id) hl.1 fun i => (hd i).1
    obtain ⟨r, hr, gr⟩ := Good.fnP (P := fun q : Poly C => SymsOk (⟨q, 0⟩ : GDual C)) (f := f.run) (g := fun _ => f.real) (dom := fun _ => f.Dom)
      (fun d hdv hP hle hdom => by
        obtain ⟨r, e1, e2, -⟩ := LFn.lift (ι := ι) f hAf hdv hP.sorted hP.names (LFn.maxOrder_mono hl.2 hle) hdom
        exact ⟨r, e1, e2⟩) ⟨s1.sorted, s1.names⟩ g1 fun i => by rw [hpv]; exact (hd i).2
    have hdom : ∀ i : ι, f.Dom (coeff 0 (r1.toMv i : MvPolynomial String ℝ)) := fun i => by
      rw [← (g1.taylor i).val, hpv]; exact (hd i).2
    obtain ⟨r', e1, -, e3, e4⟩ := LFn.lift (ι := ι) f hAf g1.valid s1.sorted s1.names (LFn.maxOrder_mono hl.2 g1.le) hdom
    obtain rfl : r = r' := by rw [hr] at e1; injection e1
    refine ⟨r, ?_, gr, s1.of_sub e3, fun hf => ?_⟩
    · change (e.run v m >>= fun d => f.run d) = _
      rw [bind_ok h1, hr]
    · have hne : ∀ q, f ≠ .base (.powBase q) := by rintro q rfl; simp [LExpr.full] at hf
      have hfe : e.full = true := by
        cases f with
        | base f => cases f <;> first | exact hf | exact absurd rfl (hne _)
        | _ => exact hf
      obtain ⟨ho, hs⟩ := f1 hfe
      have hro := (e4 hne).1 fun h => ho.trans (hs h)
      refine ⟨hro.trans ho, fun h => ?_⟩
      by_contra h0
      rw [(e4 hne).2 (by omega)] at h
      exact h0 (hs h)
  | pow e1 e2 ih1 ih2 =>
    intro hA hl hd
    obtain ⟨r1, h1, g1, s1, f1⟩ := ih1 (hA.imp (·.1) id) hl.1 fun i => (hd i).1
    obtain ⟨r2, h2, g2, s2, f2⟩ := ih2 (hA.imp (·.2) id) hl.2 fun i => (hd i).2.1
    obtain ⟨l, hl', gl⟩ := Good.fn (f := GDual.log) (g := fun _ => Real.log) (dom := fun _ x => 0 < x)
      (fun d hdv _ hdom => by
        obtain ⟨r, e1, e2⟩ := computes_log.lift (ι := ι) d hdv hdom
        exact ⟨r, e1, e2.w⟩) g1 fun i => by rw [hpv]; exact (hd i).2.2
    have hlo : l.order = r1.order := by
      obtain ⟨r, e1, e2⟩ := computes_log.lift (ι := ι) r1 g1.valid fun i => by
        rw [← (g1.taylor i).val, hpv]; exact (hd i).2.2
      rw [hl'] at e1; injection e1 with e1; rw [e1, e2.order]
    have gm := g2.mul gl
    obtain ⟨r, hr, gr⟩ := Good.fn (f := GDual.exp) (g := fun _ => Real.exp) (dom := fun _ _ => True)
      (fun d hdv _ hdom => by
        obtain ⟨r, e1, e2⟩ := computes_exp.lift (ι := ι) d hdv hdom
        exact ⟨r, e1, e2.w⟩) gm fun i => trivial
    have hro : r.order = max r2.order r1.order := by
      obtain ⟨r', e1, e2⟩ := computes_exp.lift (ι := ι) _ gm.valid fun i => trivial
      rw [hr] at e1; injection e1 with e1; rw [e1, e2.order, ← hlo]; rfl
    have hpw : r1.powG r2 = .ok r := by
      unfold powG
      rw [bind_ok hl', hr]
    have hsym := powG_syms s2.sorted s1.sorted hpw
    refine ⟨r, ?_, ⟨gr.valid, gr.le, gr.order, fun i => (gr.taylor i).congr_fun ?_⟩, s2.merge s1 hsym, fun hf => ?_⟩
    · change (do GDual.powG (← e1.run v m) (← e2.run v m)) = _
      rw [bind2_ok h1 h2, hpw]
    · have hpos : 0 < e1.sem i (fun s => p i ("d" ++ s)) := by rw [hpv]; exact (hd i).2.2
      filter_upwards [(g1.taylor i).cont.eventually (lt_mem_nhds hpos)] with x hx
      change _ = e1.sem i (fun s => x ("d" ++ s)) ^ e2.sem i (fun s => x ("d" ++ s))
      rw [Real.rpow_def_of_pos hx, mul_comm]
    · rw [hro]
      simp only [LExpr.full, Bool.or_eq_true] at hf
      rcases hf with hf | hf
      · rw [(f1 hf).1]; exact ⟨max_eq_right g2.le, fun h => (f1 hf).2 (mergeSyms_eq_nil (hsym.symm.trans h)).2⟩
      · rw [(f2 hf).1]; exact ⟨max_eq_left g1.le, fun h => (f2 hf).2 (mergeSyms_eq_nil (hsym.symm.trans h)).1⟩

end Audi
