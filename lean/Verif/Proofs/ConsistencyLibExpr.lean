import Verif.Proofs.ConsistencyLib

/-! Limits of expressions with all the functions, with rounded coefficients. -/

set_option linter.unusedSectionVars false

namespace Audi

open MvPolynomial Spec Filter Topology GDual

section
variable {C : Type} [CfFun C] [AbsFn C] {d r : GDual C}

/-- The functions keep the symbols. -/
theorem LFn.run_syms (f : LFn) (hA : ∀ {d r : GDual C}, AbsFn.abs d = .ok r → r.p.syms = d.p.syms) (hf : ∀ q, f ≠ .base (.powBase q)) (hd : SymsOk d)
    (ho : d.p.syms = [] ∨ 1 ≤ d.order) (h : f.run d = .ok r) : r.p.syms = d.p.syms := by
  have hs := hd.sorted
  have hn := hd.names
  have hh : HasSyms d.p.syms d := rfl
  have e1 : (LFn.sinOf.run d : Res (GDual C)) = .ok r → HasSyms d.p.syms r := fun h => by
    obtain ⟨q, h0, h3⟩ := bind_ok_iff.1 (show (d.sinAndCos >>= fun r => Except.ok r.1) = _ from h)
    obtain ⟨p0, -, h0⟩ := bind_ok_iff.1 h0
    obtain ⟨c, h1, h0⟩ := bind_ok_iff.1 h0
    obtain ⟨s, h2, h0⟩ := bind_ok_iff.1 h0
    injection h0 with h0
    subst h0
    injection h3 with h3
    subst h3
    obtain ⟨hc, hs'⟩ := hh.trigParts hs h1 h2
    exact HasSyms.add_right hs (hc.mulSG _) (hs'.mulSG hs _)
  have e2 : (LFn.cosOf.run d : Res (GDual C)) = .ok r → HasSyms d.p.syms r := fun h => by
    obtain ⟨q, h0, h3⟩ := bind_ok_iff.1 (show (d.sinAndCos >>= fun r => Except.ok r.2) = _ from h)
    obtain ⟨p0, -, h0⟩ := bind_ok_iff.1 h0
    obtain ⟨c, h1, h0⟩ := bind_ok_iff.1 h0
    obtain ⟨s, h2, h0⟩ := bind_ok_iff.1 h0
    injection h0 with h0
    subst h0
    injection h3 with h3
    subst h3
    obtain ⟨hc, hs'⟩ := hh.trigParts hs h1 h2
    exact HasSyms.sub_right hs (hc.mulSG _) (hs'.mulSG hs _)
  have e3 : (LFn.sinhOf.run d : Res (GDual C)) = .ok r → HasSyms d.p.syms r := fun h => by
    obtain ⟨q, h0, h3⟩ := bind_ok_iff.1 (show (d.sinhAndCosh >>= fun r => Except.ok r.1) = _ from h)
    obtain ⟨p0, -, h0⟩ := bind_ok_iff.1 h0
    obtain ⟨c, h1, h0⟩ := bind_ok_iff.1 h0
    obtain ⟨s, h2, h0⟩ := bind_ok_iff.1 h0
    injection h0 with h0
    subst h0
    injection h3 with h3
    subst h3
    obtain ⟨hc, hs'⟩ := hh.hypParts hs h1 h2
    exact HasSyms.add_right hs (hc.mulSG _) (hs'.mulSG hs _)
  have e4 : (LFn.coshOf.run d : Res (GDual C)) = .ok r → HasSyms d.p.syms r := fun h => by
    obtain ⟨q, h0, h3⟩ := bind_ok_iff.1 (show (d.sinhAndCosh >>= fun r => Except.ok r.2) = _ from h)
    obtain ⟨p0, -, h0⟩ := bind_ok_iff.1 h0
    obtain ⟨c, h1, h0⟩ := bind_ok_iff.1 h0
    obtain ⟨s, h2, h0⟩ := bind_ok_iff.1 h0
    injection h0 with h0
    subst h0
    injection h3 with h3
    subst h3
    obtain ⟨hc, hs'⟩ := hh.hypParts hs h1 h2
    exact HasSyms.add_right hs (hc.mulSG _) (hs'.mulSG hs _)
  cases f with
  | base f =>
    have h4 := fn_syms f hs hh h
    rcases ho with h0 | h5
    · rw [h0]
      refine List.eq_nil_iff_forall_not_mem.2 fun u hu => ?_
      have := h4.2.sub u hu
      rw [h0] at this
      exact List.not_mem_nil this
    · refine h4.1 ?_
      cases f <;> first | exact h5 | trivial | exact absurd rfl (hf _)
  | abs => exact hA h
  | sinOf => exact e1 h
  | cosOf => exact e2 h
  | sinhOf => exact e3 h
  | coshOf => exact e4 h
  | erf => exact erf_syms hs hh hn h
  | atanD => exact atanD_syms hs hh hn h
  | atanhD => exact atanhD_syms hs hh hn h
  | asinD => exact asinD_syms hs hh hn h
  | acosD => exact acosD_syms hs hh hn h
  | asinhD => exact asinhD_syms hs hh hn h
  | acoshD => exact acoshD_syms hs hh hn h
  | log10 =>
    obtain ⟨l, h1, h2⟩ := bind_ok_iff.1 (show pyLog10 d = .ok r from h)
    exact (hh.log hs h1).divGS hs h2
  | log2 =>
    obtain ⟨l, h1, h2⟩ := bind_ok_iff.1 (show pyLog2 d = .ok r from h)
    exact (hh.log hs h1).divGS hs h2
  | log1p =>
    have h1 : HasSyms d.p.syms (d.addGS (Cf.ofRat 1)) := hh.addSG hs _
    exact h1.log hs h
  | expm1 =>
    obtain ⟨e, h1, h2⟩ := bind_ok_iff.1 (show pyExpm1 d = .ok r from h)
    injection h2 with h2
    subst h2
    exact (hh.exp hs h1).subGS _
  | erfc =>
    obtain ⟨e, h1, h2⟩ := bind_ok_iff.1 (show pyErfc d = .ok r from h)
    injection h2 with h2
    subst h2
    exact (erf_syms hs hh hn h1).subSG hs _

end

theorem absScalar_syms {C : Type} [CfFun C] [LinearOrder C] [Zero C] {d r : GDual C} (h : GDual.absScalar d = .ok r) : r.p.syms = d.p.syms := by
  unfold GDual.absScalar at h
  obtain ⟨p0, -, h1⟩ := bind_ok_iff.1 h
  split_ifs at h1 <;> injection h1 with h1 <;> subst h1 <;> rfl

variable {A : ℕ}

/-- Gduals tending to a gdual, with the same symbols. -/
def ApE (g : (S : Arith A) → GDual (Fl S.R)) (G : GDual ℝ) : Prop := Ap g G ∧ ∀ᶠ S in toExact A, (g S).p.syms = G.p.syms

theorem RR.withSyms {f : (S : Arith A) → Res (GDual (Fl S.R))} {F : Res (GDual ℝ)} {X : List String} (h : RR Ap f F) (h1 : ∀ r, F = .ok r → r.p.syms = X)
    (h2 : ∀ᶠ S in toExact A, ∀ r, f S = .ok r → r.p.syms = X) : RR ApE f F := by
  obtain ⟨g, G, h3, h4, h5⟩ := h
  refine ⟨g, G, ⟨h3, ?_⟩, h4, h5⟩
  filter_upwards [h2, h5] with S h6 h7
  rw [h6 _ h7, h1 _ h4]

theorem LExpr.run_ap {v : String → ℝ} {m : ℕ} (hm : m < UINT_MAX - 10) (hm1 : 1 ≤ m) : ∀ e : LExpr ℝ, e.Legal m → e.BaseFree → e.Dom () v →
    RR (ApE (A := A)) (fun S => (e.map (Fl.round S.R)).run (fun s => Fl.round S.R (v s)) m) (e.run v m) := by
  let p : Unit → String → ℝ := fun _ => Function.extend (fun s => "d" ++ s) v 0
  have hp : ∀ (i : Unit) (s : String), p i ("d" ++ s) = Lanes.lane i (v s) := fun i s => d_append_injective.extend_apply _ _ s
  have hc : ∀ e : LExpr ℝ, e.Legal m → e.BaseFree → e.Dom () v → ∀ G, e.run v m = .ok G → c0 G = e.sem () v ∧ SymsOk G ∧ (G.p.syms = [] ∨ 1 ≤ G.order) := fun e hl hb hd G hG => by
    obtain ⟨r, h1, h2, h3, h4⟩ := LExpr.run_good (ι := Unit) hm hp e (.inr absLaw_real) hl fun _ => hd
    have h5 := (LExpr.run_syms (ι := Unit) hm hp e (.inr absLaw_real) hl (fun _ => hd) G hG).1
    rw [hG] at h1
    injection h1 with h1
    subst h1
    refine ⟨?_, h3, ?_⟩
    · have h6 := (h2.taylor ()).val
      rw [c0, ← h6]
      congr 1
      exact funext (hp ())
    · by_cases hf : e.full = true
      · right; rw [(h4 hf).1]; exact hm1
      · left
        refine List.eq_nil_iff_forall_not_mem.2 fun u hu => ?_
        have := h5 u hu
        rw [e.vars_of_not_full hb hf] at this
        exact List.not_mem_nil this
  have keep : ∀ (e : LExpr ℝ) {g : (S : Arith A) → Res (GDual (Fl S.R))}, e.Legal m → e.BaseFree → e.Dom () v → RR ApE g (e.run v m) →
      RR (fun g G => ApS g G ∧ c0 G = e.sem () v) g (e.run v m) := fun e g hl hb hd ⟨r, R, h1, h2, h3⟩ =>
        have h := hc e hl hb hd R h2
        ⟨r, R, ⟨{ toAp := h1.1, syms := h1.2, ok := h.2.1, ord := h.2.2 }, h.1⟩, h2, h3⟩
  intro e
  induction e with
  | var s =>
    intro hl _ _
    exact (Ap.var hm hl).withSyms (X := ["d" ++ s]) (fun r h => syms_mk3 h) (Eventually.of_forall fun S r h => syms_mk3 h)
  | const c => exact fun _ _ _ => RR.pure ⟨Ap.ofCf (Apx.round c), Eventually.of_forall fun _ => rfl⟩
  | bin o e1 e2 ih1 ih2 =>
    intro hl hb hd
    refine (keep e1 hl.1 hb.1 hd.1 (ih1 hl.1 hb.1 hd.1)).bind fun g G hg => (keep e2 hl.2 hb.2 hd.2.1 (ih2 hl.2 hb.2 hd.2.1)).bind fun h H hh => ?_
    refine (hg.1.toAp.op hh.1.toAp (by rw [hh.2]; exact hd.2.2)).withSyms (fun r h => o.run_syms hh.1.ok.sorted hg.1.ok.sorted h) ?_
    filter_upwards [hg.1.syms, hh.1.syms] with S h1 h2 r h3
    rw [o.run_syms (by rw [h2]; exact hh.1.ok.sorted) (by rw [h1]; exact hg.1.ok.sorted) h3, h1, h2]
  | left o c e ih =>
    intro hl hb hd
    refine (keep e hl hb hd.1 (ih hl hb hd.1)).bind fun g G hg => ?_
    refine (Ap.opL (Apx.round c) hg.1.toAp (by rw [hg.2]; exact hd.2)).withSyms (fun r h => o.runL_syms hg.1.ok.sorted h) ?_
    filter_upwards [hg.1.syms] with S h1 r h3
    rw [o.runL_syms (by rw [h1]; exact hg.1.ok.sorted) h3, h1]
  | right o e c ih =>
    intro hl hb hd
    refine (keep e hl hb hd.1 (ih hl hb hd.1)).bind fun g G hg => ?_
    refine (Ap.opR hg.1.toAp (Apx.round c) hd.2).withSyms (fun r h => o.runR_syms hg.1.ok.sorted h) ?_
    filter_upwards [hg.1.syms] with S h1 r h3
    rw [o.runR_syms (by rw [h1]; exact hg.1.ok.sorted) h3, h1]
  | fn f e ih =>
    intro hl hb hd
    refine (keep e hl.1 hb.2 hd.1 (ih hl.1 hb.2 hd.1)).bind fun g G hg => ?_
    refine (ApS.lfn hb.1 hg.1 (by rw [hg.2]; exact hd.2)).withSyms (fun r h => f.run_syms (fun h => absScalar_syms h) hb.1 hg.1.ok hg.1.ord h) ?_
    filter_upwards [hg.1.syms, hg.1.toAp.order] with S h1 h2 r h3
    rw [f.run_syms (fun h => absScalar_syms h) hb.1 ⟨by rw [h1]; exact hg.1.ok.sorted, fun u hu => hg.1.ok.names u (by rwa [h1] at hu)⟩
      (by rw [h1, h2]; exact hg.1.ord) h3, h1]
  | pow e1 e2 ih1 ih2 =>
    intro hl hb hd
    refine (keep e1 hl.1 hb.1 hd.1 (ih1 hl.1 hb.1 hd.1)).bind fun g G hg => (keep e2 hl.2 hb.2 hd.2.1 (ih2 hl.2 hb.2 hd.2.1)).bind fun h H hh => ?_
    refine (hg.1.toAp.powG (by rw [hg.2]; exact hd.2.2) hh.1.toAp).withSyms (fun r h => powG_syms hh.1.ok.sorted hg.1.ok.sorted h) ?_
    filter_upwards [hg.1.syms, hh.1.syms] with S h1 h2 r h3
    rw [powG_syms (by rw [h2]; exact hh.1.ok.sorted) (by rw [h1]; exact hg.1.ok.sorted) h3, h1, h2]

end Audi
