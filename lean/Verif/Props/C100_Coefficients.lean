import Verif.Props.C100_Boundary

/-!
# C100: special coefficients in functions

NaN and infinities among the coefficients of an argument, other than the constant one, are in the result of a function.
-/

namespace Audi
open GDual Poly

variable {F : XFormat} {N : XF F → Prop} {E : String →₀ ℕ}

/-- A well formed gdual of order at least `n` which has a coefficient satisfying `N`. -/
structure Keeps (N : XF F → Prop) (n : ℕ) (E : String →₀ ℕ) (a : GDual (XF F)) : Prop where
  wf : a.p.WF
  has : PHas N a.p E
  order : n ≤ a.order

namespace Keeps
variable {n : ℕ} {a b : GDual (XF F)}

theorem add (hN : Absorbing N) (ha : Keeps N n E a) (hb : b.p.WF) : Keeps N n E (a.add b) :=
  ⟨ha.wf.add hb, ha.has.add_left hN ha.wf _, ha.order.trans (le_max_left _ _)⟩

theorem add' (hN : Absorbing N) (ha : a.p.WF) (hb : Keeps N n E b) : Keeps N n E (a.add b) :=
  ⟨ha.add hb.wf, hb.has.add_right hN ha hb.wf, hb.order.trans (le_max_right _ _)⟩

theorem neg (hN : Absorbing N) (ha : Keeps N n E a) : Keeps N n E a.neg := ⟨wf_neg ha.wf, ha.has.neg hN, ha.order⟩

theorem sub' (hN : Absorbing N) (ha : a.p.WF) (hb : Keeps N n E b) : Keeps N n E (a.sub b) := by
  have h := add' hN ha (hb.neg hN)
  exact ⟨h.wf, h.has, h.order⟩

theorem mulGS (hN : Absorbing N) (ha : Keeps N n E a) (hE : E.degree ≤ n) {s : XF F} (hs : s.v ≠ .fin 0) : Keeps N n E (a.mulGS s) :=
  ⟨wf_mulGS ha.wf s, phas_mulGS hN ha.wf ((XF.isZero_false s).mpr hs) ha.has (hE.trans ha.order), by rw [order_divGS]; exact ha.order⟩

theorem mulSG (hN : Absorbing N) (ha : Keeps N n E a) (hE : E.degree ≤ n) {s : XF F} (hs : s.v ≠ .fin 0) : Keeps N n E (GDual.mulSG s a) :=
  ⟨wf_mulSG ha.wf s, phas_mulSG hN ha.wf ((XF.isZero_false s).mpr hs) ha.has (hE.trans ha.order), ha.order.trans (le_max_right _ _)⟩

theorem addSG (hN : Absorbing N) (ha : Keeps N n E a) (s : XF F) : Keeps N n E (GDual.addSG s a) := by
  have h := add' hN (wf_const s) (a := GDual.ofCf s) ha
  exact ⟨h.wf, h.has, ha.order⟩

theorem phat {d : GDual (XF F)} (hd : d.Valid) (hE : HasAt N d E) (hE0 : E ≠ 0) (p0 : XF F) : Keeps N d.order E (d.subGS p0) :=
  ⟨wf_subGS hd.wf p0, (phas_subGS hd.wf p0 hE0).mpr hE, le_rfl⟩

end Keeps

section
variable [XLibm F] {d : GDual (XF F)} {p0 : XF F}

/-- **C100** `exp` keeps special coefficients, if `exp` of the value does not underflow (see `C100_exp_hides`). -/
theorem C100_exp_keeps (hN : Absorbing N) (hd : d.Valid) (h0 : d.constantCf = .ok p0) (he : (XLibm.exp p0).v ≠ .fin 0) (hE : HasAt N d E) (hE0 : E ≠ 0) :
    ∃ r, exp d = .ok r ∧ HasAt N r E := by
  have hdeg := hE.degree_le hd
  have hk := Keeps.phat hd hE hE0 p0
  obtain ⟨st, h1, h2, -⟩ := foldlM_inv (f := expStep (d.subGS p0)) (Q := fun s : ExpSt (XF F) => Keeps N d.order E s.retval ∧ s.fact.p.WF ∧ s.phat.p.WF)
    (fun s i hs => by
      have hw : (s.fact.mulGS (Cf.ofRat (i : ℚ))).p.WF := wf_mulGS hs.2.1 _
      have hp : (s.phat.mul (d.subGS p0)).p.WF := wf_gmul hs.2.2 hk.wf
      exact ⟨_, by unfold expStep; simp only; rw [div_eq XF.isUnit_true _ (constantCf_cfAt hw)]; rfl,
        hs.1.add hN (wf_mulGS (wf_gmul hp (divRet_wf hw _)) _), hw, hp⟩)
    (List.range' 2 (d.order - 1)) (s := ⟨(GDual.ofRat 1).add (d.subGS p0), GDual.ofRat 1, d.subGS p0⟩) ⟨Keeps.add' hN (wf_const _) hk, wf_const _, hk.wf⟩
  exact ⟨_, by unfold GDual.exp; rw [h0, res_bind]; simp only; rw [h1, res_bind]; rfl, (h2.mulGS hN hdeg he).has⟩

/-- **C100** `log` keeps special coefficients, if the reciprocal of the value is not zero. -/
theorem C100_log_keeps (hN : Absorbing N) (hd : d.Valid) (h0 : d.constantCf = .ok p0) (hi : (Cf.div Cf.one p0).v ≠ .fin 0) (hE : HasAt N d E) (hE0 : E ≠ 0) :
    ∃ r, log d = .ok r ∧ HasAt N r E := by
  have hdeg := hE.degree_le hd
  have hk := (Keeps.phat hd hE hE0 p0).mulGS hN hdeg hi
  obtain ⟨st, h1, h2, -⟩ := foldlM_inv (f := logStep ((d.subGS p0).mulGS (Cf.div Cf.one p0))) (Q := fun s : LogSt (XF F) => Keeps N d.order E s.retval ∧ s.fatt.p.WF ∧ s.phat.p.WF)
    (fun s i hs => by
      have hw : (s.fatt.mulGS (Cf.ofRat (-1))).p.WF := wf_mulGS hs.2.1 _
      have hp := wf_gmul hs.2.2 hk.wf
      exact ⟨_, by unfold logStep; simp only; rw [divGS_ok]; rfl, hs.1.add hN (wf_mulGS (wf_gmul hw hp) _), hw, hp⟩)
    (List.range' 2 (d.order - 1)) (s := ⟨GDual.addSG (XLibm.log p0) ((d.subGS p0).mulGS (Cf.div Cf.one p0)), GDual.ofRat 1, (d.subGS p0).mulGS (Cf.div Cf.one p0)⟩)
    ⟨hk.addSG hN _, wf_const _, hk.wf⟩
  refine ⟨st.retval, ?_, h2.has⟩
  unfold GDual.log
  rw [h0, res_bind]
  simp only
  rw [show guardFinite (CfFun.logOk p0) = .ok () from rfl, res_bind, divGS_ok, res_bind, show CfFun.log p0 = XLibm.log p0 from rfl, h1, res_bind]

theorem rootSeries_keeps (hN : Absorbing N) (hd : d.Valid) {alpha root : XF F} (ha : alpha.v ≠ .fin 0) (hr : root.v ≠ .fin 0) (hi : (Cf.div Cf.one p0).v ≠ .fin 0)
    (hE : HasAt N d E) (hE0 : E ≠ 0) : ∃ r, rootSeries d alpha p0 root = .ok r ∧ HasAt N r E := by
  have hdeg := hE.degree_le hd
  have hk := (Keeps.phat hd hE hE0 p0).mulGS hN hdeg hi
  have h := foldl_inv (f := rootStep alpha ((d.subGS p0).mulGS (Cf.div Cf.one p0))) (Q := fun s : PowSt (XF F) => Keeps N d.order E s.retval ∧ s.phat.p.WF)
    (fun s i hs => ⟨hs.1.add hN (wf_mulSG (wf_gmul hs.2 hk.wf) _), wf_gmul hs.2 hk.wf⟩)
    (List.range' 2 (d.order - 1)) (s := ⟨(GDual.ofRat 1).add (GDual.mulSG alpha ((d.subGS p0).mulGS (Cf.div Cf.one p0))), (d.subGS p0).mulGS (Cf.div Cf.one p0)⟩)
    ⟨Keeps.add' hN (wf_const _) (hk.mulSG hN hdeg ha), hk.wf⟩
  exact ⟨_, by unfold rootSeries; rw [divGS_ok, res_bind], (h.1.mulGS hN hdeg hr).has⟩

/-- **C100** The roots keep special coefficients, if the root of the value is not zero (see `C100_root_zero`) and the constants do not underflow. -/
theorem C100_root_keeps (hN : Absorbing N) (hd : d.Valid) (h0 : d.constantCf = .ok p0) (hi : (Cf.div Cf.one p0).v ≠ .fin 0) (hE : HasAt N d E) (hE0 : E ≠ 0) :
    ((Cf.ofRat (1 / 2) : XF F).v ≠ .fin 0 → (XLibm.sqrt p0).v ≠ .fin 0 → ∃ r, sqrt d = .ok r ∧ HasAt N r E) ∧
    ((Cf.div (Cf.ofRat 1) (Cf.ofRat 3) : XF F).v ≠ .fin 0 → (XLibm.cbrt p0).v ≠ .fin 0 → ∃ r, cbrt d = .ok r ∧ HasAt N r E) := by
  refine ⟨fun ha hr => ?_, fun ha hr => ?_⟩
  · obtain ⟨r, h1, h2⟩ := rootSeries_keeps hN hd ha hr hi hE hE0
    exact ⟨r, by unfold GDual.sqrt; rw [h0, res_bind, show guardFinite (CfFun.sqrtOk p0) = .ok () from rfl, res_bind]; exact h1, h2⟩
  · obtain ⟨r, h1, h2⟩ := rootSeries_keeps hN hd ha hr hi hE hE0
    exact ⟨r, by unfold GDual.cbrt; rw [h0, res_bind]; exact h1, h2⟩

theorem trig_keeps (hN : Absorbing N) {phat2 : GDual (XF F)} (h2 : phat2.p.WF) {n : ℕ} (l : List ℕ) {s : TrigSt (XF F)} (hs1 : Keeps N n E s.taylor) (hs2 : s.tmp.p.WF) :
    (∃ s', l.foldlM (trigStep phat2) s = .ok s' ∧ Keeps N n E s'.taylor) ∧ ∃ s', l.foldlM (hypStep phat2) s = .ok s' ∧ Keeps N n E s'.taylor := by
  constructor
  · obtain ⟨s', h3, h4, -⟩ := foldlM_inv (f := trigStep phat2) (Q := fun s : TrigSt (XF F) => Keeps N n E s.taylor ∧ s.tmp.p.WF)
      (fun s i hs => ⟨_, by unfold trigStep; simp only; rw [divGS_ok]; rfl, hs.1.add hN (wf_mulGS (wf_mulSG (wf_gmul hs.2 h2) _) _), wf_gmul hs.2 h2⟩) l ⟨hs1, hs2⟩
    exact ⟨s', h3, h4⟩
  · obtain ⟨s', h3, h4, -⟩ := foldlM_inv (f := hypStep phat2) (Q := fun s : TrigSt (XF F) => Keeps N n E s.taylor ∧ s.tmp.p.WF)
      (fun s i hs => ⟨_, by unfold hypStep; simp only; rw [divGS_ok]; rfl, hs.1.add hN (wf_mulGS (wf_gmul hs.2 h2) _), wf_gmul hs.2 h2⟩) l ⟨hs1, hs2⟩
    exact ⟨s', h3, h4⟩

theorem trig_wf {phat2 : GDual (XF F)} (h2 : phat2.p.WF) (l : List ℕ) {s : TrigSt (XF F)} (hs1 : s.taylor.p.WF) (hs2 : s.tmp.p.WF) :
    (∃ s', l.foldlM (trigStep phat2) s = .ok s' ∧ s'.taylor.p.WF) ∧ ∃ s', l.foldlM (hypStep phat2) s = .ok s' ∧ s'.taylor.p.WF := by
  constructor
  · obtain ⟨s', h3, h4, -⟩ := foldlM_inv (f := trigStep phat2) (Q := fun s : TrigSt (XF F) => s.taylor.p.WF ∧ s.tmp.p.WF)
      (fun s i hs => ⟨_, by unfold trigStep; simp only; rw [divGS_ok]; rfl, hs.1.add (wf_mulGS (wf_mulSG (wf_gmul hs.2 h2) _) _), wf_gmul hs.2 h2⟩) l ⟨hs1, hs2⟩
    exact ⟨s', h3, h4⟩
  · obtain ⟨s', h3, h4, -⟩ := foldlM_inv (f := hypStep phat2) (Q := fun s : TrigSt (XF F) => s.taylor.p.WF ∧ s.tmp.p.WF)
      (fun s i hs => ⟨_, by unfold hypStep; simp only; rw [divGS_ok]; rfl, hs.1.add (wf_mulGS (wf_gmul hs.2 h2) _), wf_gmul hs.2 h2⟩) l ⟨hs1, hs2⟩
    exact ⟨s', h3, h4⟩

/-- **C100** Sines and cosines keep special coefficients, if the derivative at the value is not zero (see `C100_cos_counterexample`). -/
theorem C100_trig_keeps (hN : Absorbing N) (hd : d.Valid) (h0 : d.constantCf = .ok p0) (hE : HasAt N d E) (hE0 : E ≠ 0) :
    ((XLibm.cos p0).v ≠ .fin 0 → ∃ r, sin d = .ok r ∧ HasAt N r E) ∧ ((XLibm.sin p0).v ≠ .fin 0 → ∃ r, cos d = .ok r ∧ HasAt N r E) ∧
    ((XLibm.cosh p0).v ≠ .fin 0 → ∃ r, sinh d = .ok r ∧ HasAt N r E) ∧ ((XLibm.sinh p0).v ≠ .fin 0 → ∃ r, cosh d = .ok r ∧ HasAt N r E) := by
  have hdeg := hE.degree_le hd
  have hk := Keeps.phat hd hE hE0 p0
  have h2 := wf_gmul hk.wf hk.wf
  obtain ⟨⟨s1, h3, h4⟩, s2, h5, h6⟩ := trig_keeps hN h2 (List.range' 3 ((d.order - 1) / 2) 2) (s := ⟨d.subGS p0, d.subGS p0, Cf.ofRat 1, 1⟩) hk hk.wf
  obtain ⟨⟨s3, h7, h8⟩, s4, h9, h10⟩ := trig_wf h2 (List.range' 2 (d.order / 2) 2) (s := ⟨GDual.ofRat 1, GDual.ofRat 1, Cf.ofRat 1, 1⟩) (wf_const _) (wf_const _)
  have e1 : sinTaylor d.order (d.subGS p0) ((d.subGS p0).mul (d.subGS p0)) = .ok s1.taylor := by unfold sinTaylor; rw [h3, res_bind]
  have e2 : sinhTaylor d.order (d.subGS p0) ((d.subGS p0).mul (d.subGS p0)) = .ok s2.taylor := by unfold sinhTaylor; rw [h5, res_bind]
  have e3 : cosTaylor d.order ((d.subGS p0).mul (d.subGS p0)) = .ok s3.taylor := by unfold cosTaylor; rw [h7, res_bind]
  have e4 : coshTaylor d.order ((d.subGS p0).mul (d.subGS p0)) = .ok s4.taylor := by unfold coshTaylor; rw [h9, res_bind]
  refine ⟨fun h => ⟨_, by unfold GDual.sin; rw [h0, res_bind]; simp only; rw [e3, res_bind, e1, res_bind]; rfl, (Keeps.add' hN (wf_mulSG h8 _) (h4.mulSG hN hdeg h)).has⟩,
    fun h => ⟨_, by unfold GDual.cos; rw [h0, res_bind]; simp only; rw [e3, res_bind, e1, res_bind]; rfl, (Keeps.sub' hN (wf_mulSG h8 _) (h4.mulSG hN hdeg h)).has⟩,
    fun h => ⟨_, by unfold GDual.sinh; rw [h0, res_bind]; simp only; rw [e4, res_bind, e2, res_bind]; rfl, (Keeps.add' hN (wf_mulSG h10 _) (h6.mulSG hN hdeg h)).has⟩,
    fun h => ⟨_, by unfold GDual.cosh; rw [h0, res_bind]; simp only; rw [e4, res_bind, e2, res_bind]; rfl, (Keeps.add' hN (wf_mulSG h10 _) (h6.mulSG hN hdeg h)).has⟩⟩

end
end Audi
