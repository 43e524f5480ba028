import Verif.Proofs.CfAt
import Verif.Proofs.GDualOps
import Verif.Spec.SpecialFn

/-! Constant coefficients of gduals with rounding and special values. -/

namespace Audi
open Poly

variable {F : XFormat}

/-- The gdual is well formed and its constant coefficient is `v` or, if `P`, NaN. -/
structure Cst (P : Prop) (d : GDual (XF F)) (v : XF F) : Prop where
  wf : d.p.WF
  cf : cfAt d.p 0 = v ∨ P ∧ IsNaN (cfAt d.p 0)

variable {P : Prop}

theorem Cst.of_ok {d : GDual (XF F)} {v : XF F} (hd : d.p.WF) (h : d.constantCf = .ok v) : Cst P d v :=
  ⟨hd, Or.inl (by rw [constantCf_cfAt hd] at h; cases h; rfl)⟩

theorem Cst.ok {d : GDual (XF F)} {v : XF F} (h : Cst False d v) : d.constantCf = .ok v := by
  rcases h.cf with h1 | h1
  · rw [constantCf_cfAt h.wf, h1]
  · exact h1.1.elim

/-- The constant coefficient is `v` or NaN. -/
theorem Cst.ok_or {d : GDual (XF F)} {v : XF F} (h : Cst P d v) : ∃ c, d.constantCf = .ok c ∧ (c = v ∨ P ∧ IsNaN c) := ⟨_, constantCf_cfAt h.wf, h.cf⟩

theorem XF.neg_zero : Cf.neg (Cf.zero : XF F) = Cf.zero := XF.ext (by rw [XF.neg_fin XF.zero_v]; rw [_root_.neg_zero, XF.zero_v])

theorem XF.cancel' {x : XF F} {q : ℚ} (hx : x.v = .fin q) : Cf.add x (Cf.neg x) = Cf.zero := CfZero.eq_zero _ (XF.cancel hx)

/-- The product of constant coefficients, where absent ones are not multiplied. -/
def cmul (x y : XF F) : XF F := if Cf.isZero x = true ∨ Cf.isZero y = true then Cf.zero else Cf.mul x y

theorem cmul_zero_left (y : XF F) : cmul Cf.zero y = Cf.zero := if_pos (Or.inl XF.isZero_zero)

theorem cmul_zero_right (x : XF F) : cmul x Cf.zero = Cf.zero := if_pos (Or.inr XF.isZero_zero)

theorem cmul_one_left (y : XF F) : cmul Cf.one y = y := by
  unfold cmul
  split_ifs with h
  · rcases h with h | h
    · rw [XF.isZero_one] at h; exact absurd h (by decide)
    · exact (CfZero.eq_zero y h).symm
  · exact XF.one_mul y

theorem cmul_one_right (x : XF F) : cmul x Cf.one = x := by
  unfold cmul
  split_ifs with h
  · rcases h with h | h
    · exact (CfZero.eq_zero x h).symm
    · rw [XF.isZero_one] at h; exact absurd h (by decide)
  · exact XF.mul_one x

/-- For numbers the product of constant coefficients is the product. -/
theorem cmul_fin {x y : XF F} {p q : ℚ} (hx : x.v = .fin p) (hy : y.v = .fin q) : cmul x y = Cf.mul x y := by
  unfold cmul
  split_ifs with h
  · refine XF.ext ?_
    rw [XF.mul_fin hx hy, XF.zero_v]
    rcases h with h | h
    · rw [XF.isZero_iff, hx] at h
      cases h
      rw [zero_mul, F.rnd_zero]
    · rw [XF.isZero_iff, hy] at h
      cases h
      rw [mul_zero, F.rnd_zero]
  · rfl

theorem cmul_nan_left {x : XF F} (hx : IsNaN x) {y : XF F} (hy : Cf.isZero y = false) : IsNaN (cmul x y) := by
  unfold cmul
  rw [if_neg (by rw [absorbing_nan.nz x hx, hy]; simp)]
  exact absorbing_nan.mul_left _ _ hx

theorem cmul_nan_right {y : XF F} (hy : IsNaN y) {x : XF F} (hx : Cf.isZero x = false) : IsNaN (cmul x y) := by
  unfold cmul
  rw [if_neg (by rw [absorbing_nan.nz y hy, hx]; simp)]
  exact absorbing_nan.mul_right _ _ hy

namespace Cst
variable {a b d : GDual (XF F)} {u v : XF F}

theorem exact (h : d.p.WF) (hv : cfAt d.p 0 = v) : Cst P d v := ⟨h, Or.inl hv⟩

theorem weaken (h : Cst False d v) : Cst P d v := ⟨h.wf, Or.inl (h.cf.resolve_right fun h => h.1)⟩

theorem add (ha : Cst P a u) (hb : Cst P b v) : Cst P (a.add b) (Cf.add u v) := by
  refine ⟨ha.wf.add hb.wf, ?_⟩
  have h : cfAt (a.add b).p 0 = Cf.add (cfAt a.p 0) (cfAt b.p 0) := cfAt_add ha.wf hb.wf 0
  rw [h]
  rcases ha.cf with h1 | h1
  · rcases hb.cf with h2 | h2
    · rw [h1, h2]; exact Or.inl rfl
    · exact Or.inr ⟨h2.1, absorbing_nan.add_right _ _ h2.2⟩
  · exact Or.inr ⟨h1.1, absorbing_nan.add_left _ _ h1.2⟩

theorem neg (ha : Cst P a u) : Cst P a.neg (Cf.neg u) := by
  refine ⟨wf_neg ha.wf, ?_⟩
  have h : cfAt a.neg.p 0 = Cf.neg (cfAt a.p 0) := cfAt_neg ha.wf (wf_neg ha.wf) XF.neg_zero 0
  rw [h]
  rcases ha.cf with h1 | h1
  · rw [h1]; exact Or.inl rfl
  · exact Or.inr ⟨h1.1, absorbing_nan.neg _ h1.2⟩

theorem sub (ha : Cst P a u) (hb : Cst P b v) : Cst P (a.sub b) (Cf.add u (Cf.neg v)) := by
  have h := ha.add hb.neg
  exact ⟨h.wf, h.cf⟩

theorem ofCf (c : XF F) : Cst P (GDual.ofCf c) c := exact (wf_const c) (cfAt_const c)

theorem ofCfOrder (c : XF F) (n : ℕ) : Cst P (GDual.ofCfOrder c n) c := exact (wf_const c) (cfAt_const c)

theorem addSG (s : XF F) (hb : Cst P b v) : Cst P (GDual.addSG s b) (Cf.add s v) := by
  have h := (ofCf (P := P) s).add hb
  exact ⟨h.wf, h.cf⟩

theorem addGS (s : XF F) (hb : Cst P b v) : Cst P (b.addGS s) (Cf.add s v) := hb.addSG s

theorem subSG (s : XF F) (hb : Cst P b v) : Cst P (GDual.subSG s b) (Cf.add s (Cf.neg v)) := by
  have h := (ofCf (P := P) s).add hb.neg
  exact ⟨h.wf, h.cf⟩

theorem subGS (s : XF F) (ha : Cst P a u) : Cst P (a.subGS s) (Cf.add u (Cf.neg s)) := by
  have h := ha.add (ofCf (P := P) s).neg
  exact ⟨h.wf, h.cf⟩

theorem mul (ha : Cst P a u) (hb : Cst P b v) : Cst P (a.mul b) (cmul u v) := by
  refine ⟨wf_gmul ha.wf hb.wf, ?_⟩
  have h : cfAt (a.mul b).p 0 = cmul (cfAt a.p 0) (cfAt b.p 0) := cfAt_mul_zero ha.wf hb.wf _
  rw [h]
  rcases ha.cf with h1 | h1
  · rcases hb.cf with h2 | h2
    · rw [h1, h2]; exact Or.inl rfl
    · rw [h1]
      cases hu : Cf.isZero u with
      | true => rw [CfZero.eq_zero u hu, cmul_zero_left, cmul_zero_left]; exact Or.inl rfl
      | false => exact Or.inr ⟨h2.1, cmul_nan_right h2.2 hu⟩
  · cases hu : Cf.isZero (cfAt b.p 0) with
    | true =>
      have h3 : cfAt b.p 0 = v := hb.cf.resolve_right fun h2 => by rw [absorbing_nan.nz _ h2.2] at hu; exact absurd hu (by decide)
      rw [← h3, CfZero.eq_zero _ hu, cmul_zero_right, cmul_zero_right]
      exact Or.inl rfl
    | false => exact Or.inr ⟨h1.1, cmul_nan_left h1.2 hu⟩

theorem mulGS (s : XF F) (ha : Cst P a u) : Cst P (a.mulGS s) (cmul u s) := ha.mul (ofCfOrder s _)

theorem mulSG (s : XF F) (ha : Cst P a u) : Cst P (GDual.mulSG s a) (cmul s u) := (ofCfOrder s _).mul ha

theorem divGS (s : XF F) (ha : Cst P a u) : ∃ r, a.divGS s = .ok r ∧ Cst P r (cmul u (Cf.div Cf.one s)) :=
  ⟨a.mulGS (Cf.div Cf.one s), by simp [GDual.divGS, XF.isUnit_true], ha.mulGS _⟩

/-! Constant coefficient zero. -/

theorem z_mul (ha : Cst P a Cf.zero) (hb : b.p.WF) : Cst P (a.mul b) Cf.zero := by
  have := ha.mul (b := b) ⟨hb, Or.inl rfl⟩
  rwa [cmul_zero_left] at this

theorem mul_z (ha : a.p.WF) (hb : Cst P b Cf.zero) : Cst P (a.mul b) Cf.zero := by
  have := Cst.mul (P := P) (a := a) ⟨ha, Or.inl rfl⟩ hb
  rwa [cmul_zero_right] at this

theorem z_mulGS (s : XF F) (ha : Cst P a Cf.zero) : Cst P (a.mulGS s) Cf.zero := ha.z_mul (wf_const s)

theorem z_mulSG (s : XF F) (ha : Cst P a Cf.zero) : Cst P (GDual.mulSG s a) Cf.zero := mul_z (a := GDual.ofCfOrder s _) (wf_const s) ha

theorem z_divGS (s : XF F) (ha : Cst P a Cf.zero) : ∃ r, a.divGS s = .ok r ∧ Cst P r Cf.zero :=
  ⟨a.mulGS (Cf.div Cf.one s), by simp [GDual.divGS, XF.isUnit_true], ha.z_mulGS _⟩

theorem add_z (ha : Cst P a u) (hb : Cst P b Cf.zero) : Cst P (a.add b) u := by
  have := ha.add hb
  rwa [CfZero.add_zero] at this

theorem z_add (ha : Cst P a Cf.zero) (hb : Cst P b v) : Cst P (a.add b) v := by
  have := ha.add hb
  rwa [CfZero.zero_add] at this

theorem sub_z (ha : Cst P a u) (hb : Cst P b Cf.zero) : Cst P (a.sub b) u := by
  have := ha.sub hb
  rwa [XF.neg_zero, CfZero.add_zero] at this

/-- The part without constant coefficient; NaN if the constant coefficient was not a number. -/
theorem phat (hd : Cst False d v) (hv : P ∨ ∃ q, v.v = .fin q) : Cst P (d.subGS v) Cf.zero := by
  have := hd.subGS v
  have h1 : cfAt (d.subGS v).p 0 = Cf.add v (Cf.neg v) := this.cf.resolve_right fun h => h.1
  refine ⟨this.wf, ?_⟩
  rw [h1]
  rcases hx : v.v with _ | s | q
  · exact Or.inr ⟨hv.resolve_right (by rintro ⟨q, hq⟩; rw [hx] at hq; simp at hq), absorbing_nan.add_left _ _ hx⟩
  · refine Or.inr ⟨hv.resolve_right (by rintro ⟨q, hq⟩; rw [hx] at hq; simp at hq), ?_⟩
    rw [IsNaN, XF.add_def]
    unfold XF.add
    rw [XF.neg_def, hx, show (XF.neg v).v = v.v.neg from rfl, hx]
    cases s <;> rfl
  · exact Or.inl (XF.cancel' hx)

end Cst

theorem divRet_wf {d : GDual (XF F)} (hd : d.p.WF) (p0 : XF F) : (divRet d p0).p.WF :=
  (divRet_inv hd p0 (Q := fun _ => True) trivial (fun _ _ _ => trivial)).1

theorem Cst.divRet {d : GDual (XF F)} {p0 : XF F} (hd : Cst False d p0) (hq : P ∨ ∃ q, p0.v = .fin q) : Cst P (Audi.divRet d p0) Cf.one := by
  have h1 : Cst P (divStart d p0).phat Cf.zero := (hd.phat hq).z_mulGS _
  have h2 : Cst P (divStart d p0).retval Cf.one := by
    have := (Cst.ofCf (P := P) (Cf.one : XF F)).sub h1
    rw [XF.neg_zero, CfZero.add_zero] at this
    exact ⟨this.wf, this.cf⟩
  obtain ⟨-, -, s, hs, he⟩ := divRet_inv hd.wf p0 (Q := fun s => Cst P s.retval Cf.one ∧ Cst P s.phat Cf.zero) ⟨h2, h1⟩
    (fun s hi hs => ⟨hs.1.add_z ((hs.2.z_mul h1.wf).z_mulSG _), hs.2.z_mul h1.wf⟩)
  rw [← he]
  exact hs.1

/-- The constant coefficient of a quotient is that of the numerator times the reciprocal of that of the denominator. -/
theorem Cst.div {a b : GDual (XF F)} {u v : XF F} (ha : Cst P a u) (hb : Cst False b v) (hq : P ∨ ∃ q, v.v = .fin q) :
    ∃ r, a.div b = .ok r ∧ Cst P r (cmul u (Cf.div Cf.one v)) := by
  refine ⟨_, div_eq XF.isUnit_true a hb.ok, ?_⟩
  have := (ha.mul (hb.divRet hq)).mulGS (Cf.div Cf.one v)
  rwa [cmul_one_right] at this

theorem Cst.div' {a b : GDual (XF F)} {u v : XF F} (ha : Cst P a u) (hb : Cst P b v) (hq : P ∨ ∃ q, v.v = .fin q) :
    ∃ r, a.div b = .ok r ∧ Cst P r (cmul u (Cf.div Cf.one v)) := by
  rcases hb.cf with h1 | ⟨hP, h1⟩
  · exact ha.div ⟨hb.wf, Or.inl h1⟩ hq
  · have hb' : Cst False b (cfAt b.p 0) := ⟨hb.wf, Or.inl rfl⟩
    obtain ⟨r, h2, h3⟩ := ha.div hb' (Or.inl hP)
    refine ⟨r, h2, h3.wf, ?_⟩
    rcases h3.cf with h4 | h4
    · rw [h4]
      cases hu : Cf.isZero u with
      | true => rw [CfZero.eq_zero u hu, cmul_zero_left, cmul_zero_left]; exact Or.inl rfl
      | false =>
        refine Or.inr ⟨hP, cmul_nan_right ?_ hu⟩
        rw [XF.div_def]; unfold IsNaN at *; unfold XF.div; rw [h1, XF.one_v]; rfl
    · exact Or.inr h4

theorem Cst.z_div {a b : GDual (XF F)} (ha : Cst P a Cf.zero) (hb : b.p.WF) : ∃ r, a.div b = .ok r ∧ Cst P r Cf.zero := by
  have hc := constantCf_cfAt hb
  exact ⟨_, div_eq XF.isUnit_true a hc, (ha.z_mul (divRet_wf hb _)).z_mulGS _⟩

theorem Cst.divSG (s : XF F) {b : GDual (XF F)} {v : XF F} (hb : Cst False b v) (hq : P ∨ ∃ q, v.v = .fin q) :
    ∃ r, GDual.divSG s b = .ok r ∧ Cst P r (cmul s (Cf.div Cf.one v)) := by
  refine ⟨_, divSG_eq XF.isUnit_true s hb.ok, ?_⟩
  have := ((hb.divRet hq).mulSG s).mulGS (Cf.div Cf.one v)
  rwa [cmul_one_right] at this

/-- A loop in the exception monad which keeps a property. -/
theorem foldlM_inv {σ : Type} {Q : σ → Prop} {f : σ → ℕ → Res σ} (hf : ∀ s i, Q s → ∃ s', f s i = .ok s' ∧ Q s') (l : List ℕ) {s : σ} (hs : Q s) :
    ∃ s', l.foldlM f s = .ok s' ∧ Q s' := by
  induction l generalizing s with
  | nil => exact ⟨s, rfl, hs⟩
  | cons i l ih =>
    obtain ⟨s1, h1, h2⟩ := hf s i hs
    obtain ⟨s2, h3, h4⟩ := ih h2
    exact ⟨s2, by rw [List.foldlM_cons, h1]; exact h3, h4⟩

theorem foldl_inv {σ : Type} {Q : σ → Prop} {f : σ → ℕ → σ} (hf : ∀ s i, Q s → Q (f s i)) (l : List ℕ) {s : σ} (hs : Q s) : Q (l.foldl f s) := by
  induction l generalizing s with
  | nil => exact hs
  | cons i l ih => exact ih (hf s i hs)

theorem res_bind {α β : Type} (x : α) (f : α → Res β) : ((Except.ok x : Res α) >>= f) = f x := rfl

section
variable [XLibm F] {d : GDual (XF F)} {p0 : XF F}
open GDual

theorem guardTrue : guardFinite true = .ok () := rfl

theorem Cst.exp (hd : Cst False d p0) (hq : P ∨ ∃ q, p0.v = .fin q) : ∃ r, exp d = .ok r ∧ Cst P r (XLibm.exp p0) := by
  have hph := hd.phat hq
  obtain ⟨st, h1, h2, h3, h4⟩ := foldlM_inv (f := expStep (d.subGS p0)) (Q := fun s : ExpSt (XF F) => Cst P s.retval Cf.one ∧ s.fact.p.WF ∧ Cst P s.phat Cf.zero)
    (fun s i hs => by
      obtain ⟨hs1, hs2, hs3⟩ := hs
      have hz := hs3.z_mul (wf_subGS hd.wf p0)
      have hw : (s.fact.mulGS (Cf.ofRat (i : ℚ))).p.WF := wf_mulGS hs2 _
      obtain ⟨r, hr1, hr2⟩ := hz.z_div hw
      exact ⟨_, by unfold expStep; simp only; rw [hr1]; rfl, hs1.add_z hr2, hw, hz⟩)
    (List.range' 2 (d.order - 1)) (s := ⟨(GDual.ofRat 1).add (d.subGS p0), GDual.ofRat 1, d.subGS p0⟩)
    ⟨(Cst.ofCf _).add_z hph, wf_const _, hph⟩
  refine ⟨st.retval.mulGS (XLibm.exp p0), by unfold GDual.exp; rw [hd.ok, res_bind]; simp only; rw [h1, res_bind]; rfl, ?_⟩
  have := h2.mulGS (XLibm.exp p0)
  rwa [cmul_one_left] at this

theorem Cst.log (hd : Cst False d p0) (hq : P ∨ ∃ q, p0.v = .fin q) : ∃ r, log d = .ok r ∧ Cst P r (XLibm.log p0) := by
  obtain ⟨ph, hp1, hp2⟩ := (hd.phat hq).z_divGS p0
  obtain ⟨st, h1, h2, h3, h4⟩ := foldlM_inv (f := logStep ph) (Q := fun s : LogSt (XF F) => Cst P s.retval (XLibm.log p0) ∧ s.fatt.p.WF ∧ Cst P s.phat Cf.zero)
    (fun s i hs => by
      obtain ⟨hs1, hs2, hs3⟩ := hs
      have hz := hs3.z_mul hp2.wf
      have hw : (s.fatt.mulGS (Cf.ofRat (-1))).p.WF := wf_mulGS hs2 _
      obtain ⟨r, hr1, hr2⟩ := (Cst.mul_z hw hz).z_divGS (Cf.ofRat (i : ℚ))
      exact ⟨_, by unfold logStep; simp only; rw [hr1]; rfl, hs1.add_z hr2, hw, hz⟩)
    (List.range' 2 (d.order - 1)) (s := ⟨GDual.addSG (XLibm.log p0) ph, GDual.ofRat 1, ph⟩)
    ⟨by have := hp2.addSG (XLibm.log p0); rwa [CfZero.add_zero] at this, wf_const _, hp2⟩
  refine ⟨st.retval, ?_, h2⟩
  unfold GDual.log
  rw [hd.ok, res_bind]
  simp only
  rw [show guardFinite (CfFun.logOk p0) = .ok () from rfl, res_bind, hp1, res_bind, show CfFun.log p0 = XLibm.log p0 from rfl, h1, res_bind]

/-- The series of `sqrt` and `cbrt`. -/
theorem Cst.root (hd : Cst False d p0) (hq : P ∨ ∃ q, p0.v = .fin q) (alpha root : XF F) : ∃ r, rootSeries d alpha p0 root = .ok r ∧ Cst P r root := by
  obtain ⟨ph, hp1, hp2⟩ := (hd.phat hq).z_divGS p0
  have h := foldl_inv (f := rootStep alpha ph) (Q := fun s : PowSt (XF F) => Cst P s.retval Cf.one ∧ Cst P s.phat Cf.zero)
    (fun s i hs => ⟨hs.1.add_z ((hs.2.z_mul hp2.wf).z_mulSG _), hs.2.z_mul hp2.wf⟩)
    (List.range' 2 (d.order - 1)) (s := ⟨(GDual.ofRat 1).add (GDual.mulSG alpha ph), ph⟩)
    ⟨(Cst.ofCf _).add_z (hp2.z_mulSG alpha), hp2⟩
  refine ⟨_, by unfold rootSeries; rw [hp1, res_bind], ?_⟩
  have := h.1.mulGS root
  rwa [cmul_one_left] at this

theorem Cst.sqrt (hd : Cst False d p0) (hq : P ∨ ∃ q, p0.v = .fin q) : ∃ r, sqrt d = .ok r ∧ Cst P r (XLibm.sqrt p0) := by
  obtain ⟨r, h1, h2⟩ := hd.root hq (Cf.ofRat (1 / 2)) (XLibm.sqrt p0)
  refine ⟨r, ?_, h2⟩
  unfold GDual.sqrt
  rw [hd.ok, res_bind, show guardFinite (CfFun.sqrtOk p0) = .ok () from rfl, res_bind]
  exact h1

theorem Cst.cbrt (hd : Cst False d p0) (hq : P ∨ ∃ q, p0.v = .fin q) : ∃ r, cbrt d = .ok r ∧ Cst P r (XLibm.cbrt p0) := by
  obtain ⟨r, h1, h2⟩ := hd.root hq (Cf.div (Cf.ofRat 1) (Cf.ofRat 3)) (XLibm.cbrt p0)
  refine ⟨r, ?_, h2⟩
  unfold GDual.cbrt
  rw [hd.ok, res_bind]
  exact h1

/-! Sine and cosine, hyperbolic sine and cosine. -/

theorem trig_loop {phat2 : GDual (XF F)} (h2 : Cst P phat2 Cf.zero) (l : List ℕ) {s : TrigSt (XF F)} {v : XF F} (hs1 : Cst P s.taylor v) (hs2 : s.tmp.p.WF) :
    ∃ s', l.foldlM (trigStep phat2) s = .ok s' ∧ Cst P s'.taylor v := by
  obtain ⟨s', h3, h4, -⟩ := foldlM_inv (f := trigStep phat2) (Q := fun s : TrigSt (XF F) => Cst P s.taylor v ∧ s.tmp.p.WF)
    (fun s i hs => by
      have hz := Cst.mul_z hs.2 h2
      obtain ⟨r, hr1, hr2⟩ := (hz.z_mulSG (Cf.ofRat (-s.coeff))).z_divGS (Cf.mul s.factorial (Cf.ofRat (i * (i - 1))))
      exact ⟨_, by unfold trigStep; simp only; rw [hr1]; rfl, hs.1.add_z hr2, hz.wf⟩) l ⟨hs1, hs2⟩
  exact ⟨s', h3, h4⟩

theorem hyp_loop {phat2 : GDual (XF F)} (h2 : Cst P phat2 Cf.zero) (l : List ℕ) {s : TrigSt (XF F)} {v : XF F} (hs1 : Cst P s.taylor v) (hs2 : s.tmp.p.WF) :
    ∃ s', l.foldlM (hypStep phat2) s = .ok s' ∧ Cst P s'.taylor v := by
  obtain ⟨s', h3, h4, -⟩ := foldlM_inv (f := hypStep phat2) (Q := fun s : TrigSt (XF F) => Cst P s.taylor v ∧ s.tmp.p.WF)
    (fun s i hs => by
      have hz := Cst.mul_z hs.2 h2
      obtain ⟨r, hr1, hr2⟩ := hz.z_divGS (Cf.mul s.factorial (Cf.ofRat (i * (i - 1))))
      exact ⟨_, by unfold hypStep; simp only; rw [hr1]; rfl, hs.1.add_z hr2, hz.wf⟩) l ⟨hs1, hs2⟩
  exact ⟨s', h3, h4⟩

theorem cosTaylor_cst (n : ℕ) {phat2 : GDual (XF F)} (h2 : Cst P phat2 Cf.zero) : ∃ r, cosTaylor n phat2 = .ok r ∧ Cst P r Cf.one := by
  obtain ⟨s, h3, h4⟩ := trig_loop h2 (List.range' 2 (n / 2) 2) (s := ⟨GDual.ofRat 1, GDual.ofRat 1, Cf.ofRat 1, 1⟩) (v := Cf.one) (Cst.ofCf _) (wf_const _)
  exact ⟨s.taylor, by unfold cosTaylor; rw [h3, res_bind], h4⟩

theorem sinTaylor_cst (n : ℕ) {phat phat2 : GDual (XF F)} (h1 : Cst P phat Cf.zero) (h2 : Cst P phat2 Cf.zero) : ∃ r, sinTaylor n phat phat2 = .ok r ∧ Cst P r Cf.zero := by
  obtain ⟨s, h3, h4⟩ := trig_loop h2 (List.range' 3 ((n - 1) / 2) 2) (s := ⟨phat, phat, Cf.ofRat 1, 1⟩) h1 h1.wf
  exact ⟨s.taylor, by unfold sinTaylor; rw [h3, res_bind], h4⟩

theorem coshTaylor_cst (n : ℕ) {phat2 : GDual (XF F)} (h2 : Cst P phat2 Cf.zero) : ∃ r, coshTaylor n phat2 = .ok r ∧ Cst P r Cf.one := by
  obtain ⟨s, h3, h4⟩ := hyp_loop h2 (List.range' 2 (n / 2) 2) (s := ⟨GDual.ofRat 1, GDual.ofRat 1, Cf.ofRat 1, 1⟩) (v := Cf.one) (Cst.ofCf _) (wf_const _)
  exact ⟨s.taylor, by unfold coshTaylor; rw [h3, res_bind], h4⟩

theorem sinhTaylor_cst (n : ℕ) {phat phat2 : GDual (XF F)} (h1 : Cst P phat Cf.zero) (h2 : Cst P phat2 Cf.zero) : ∃ r, sinhTaylor n phat phat2 = .ok r ∧ Cst P r Cf.zero := by
  obtain ⟨s, h3, h4⟩ := hyp_loop h2 (List.range' 3 ((n - 1) / 2) 2) (s := ⟨phat, phat, Cf.ofRat 1, 1⟩) h1 h1.wf
  exact ⟨s.taylor, by unfold sinhTaylor; rw [h3, res_bind], h4⟩

theorem Cst.one_mulSG {a : GDual (XF F)} (h : Cst P a Cf.one) (s : XF F) : Cst P (GDual.mulSG s a) s := by
  have := h.mulSG s
  rwa [cmul_one_right] at this

theorem Cst.sin (hd : Cst False d p0) (hq : P ∨ ∃ q, p0.v = .fin q) : ∃ r, sin d = .ok r ∧ Cst P r (XLibm.sin p0) := by
  have hph := hd.phat hq
  obtain ⟨c, h1, h2⟩ := cosTaylor_cst d.order (hph.z_mul hph.wf)
  obtain ⟨s, h3, h4⟩ := sinTaylor_cst d.order hph (hph.z_mul hph.wf)
  exact ⟨(GDual.mulSG (XLibm.sin p0) c).add (GDual.mulSG (XLibm.cos p0) s), by unfold GDual.sin; rw [hd.ok, res_bind]; simp only; rw [h1, res_bind, h3, res_bind]; rfl,
    (h2.one_mulSG _).add_z (h4.z_mulSG _)⟩

theorem Cst.cos (hd : Cst False d p0) (hq : P ∨ ∃ q, p0.v = .fin q) : ∃ r, cos d = .ok r ∧ Cst P r (XLibm.cos p0) := by
  have hph := hd.phat hq
  obtain ⟨c, h1, h2⟩ := cosTaylor_cst d.order (hph.z_mul hph.wf)
  obtain ⟨s, h3, h4⟩ := sinTaylor_cst d.order hph (hph.z_mul hph.wf)
  exact ⟨(GDual.mulSG (XLibm.cos p0) c).sub (GDual.mulSG (XLibm.sin p0) s), by unfold GDual.cos; rw [hd.ok, res_bind]; simp only; rw [h1, res_bind, h3, res_bind]; rfl,
    (h2.one_mulSG _).sub_z (h4.z_mulSG _)⟩

theorem Cst.sinAndCos (hd : Cst False d p0) (hq : P ∨ ∃ q, p0.v = .fin q) : ∃ r, sinAndCos d = .ok r ∧ Cst P r.1 (XLibm.sin p0) ∧ Cst P r.2 (XLibm.cos p0) := by
  have hph := hd.phat hq
  obtain ⟨c, h1, h2⟩ := cosTaylor_cst d.order (hph.z_mul hph.wf)
  obtain ⟨s, h3, h4⟩ := sinTaylor_cst d.order hph (hph.z_mul hph.wf)
  exact ⟨((GDual.mulSG (XLibm.sin p0) c).add (GDual.mulSG (XLibm.cos p0) s), (GDual.mulSG (XLibm.cos p0) c).sub (GDual.mulSG (XLibm.sin p0) s)),
    by unfold GDual.sinAndCos; rw [hd.ok, res_bind]; simp only; rw [h1, res_bind, h3, res_bind]; rfl,
    (h2.one_mulSG _).add_z (h4.z_mulSG _), (h2.one_mulSG _).sub_z (h4.z_mulSG _)⟩

theorem Cst.sinh (hd : Cst False d p0) (hq : P ∨ ∃ q, p0.v = .fin q) : ∃ r, sinh d = .ok r ∧ Cst P r (XLibm.sinh p0) := by
  have hph := hd.phat hq
  obtain ⟨c, h1, h2⟩ := coshTaylor_cst d.order (hph.z_mul hph.wf)
  obtain ⟨s, h3, h4⟩ := sinhTaylor_cst d.order hph (hph.z_mul hph.wf)
  exact ⟨(GDual.mulSG (XLibm.sinh p0) c).add (GDual.mulSG (XLibm.cosh p0) s), by unfold GDual.sinh; rw [hd.ok, res_bind]; simp only; rw [h1, res_bind, h3, res_bind]; rfl,
    (h2.one_mulSG _).add_z (h4.z_mulSG _)⟩

theorem Cst.cosh (hd : Cst False d p0) (hq : P ∨ ∃ q, p0.v = .fin q) : ∃ r, cosh d = .ok r ∧ Cst P r (XLibm.cosh p0) := by
  have hph := hd.phat hq
  obtain ⟨c, h1, h2⟩ := coshTaylor_cst d.order (hph.z_mul hph.wf)
  obtain ⟨s, h3, h4⟩ := sinhTaylor_cst d.order hph (hph.z_mul hph.wf)
  exact ⟨(GDual.mulSG (XLibm.cosh p0) c).add (GDual.mulSG (XLibm.sinh p0) s), by unfold GDual.cosh; rw [hd.ok, res_bind]; simp only; rw [h1, res_bind, h3, res_bind]; rfl,
    (h2.one_mulSG _).add_z (h4.z_mulSG _)⟩

theorem Cst.sinhAndCosh (hd : Cst False d p0) (hq : P ∨ ∃ q, p0.v = .fin q) : ∃ r, sinhAndCosh d = .ok r ∧ Cst P r.1 (XLibm.sinh p0) ∧ Cst P r.2 (XLibm.cosh p0) := by
  have hph := hd.phat hq
  obtain ⟨c, h1, h2⟩ := coshTaylor_cst d.order (hph.z_mul hph.wf)
  obtain ⟨s, h3, h4⟩ := sinhTaylor_cst d.order hph (hph.z_mul hph.wf)
  exact ⟨((GDual.mulSG (XLibm.sinh p0) c).add (GDual.mulSG (XLibm.cosh p0) s), (GDual.mulSG (XLibm.cosh p0) c).add (GDual.mulSG (XLibm.sinh p0) s)),
    by unfold GDual.sinhAndCosh; rw [hd.ok, res_bind]; simp only; rw [h1, res_bind, h3, res_bind]; rfl,
    (h2.one_mulSG _).add_z (h4.z_mulSG _), (h2.one_mulSG _).add_z (h4.z_mulSG _)⟩

theorem XF.one_div_one : Cf.div (Cf.one : XF F) Cf.one = Cf.one :=
  XF.ext (by rw [XF.div_fin XF.one_v XF.one_v one_ne_zero, div_one, XF.one_v]; exact F.rnd_one)

theorem Cst.div_one {a b : GDual (XF F)} {u : XF F} (ha : Cst P a u) (hb : Cst P b Cf.one) : ∃ r, a.div b = .ok r ∧ Cst P r u := by
  obtain ⟨r, h1, h2⟩ := ha.div' hb (Or.inr ⟨1, XF.one_v⟩)
  rw [XF.one_div_one, cmul_one_right] at h2
  exact ⟨r, h1, h2⟩

theorem Cst.tan (hd : Cst False d p0) (hq : P ∨ ∃ q, p0.v = .fin q) : ∃ r, tan d = .ok r ∧ Cst P r (XLibm.tan p0) := by
  have hph := hd.phat hq
  have h2 := hph.z_mul hph.wf
  have h := foldl_inv (f := tanStep ((d.subGS p0).mul (d.subGS p0))) (Q := fun s : TanSt (XF F) => Cst P s.taylor Cf.zero ∧ Cst P s.phat Cf.zero)
    (fun s i hs => ⟨hs.1.add_z ((hs.2.z_mul h2.wf).z_mulSG _), hs.2.z_mul h2.wf⟩)
    (List.range' 2 ((d.order + 1) / 2 - 1)) (s := ⟨d.subGS p0, d.subGS p0, 24, 16⟩) ⟨hph, hph⟩
  have hn := h.1.addSG (XLibm.tan p0)
  have hdn := (h.1.z_mulSG (XLibm.tan p0)).subSG (Cf.one : XF F)
  rw [CfZero.add_zero] at hn
  rw [XF.neg_zero, CfZero.add_zero] at hdn
  obtain ⟨r, h3, h4⟩ := hn.div_one hdn
  exact ⟨r, by unfold GDual.tan; rw [hd.ok, res_bind, show guardFinite (CfFun.tanOk p0) = .ok () from rfl, res_bind]; exact h3, h4⟩

theorem Cst.tanh (hd : Cst False d p0) (hq : P ∨ ∃ q, p0.v = .fin q) : ∃ r, tanh d = .ok r ∧ Cst P r (XLibm.tanh p0) := by
  have hph := hd.phat hq
  have h2 := hph.z_mul hph.wf
  have h := foldl_inv (f := tanhStep ((d.subGS p0).mul (d.subGS p0))) (Q := fun s : TanSt (XF F) => Cst P s.taylor Cf.zero ∧ Cst P s.phat Cf.zero)
    (fun s i hs => ⟨hs.1.add_z ((hs.2.z_mul h2.wf).z_mulSG _), hs.2.z_mul h2.wf⟩)
    (List.range' 2 ((d.order + 1) / 2 - 1)) (s := ⟨d.subGS p0, d.subGS p0, 24, 16⟩) ⟨hph, hph⟩
  have hn := h.1.addSG (XLibm.tanh p0)
  have hdn := (h.1.z_mulSG (XLibm.tanh p0)).addSG (Cf.one : XF F)
  rw [CfZero.add_zero] at hn hdn
  obtain ⟨r, h3, h4⟩ := hn.div_one hdn
  exact ⟨r, by unfold GDual.tanh; rw [hd.ok, res_bind]; exact h3, h4⟩

theorem Cst.atanh (hd : Cst False d p0) (hq : P ∨ ∃ q, p0.v = .fin q) : ∃ r, atanh d = .ok r ∧ Cst P r (XLibm.atanh p0) := by
  have hph := hd.phat hq
  have h := foldl_inv (f := atanhStep p0 (d.subGS p0)) (Q := fun s : AtanhSt (XF F) => Cst P s.retval Cf.zero ∧ Cst P s.powphat Cf.zero)
    (fun s i hs => ⟨hs.1.add_z (hs.2.z_mulSG _), hs.2.z_mul hph.wf⟩)
    (List.range' 1 d.order) (s := ⟨GDual.ofRat 0, d.subGS p0, 1⟩) ⟨Cst.ofCf _, hph⟩
  have hr := (h.1.z_mulSG (Cf.ofRat (1 / 2))).addSG (XLibm.atanh p0)
  rw [CfZero.add_zero] at hr
  exact ⟨_, by unfold GDual.atanh; rw [hd.ok, res_bind, show guardFinite (CfFun.atanhOk p0) = .ok () from rfl, res_bind]; rfl, hr⟩

theorem Cst.atanWith (hd : Cst False d p0) (hq : P ∨ ∃ q, p0.v = .fin q) (bin : ℕ → ℕ → ℕ) : ∃ r, atanWith bin d = .ok r ∧ Cst P r (XLibm.atan p0) := by
  obtain ⟨ph, hp1, hp2⟩ := (hd.phat hq).z_divGS (Cf.add (Cf.ofRat 1) (Cf.mul p0 p0))
  obtain ⟨st, h1, h2, -⟩ := foldlM_inv (f := atanStep bin p0 ph) (Q := fun s : AtanSt (XF F) => Cst P s.retval (XLibm.atan p0) ∧ Cst P s.powphat Cf.zero)
    (fun s k hs => by
      unfold atanStep
      split_ifs
      · obtain ⟨r, hr1, hr2⟩ := ((hs.2.z_mulSG (atanOdd bin p0 k)).z_mulGS s.coeff1).z_divGS (Cf.ofRat (k : ℚ))
        exact ⟨_, by rw [hr1, res_bind], hs.1.add_z hr2, hs.2.z_mul hp2.wf⟩
      · obtain ⟨r, hr1, hr2⟩ := ((hs.2.z_mulSG (atanEven bin p0 k)).z_mulGS s.coeff2).z_divGS (Cf.ofRat (k : ℚ))
        exact ⟨_, by rw [hr1, res_bind], hs.1.add_z hr2, hs.2.z_mul hp2.wf⟩)
    (List.range' 1 d.order) (s := ⟨GDual.ofCf (XLibm.atan p0), ph, Cf.ofRat 1, Cf.ofRat (-1)⟩) ⟨Cst.ofCf _, hp2⟩
  refine ⟨st.retval, ?_, h2⟩
  unfold GDual.atanWith
  rw [hd.ok, res_bind, hp1, res_bind, show CfFun.atan p0 = XLibm.atan p0 from rfl, h1, res_bind]

/-- `pow` with an exponent which is not a positive integer. -/
theorem Cst.powQ (hd : Cst False d p0) (hq : P ∨ ∃ q, p0.v = .fin q) {alpha : ℚ} (h1 : |alpha| < 2147483648) (h2 : ¬ (alpha.den = 1 ∧ alpha > 0)) :
    ∃ r, powQ d alpha = .ok r ∧ Cst P r (XLibm.pow p0 alpha) := by
  have hph := hd.phat hq
  have hmp : ∀ (t : GDual (XF F)) (e : ℚ), mulCfPow t p0 e = .ok (t.mulGS (XLibm.pow p0 e)) := fun t e => rfl
  obtain ⟨st, h3, h4, -⟩ := foldlM_inv (f := powStep alpha p0 (d.subGS p0)) (Q := fun s : PowSt (XF F) => Cst P s.retval (XLibm.pow p0 alpha) ∧ Cst P s.phat Cf.zero)
    (fun s i hs => ⟨_, by unfold powStep; simp only; rw [hmp, res_bind],
      hs.1.add_z (((hs.2.z_mul hph.wf).z_mulSG _).z_mulGS _), hs.2.z_mul hph.wf⟩)
    (List.range' 2 (d.order - 1)) (s := ⟨(GDual.ofCf (XLibm.pow p0 alpha)).add ((GDual.mulSG (Cf.ofRat alpha) (d.subGS p0)).mulGS (XLibm.pow p0 (alpha - 1))), d.subGS p0⟩)
    ⟨(Cst.ofCf _).add_z ((hph.z_mulSG _).z_mulGS _), hph⟩
  refine ⟨st.retval, ?_, h4⟩
  rw [abs_lt] at h1
  unfold GDual.powQ
  rw [if_neg (by push Not; constructor <;> linarith [h1.1, h1.2]), if_neg h2, hd.ok, res_bind]
  simp only
  rw [show cfPow p0 alpha = .ok (XLibm.pow p0 alpha) from rfl, res_bind, hmp, res_bind, h3, res_bind]

end

end Audi
