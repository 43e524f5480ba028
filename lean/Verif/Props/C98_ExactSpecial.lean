import Verif.Proofs.CfHom
import Verif.Props.C96_SpecialDiv
import Mathlib.Tactic.FinCases

/-!
# C98: the exact model against the model with infinities and NaN

The exact model has no special values: its operations either give a result or report `nonFinite`. Here the coefficients of the exact model (rational numbers) are
compared with numbers with infinities and NaN, without rounding (`XFormat.exact`), on which the code is followed line by line: the exact model is right about when the special values occur.
-/

namespace Audi
open Poly

/-- A number as a value of the format without rounding. -/
def toX (q : ℚ) : XF .exact := ⟨.fin q, fun _ _ => rfl⟩

theorem toX_hom : CfHom toX where
  ofRat q := XF.ext (by change Xv.fin ((q : ℚ) : ℚ) = .fin q; simp)
  add _ _ := XF.ext rfl
  mul _ _ := XF.ext rfl
  neg _ := XF.ext rfl
  div a b hb := by
    have h : b ≠ 0 := by simpa [Cf.isUnit] using hb
    exact XF.ext (XF.div_fin (F := .exact) (a := toX a) (b := toX b) rfl rfl h).symm
  isZero a := by
    rw [Bool.eq_iff_iff, XF.isZero_iff]
    simp [toX, Cf.isZero]

/-- A gdual of numbers as a gdual with infinities and NaN. -/
def emb (d : GDual ℚ) : GDual (XF .exact) := d.mapG toX

theorem emb_valid {d : GDual ℚ} (h : d.Valid) : (emb d).Valid where
  wf := {
    sorted := h.wf.sorted
    len := by
      intro t ht
      obtain ⟨u, hu, rfl⟩ := List.mem_map.mp ht
      exact h.wf.len u hu
    nodup := by
      change ((d.p.terms.map fun x => (x.1, toX x.2)).map (·.1)).Nodup
      rw [List.map_map]
      exact h.wf.nodup
    nz := by
      intro t ht
      obtain ⟨u, hu, rfl⟩ := List.mem_map.mp ht
      rw [toX_hom.isZero]
      exact h.wf.nz u hu }
  deg := by
    intro t ht
    obtain ⟨u, hu, rfl⟩ := List.mem_map.mp ht
    exact h.deg u hu

/-- No coefficient is inf or NaN. -/
theorem emb_finite (d : GDual ℚ) (E : String →₀ ℕ) : ¬ HasAt NonFinite (emb d) E := by
  rintro ⟨t, ht, h1, -⟩
  obtain ⟨u, hu, rfl⟩ := List.mem_map.mp ht
  exact h1 u.2 rfl

variable {a b : GDual ℚ}

/-- **C98** Sums, differences, products and opposites: the same results. -/
theorem C98_ring (a b : GDual ℚ) (c : ℚ) : (emb a).add (emb b) = emb (a.add b) ∧ (emb a).sub (emb b) = emb (a.sub b) ∧ (emb a).mul (emb b) = emb (a.mul b) ∧ (emb a).neg = emb a.neg ∧
    (emb a).addGS (toX c) = emb (a.addGS c) ∧ GDual.addSG (toX c) (emb a) = emb (GDual.addSG c a) ∧ (emb a).subGS (toX c) = emb (a.subGS c) ∧
    GDual.subSG (toX c) (emb a) = emb (GDual.subSG c a) ∧ (emb a).mulGS (toX c) = emb (a.mulGS c) ∧ GDual.mulSG (toX c) (emb a) = emb (GDual.mulSG c a) :=
  have h := toX_hom
  ⟨h.gadd a b, h.gsub a b, h.gmul a b, h.gneg a, h.addGS a c, h.addSG c a, h.subGS a c, h.subSG c a, h.mulGS a c, h.mulSG c a⟩

/-- **C98** Calculus, substitution, reading and evaluation: the same results. -/
theorem C98_calculus (d : GDual ℚ) (s : String) (v : ℚ) (e : List ℕ) (dict : List (String × ℚ)) :
    (emb d).partial' s = (d.partial' s).map emb ∧ (emb d).integrate s = (d.integrate s).map emb ∧ (emb d).subsVal s (toX v) = emb (d.subsVal s v) ∧
    (emb d).findCf e = (d.findCf e).map toX ∧ (emb d).getDerivative e = (d.getDerivative e).map toX ∧
    (emb d).evaluate (dict.map fun x => (x.1, toX x.2)) = (d.evaluate dict).map toX :=
  have h := toX_hom
  ⟨h.partial' d s, h.integrate (fun k => by simp [Cf.isUnit, Cf.ofRat]; positivity) d s, h.subsVal d s v, h.findCf d e, h.getDerivative d e, h.evaluate d dict⟩

/-! ### Division -/

theorem mergeSyms_self {ss : List String} (h : ss.Pairwise (· < ·)) : mergeSyms ss ss = ss := mergeSyms_eq_left h fun _ hs => hs

theorem mergeSyms_nil_left {ss : List String} (h : ss.Pairwise (· < ·)) : mergeSyms [] ss = ss := by rw [mergeSyms_comm (by simp) h]; rfl

theorem divRet_syms {F : XFormat} {d : GDual (XF F)} (h : d.p.WF) (p0 : XF F) : (divRet d p0).p.syms = d.p.syms := by
  have e0 : (divStart d p0).phat.p.syms = d.p.syms := rfl
  have e1 : (divStart d p0).retval.p.syms = d.p.syms := mergeSyms_nil_left h.sorted
  obtain ⟨-, -, s, hs, he⟩ := divRet_inv h p0 (Q := fun s => s.retval.p.syms = d.p.syms ∧ s.phat.p.syms = d.p.syms) ⟨e1, e0⟩
    (fun s _ hq => by
      have h1 : (s.phat.mul (divStart d p0).phat).p.syms = d.p.syms := by
        change mergeSyms s.phat.p.syms (divStart d p0).phat.p.syms = _
        rw [hq.2, e0, mergeSyms_self h.sorted]
      refine ⟨?_, h1⟩
      change mergeSyms s.retval.p.syms (mergeSyms [] (s.phat.mul (divStart d p0).phat).p.syms) = _
      rw [hq.1, h1, mergeSyms_nil_left h.sorted, mergeSyms_self h.sorted])
  rw [← he]
  exact hs.1

theorem truncMul_empty {C : Type} [Cf C] {p q : Poly C} (n : ℕ) (hp : p.terms = []) : truncMul p q n = ⟨mergeSyms p.syms q.syms, []⟩ := by
  simp [truncMul, mulBy, addSymbols, hp, insertTerms]

theorem const_valid_cf {d : GDual ℚ} : ∃ c, d.constantCf = .ok c := by
  obtain ⟨c, h, -⟩ := GDual.constantCf_ok (d := d)
  exact ⟨c, h⟩

theorem not_unit {c : ℚ} (h : ¬ Cf.isUnit c = true) : c = 0 := by simpa [Cf.isUnit] using h

theorem exists_present {d : GDual ℚ} (h : ¬ d.p.terms.isEmpty = true) : ∃ E, (emb d).Present E := by
  cases hd : d.p.terms with
  | nil => simp [hd] at h
  | cons t l => exact ⟨_, (t.1, toX t.2), by simp [emb, GDual.mapG, Poly.mapP, mapT, hd], trivial, rfl⟩

/-- **C98** Quotients of gduals. If the exact model gives a result, the code gives that result, without inf or NaN. If the exact model reports `nonFinite`, the code gives a result with an inf or NaN
coefficient. There is no other outcome. -/
theorem C98_div (ha : a.Valid) (hb : b.Valid) :
    (∀ r, a.div b = .ok r → (emb a).div (emb b) = .ok (emb r)) ∧ (∀ e, a.div b = .error e → e = .nonFinite ∧ ∃ r, (emb a).div (emb b) = .ok r ∧ ∃ E, HasAt NonFinite r E) := by
  obtain ⟨p0, hp⟩ := const_valid_cf (d := b)
  have hp' : (emb b).constantCf = .ok (toX p0) := by
    have := toX_hom.constantCf b
    rw [hp] at this
    exact this
  by_cases hu : Cf.isUnit p0 = true
  · refine ⟨fun r hr => toX_hom.gdiv hp hu rfl hr, fun e he => ?_⟩
    exfalso
    unfold GDual.div GDual.divSeries at he
    rw [hp] at he
    simp [Bind.bind, Except.bind, GDual.divGS, hu] at he
  · have h0 := not_unit hu
    subst h0
    have hdiv : a.div b = if a.p.terms.isEmpty then .ok (a.mul b) else .error .nonFinite := by
      unfold GDual.div
      rw [hp]
      simp only [Bind.bind, Except.bind, hu]
      rfl
    rw [hdiv]
    by_cases he : a.p.terms.isEmpty = true
    · rw [if_pos he]
      refine ⟨fun r hr => ?_, fun e h => by cases h⟩
      cases hr
      have ht : a.p.terms = [] := by simpa using he
      have ht' : (emb a).p.terms = [] := by simp [emb, GDual.mapG, Poly.mapP, mapT, ht]
      have hs := divRet_syms (emb_valid hb).wf (toX 0)
      have ho := (divRet_inv (emb_valid hb).wf (toX 0) (Q := fun _ => True) trivial (fun _ _ _ => trivial)).2.1
      rw [div_eq XF.isUnit_true _ hp']
      refine congrArg Except.ok ?_
      have e1 : (emb a).mul (divRet (emb b) (toX 0)) = ⟨⟨mergeSyms a.p.syms b.p.syms, []⟩, max a.order b.order⟩ := by
        have : (emb a).mul (divRet (emb b) (toX 0)) =
          ⟨truncMul (emb a).p (divRet (emb b) (toX 0)).p (max (emb a).order (divRet (emb b) (toX 0)).order), max (emb a).order (divRet (emb b) (toX 0)).order⟩ := rfl
        rw [this, truncMul_empty _ ht', hs, ho]
        rfl
      have e2 : emb (a.mul b) = ⟨⟨mergeSyms a.p.syms b.p.syms, []⟩, max a.order b.order⟩ := by
        have : a.mul b = ⟨truncMul a.p b.p (max a.order b.order), max a.order b.order⟩ := rfl
        rw [this, truncMul_empty _ ht]
        rfl
      rw [e1, e2]
      have : (⟨⟨mergeSyms a.p.syms b.p.syms, []⟩, max a.order b.order⟩ : GDual (XF .exact)).mulGS (Cf.div Cf.one (toX 0)) =
        ⟨truncMul ⟨mergeSyms a.p.syms b.p.syms, []⟩ (Poly.const (Cf.div Cf.one (toX 0))) (max (max a.order b.order) (max a.order b.order)), max (max a.order b.order) (max a.order b.order)⟩ := rfl
      rw [this, truncMul_empty _ rfl, max_self]
      rfl
    · rw [if_neg he]
      refine ⟨fun r hr => (by cases hr), fun e h => ?_⟩
      cases h
      refine ⟨rfl, ?_⟩
      obtain ⟨E, hE⟩ := exists_present he
      obtain ⟨r, hr, hn⟩ := C96_zero (emb_valid ha) (emb_valid hb) hp' rfl hE
      exact ⟨r, hr, E, hn⟩

/-- **C98** Quotients of a gdual and a number. -/
theorem C98_divGS (ha : a.Valid) (s : ℚ) : (∀ r, a.divGS s = .ok r → (emb a).divGS (toX s) = .ok (emb r)) ∧
    (∀ e, a.divGS s = .error e → e = .nonFinite ∧ ∃ r, (emb a).divGS (toX s) = .ok r ∧ ∃ E, HasAt NonFinite r E) := by
  by_cases hu : Cf.isUnit s = true
  · refine ⟨fun r hr => toX_hom.divGS hu rfl hr, fun e he => ?_⟩
    simp [GDual.divGS, hu] at he
  · have h0 := not_unit hu
    subst h0
    have hdiv : a.divGS 0 = if a.p.terms.isEmpty then .ok a else .error .nonFinite := by
      unfold GDual.divGS
      rw [if_neg hu]
    rw [hdiv]
    by_cases he : a.p.terms.isEmpty = true
    · rw [if_pos he]
      refine ⟨fun r hr => ?_, fun e h => by cases h⟩
      cases hr
      have ht : a.p.terms = [] := by simpa using he
      have ht' : (emb a).p.terms = [] := by simp [emb, GDual.mapG, Poly.mapP, mapT, ht]
      have e0 : (emb a).divGS (toX 0) = .ok ((emb a).mulGS (Cf.div Cf.one (toX 0))) := by simp [GDual.divGS, XF.isUnit_true]
      rw [e0]
      refine congrArg Except.ok ?_
      have : (emb a).mulGS (Cf.div Cf.one (toX 0)) = ⟨truncMul (emb a).p (Poly.const (Cf.div Cf.one (toX 0))) (max a.order a.order), max a.order a.order⟩ := rfl
      rw [this, truncMul_empty _ ht', max_self]
      change (⟨⟨a.p.syms, []⟩, a.order⟩ : GDual (XF .exact)) = ⟨⟨a.p.syms, mapT toX a.p.terms⟩, a.order⟩
      rw [ht]
      rfl
    · rw [if_neg he]
      refine ⟨fun r hr => (by cases hr), fun e h => ?_⟩
      cases h
      refine ⟨rfl, ?_⟩
      obtain ⟨E, hE⟩ := exists_present he
      obtain ⟨r, hr, hn, -⟩ := C96_scalar (emb_valid ha) (toX 0) hE
      exact ⟨r, hr, E, hn rfl⟩

/-- `dx` and `1 + dx`, of order 1. -/
def exX : GDual ℚ := ⟨⟨["dx"], [([1], 1)]⟩, 1⟩
def exOneX : GDual ℚ := ⟨⟨["dx"], [([1], 1), ([0], 1)]⟩, 1⟩

theorem exX_valid : exX.Valid where
  wf := ⟨by simp [exX], by simp [exX], by simp [exX], by simp [exX, Cf.isZero]⟩
  deg := by simp [exX]

theorem exOneX_valid : exOneX.Valid where
  wf := ⟨by simp [exOneX], by simp [exOneX], by simp [exOneX], by simp [exOneX, Cf.isZero]⟩
  deg := by simp [exOneX]

example : (∃ r, exX.div exOneX = .ok r ∧ (emb exX).div (emb exOneX) = .ok (emb r)) := by
  have h : ∃ r, exX.div exOneX = .ok r := ⟨_, rfl⟩
  obtain ⟨r, hr⟩ := h
  exact ⟨r, hr, (C98_div exX_valid exOneX_valid).1 r hr⟩

example : exOneX.div exX = .error .nonFinite ∧ ∃ r, (emb exOneX).div (emb exX) = .ok r ∧ ∃ E, HasAt NonFinite r E :=
  have h : exOneX.div exX = .error .nonFinite := by decide +kernel
  ⟨h, ((C98_div exOneX_valid exX_valid).2 _ h).2⟩

end Audi
