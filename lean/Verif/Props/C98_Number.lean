import Verif.Props.C98_ExactSpecial

/-!
# C98, continued: quotients of a number and a gdual, substitution of gduals, reading of single terms, filters and comparisons

As in `C98_ExactSpecial`: the exact model against the code on numbers with infinities and NaN, without rounding.
-/

namespace Audi
open Poly

/-! ### A number divided by a gdual -/

theorem divGS_unit {C : Type} [Cf C] {s : C} (h : Cf.isUnit s = true) (a : GDual C) : a.divGS s = .ok (a.mulGS (Cf.div Cf.one s)) := by simp [GDual.divGS, h]

instance : NegZero ℚ where
  isZero_neg c := by simp [Cf.isZero, Cf.neg]

/-- The two overloads agree: a number divided by a gdual is the constant divided by the gdual. -/
theorem divSG_div {C : Type} [Cf C] [NegZero C] (s : C) {b : GDual C} (hb : b.p.WF) : GDual.divSG s b = (GDual.ofCfOrder s b.order).div b := by
  unfold GDual.divSG GDual.div
  cases hp : b.constantCf with
  | error e => rfl
  | ok p0 =>
    simp only [Bind.bind, Except.bind]
    by_cases hu : Cf.isUnit p0 = true
    · rw [if_pos hu, if_pos hu]
      have hs : b.divSeries p0 = .ok (divRet b p0) := by
        unfold GDual.divSeries
        rw [divGS_unit hu]
        rfl
      have ho := (divRet_inv hb p0 (Q := fun _ => True) trivial (fun _ _ _ => trivial)).2.1
      rw [hs]
      simp only [GDual.mulSG, ho]
    · rw [if_neg hu, if_neg hu]
      have : (GDual.ofCfOrder s b.order).p.terms.isEmpty = Cf.isZero s := by
        simp only [GDual.ofCfOrder, Poly.const, insertTerm]
        split_ifs with h <;> simp [h]
      rw [this]
      rfl

/-- **C98** Quotients of a number and a gdual. If the exact model gives a result, the code gives that result. If the exact model reports `nonFinite`, the code gives a result with an inf or NaN
coefficient. There is no other outcome. -/
theorem C98_divSG (s : ℚ) {b : GDual ℚ} (hb : b.Valid) :
    (∀ r, GDual.divSG s b = .ok r → GDual.divSG (toX s) (emb b) = .ok (emb r)) ∧
    (∀ e, GDual.divSG s b = .error e → e = .nonFinite ∧ ∃ r, GDual.divSG (toX s) (emb b) = .ok r ∧ ∃ E, HasAt NonFinite r E) := by
  have h1 : GDual.divSG s b = (GDual.ofCfOrder s b.order).div b := divSG_div s hb.wf
  have h2 : GDual.divSG (toX s) (emb b) = (emb (GDual.ofCfOrder s b.order)).div (emb b) := by
    have := divSG_div (toX s) (emb_valid hb).wf
    rw [this]
    exact congrArg (fun x : GDual (XF .exact) => x.div (emb b)) (toX_hom.ofCfOrder s b.order)
  rw [h1, h2]
  exact C98_div (GDual.valid_ofCfOrder s b.order) hb

/-! ### Substitution of a gdual -/

variable {C D : Type} [Cf C] [Cf D] {f : C → D}

theorem CfHom.polyNpow (h : CfHom f) (p : Poly C) (n : ℕ) : (p.mapP f).npow n = (p.npow n).mapP f := by
  induction n with
  | zero =>
    change Poly.const Cf.one = (Poly.const Cf.one).mapP f
    rw [← h.const]
    exact congrArg Poly.const (h.ofRat 1).symm
  | succ n ih =>
    change Poly.mul ((p.mapP f).npow n) (p.mapP f) = (Poly.mul (p.npow n) p).mapP f
    rw [ih]
    exact h.mulBy _ _ _

theorem CfHom.polySums (h : CfHom f) (l : List (Poly C)) (p : Poly C) : (l.map (Poly.mapP f)).foldl Poly.add (p.mapP f) = (l.foldl Poly.add p).mapP f := by
  induction l generalizing p with
  | nil => rfl
  | cons q l ih => rw [List.map_cons, List.foldl_cons, List.foldl_cons, h.padd, ih]

theorem CfHom.subsPoly (h : CfHom f) (p q : Poly C) (s : String) : (p.mapP f).subsPoly s (q.mapP f) = (p.subsPoly s q).mapP f := by
  unfold Poly.subsPoly
  rw [← h.polySums, List.map_map, ← mapP_addSymbols]
  simp only [Poly.mapP, mapT, List.map_map, List.map_nil]
  congr 1
  refine List.map_congr_left fun t _ => ?_
  have := h.polyNpow q (expOf p.syms t.1 s)
  simp only [Poly.mapP, mapT] at this
  have h2 := h.mulBy (fun _ => true) ⟨p.syms, [(setExp p.syms t.1 s 0, t.2)]⟩ (q.npow (expOf p.syms t.1 s))
  simp only [Function.comp]
  rw [this]
  exact h2

omit [Cf C] [Cf D] in
theorem mapP_trimSyms (f : C → D) (p : Poly C) : (p.mapP f).trimSyms = p.trimSyms.mapP f := by
  simp [Poly.trimSyms, Poly.mapP, mapT, Function.comp_def]

omit [Cf C] [Cf D] in
theorem mapP_truncate (f : C → D) (p : Poly C) (n : ℕ) : (p.mapP f).truncate n = (p.truncate n).mapP f := by
  simp [Poly.truncate, Poly.mapP, mapT, List.filter_map, Function.comp_def]

theorem CfHom.subs (h : CfHom f) (d v : GDual C) (s : String) : (d.mapG f).subs s (v.mapG f) = (d.subs s v).mapG f := by
  have : (d.mapG f).subs s (v.mapG f) = ⟨(((d.p.mapP f).subsPoly s (v.p.mapP f)).truncate d.order).trimSyms, d.order⟩ := rfl
  rw [this, h.subsPoly, mapP_truncate, mapP_trimSyms]
  rfl

omit [Cf C] [Cf D] in
theorem mapG_extractTerms (f : C → D) (d : GDual C) (k : ℕ) : (d.mapG f).extractTerms k = (d.extractTerms k).map (GDual.mapG f) := by
  unfold GDual.extractTerms
  by_cases hk : k > d.order
  · rw [if_pos hk, if_pos (show k > (d.mapG f).order from hk)]; rfl
  · rw [if_neg hk, if_neg (show ¬ k > (d.mapG f).order from hk)]
    simp [Poly.filter, Poly.mapP, mapT, List.filter_map, Function.comp_def, Except.map, GDual.mapG]

theorem mapP_eq (f : C → D) (hb : ∀ x y, Cf.beq (f x) (f y) = Cf.beq x y) (p q : Poly C) : (p.mapP f).eq (q.mapP f) = p.eq q := by
  unfold Poly.eq
  simp only [show (q.mapP f).syms = q.syms from rfl, show (p.mapP f).syms = p.syms from rfl, mapP_addSymbols, find?_mapP]
  congr 1
  · simp [Poly.mapP, mapT]
  · simp only [Poly.mapP, mapT, List.all_map]
    congr 1
    funext t
    simp only [Function.comp]
    cases (q.addSymbols p.syms).find? t.1 <;> simp [hb]

/-- **C98** Substitution of a gdual, extraction of the terms of one degree, derivatives read through a dictionary: the same results. -/
theorem C98_subs (d v : GDual ℚ) (s : String) (k : ℕ) (dict : List (String × ℕ)) :
    (emb d).subs s (emb v) = emb (d.subs s v) ∧ (emb d).extractTerms k = (d.extractTerms k).map emb ∧ (emb d).getDerivativeDict dict = (d.getDerivativeDict dict).map toX := by
  refine ⟨toX_hom.subs d v s, mapG_extractTerms toX d k, ?_⟩
  have hs : (emb d).p.syms = d.p.syms := rfl
  have hn : (emb d).symbolSetSize = d.symbolSetSize := rfl
  unfold GDual.getDerivativeDict
  rw [hs, hn]
  cases GDual.dictCoeff d.p.syms dict (List.replicate d.symbolSetSize 0) with
  | none => exact congrArg Except.ok (toX_hom.ofRat 0).symm
  | some e => exact toX_hom.getDerivative d e

theorem toX_beq (x y : ℚ) : Cf.beq (toX x) (toX y) = Cf.beq x y := by
  rw [Bool.eq_iff_iff]
  simp [Cf.beq, toX]

theorem toX_absLt (x eps : ℚ) : CfOrd.absLt (toX x) eps = CfOrd.absLt x eps := by
  simp [CfOrd.absLt, toX, XF.abs]

theorem toX_absGt (x tol : ℚ) : CfOrd.absGt (toX x) tol = CfOrd.absGt x tol := by
  simp [CfOrd.absGt, toX, XF.abs]

/-- **C98** `trim`, `is_zero`, equality and comparisons: the same results. -/
theorem C98_compare (a b : GDual ℚ) (eps : ℚ) :
    (emb a).trim eps = (a.trim eps).map emb ∧ (emb a).isZeroTol eps = a.isZeroTol eps ∧ (emb a).eq (emb b) = a.eq b ∧ (emb a).ne (emb b) = a.ne b ∧
    (emb a).lt (emb b) = a.lt b ∧ (emb a).gt (emb b) = a.gt b := by
  have he : (emb a).eq (emb b) = a.eq b := mapP_eq toX toX_beq a.p b.p
  obtain ⟨x, hx⟩ := const_valid_cf (d := a)
  obtain ⟨y, hy⟩ := const_valid_cf (d := b)
  have hx' : (emb a).constantCf = .ok (toX x) := by
    have := toX_hom.constantCf a
    rwa [hx] at this
  have hy' : (emb b).constantCf = .ok (toX y) := by
    have := toX_hom.constantCf b
    rwa [hy] at this
  refine ⟨?_, ?_, he, by unfold GDual.ne; rw [he], ?_, ?_⟩
  · simp only [GDual.trim]
    split_ifs
    · rfl
    · simp [emb, GDual.mapG, Poly.filter, Poly.mapP, mapT, List.filter_map, Function.comp_def, Except.map, toX_absLt]
  · simp only [GDual.isZeroTol, emb, GDual.mapG, Poly.mapP, mapT, List.all_map]
    simp [Function.comp_def, toX_absGt]
  · unfold GDual.lt
    rw [hx, hy, hx', hy']
    refine congrArg Except.ok ?_
    simp [CfOrd.lt, toX, XF.lt]
  · unfold GDual.gt
    rw [hx, hy, hx', hy']
    refine congrArg Except.ok ?_
    simp [CfOrd.gt, toX, XF.lt]

example : GDual.divSG 1 exX = .error .nonFinite ∧ ∃ r, GDual.divSG (toX 1) (emb exX) = .ok r ∧ ∃ E, HasAt NonFinite r E :=
  have h : GDual.divSG 1 exX = .error .nonFinite := by decide +kernel
  ⟨h, ((C98_divSG 1 exX_valid).2 _ h).2⟩

example : ∃ r, GDual.divSG 2 exOneX = .ok r ∧ GDual.divSG (toX 2) (emb exOneX) = .ok (emb r) := by
  have h : ∃ r, GDual.divSG 2 exOneX = .ok r := ⟨_, rfl⟩
  obtain ⟨r, hr⟩ := h
  exact ⟨r, hr, (C98_divSG 2 exOneX_valid).1 r hr⟩

end Audi
