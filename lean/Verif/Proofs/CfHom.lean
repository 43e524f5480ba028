import Verif.Proofs.XF
import Verif.Proofs.GDualOps

/-! Maps of coefficient types that commute with the operations: the operations on polynomials and gduals commute with them. -/

namespace Audi
open Poly

/-- A map of coefficient types which commutes with the operations; division only by units. -/
structure CfHom {C D : Type} [Cf C] [Cf D] (f : C → D) : Prop where
  ofRat : ∀ q, f (Cf.ofRat q) = Cf.ofRat q
  add : ∀ a b, f (Cf.add a b) = Cf.add (f a) (f b)
  mul : ∀ a b, f (Cf.mul a b) = Cf.mul (f a) (f b)
  neg : ∀ a, f (Cf.neg a) = Cf.neg (f a)
  div : ∀ a b, Cf.isUnit b = true → f (Cf.div a b) = Cf.div (f a) (f b)
  isZero : ∀ a, Cf.isZero (f a) = Cf.isZero a

variable {C D : Type} [Cf C] [Cf D] {f : C → D}

/-- The image of a table. -/
def mapT (f : C → D) (t : List (List ℕ × C)) : List (List ℕ × D) := t.map fun x => (x.1, f x.2)

/-- The image of a polynomial. -/
def Poly.mapP (f : C → D) (p : Poly C) : Poly D := ⟨p.syms, mapT f p.terms⟩

/-- The image of a gdual: the same exponents, the images of the coefficients. -/
def GDual.mapG (f : C → D) (d : GDual C) : GDual D := ⟨d.p.mapP f, d.order⟩

variable (h : CfHom f)
include h

theorem CfHom.insertTerm (e : List ℕ) (c : C) (t : List (List ℕ × C)) : Poly.insertTerm e (f c) (mapT f t) = mapT f (Poly.insertTerm e c t) := by
  induction t with
  | nil =>
    unfold Poly.insertTerm mapT
    rw [List.map_nil, h.isZero]
    simp only
    split_ifs <;> rfl
  | cons y t ih =>
    obtain ⟨e', c'⟩ := y
    change Poly.insertTerm e (f c) ((e', f c') :: mapT f t) = _
    unfold Poly.insertTerm
    rw [← h.add, h.isZero, ih]
    split_ifs <;> rfl

theorem CfHom.insertTerms (t new : List (List ℕ × C)) : Poly.insertTerms (mapT f t) (mapT f new) = mapT f (Poly.insertTerms t new) := by
  unfold Poly.insertTerms
  induction new generalizing t with
  | nil => rfl
  | cons y new ih =>
    change List.foldl _ (Poly.insertTerm y.1 (f y.2) (mapT f t)) (mapT f new) = _
    rw [h.insertTerm]
    exact ih _

theorem CfHom.insertTerms_nil (new : List (List ℕ × C)) : Poly.insertTerms [] (mapT f new) = mapT f (Poly.insertTerms [] new) := h.insertTerms [] new

omit h in
theorem mapP_addSymbols (f : C → D) (p : Poly C) (ss : List String) : (p.mapP f).addSymbols ss = (p.addSymbols ss).mapP f := by
  simp [Poly.addSymbols, Poly.mapP, mapT, Function.comp_def]

theorem CfHom.padd (p q : Poly C) : (p.mapP f).add (q.mapP f) = (p.add q).mapP f := by
  have h1 := mapP_addSymbols f p q.syms
  have h2 := mapP_addSymbols f q p.syms
  unfold Poly.add
  simp only [show (q.mapP f).syms = q.syms from rfl, show (p.mapP f).syms = p.syms from rfl, h1, h2]
  simp only [Poly.mapP, h.insertTerms]

theorem CfHom.pneg (p : Poly C) : (p.mapP f).neg = p.neg.mapP f := by
  simp [Poly.neg, Poly.mapP, mapT, Function.comp_def, h.neg]

theorem CfHom.psub (p q : Poly C) : (p.mapP f).sub (q.mapP f) = (p.sub q).mapP f := by
  unfold Poly.sub
  rw [h.pneg, h.padd]

theorem CfHom.const (c : C) : Poly.const (f c) = (Poly.const c).mapP f := by
  unfold Poly.const Poly.mapP
  rw [← h.insertTerm]
  rfl

theorem CfHom.mulBy (keep : List ℕ → Bool) (p q : Poly C) : Poly.mulBy keep (p.mapP f) (q.mapP f) = (Poly.mulBy keep p q).mapP f := by
  unfold Poly.mulBy
  simp only [show (q.mapP f).syms = q.syms from rfl, show (p.mapP f).syms = p.syms from rfl, mapP_addSymbols]
  simp only [Poly.mapP]
  rw [← h.insertTerms_nil]
  congr 2
  simp only [mapT, List.flatMap_map, List.map_flatMap]
  congr 1
  funext t
  rw [List.map_map, List.filter_map, List.filter_map, List.map_map]
  congr 1
  funext u
  simp [h.mul]

theorem CfHom.npow (c : C) (n : ℕ) : f (Cf.npow c n) = Cf.npow (f c) n := by
  induction n with
  | zero => exact h.ofRat 1
  | succ n ih => rw [Cf.npow, h.mul, ih]; rfl

/-! ### gduals -/

theorem CfHom.gadd (a b : GDual C) : (a.mapG f).add (b.mapG f) = (a.add b).mapG f := by
  simp [GDual.add, GDual.mapG, h.padd]

theorem CfHom.gsub (a b : GDual C) : (a.mapG f).sub (b.mapG f) = (a.sub b).mapG f := by
  simp [GDual.sub, GDual.mapG, h.psub]

theorem CfHom.gneg (a : GDual C) : (a.mapG f).neg = a.neg.mapG f := by
  simp [GDual.neg, GDual.mapG, h.pneg]

theorem CfHom.gmul (a b : GDual C) : (a.mapG f).mul (b.mapG f) = (a.mul b).mapG f := by
  exact congrArg (fun p => (⟨p, max a.order b.order⟩ : GDual D)) (h.mulBy (fun e => keyDegree e ≤ max a.order b.order) a.p b.p)

theorem CfHom.ofCfOrder (c : C) (n : ℕ) : GDual.ofCfOrder (f c) n = (GDual.ofCfOrder c n).mapG f := by
  simp [GDual.ofCfOrder, GDual.mapG, h.const]

theorem CfHom.mulGS (a : GDual C) (c : C) : (a.mapG f).mulGS (f c) = (a.mulGS c).mapG f := by
  unfold GDual.mulGS
  rw [← h.gmul, ← h.ofCfOrder]; rfl

theorem CfHom.mulSG (c : C) (a : GDual C) : GDual.mulSG (f c) (a.mapG f) = (GDual.mulSG c a).mapG f := by
  unfold GDual.mulSG
  rw [← h.gmul, ← h.ofCfOrder]; rfl

theorem CfHom.subGS (a : GDual C) (c : C) : (a.mapG f).subGS (f c) = (a.subGS c).mapG f := by
  simp only [GDual.subGS, GDual.mapG, h.const, h.psub]

theorem CfHom.addGS (a : GDual C) (c : C) : (a.mapG f).addGS (f c) = (a.addGS c).mapG f := by
  simp only [GDual.addGS, GDual.mapG, h.const, h.padd]

theorem CfHom.subSG (c : C) (a : GDual C) : GDual.subSG (f c) (a.mapG f) = (GDual.subSG c a).mapG f := by
  simp only [GDual.subSG, GDual.mapG, h.const, h.psub]

theorem CfHom.addSG (c : C) (a : GDual C) : GDual.addSG (f c) (a.mapG f) = (GDual.addSG c a).mapG f := by
  simp only [GDual.addSG, GDual.mapG, h.const, h.padd]

theorem CfHom.ofRatG (q : ℚ) : (GDual.ofRat q : GDual D) = (GDual.ofRat q : GDual C).mapG f := by
  simp only [GDual.ofRat, GDual.ofCf, GDual.mapG, ← h.ofRat, h.const]

omit h in
theorem find?_mapP (f : C → D) (p : Poly C) (e : List ℕ) : (p.mapP f).find? e = (p.find? e).map f := by
  simp only [Poly.find?, Poly.mapP, mapT, List.find?_map, Option.map_map, Function.comp_def]

theorem CfHom.findCf (d : GDual C) (e : List ℕ) : (d.mapG f).findCf e = (d.findCf e).map f := by
  by_cases h1 : GDual.expSum e > d.order
  · have h1' : GDual.expSum e > (d.mapG f).order := h1
    rw [GDual.findCf, if_pos h1', GDual.findCf, if_pos h1]; rfl
  · have h1' : ¬ GDual.expSum e > (d.mapG f).order := h1
    rw [GDual.findCf, if_neg h1', GDual.findCf, if_neg h1]
    by_cases h2 : e.length ≠ d.symbolSetSize
    · have h2' : e.length ≠ (d.mapG f).symbolSetSize := h2
      rw [if_pos h2', if_pos h2]; rfl
    · have h2' : ¬ e.length ≠ (d.mapG f).symbolSetSize := h2
      rw [if_neg h2', if_neg h2]
      change (match (d.p.mapP f).find? e with | none => Except.ok Cf.zero | some c => Except.ok c) = _
      rw [find?_mapP]
      cases d.p.find? e with
      | none => exact congrArg Except.ok (h.ofRat 0).symm
      | some c => rfl

theorem CfHom.constantCf (d : GDual C) : (d.mapG f).constantCf = d.constantCf.map f := h.findCf d _

theorem CfHom.getDerivative (d : GDual C) (e : List ℕ) : (d.mapG f).getDerivative e = (d.getDerivative e).map f := by
  unfold GDual.getDerivative
  rw [h.findCf]
  cases d.findCf e with
  | error _ => rfl
  | ok c => exact congrArg Except.ok (by rw [h.mul, h.ofRat])

theorem CfHom.partial' (d : GDual C) (s : String) : (d.mapG f).partial' s = (d.partial' s).map (GDual.mapG f) := by
  unfold GDual.partial'
  cases checkVarName s with
  | error _ => rfl
  | ok u =>
    refine congrArg Except.ok ?_
    simp only [GDual.mapG, Poly.diff]
    simp only [Poly.mapP]
    rw [← h.insertTerms_nil]
    congr 3
    simp only [mapT, List.filterMap_map, List.map_filterMap]
    congr 1
    funext t
    simp only [Function.comp]
    by_cases hk : expOf d.p.syms t.1 ("d" ++ s) = 0
    · simp [hk]
    · simp [hk, h.mul, h.ofRat]

theorem CfHom.integrate (hu : ∀ k : ℕ, Cf.isUnit (Cf.ofRat (k + 1) : C) = true) (d : GDual C) (s : String) :
    (d.mapG f).integrate s = (d.integrate s).map (GDual.mapG f) := by
  unfold GDual.integrate
  cases checkVarName s with
  | error _ => rfl
  | ok u =>
    refine congrArg Except.ok ?_
    simp only [GDual.mapG, Poly.integrate, mapP_addSymbols]
    simp only [Poly.mapP, Poly.truncate]
    have : (mapT f (d.p.addSymbols ["d" ++ s]).terms).map (fun t => (setExp (d.p.addSymbols ["d" ++ s]).syms t.1 ("d" ++ s) (expOf (d.p.addSymbols ["d" ++ s]).syms t.1 ("d" ++ s) + 1),
        Cf.div t.2 (Cf.ofRat ((expOf (d.p.addSymbols ["d" ++ s]).syms t.1 ("d" ++ s) : ℕ) + 1)))) =
        mapT f ((d.p.addSymbols ["d" ++ s]).terms.map (fun t => (setExp (d.p.addSymbols ["d" ++ s]).syms t.1 ("d" ++ s) (expOf (d.p.addSymbols ["d" ++ s]).syms t.1 ("d" ++ s) + 1),
        Cf.div t.2 (Cf.ofRat ((expOf (d.p.addSymbols ["d" ++ s]).syms t.1 ("d" ++ s) : ℕ) + 1))))) := by
      simp only [mapT, List.map_map]
      congr 1
      funext t
      simp only [Function.comp, Prod.mk.injEq, true_and]
      rw [h.div _ _ (hu _), h.ofRat]
    rw [this, h.insertTerms_nil]
    simp only [mapT, List.filter_map]
    rfl

theorem CfHom.subsVal (d : GDual C) (s : String) (v : C) : (d.mapG f).subsVal s (f v) = (d.subsVal s v).mapG f := by
  simp only [GDual.subsVal, GDual.mapG, Poly.subsVal]
  simp only [Poly.mapP]
  rw [← h.insertTerms_nil]
  congr 3
  simp only [mapT, List.map_map]
  congr 1
  funext t
  simp [h.mul, h.npow]

theorem CfHom.foldl_add (l : List C) (x : C) : (l.map f).foldl Cf.add (f x) = f (l.foldl Cf.add x) := by
  induction l generalizing x with
  | nil => rfl
  | cons y l ih => rw [List.map_cons, List.foldl_cons, List.foldl_cons, ← ih, h.add]

theorem CfHom.monoVal (vals : String → C) (ss : List String) (e : List ℕ) : Poly.monoVal (fun s => f (vals s)) ss e = f (Poly.monoVal vals ss e) := by
  induction ss generalizing e with
  | nil => exact (h.ofRat 1).symm
  | cons s ss ih =>
    cases e with
    | nil => exact (h.ofRat 1).symm
    | cons k ks => simp only [Poly.monoVal]; rw [ih, h.mul, h.npow]

omit h [Cf C] [Cf D] in
theorem lookup_map_snd (f : C → D) (dict : List (String × C)) (s : String) : (dict.map fun x => (x.1, f x.2)).lookup s = (dict.lookup s).map f := by
  induction dict with
  | nil => rfl
  | cons x dict ih =>
    obtain ⟨k, v⟩ := x
    simp only [List.map_cons, List.lookup_cons]
    split
    · rfl
    · exact ih

theorem CfHom.evaluate (d : GDual C) (dict : List (String × C)) : (d.mapG f).evaluate (dict.map fun x => (x.1, f x.2)) = (d.evaluate dict).map f := by
  unfold GDual.evaluate Poly.evaluate
  simp only [GDual.mapG, Poly.mapP, lookup_map_snd, Option.isSome_map]
  split_ifs
  · refine congrArg Except.ok ?_
    rw [← h.foldl_add, List.map_map]
    have hz : f (Cf.zero : C) = Cf.zero := h.ofRat 0
    rw [hz]
    congr 1
    simp only [mapT, List.map_map]
    congr 1
    funext t
    simp only [Function.comp, h.mul, ← h.monoVal]
    congr 2
    funext s
    cases dict.lookup s with
    | none => exact hz.symm
    | some v => rfl
  · rfl

/-! ### Division -/

theorem CfHom.divGS {a r : GDual C} {s : C} (hs : Cf.isUnit s = true) (hs' : Cf.isUnit (f s) = true) (hr : a.divGS s = .ok r) : (a.mapG f).divGS (f s) = .ok (r.mapG f) := by
  unfold GDual.divGS at *
  rw [if_pos hs] at hr
  cases hr
  rw [if_pos hs', ← h.mulGS, h.div _ _ hs]
  exact congrArg (fun x => Except.ok ((a.mapG f).mulGS (Cf.div x (f s)))) (h.ofRat 1).symm

theorem CfHom.divStep (tmp : GDual C) (s : GDual.DivSt C) :
    GDual.divStep (tmp.mapG f) ⟨s.retval.mapG f, f s.fatt, s.phat.mapG f⟩ =
      ⟨(GDual.divStep tmp s).retval.mapG f, f (GDual.divStep tmp s).fatt, (GDual.divStep tmp s).phat.mapG f⟩ := by
  simp only [GDual.divStep, h.gmul, ← h.ofRat, ← h.mul, h.mulSG, h.gadd]

theorem CfHom.divLoop (tmp : GDual C) (l : List ℕ) (s : GDual.DivSt C) :
    l.foldl (fun s _ => GDual.divStep (tmp.mapG f) s) ⟨s.retval.mapG f, f s.fatt, s.phat.mapG f⟩ =
      ⟨(l.foldl (fun s _ => GDual.divStep tmp s) s).retval.mapG f, f (l.foldl (fun s _ => GDual.divStep tmp s) s).fatt, (l.foldl (fun s _ => GDual.divStep tmp s) s).phat.mapG f⟩ := by
  induction l generalizing s with
  | nil => rfl
  | cons _ l ih => rw [List.foldl_cons, h.divStep, ih]; rfl

theorem CfHom.divSeries {d r : GDual C} {p0 : C} (hs : Cf.isUnit p0 = true) (hs' : Cf.isUnit (f p0) = true) (hr : d.divSeries p0 = .ok r) :
    (d.mapG f).divSeries (f p0) = .ok (r.mapG f) := by
  unfold GDual.divSeries at *
  rw [bind_ok_iff] at hr
  obtain ⟨phat, h1, hr⟩ := hr
  cases hr
  rw [h.subGS, h.divGS hs hs' h1]
  refine congrArg Except.ok ?_
  have := h.divLoop phat (List.range' 2 (d.order - 1)) ⟨(GDual.ofRat 1).sub phat, Cf.ofRat (-1), phat⟩
  simp only [← h.gsub, ← h.ofRatG, h.ofRat] at this
  have h2 := congrArg GDual.DivSt.retval this
  exact h2

theorem CfHom.gdiv {a b r : GDual C} {p0 : C} (hp : b.constantCf = .ok p0) (hs : Cf.isUnit p0 = true) (hs' : Cf.isUnit (f p0) = true) (hr : a.div b = .ok r) :
    (a.mapG f).div (b.mapG f) = .ok (r.mapG f) := by
  unfold GDual.div at hr ⊢
  rw [h.constantCf, hp]
  rw [hp] at hr
  simp only [Bind.bind, Except.bind, hs, if_true] at hr
  simp only [Bind.bind, Except.bind, Except.map, hs', if_true]
  cases hd : b.divSeries p0 with
  | error e => rw [hd] at hr; simp at hr
  | ok rv =>
    rw [hd] at hr
    rw [h.divSeries hs hs' hd]
    simp only at hr ⊢
    rw [h.gmul]
    exact h.divGS hs hs' hr

end Audi
