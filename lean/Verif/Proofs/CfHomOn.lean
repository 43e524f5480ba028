import Verif.Proofs.CfHom
import Verif.Proofs.Special
import Verif.Spec.Quiet

/-! Maps of coefficient types that commute with the operations as long as the results are not in an absorbing set `N` of values. -/

namespace Audi
open Poly

/-- A map of coefficient types which commutes with the operations whose results are not in `N`; division if the divisor is not in `N` either. -/
structure CfHomOn {C D : Type} [Cf C] [Cf D] (N : C → Prop) (f : C → D) : Prop where
  abs : Absorbing N
  ofRat : ∀ q, ¬ N (Cf.ofRat q) → f (Cf.ofRat q) = Cf.ofRat q
  zero : ¬ N Cf.zero
  one : ¬ N Cf.one
  add : ∀ a b, ¬ N (Cf.add a b) → f (Cf.add a b) = Cf.add (f a) (f b)
  mul : ∀ a b, ¬ N (Cf.mul a b) → f (Cf.mul a b) = Cf.mul (f a) (f b)
  neg : ∀ a, ¬ N a → ¬ N (Cf.neg a) ∧ f (Cf.neg a) = Cf.neg (f a)
  div : ∀ a b, ¬ N b → ¬ N (Cf.div a b) → f (Cf.div a b) = Cf.div (f a) (f b)
  isZero : ∀ a, ¬ N a → Cf.isZero (f a) = Cf.isZero a
  unit : ∀ a, ¬ N a → ¬ N (Cf.div Cf.one a) → Cf.isUnit a = true ∧ Cf.isUnit (f a) = true

variable {C D : Type} [Cf C] [Cf D] {N : C → Prop} {f : C → D}

theorem Absorbing.free_insertTerm (h : Absorbing N) {e : List ℕ} {c : C} {t : List (List ℕ × C)} (hf : Free N (Poly.insertTerm e c t)) : Free N t ∧ ¬ N c := by
  induction t with
  | nil =>
    refine ⟨fun x hx => by simp at hx, fun hc => ?_⟩
    unfold Poly.insertTerm at hf
    rw [if_neg (by rw [h.nz c hc]; simp)] at hf
    exact hf (e, c) (by simp) hc
  | cons y t ih =>
    obtain ⟨e', c'⟩ := y
    unfold Poly.insertTerm at hf
    split_ifs at hf with h1 h2
    · refine ⟨fun x hx => ?_, fun hc => ?_⟩
      · rcases List.mem_cons.mp hx with rfl | hx
        · intro hc
          rw [h.nz _ (h.add_left _ _ hc)] at h2
          simp at h2
        · exact hf x hx
      · rw [h.nz _ (h.add_right _ _ hc)] at h2
        simp at h2
    · refine ⟨fun x hx => ?_, fun hc => ?_⟩
      · rcases List.mem_cons.mp hx with rfl | hx
        · exact fun hc => hf (e', Cf.add c' c) (by simp) (h.add_left _ _ hc)
        · exact hf x (List.mem_cons_of_mem _ hx)
      · exact hf (e', Cf.add c' c) (by simp) (h.add_right _ _ hc)
    · obtain ⟨h3, h4⟩ := ih fun x hx => hf x (List.mem_cons_of_mem _ hx)
      refine ⟨fun x hx => ?_, h4⟩
      rcases List.mem_cons.mp hx with rfl | hx
      · exact hf _ (by simp)
      · exact h3 x hx

theorem Absorbing.free_insertTerms (h : Absorbing N) {t new : List (List ℕ × C)} (hf : Free N (Poly.insertTerms t new)) : Free N t ∧ Free N new := by
  unfold Poly.insertTerms at hf
  induction new generalizing t with
  | nil => exact ⟨hf, fun x hx => by simp at hx⟩
  | cons y new ih =>
    obtain ⟨h1, h2⟩ := ih hf
    obtain ⟨h3, h4⟩ := h.free_insertTerm h1
    refine ⟨h3, fun x hx => ?_⟩
    rcases List.mem_cons.mp hx with rfl | hx
    · exact h4
    · exact h2 x hx

variable (h : CfHomOn N f)
include h

theorem CfHomOn.insertTerm {e : List ℕ} {c : C} {t : List (List ℕ × C)} (hf : Free N (Poly.insertTerm e c t)) :
    Poly.insertTerm e (f c) (mapT f t) = mapT f (Poly.insertTerm e c t) := by
  have hc := (h.abs.free_insertTerm hf).2
  induction t with
  | nil =>
    unfold Poly.insertTerm mapT
    rw [List.map_nil, h.isZero c hc]
    simp only
    split_ifs <;> rfl
  | cons y t ih =>
    obtain ⟨e', c'⟩ := y
    change Poly.insertTerm e (f c) ((e', f c') :: mapT f t) = _
    unfold Poly.insertTerm
    unfold Poly.insertTerm at hf
    by_cases h1 : e = e'
    · rw [if_pos h1] at hf
      have hn : ¬ N (Cf.add c' c) := fun hn => by
        rw [if_neg (by rw [h.abs.nz _ hn]; simp)] at hf
        exact hf (e', Cf.add c' c) (by simp) hn
      rw [if_pos h1, if_pos h1, ← h.add _ _ hn, h.isZero _ hn]
      split_ifs <;> rfl
    · rw [if_neg h1] at hf
      rw [if_neg h1, if_neg h1, ih fun x hx => hf x (List.mem_cons_of_mem _ hx)]
      rfl

theorem CfHomOn.insertTerms {t new : List (List ℕ × C)} (hf : Free N (Poly.insertTerms t new)) :
    Poly.insertTerms (mapT f t) (mapT f new) = mapT f (Poly.insertTerms t new) := by
  unfold Poly.insertTerms at *
  induction new generalizing t with
  | nil => rfl
  | cons y new ih =>
    change List.foldl _ (Poly.insertTerm y.1 (f y.2) (mapT f t)) (mapT f new) = _
    rw [h.insertTerm ((h.abs.free_insertTerms (t := Poly.insertTerm y.1 y.2 t) (new := new) hf).1)]
    exact ih hf

theorem CfHomOn.padd {p q : Poly C} (hf : Free N (p.add q).terms) : (p.mapP f).add (q.mapP f) = (p.add q).mapP f := by
  have h1 := mapP_addSymbols f p q.syms
  have h2 := mapP_addSymbols f q p.syms
  unfold Poly.add
  simp only [show (q.mapP f).syms = q.syms from rfl, show (p.mapP f).syms = p.syms from rfl, h1, h2]
  simp only [Poly.mapP, h.insertTerms hf]

omit h in
theorem free_addSymbols {p : Poly C} {ss : List String} (hf : Free N (p.addSymbols ss).terms) : Free N p.terms := fun x hx => by
  have := hf (reindex p.syms (mergeSyms p.syms ss) x.1, x.2) (List.mem_map_of_mem (f := fun t : List ℕ × C => (reindex p.syms (mergeSyms p.syms ss) t.1, t.2)) hx)
  exact this

theorem CfHomOn.free_padd {p q : Poly C} (hf : Free N (p.add q).terms) : Free N p.terms ∧ Free N q.terms := by
  obtain ⟨h1, h2⟩ := h.abs.free_insertTerms hf
  exact ⟨free_addSymbols h1, free_addSymbols h2⟩

theorem CfHomOn.free_pneg {p : Poly C} (hf : Free N p.neg.terms) : Free N p.terms := fun x hx hN =>
  hf (x.1, Cf.neg x.2) (List.mem_map_of_mem (f := fun t : List ℕ × C => (t.1, Cf.neg t.2)) hx) (h.abs.neg _ hN)

theorem CfHomOn.pneg {p : Poly C} (hf : Free N p.terms) : (p.mapP f).neg = p.neg.mapP f := by
  simp only [Poly.neg, Poly.mapP, mapT, List.map_map]
  congr 1
  refine List.map_congr_left fun x hx => ?_
  simp only [Function.comp]
  rw [(h.neg _ (hf x hx)).2]

theorem CfHomOn.psub {p q : Poly C} (hf : Free N (p.sub q).terms) : (p.mapP f).sub (q.mapP f) = (p.sub q).mapP f := by
  unfold Poly.sub
  rw [h.pneg (h.free_pneg (h.free_padd hf).2), h.padd hf]

theorem CfHomOn.const {c : C} (hc : ¬ N c) : Poly.const (f c) = (Poly.const c).mapP f := by
  unfold Poly.const Poly.mapP
  simp only
  rw [← h.insertTerm]
  · rfl
  · unfold Poly.insertTerm
    split_ifs
    · exact fun x hx => by simp at hx
    · exact fun x hx => by rw [List.mem_singleton.mp hx]; exact hc

theorem CfHomOn.mulBy {keep : List ℕ → Bool} {p q : Poly C} (hf : Free N (Poly.mulBy keep p q).terms) : Poly.mulBy keep (p.mapP f) (q.mapP f) = (Poly.mulBy keep p q).mapP f := by
  unfold Poly.mulBy at *
  simp only [show (q.mapP f).syms = q.syms from rfl, show (p.mapP f).syms = p.syms from rfl, mapP_addSymbols]
  simp only at hf
  have hnew := (h.abs.free_insertTerms hf).2
  simp only [Poly.mapP]
  rw [← h.insertTerms hf]
  refine congrArg (fun l => (⟨_, Poly.insertTerms [] l⟩ : Poly D)) ?_
  simp only [mapT, List.flatMap_map, List.map_flatMap]
  refine List.flatMap_congr fun t ht => ?_
  rw [List.map_map, List.filter_map, List.filter_map, List.map_map]
  refine List.map_congr_left fun u hu => ?_
  simp only [Function.comp, Prod.mk.injEq, true_and]
  refine (h.mul _ _ (hnew (List.zipWith (· + ·) t.1 u.1, Cf.mul t.2 u.2) ?_)).symm
  refine List.mem_flatMap.mpr ⟨t, ht, ?_⟩
  rw [List.filter_map]
  exact List.mem_map.mpr ⟨u, hu, rfl⟩

/-! ### gduals -/

theorem CfHomOn.gadd {a b : GDual C} (hf : Free N (a.add b).p.terms) : (a.mapG f).add (b.mapG f) = (a.add b).mapG f := by
  have := h.padd (p := a.p) (q := b.p) hf
  simp only [GDual.add, GDual.mapG, this]

theorem CfHomOn.gsub {a b : GDual C} (hf : Free N (a.sub b).p.terms) : (a.mapG f).sub (b.mapG f) = (a.sub b).mapG f := by
  have := h.psub (p := a.p) (q := b.p) hf
  simp only [GDual.sub, GDual.mapG, this]

theorem CfHomOn.gneg {a : GDual C} (hf : Free N a.p.terms) : (a.mapG f).neg = a.neg.mapG f := by
  have := h.pneg (p := a.p) hf
  simp only [GDual.neg, GDual.mapG, this]

theorem CfHomOn.gmul {a b : GDual C} (hf : Free N (a.mul b).p.terms) : (a.mapG f).mul (b.mapG f) = (a.mul b).mapG f :=
  congrArg (fun p => (⟨p, max a.order b.order⟩ : GDual D)) (h.mulBy (keep := fun e => keyDegree e ≤ max a.order b.order) (p := a.p) (q := b.p) hf)

theorem CfHomOn.ofCfOrder {c : C} (hc : ¬ N c) (n : ℕ) : GDual.ofCfOrder (f c) n = (GDual.ofCfOrder c n).mapG f := by
  simp [GDual.ofCfOrder, GDual.mapG, h.const hc]

theorem CfHomOn.mulGS {a : GDual C} {c : C} (hc : ¬ N c) (hf : Free N (a.mulGS c).p.terms) : (a.mapG f).mulGS (f c) = (a.mulGS c).mapG f := by
  unfold GDual.mulGS
  rw [← h.gmul hf, ← h.ofCfOrder hc]; rfl

theorem CfHomOn.mulSG {a : GDual C} {c : C} (hc : ¬ N c) (hf : Free N (a.mulSG c).p.terms) : GDual.mulSG (f c) (a.mapG f) = (GDual.mulSG c a).mapG f := by
  unfold GDual.mulSG
  rw [← h.gmul hf, ← h.ofCfOrder hc]; rfl

theorem CfHomOn.subGS {a : GDual C} {c : C} (hc : ¬ N c) (hf : Free N (a.subGS c).p.terms) : (a.mapG f).subGS (f c) = (a.subGS c).mapG f := by
  have := h.psub (p := a.p) (q := Poly.const c) hf
  simp only [GDual.subGS, GDual.mapG, h.const hc, this]

theorem CfHomOn.addGS {a : GDual C} {c : C} (hc : ¬ N c) (hf : Free N (a.addGS c).p.terms) : (a.mapG f).addGS (f c) = (a.addGS c).mapG f := by
  have := h.padd (p := Poly.const c) (q := a.p) hf
  simp only [GDual.addGS, GDual.mapG, h.const hc, this]

theorem CfHomOn.subSG {a : GDual C} {c : C} (hc : ¬ N c) (hf : Free N (a.subSG c).p.terms) : GDual.subSG (f c) (a.mapG f) = (GDual.subSG c a).mapG f := by
  have := h.psub (p := Poly.const c) (q := a.p) hf
  simp only [GDual.subSG, GDual.mapG, h.const hc, this]

theorem CfHomOn.addSG {a : GDual C} {c : C} (hc : ¬ N c) (hf : Free N (a.addSG c).p.terms) : GDual.addSG (f c) (a.mapG f) = (GDual.addSG c a).mapG f := by
  have := h.padd (p := Poly.const c) (q := a.p) hf
  simp only [GDual.addSG, GDual.mapG, h.const hc, this]

theorem CfHomOn.divGS {a r : GDual C} {c : C} (hc : ¬ N c) (hc' : ¬ N (Cf.div Cf.one c)) (hr : a.divGS c = .ok r) (hf : Free N r.p.terms) :
    (a.mapG f).divGS (f c) = .ok (r.mapG f) := by
  obtain ⟨u1, u2⟩ := h.unit c hc hc'
  unfold GDual.divGS at *
  rw [if_pos u1] at hr
  cases hr
  rw [if_pos u2, ← h.mulGS hc' hf, h.div _ _ hc hc']
  exact congrArg (fun x => Except.ok ((a.mapG f).mulGS (Cf.div x (f c)))) (h.ofRat 1 h.one).symm

theorem CfHomOn.mk3 {c : C} (hc : ¬ N c) {s : String} {m : ℕ} {r : GDual C} (hr : GDual.mk3 c s m = .ok r) (hf : Free N r.p.terms) : GDual.mk3 (f c) s m = .ok (r.mapG f) := by
  obtain ⟨h1, h2, rfl⟩ := GDual.mk3_ok.mp hr
  refine GDual.mk3_ok.mpr ⟨h1, h2, ?_⟩
  have := h.padd hf
  simp only [GDual.mapG, ← this, h.const hc]
  split_ifs
  · rfl
  · rw [← h.const hc]
    have h3 : (Poly.var ("d" ++ s) : Poly D) = (Poly.var ("d" ++ s) : Poly C).mapP f := by
      simp [Poly.var, Poly.mapP, mapT, h.ofRat 1 h.one]
      exact (h.ofRat 1 h.one).symm
    rw [h3]

/-- Reading a coefficient. -/
theorem CfHomOn.findCf {d : GDual C} {e : List ℕ} {c : C} (hc : d.findCf e = .ok c) : (d.mapG f).findCf e = .ok (f c) := by
  unfold GDual.findCf at *
  split_ifs at hc with h1 h2
  rw [if_neg (show ¬ GDual.expSum e > (d.mapG f).order from h1), if_neg (show ¬ e.length ≠ (d.mapG f).symbolSetSize from h2)]
  change (match (d.p.mapP f).find? e with | none => Except.ok Cf.zero | some c => Except.ok c) = _
  rw [find?_mapP]
  cases hp : d.p.find? e with
  | none => rw [hp] at hc; cases hc; exact congrArg Except.ok (h.ofRat 0 h.zero).symm
  | some x => rw [hp] at hc; cases hc; rfl

theorem CfHomOn.getDerivative {d : GDual C} {e : List ℕ} {c : C} (hc : d.getDerivative e = .ok c) (hN : ¬ N c) : (d.mapG f).getDerivative e = .ok (f c) := by
  unfold GDual.getDerivative at *
  obtain ⟨x, hx, hc⟩ := bind_ok_iff.mp hc
  cases hc
  rw [h.findCf hx]
  refine congrArg Except.ok ?_
  have h1 : ¬ N (Cf.ofRat ((e.map fun k => (Nat.factorial k : ℚ)).prod) : C) := fun hn => hN (h.abs.mul_right _ _ hn)
  rw [h.mul _ _ hN, h.ofRat _ h1]

theorem CfHomOn.npow {c : C} {n : ℕ} (hN : ¬ N (Cf.npow c n)) : f (Cf.npow c n) = Cf.npow (f c) n := by
  induction n with
  | zero => exact h.ofRat 1 h.one
  | succ n ih =>
    have h1 : ¬ N (Cf.npow c n) := fun hn => hN (h.abs.mul_left _ _ hn)
    rw [Cf.npow, h.mul _ _ hN, ih h1]; rfl

theorem CfHomOn.monoVal {vals : String → C} {ss : List String} {e : List ℕ} (hN : ¬ N (Poly.monoVal vals ss e)) :
    Poly.monoVal (fun s => f (vals s)) ss e = f (Poly.monoVal vals ss e) := by
  induction ss generalizing e with
  | nil => exact (h.ofRat 1 h.one).symm
  | cons s ss ih =>
    cases e with
    | nil => exact (h.ofRat 1 h.one).symm
    | cons k ks =>
      simp only [Poly.monoVal] at hN ⊢
      rw [ih fun hn => hN (h.abs.mul_right _ _ hn), h.mul _ _ hN, h.npow fun hn => hN (h.abs.mul_left _ _ hn)]

theorem CfHomOn.foldl_add {l : List C} {x : C} (hN : ¬ N (l.foldl Cf.add x)) : ((l.map f).foldl Cf.add (f x) = f (l.foldl Cf.add x)) ∧ ¬ N x ∧ ∀ y ∈ l, ¬ N y := by
  induction l generalizing x with
  | nil => exact ⟨rfl, hN, by simp⟩
  | cons y l ih =>
    obtain ⟨h1, h2, h3⟩ := ih hN
    refine ⟨?_, fun hx => h2 (h.abs.add_left _ _ hx), ?_⟩
    · rw [List.map_cons, List.foldl_cons, List.foldl_cons, ← h1, h.add _ _ h2]
    · intro z hz
      rcases List.mem_cons.mp hz with rfl | hz
      · exact fun hx => h2 (h.abs.add_right _ _ hx)
      · exact h3 z hz

theorem CfHomOn.evaluate {d : GDual C} {dict : List (String × C)} {c : C} (hc : d.evaluate dict = .ok c) (hN : ¬ N c) :
    (d.mapG f).evaluate (dict.map fun x => (x.1, f x.2)) = .ok (f c) := by
  unfold GDual.evaluate Poly.evaluate at *
  simp only [GDual.mapG, Poly.mapP, lookup_map_snd, Option.isSome_map]
  split_ifs at hc ⊢
  cases hc
  refine congrArg Except.ok ?_
  obtain ⟨h1, -, h3⟩ := h.foldl_add hN
  have hz : f (Cf.zero : C) = Cf.zero := h.ofRat 0 h.zero
  rw [← h1, hz]
  congr 1
  simp only [mapT, List.map_map]
  refine List.map_congr_left fun t ht => ?_
  have h4 := h3 _ (List.mem_map_of_mem ht)
  simp only [Function.comp]
  rw [h.mul _ _ h4, ← h.monoVal fun hn => h4 (h.abs.mul_right _ _ hn)]
  congr 2
  funext s
  cases dict.lookup s with
  | none => exact hz.symm
  | some v => rfl

/-- Expressions: if no intermediate result has a coefficient in `N`, the map commutes with the evaluation. -/
theorem CfHomOn.run {v : String → C} {m : ℕ} {e : AExpr C} (hq : e.Quiet N v m) {r : GDual C} (hr : e.run v m = .ok r) :
    Free N r.p.terms ∧ (e.map f).run (fun s => f (v s)) m = .ok (r.mapG f) := by
  induction e generalizing r with
  | var s => exact ⟨hq.2 r hr, h.mk3 hq.1 hr (hq.2 r hr)⟩
  | const c =>
    cases hr
    refine ⟨?_, ?_⟩
    · have h1 := h.const hq
      change Free N (Poly.insertTerm [] c [])
      unfold Poly.insertTerm
      split_ifs
      · exact fun x hx => by simp at hx
      · exact fun x hx => by rw [List.mem_singleton.mp hx]; exact hq
    · change Except.ok (GDual.ofCf (f c)) = _
      simp only [GDual.ofCf, GDual.mapG, h.const hq]
  | bin op e1 e2 h1 h2 =>
    obtain ⟨q1, q2, q3⟩ := hq
    have hfr := q3 r hr
    simp only [AExpr.run, bind_ok_iff] at hr
    obtain ⟨a, ha, b, hb, hr⟩ := hr
    cases hr
    refine ⟨hfr, ?_⟩
    simp only [AExpr.map, AExpr.run, bind_ok_iff]
    refine ⟨_, (h1 q1 ha).2, _, (h2 q2 hb).2, ?_⟩
    refine congrArg Except.ok ?_
    cases op with
    | add => exact h.gadd hfr
    | sub => exact h.gsub hfr
    | mul => exact h.gmul hfr
  | left op c e h1 =>
    obtain ⟨q1, q2, q3⟩ := hq
    have hfr := q3 r hr
    simp only [AExpr.run, bind_ok_iff] at hr
    obtain ⟨a, ha, hr⟩ := hr
    cases hr
    refine ⟨hfr, ?_⟩
    simp only [AExpr.map, AExpr.run, bind_ok_iff]
    refine ⟨_, (h1 q2 ha).2, ?_⟩
    refine congrArg Except.ok ?_
    cases op with
    | add => exact h.addSG q1 hfr
    | sub => exact h.subSG q1 hfr
    | mul => exact h.mulSG q1 hfr
  | right op e c h1 =>
    obtain ⟨q1, q2, q3⟩ := hq
    have hfr := q3 r hr
    simp only [AExpr.run, bind_ok_iff] at hr
    obtain ⟨a, ha, hr⟩ := hr
    cases hr
    refine ⟨hfr, ?_⟩
    simp only [AExpr.map, AExpr.run, bind_ok_iff]
    refine ⟨_, (h1 q2 ha).2, ?_⟩
    refine congrArg Except.ok ?_
    cases op with
    | add => exact h.addGS q1 hfr
    | sub => exact h.subGS q1 hfr
    | mul => exact h.mulGS q1 hfr
  | divc e c h1 =>
    obtain ⟨q1, q1', q2, q3⟩ := hq
    have hfr := q3 r hr
    simp only [AExpr.run, bind_ok_iff] at hr
    obtain ⟨a, ha, hr⟩ := hr
    refine ⟨hfr, ?_⟩
    simp only [AExpr.map, AExpr.run, bind_ok_iff]
    refine ⟨_, (h1 q2 ha).2, ?_⟩
    exact h.divGS q1 q1' hr hfr
  | neg e h1 =>
    simp only [AExpr.run, bind_ok_iff] at hr
    obtain ⟨a, ha, hr⟩ := hr
    cases hr
    obtain ⟨f1, f2⟩ := h1 hq ha
    refine ⟨fun x hx => ?_, ?_⟩
    · obtain ⟨t, ht, rfl⟩ := List.mem_map.mp hx
      exact (h.neg _ (f1 t ht)).1
    · simp only [AExpr.map, AExpr.run, bind_ok_iff]
      exact ⟨_, f2, congrArg Except.ok (h.gneg f1)⟩

end Audi
