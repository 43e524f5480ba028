import Verif.Proofs.XF
import Verif.Proofs.GDualOps
import Mathlib.Tactic.NormNum

/-!
# C95–C97: infinities and NaN

`N` below is NaN, or NaN and the infinities: both are `Absorbing` (`absorbing_nan`, `absorbing_nonFinite`). The coefficients are the values of any floating point format
with overflow and underflow (`XFormat`), of which `double` (`XFormat.binary64`) is an instance.
-/

namespace Audi
open Poly

variable {F : XFormat} {N : XF F → Prop} {a b : GDual (XF F)} {E G : String →₀ ℕ}

/-- The monomial with exponents `E` is among the terms of the gdual. -/
def GDual.Present (d : GDual (XF F)) (E : String →₀ ℕ) : Prop := HasAt (fun _ => True) d E

/-! ### C95: special values do not disappear -/

/-- **C95** Sums and differences. -/
theorem C95_add (hN : Absorbing N) (ha : a.Valid) (hb : b.Valid) (h : HasAt N a E ∨ HasAt N b E) : HasAt N (a.add b) E ∧ HasAt N (a.sub b) E := by
  rcases h with h | h
  · exact ⟨PHas.add_left hN ha.wf _ h, PHas.add_left hN ha.wf _ h⟩
  · exact ⟨PHas.add_right hN ha.wf hb.wf h, PHas.add_right hN ha.wf (wf_neg hb.wf) (PHas.neg hN h)⟩

/-- **C95** Sums and differences with a number, and the opposite. -/
theorem C95_scalar (hN : Absorbing N) (ha : a.Valid) (h : HasAt N a E) (s : XF F) :
    HasAt N (GDual.addSG s a) E ∧ HasAt N (a.addGS s) E ∧ HasAt N (GDual.subSG s a) E ∧ HasAt N (a.subGS s) E ∧ HasAt N a.neg E :=
  ⟨PHas.add_right hN (wf_const s) ha.wf h, PHas.add_right hN (wf_const s) ha.wf h, PHas.add_right hN (wf_const s) (wf_neg ha.wf) (PHas.neg hN h),
    PHas.add_left hN ha.wf _ h, PHas.neg hN h⟩

/-- **C95** A special scalar makes the constant coefficient of sums and differences special. -/
theorem C95_scalar_special (hN : Absorbing N) (ha : a.Valid) {s : XF F} (hs : N s) :
    HasAt N (GDual.addSG s a) 0 ∧ HasAt N (a.addGS s) 0 ∧ HasAt N (GDual.subSG s a) 0 ∧ HasAt N (a.subGS s) 0 :=
  have h := phas_const hs (hN.nz s hs)
  ⟨PHas.add_left hN (wf_const s) _ h, PHas.add_left hN (wf_const s) _ h, PHas.add_left hN (wf_const s) _ h,
    PHas.add_right hN ha.wf (wf_neg (wf_const s)) (PHas.neg hN h)⟩

/-- **C95** Products: the special coefficient shows up at every monomial of the other factor, within the order. -/
theorem C95_mul (hN : Absorbing N) (ha : a.Valid) (hb : b.Valid) (hE : HasAt N a E) (hG : b.Present G) (hd : (E + G).degree ≤ max a.order b.order) :
    HasAt N (a.mul b) (E + G) ∧ HasAt N (b.mul a) (E + G) := by
  refine ⟨PHas.mul_left hN ha.wf hb.wf hE hG hd, ?_⟩
  have := PHas.mul_right (n := max b.order a.order) hN hb.wf ha.wf hG hE (by rw [add_comm, max_comm]; exact hd)
  rw [add_comm]
  exact this

/-- **C95** Products with a number which is not zero. -/
theorem C95_mul_scalar (hN : Absorbing N) (ha : a.Valid) (hE : HasAt N a E) {s : XF F} (hs : s.v ≠ .fin 0) :
    HasAt N (a.mulGS s) E ∧ HasAt N (GDual.mulSG s a) E := by
  have hd : E.degree ≤ a.order := by
    obtain ⟨t, ht, -, rfl⟩ := hE
    rw [degree_toExp (ha.wf.len t ht)]
    exact ha.deg t ht
  exact ⟨phas_mulGS hN ha.wf ((XF.isZero_false s).mpr hs) hE hd, phas_mulSG hN ha.wf ((XF.isZero_false s).mpr hs) hE hd⟩

/-- **C95** Derivatives with respect to a variable of the monomial. -/
theorem C95_derivative (hN : Absorbing N) (ha : a.Valid) (hE : HasAt N a E) {s : String} {r : GDual (XF F)} (hr : a.partial' s = .ok r) (hs : E ("d" ++ s) ≠ 0) :
    HasAt N r (E - Finsupp.single ("d" ++ s) 1) := by
  unfold GDual.partial' at hr
  rw [bind_ok_iff] at hr
  obtain ⟨_, -, hr⟩ := hr
  cases hr
  obtain ⟨t, ht, h1, rfl⟩ := hE
  have hm : "d" ++ s ∈ a.p.syms := by
    by_contra hc
    rw [toExp_apply ha.wf.ndsyms, expOf_of_notMem hc] at hs
    exact hs rfl
  rw [← toExp_setExp_pred ha.wf.ndsyms (ha.wf.len t ht) hm]
  rw [toExp_apply ha.wf.ndsyms] at hs
  refine TabHas.phas (hN.tabs_new ⟨(setExp a.p.syms t.1 ("d" ++ s) (expOf a.p.syms t.1 ("d" ++ s) - 1), Cf.mul t.2 (Cf.ofRat (expOf a.p.syms t.1 ("d" ++ s) : ℕ))), ?_, hN.mul_left _ _ h1, rfl⟩)
  exact List.mem_filterMap.mpr ⟨t, ht, by simp [hs]⟩

/-- **C95** Primitives, within the order. -/
theorem C95_integrate (hN : Absorbing N) (ha : a.Valid) (hE : HasAt N a E) {s : String} {r : GDual (XF F)} (hr : a.integrate s = .ok r)
    (hd : E.degree + 1 ≤ a.order) : HasAt N r (E + Finsupp.single ("d" ++ s) 1) := by
  unfold GDual.integrate at hr
  rw [bind_ok_iff] at hr
  obtain ⟨_, -, hr⟩ := hr
  cases hr
  have hw := ha.wf.addSymbols ["d" ++ s]
  obtain ⟨t, ht, h1, rfl⟩ := (phas_addSymbols ha.wf ["d" ++ s]).mpr hE
  have hm : "d" ++ s ∈ (a.p.addSymbols ["d" ++ s]).syms := mem_mergeSyms.mpr (Or.inr (by simp))
  rw [← toExp_setExp_succ hw.ndsyms (hw.len t ht) hm]
  have h2 : TabHas N (a.p.integrate ("d" ++ s)).terms (setExp (a.p.addSymbols ["d" ++ s]).syms t.1 ("d" ++ s) (expOf (a.p.addSymbols ["d" ++ s]).syms t.1 ("d" ++ s) + 1)) :=
    hN.tabs_new ⟨_, List.mem_map_of_mem ht, hN.div_left _ _ h1, rfl⟩
  obtain ⟨x, hx, hx1, hx2⟩ := h2
  refine ⟨x, List.mem_filter.mpr ⟨hx, decide_eq_true ?_⟩, hx1, by rw [hx2]; rfl⟩
  change x.1.sum ≤ a.order
  have hl : x.1.length = (a.p.addSymbols ["d" ++ s]).syms.length := by rw [hx2, length_setExp]; exact hw.len t ht
  rw [← degree_toExp hl, hx2, toExp_setExp_succ hw.ndsyms (hw.len t ht) hm, map_add, Finsupp.degree_single]
  exact hd

/-- **C95** Substitution of a number for a differential. -/
theorem C95_subs (hN : Absorbing N) (ha : a.Valid) (hE : HasAt N a E) (s : String) (v : XF F) : HasAt N (a.subsVal s v) (E.erase s) := by
  obtain ⟨t, ht, h1, rfl⟩ := hE
  rw [← toExp_setExp_zero ha.wf.ndsyms (ha.wf.len t ht) s]
  exact TabHas.phas (hN.tabs_new ⟨_, List.mem_map_of_mem ht, hN.mul_left _ _ h1, rfl⟩)

/-- **C95** `trim` does not remove coefficients that are inf or NaN. -/
theorem C95_trim (hN : ∀ x, N x → NonFinite x) (hE : HasAt N a E) {eps : ℚ} {r : GDual (XF F)} (hr : a.trim eps = .ok r) : HasAt N r E := by
  unfold GDual.trim at hr
  split_ifs at hr
  cases hr
  obtain ⟨t, ht, h1, h2⟩ := hE
  refine ⟨t, List.mem_filter.mpr ⟨ht, ?_⟩, h1, h2⟩
  have h3 : CfOrd.absLt t.2 eps = false := by
    change (match XF.abs t.2 with | .nan => false | .inf _ => false | .fin q => decide (q < eps)) = false
    unfold XF.abs
    rcases (nonFinite_iff _).mp (hN _ h1) with h | ⟨s, h⟩ <;> rw [h]
  rw [h3]
  rfl

/-- **C95** The value of the polynomial is special. -/
theorem C95_evaluate (hN : Absorbing N) (hE : HasAt N a E) {dict : List (String × XF F)} {v : XF F} (hv : a.evaluate dict = .ok v) : N v := by
  unfold GDual.evaluate Poly.evaluate at hv
  split_ifs at hv
  cases hv
  obtain ⟨t, ht, h1, -⟩ := hE
  have keep : ∀ (l : List (XF F)) (x : XF F), N x → N (l.foldl Cf.add x) := by
    intro l
    induction l with
    | nil => exact fun x h => h
    | cons y l ih => exact fun x h => ih _ (hN.add_left _ _ h)
  have new : ∀ (l : List (XF F)) (x : XF F), (∃ y ∈ l, N y) → N (l.foldl Cf.add x) := by
    intro l
    induction l with
    | nil => rintro x ⟨y, hy, _⟩; simp at hy
    | cons z l ih =>
      rintro x ⟨y, hy, hn⟩
      rcases List.mem_cons.mp hy with rfl | hy
      · exact keep l _ (hN.add_right _ _ hn)
      · exact ih _ ⟨y, hy, hn⟩
  exact new _ _ ⟨_, List.mem_map_of_mem ht, hN.mul_left _ _ h1⟩

/-- **C95** The coefficient and the derivative are special. -/
theorem C95_read (hN : Absorbing N) (ha : a.Valid) (hE : HasAt N a E) :
    (∃ c, a.findCf (a.p.syms.map E) = .ok c ∧ N c) ∧ ∃ c, a.getDerivative (a.p.syms.map E) = .ok c ∧ N c := by
  obtain ⟨t, ht, h1, rfl⟩ := hE
  have hk : a.p.syms.map (toExp a.p.syms t.1) = t.1 := by
    refine toExp_inj ha.wf.ndsyms (by simp) (ha.wf.len t ht) ?_
    ext s
    rw [toExp_map ha.wf.ndsyms]
    split_ifs with h
    · rfl
    · rw [toExp_apply ha.wf.ndsyms, expOf_of_notMem h]
  have h2 : a.findCf t.1 = .ok t.2 := by
    unfold GDual.findCf GDual.expSum
    rw [if_neg (not_lt.mpr (ha.deg t ht)), if_neg (by simpa [GDual.symbolSetSize] using ha.wf.len t ht), find?_eq_some_of_mem (c := t.2) ha.wf ht]
  rw [hk]
  refine ⟨⟨_, h2, h1⟩, _, ?_, hN.mul_left t.2 (Cf.ofRat ((t.1.map fun k => (Nat.factorial k : ℚ)).prod)) h1⟩
  unfold GDual.getDerivative
  rw [h2]
  rfl

/-- The values of a special coefficient: NaN, and NaN or an infinity. -/
example : Absorbing (IsNaN (F := .binary64)) ∧ Absorbing (NonFinite (F := .binary64)) := ⟨absorbing_nan, absorbing_nonFinite⟩

/-- A NaN in the table of a gdual of `double`. -/
def nanX : GDual (XF .binary64) := ⟨⟨["dx"], [([1], Cf.one), ([0], XF.nan _)]⟩, 2⟩

theorem nanX_valid : nanX.Valid where
  wf := ⟨by simp [nanX], by simp [nanX], by simp [nanX], by
    intro t ht
    simp only [nanX, List.mem_cons, List.not_mem_nil, or_false] at ht
    rcases ht with rfl | rfl
    · exact XF.isZero_one
    · exact absorbing_nan.nz _ rfl⟩
  deg := by intro t ht; simp only [nanX, List.mem_cons, List.not_mem_nil, or_false] at ht; rcases ht with rfl | rfl <;> simp [nanX]

theorem nanX_has : HasAt IsNaN nanX 0 := ⟨([0], XF.nan _), by simp [nanX], rfl, by simp [nanX, toExp]⟩

theorem nanX_present : nanX.Present (Finsupp.single "dx" 1) := ⟨([1], Cf.one), by simp [nanX], trivial, by simp [nanX, toExp]⟩

example : HasAt IsNaN (nanX.add nanX) 0 ∧ HasAt IsNaN (nanX.mul nanX) (0 + Finsupp.single "dx" 1) :=
  ⟨(C95_add absorbing_nan nanX_valid nanX_valid (Or.inl nanX_has)).1,
    (C95_mul absorbing_nan nanX_valid nanX_valid nanX_has nanX_present (by simp [nanX])).1⟩

example : (∃ r, nanX.integrate "x" = .ok r) ∧ (∃ r, nanX.partial' "x" = .ok r) ∧ (∃ r, nanX.trim 1 = .ok r) :=
  ⟨⟨_, rfl⟩, ⟨_, rfl⟩, ⟨_, by unfold GDual.trim; rw [if_neg (by norm_num)]⟩⟩

end Audi
