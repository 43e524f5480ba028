import Verif.Props.ExamplesTM
import Verif.Proofs.TMSum

/-! # C48, C49: sums, differences, negation and scaling of Taylor models -/

namespace Audi

open TM MvPolynomial

section
variable {K : Type} [Field K] [LinearOrder K] [IsStrictOrderedRing K]

/-- **C48.** The sum of two Taylor models that agree on the variables they share exists, is well formed, is defined exactly where both are,
and encloses the sum of the functions. -/
theorem C48_add {a b : TM K} (ha : a.WF) (hb : b.WF) (hc : Compatible a b) :
    Sound₂ a b (a.add b) (fun y z => y + z) ∧ ∀ r, a.add b = .ok r → ∀ x, (r.InDom x ↔ a.InDom x ∧ b.InDom x) ∧ r.polyAt x = a.polyAt x + b.polyAt x := by
  obtain ⟨r, h1, h2, h3, h4, h5, h6⟩ := add_sound ha hb hc
  refine ⟨⟨r, h1, h2, h3, fun x h h' => (h4 x).2 ⟨h, h'⟩, fun x _ _ y z => h6 x y z⟩, fun r' hr x => ?_⟩
  rw [h1] at hr
  obtain rfl := Except.ok.inj hr
  exact ⟨h4 x, h5 x⟩

/-- **C48.** The difference. -/
theorem C48_sub {a b : TM K} (ha : a.WF) (hb : b.WF) (hc : Compatible a b) :
    Sound₂ a b (a.sub b) (fun y z => y - z) ∧ ∀ r, a.sub b = .ok r → ∀ x, (r.InDom x ↔ a.InDom x ∧ b.InDom x) ∧ r.polyAt x = a.polyAt x - b.polyAt x := by
  obtain ⟨r, h1, h2, h3, h4, h5, h6⟩ := sub_sound ha hb hc
  refine ⟨⟨r, h1, h2, h3, fun x h h' => (h4 x).2 ⟨h, h'⟩, fun x _ _ y z => h6 x y z⟩, fun r' hr x => ?_⟩
  rw [h1] at hr
  obtain rfl := Except.ok.inj hr
  exact ⟨h4 x, h5 x⟩

/-- **C48.** In terms of functions: sum and difference of enclosures enclose the sum and difference of the functions over the joint
domain. -/
theorem C48_encloses {a b r s : TM K} (ha : a.WF) (hb : b.WF) (hc : Compatible a b) (hr : a.add b = .ok r) (hs : a.sub b = .ok s)
    {F G : (String → K) → K} (hF : a.Encloses {x | a.InDom x} F) (hG : b.Encloses {x | b.InDom x} G) :
    r.Encloses {x | r.InDom x} (fun x => F x + G x) ∧ s.Encloses {x | s.InDom x} (fun x => F x - G x) := by
  constructor
  · obtain ⟨⟨r', h1, -, -, -, h2⟩, h3⟩ := C48_add ha hb hc
    rw [hr] at h1
    obtain rfl := Except.ok.inj h1
    intro x hx
    obtain ⟨hxa, hxb⟩ := ((h3 r hr x).1).1 hx
    exact h2 x hxa hxb _ _ (hF x hxa) (hG x hxb)
  · obtain ⟨⟨r', h1, -, -, -, h2⟩, h3⟩ := C48_sub ha hb hc
    rw [hs] at h1
    obtain rfl := Except.ok.inj h1
    intro x hx
    obtain ⟨hxa, hxb⟩ := ((h3 s hs x).1).1 hx
    exact h2 x hxa hxb _ _ (hF x hxa) (hG x hxb)

omit [IsStrictOrderedRing K] in
/-- **C48.** Number plus Taylor model. -/
theorem C48_scalar_add {a : TM K} (ha : a.WF) (s : K) : Sound₁ a (addST s a) fun y z => z = s + y := addST_sound ha s
omit [IsStrictOrderedRing K] in
/-- **C48.** Taylor model plus number. -/
theorem C48_add_scalar {a : TM K} (ha : a.WF) (s : K) : Sound₁ a (addTS a s) fun y z => z = y + s := addTS_sound ha s
omit [IsStrictOrderedRing K] in
/-- **C48.** Taylor model minus number. -/
theorem C48_sub_scalar {a : TM K} (ha : a.WF) (s : K) : Sound₁ a (subTS a s) fun y z => z = y - s := subTS_sound ha s
/-- **C48.** Interval plus Taylor model. -/
theorem C48_interval_add {a : TM K} (ha : a.WF) {J : Itv K} (hJ : J.lo ≤ J.hi) :
    Sound₁ a (addIT J a) fun y z => ∃ c, Spec.InItv J c ∧ z = c + y := addIT_sound ha hJ
/-- **C48.** Taylor model plus interval. -/
theorem C48_add_interval {a : TM K} (ha : a.WF) {J : Itv K} (hJ : J.lo ≤ J.hi) :
    Sound₁ a (addTI a J) fun y z => ∃ c, Spec.InItv J c ∧ z = y + c := addTI_sound ha hJ
/-- **C48.** Taylor model minus interval. -/
theorem C48_sub_interval {a : TM K} (ha : a.WF) {J : Itv K} (hJ : J.lo ≤ J.hi) :
    Sound₁ a (subTI a J) fun y z => ∃ c, Spec.InItv J c ∧ z = y - c := subTI_sound ha hJ
/-- **C48.** Number times Taylor model. -/
theorem C48_scalar_mul {a : TM K} (ha : a.WF) (s : K) : Sound₁ a (mulST s a) fun y z => z = s * y := mulST_sound ha s
/-- **C48.** Taylor model times number. -/
theorem C48_mul_scalar {a : TM K} (ha : a.WF) (s : K) : Sound₁ a (mulTS a s) fun y z => z = y * s := mulTS_sound ha s
/-- **C48.** Taylor model divided by a nonzero number. -/
theorem C48_div_scalar {a : TM K} (ha : a.WF) {s : K} (hs : s ≠ 0) : Sound₁ a (divTS a s) fun y z => z = y / s := divTS_sound ha hs

example : Ex.tx.WF ∧ Ex.ty.WF ∧ Compatible Ex.tx Ex.ty ∧ Ex.tx.InDom (fun _ => 3) ∧ Ex.tx.Allows (fun _ => 3) (7/2) := by
  refine ⟨Ex.tx_wf, Ex.ty_wf, Ex.txy_compatible, by decide +kernel, ?_⟩
  rw [allows_iff_table Ex.tx_wf.valid]
  decide +kernel

/-! ### C49 -/

/-- **C49, symmetric remainder.** `s - tm` is sound when the remainder is symmetric about 0.
Missing: other remainders, where it is not (`C49_iff`): the code keeps the remainder instead of negating it. -/
theorem C49_scalar_sub_partial {a : TM K} (ha : a.WF) (s : K) (hsym : a.rem.lo = -a.rem.hi) :
    Sound₁ a (subST s a) fun y z => z = s - y := subST_sound ha s hsym

/-- **C49.** `s - tm` is sound exactly when the remainder of `tm` is symmetric about 0. -/
theorem C49_iff {a : TM K} (ha : a.WF) (s : K) : (Sound₁ a (subST s a) fun y z => z = s - y) ↔ a.rem.lo = -a.rem.hi := by
  refine ⟨fun h => ?_, subST_sound ha s⟩
  obtain ⟨r, h1, -, -, -, h4⟩ := h
  have hm : r = ⟨GDual.subSG s a.tpol, (GDual.subSG s a.tpol).order, (GDual.subSG s a.tpol).p.syms.length, a.rem, a.exp, a.dom⟩ := by
    unfold subST make at h1
    obtain ⟨u, -, h1⟩ := bind_ok_iff.1 h1
    exact (Except.ok.inj h1).symm
  have hp : ∀ x, r.polyAt x = s - a.polyAt x := fun x => by
    rw [hm]
    unfold polyAt
    rw [GDual.toMv_subSG s ha.valid, map_sub, eval_C]
    rfl
  -- the expansion point lies in the domain
  have hx : a.InDom fun v => (a.exp.lookup v).getD 0 := by
    rintro ⟨v, I⟩ hI
    obtain ⟨x, hx, hin⟩ := ha.inside _ hI
    simpa [VMap.lookup_of_mem ha.nodupExp hx] using hin
  have key : ∀ t, Spec.InItv a.rem t → Spec.InItv a.rem (-t) := by
    intro t ht
    have h5 := h4 _ hx (a.polyAt (fun v => (a.exp.lookup v).getD 0) + t) _ (by unfold Allows; rwa [add_sub_cancel_left]) rfl
    unfold Allows at h5
    rw [hp, hm] at h5
    have e : s - (a.polyAt (fun v => (a.exp.lookup v).getD 0) + t) - (s - a.polyAt (fun v => (a.exp.lookup v).getD 0)) = -t := by ring
    rwa [e] at h5
  have k1 := key a.rem.lo ⟨le_refl _, ha.rem⟩
  have k2 := key a.rem.hi ⟨ha.rem, le_refl _⟩
  exact le_antisymm (k2.1) (by linarith [k1.2])

/-- **C49, symmetric remainder.** Unary minus. Missing: other remainders (`C49_iff` with `s = 0`). -/
theorem C49_neg_partial {a : TM K} (ha : a.WF) (hsym : a.rem.lo = -a.rem.hi) : Sound₁ a (neg a) fun y z => z = -y := by
  obtain ⟨r, h1, h2, h3, h4, h5⟩ := subST_sound ha 0 hsym
  refine ⟨r, h1, h2, h3, h4, fun x hx y z hy hz => h5 x hx y z hy ?_⟩
  exact Eq.trans hz (zero_sub y).symm

example : Ex.ty.WF ∧ Ex.ty.rem.lo = -Ex.ty.rem.hi := ⟨Ex.ty_wf, by decide⟩

end

/-- The condition on a result `r` of an operation on `a` that the soundness theorems ask for, violated at a point: `a` allows `y`, but `r`
does not allow `z`. -/
def ViolatedAt (a r : TM ℚ) (x : String → ℚ) (y z : ℚ) : Prop := a.InDom x ∧ a.Allows x y ∧ r.WF ∧ ¬ r.Allows x z

/-- **C49.** `tx` allows the value 3 at `x = 2`, but `-tx` does not allow the value -3, and `1 - tx` does not allow -2. -/
theorem C49_neg_counterexample :
    ∃ r s, neg Ex.tx = .ok r ∧ subST 1 Ex.tx = .ok s ∧ ViolatedAt Ex.tx r (fun _ => 2) 3 (-3) ∧ ViolatedAt Ex.tx s (fun _ => 2) 3 (1 - 3) := by
  refine ⟨⟨⟨⟨["dx"], [([1], -1), ([0], -2)]⟩, 2⟩, 2, 1, ⟨0, 1⟩, [("x", 2)], [("x", ⟨1, 3⟩)]⟩,
    ⟨⟨⟨["dx"], [([0], -1), ([1], -1)]⟩, 2⟩, 2, 1, ⟨0, 1⟩, [("x", 2)], [("x", ⟨1, 3⟩)]⟩, by decide +kernel, by decide +kernel, ?_, ?_⟩
  all_goals
    have hr : ∀ {t : TM ℚ}, t.wfCheck = true → t.WF := fun h => wf_of_check h
    refine ⟨by decide +kernel, ?_, hr (by decide +kernel), ?_⟩
    · rw [allows_iff_table Ex.tx_wf.valid]
      decide +kernel
    · rw [allows_iff_table (hr (by decide +kernel)).valid]
      decide +kernel

/-- **C48.** Expansion points need not agree exactly: points that differ by `2⁻⁵²` are merged and the first one is kept. In exact arithmetic
the sum then is not an enclosure. -/
theorem C48_tolerance_counterexample :
    ∃ (a b r : TM ℚ) (x : String → ℚ), a.WF ∧ b.WF ∧ a.add b = .ok r ∧ a.InDom x ∧ b.InDom x ∧ a.Allows x (a.polyAt x) ∧ b.Allows x (b.polyAt x) ∧
      ¬ r.Allows x (a.polyAt x + b.polyAt x) := by
  let a : TM ℚ := ⟨⟨⟨["dx"], [([1], 1)]⟩, 1⟩, 1, 1, ⟨0, 0⟩, [("x", 0)], [("x", ⟨0, 1⟩)]⟩
  let b : TM ℚ := ⟨⟨⟨["dx"], [([1], 1)]⟩, 1⟩, 1, 1, ⟨0, 0⟩, [("x", 1 / 2 ^ 52)], [("x", ⟨0, 1⟩)]⟩
  let r : TM ℚ := ⟨⟨⟨["dx"], [([1], 2)]⟩, 1⟩, 1, 1, ⟨0, 0⟩, [("x", 0)], [("x", ⟨0, 1⟩)]⟩
  have ha : a.WF := wf_of_check (by decide +kernel)
  have hb : b.WF := wf_of_check (by decide +kernel)
  have hr : r.WF := wf_of_check (by decide +kernel)
  refine ⟨a, b, r, fun _ => 1, ha, hb, by decide +kernel, by decide +kernel, by decide +kernel, ?_, ?_, ?_⟩
  · rw [allows_iff_table ha.valid, polyAt_eq_table ha.valid]
    decide +kernel
  · rw [allows_iff_table hb.valid, polyAt_eq_table hb.valid]
    decide +kernel
  · rw [allows_iff_table hr.valid, polyAt_eq_table ha.valid, polyAt_eq_table hb.valid]
    decide +kernel

end Audi
