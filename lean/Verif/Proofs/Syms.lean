import Verif.Model.Functions
import Verif.Proofs.GDualOps

/-!
# Proofs: the symbols of the results of operations on gduals
-/

namespace Audi.GDual

/-- The symbols of `d` are sorted and among `S`. -/
structure SubSyms {C : Type} (S : List String) (d : GDual C) : Prop where
  sorted : d.p.syms.Pairwise (· < ·)
  sub : ∀ s ∈ d.p.syms, s ∈ S

/-- The symbols of `d` are `S`. -/
def HasSyms {C : Type} (S : List String) (d : GDual C) : Prop := d.p.syms = S

section
variable {C : Type} {S : List String} {a b : GDual C}

theorem HasSyms.sub (hS : S.Pairwise (· < ·)) (h : HasSyms S a) : SubSyms S a := ⟨by rw [h]; exact hS, fun s hs => by rwa [h] at hs⟩

theorem merge_left (hS : S.Pairwise (· < ·)) (ha : HasSyms S a) (hb : SubSyms S b) : mergeSyms a.p.syms b.p.syms = S := by
  rw [ha]
  exact mergeSyms_eq_left hS hb.sub

theorem merge_right (hS : S.Pairwise (· < ·)) (ha : SubSyms S a) (hb : HasSyms S b) : mergeSyms a.p.syms b.p.syms = S := by
  rw [mergeSyms_comm ha.sorted (hb.sub hS).sorted]
  exact merge_left hS hb ha

theorem merge_sub (ha : SubSyms S a) (hb : SubSyms S b) :
    (mergeSyms a.p.syms b.p.syms).Pairwise (· < ·) ∧ ∀ s ∈ mergeSyms a.p.syms b.p.syms, s ∈ S :=
  ⟨sorted_mergeSyms ha.sorted, fun s hs => (mem_mergeSyms.1 hs).elim (ha.sub s) (hb.sub s)⟩

end

section
variable {C : Type} [Cf C] {S : List String} {a b r : GDual C}

theorem syms_add' (a b : GDual C) : (a.add b).p.syms = mergeSyms a.p.syms b.p.syms := rfl
theorem syms_sub' (a b : GDual C) : (a.sub b).p.syms = mergeSyms a.p.syms b.p.syms := rfl
theorem syms_mul' (a b : GDual C) : (a.mul b).p.syms = mergeSyms a.p.syms b.p.syms := rfl
theorem subSyms_ofCf (c : C) (S : List String) : SubSyms S (ofCf c) := ⟨List.Pairwise.nil, fun _ hs => absurd hs List.not_mem_nil⟩
theorem subSyms_ofRat (q : ℚ) (S : List String) : SubSyms S (ofRat q : GDual C) := ⟨List.Pairwise.nil, fun _ hs => absurd hs List.not_mem_nil⟩
theorem subSyms_ofCfOrder (c : C) (n : ℕ) (S : List String) : SubSyms S (ofCfOrder c n) := ⟨List.Pairwise.nil, fun _ hs => absurd hs List.not_mem_nil⟩

theorem SubSyms.add (ha : SubSyms S a) (hb : SubSyms S b) : SubSyms S (a.add b) := ⟨(merge_sub ha hb).1, (merge_sub ha hb).2⟩
theorem SubSyms.mul (ha : SubSyms S a) (hb : SubSyms S b) : SubSyms S (a.mul b) := ⟨(merge_sub ha hb).1, (merge_sub ha hb).2⟩
theorem SubSyms.mulSG (ha : SubSyms S a) (s : C) : SubSyms S (a.mulSG s) := (subSyms_ofCfOrder _ _ _).mul ha
theorem SubSyms.mulGS (ha : SubSyms S a) (s : C) : SubSyms S (a.mulGS s) := ha.mul (subSyms_ofCfOrder _ _ _)

variable (hS : S.Pairwise (· < ·))
include hS

theorem HasSyms.add_left (ha : HasSyms S a) (hb : SubSyms S b) : HasSyms S (a.add b) := merge_left hS ha hb
theorem HasSyms.add_right (ha : SubSyms S a) (hb : HasSyms S b) : HasSyms S (a.add b) := merge_right hS ha hb
theorem HasSyms.sub_left (ha : HasSyms S a) (hb : SubSyms S b) : HasSyms S (a.sub b) := merge_left hS ha hb
theorem HasSyms.sub_right (ha : SubSyms S a) (hb : HasSyms S b) : HasSyms S (a.sub b) := merge_right hS ha hb
theorem HasSyms.mul_left (ha : HasSyms S a) (hb : SubSyms S b) : HasSyms S (a.mul b) := merge_left hS ha hb
theorem HasSyms.mul_right (ha : SubSyms S a) (hb : HasSyms S b) : HasSyms S (a.mul b) := merge_right hS ha hb
omit hS in
theorem HasSyms.subGS (ha : HasSyms S a) (s : C) : HasSyms S (a.subGS s) := ha
theorem HasSyms.addSG (ha : HasSyms S a) (s : C) : HasSyms S (a.addSG s) := merge_right hS (subSyms_ofCf s S) ha
theorem HasSyms.subSG (ha : HasSyms S a) (s : C) : HasSyms S (a.subSG s) := merge_right hS (subSyms_ofCf s S) ha
theorem HasSyms.mulSG (ha : HasSyms S a) (s : C) : HasSyms S (a.mulSG s) := HasSyms.mul_right hS (subSyms_ofCfOrder _ _ _) ha
theorem HasSyms.mulGS (ha : HasSyms S a) (s : C) : HasSyms S (a.mulGS s) := HasSyms.mul_left hS ha (subSyms_ofCfOrder _ _ _)

theorem HasSyms.divGS (ha : HasSyms S a) {s : C} (h : a.divGS s = .ok r) : HasSyms S r := by
  unfold GDual.divGS at h
  split_ifs at h <;> injection h with h <;> subst h
  · exact ha.mulGS hS _
  · exact ha

omit hS in
theorem SubSyms.divGS (ha : SubSyms S a) {s : C} (h : a.divGS s = .ok r) : SubSyms S r := by
  unfold GDual.divGS at h
  split_ifs at h <;> injection h with h <;> subst h
  · exact ha.mulGS _
  · exact ha

theorem HasSyms.divSeries (ha : HasSyms S a) {s : C} (h : a.divSeries s = .ok r) : HasSyms S r := by
  unfold GDual.divSeries at h
  obtain ⟨phat, h1, h2⟩ := bind_ok_iff.1 h
  injection h2 with h2
  subst h2
  have hp : HasSyms S phat := (ha.subGS s).divGS hS h1
  have : ∀ l : List ℕ, ∀ st : DivSt C, HasSyms S st.retval → HasSyms S st.phat →
      HasSyms S (l.foldl (fun s _ => divStep phat s) st).retval := by
    intro l
    induction l with
    | nil => exact fun st h _ => h
    | cons i l ih =>
      intro st h3 h4
      have h5 : HasSyms S (st.phat.mul phat) := h4.mul_left hS (hp.sub hS)
      exact ih (divStep phat st) (h3.add_left hS ((h5.mulSG hS _).sub hS)) h5
  exact this _ ⟨(ofRat 1).sub phat, Cf.ofRat (-1), phat⟩ (HasSyms.sub_right hS (subSyms_ofRat 1 S) hp) hp

omit hS in
theorem SubSyms.divSeries (ha : SubSyms S a) {s : C} (h : a.divSeries s = .ok r) : SubSyms S r := by
  have h1 : HasSyms a.p.syms r := HasSyms.divSeries ha.sorted (a := a) rfl h
  exact ⟨by rw [h1]; exact ha.sorted, fun s hs => ha.sub s (by rwa [h1] at hs)⟩

theorem HasSyms.divSG (ha : HasSyms S a) {s : C} (h : GDual.divSG s a = .ok r) : HasSyms S r := by
  unfold GDual.divSG at h
  obtain ⟨p0, -, h⟩ := bind_ok_iff.1 h
  split_ifs at h
  · obtain ⟨q, h1, h2⟩ := bind_ok_iff.1 h
    exact ((ha.divSeries hS h1).mulSG hS s).divGS hS h2
  · injection h with h
    subst h
    exact ha.mulSG hS s

theorem HasSyms.div_left (ha : HasSyms S a) (hb : SubSyms S b) (h : a.div b = .ok r) : HasSyms S r := by
  unfold GDual.div at h
  obtain ⟨p0, -, h⟩ := bind_ok_iff.1 h
  split_ifs at h
  · obtain ⟨q, h1, h2⟩ := bind_ok_iff.1 h
    exact (ha.mul_left hS (hb.divSeries h1)).divGS hS h2
  · injection h with h
    subst h
    exact ha.mul_left hS hb

end

/-! ### Elementary functions -/

section
variable {C : Type} [CfFun C] {S : List String} {d r : GDual C} (hS : S.Pairwise (· < ·))
include hS

omit hS in
theorem foldlM_inv {σ : Type} {P : σ → Prop} {f : σ → ℕ → Res σ} (hf : ∀ s i t, P s → f s i = .ok t → P t) :
    ∀ (l : List ℕ) (s t : σ), P s → l.foldlM f s = .ok t → P t := by
  intro l
  induction l with
  | nil =>
    intro s t hs h
    injection h with h
    subst h
    exact hs
  | cons i l ih =>
    intro s t hs h
    rw [List.foldlM_cons] at h
    obtain ⟨s', h1, h2⟩ := bind_ok_iff.1 h
    exact ih s' t (hf s i s' hs h1) h2

theorem HasSyms.exp (hd : HasSyms S d) (h : d.exp = .ok r) : HasSyms S r := by
  unfold GDual.exp at h
  obtain ⟨p0, -, h⟩ := bind_ok_iff.1 h
  obtain ⟨st, h1, h2⟩ := bind_ok_iff.1 h
  injection h2 with h2
  subst h2
  have hp : HasSyms S (d.subGS p0) := hd.subGS p0
  have := foldlM_inv (P := fun s : ExpSt C => HasSyms S s.retval ∧ HasSyms S s.phat ∧ SubSyms S s.fact) (fun s i t hs ht => by
    unfold expStep at ht
    obtain ⟨q, hq, ht⟩ := bind_ok_iff.1 ht
    injection ht with ht
    subst ht
    have hph := hs.2.1.mul_left hS (hp.sub hS)
    have hfact := hs.2.2.mulGS (Cf.ofRat i)
    exact ⟨hs.1.add_left hS ((hph.div_left hS hfact hq).sub hS), hph, hfact⟩) _ _ st
    ⟨HasSyms.add_right hS (subSyms_ofRat 1 S) hp, hp, subSyms_ofRat 1 S⟩ h1
  exact this.1.mulGS hS _

theorem HasSyms.log (hd : HasSyms S d) (h : d.log = .ok r) : HasSyms S r := by
  unfold GDual.log at h
  obtain ⟨p0, -, h⟩ := bind_ok_iff.1 h
  obtain ⟨_, -, h⟩ := bind_ok_iff.1 h
  obtain ⟨phat, h0, h⟩ := bind_ok_iff.1 h
  obtain ⟨st, h1, h2⟩ := bind_ok_iff.1 h
  injection h2 with h2
  subst h2
  have hp : HasSyms S phat := (hd.subGS p0).divGS hS h0
  have := foldlM_inv (P := fun s : LogSt C => HasSyms S s.retval ∧ HasSyms S s.phat ∧ SubSyms S s.fatt) (fun s i t hs ht => by
    unfold logStep at ht
    obtain ⟨q, hq, ht⟩ := bind_ok_iff.1 ht
    injection ht with ht
    subst ht
    have hph := hs.2.1.mul_left hS (hp.sub hS)
    have hfact := hs.2.2.mulGS (Cf.ofRat (-1))
    exact ⟨hs.1.add_left hS (((HasSyms.mul_right hS hfact hph).divGS hS hq).sub hS), hph, hfact⟩) _ _ st
    ⟨hp.addSG hS _, hp, subSyms_ofRat 1 S⟩ h1
  exact this.1

theorem symsIn_taylor {phat2 : GDual C} (hp : HasSyms S phat2) {step : GDual C → TrigSt C → ℕ → Res (TrigSt C)}
    (hstep : step = trigStep ∨ step = hypStep) {l : List ℕ} {s0 st : TrigSt C} (h : l.foldlM (step phat2) s0 = .ok st) :
    (HasSyms S s0.taylor ∧ SubSyms S s0.tmp → HasSyms S st.taylor) ∧ (SubSyms S s0.taylor ∧ SubSyms S s0.tmp → SubSyms S st.taylor) := by
  constructor
  · intro h0
    refine (foldlM_inv (P := fun s : TrigSt C => HasSyms S s.taylor ∧ SubSyms S s.tmp) (fun s i t hs ht => ?_) l s0 st h0 h).1
    rcases hstep with rfl | rfl
    · unfold trigStep at ht
      obtain ⟨q, hq, ht⟩ := bind_ok_iff.1 ht
      injection ht with ht
      subst ht
      have ht := hs.2.mul (hp.sub hS)
      exact ⟨hs.1.add_left hS ((ht.mulSG _).divGS hq), ht⟩
    · unfold hypStep at ht
      obtain ⟨q, hq, ht⟩ := bind_ok_iff.1 ht
      injection ht with ht
      subst ht
      have ht := hs.2.mul (hp.sub hS)
      exact ⟨hs.1.add_left hS (ht.divGS hq), ht⟩
  · intro h0
    refine (foldlM_inv (P := fun s : TrigSt C => SubSyms S s.taylor ∧ SubSyms S s.tmp) (fun s i t hs ht => ?_) l s0 st h0 h).1
    rcases hstep with rfl | rfl
    · unfold trigStep at ht
      obtain ⟨q, hq, ht⟩ := bind_ok_iff.1 ht
      injection ht with ht
      subst ht
      have ht := hs.2.mul (hp.sub hS)
      exact ⟨hs.1.add ((ht.mulSG _).divGS hq), ht⟩
    · unfold hypStep at ht
      obtain ⟨q, hq, ht⟩ := bind_ok_iff.1 ht
      injection ht with ht
      subst ht
      have ht := hs.2.mul (hp.sub hS)
      exact ⟨hs.1.add (ht.divGS hq), ht⟩

theorem HasSyms.trigParts (hd : HasSyms S d) {p0 : C} {c s : GDual C}
    (h1 : cosTaylor d.order ((d.subGS p0).mul (d.subGS p0)) = .ok c) (h2 : sinTaylor d.order (d.subGS p0) ((d.subGS p0).mul (d.subGS p0)) = .ok s) :
    SubSyms S c ∧ HasSyms S s := by
  have hp : HasSyms S (d.subGS p0) := hd.subGS p0
  have hp2 := hp.mul_left hS (hp.sub hS)
  obtain ⟨st, e1, e2⟩ := bind_ok_iff.1 h1
  obtain ⟨st', e1', e2'⟩ := bind_ok_iff.1 h2
  injection e2 with e2
  injection e2' with e2'
  subst e2 e2'
  exact ⟨(symsIn_taylor hS hp2 (.inl rfl) e1).2 ⟨subSyms_ofRat 1 S, subSyms_ofRat 1 S⟩, (symsIn_taylor hS hp2 (.inl rfl) e1').1 ⟨hp, hp.sub hS⟩⟩

theorem HasSyms.hypParts (hd : HasSyms S d) {p0 : C} {c s : GDual C}
    (h1 : coshTaylor d.order ((d.subGS p0).mul (d.subGS p0)) = .ok c) (h2 : sinhTaylor d.order (d.subGS p0) ((d.subGS p0).mul (d.subGS p0)) = .ok s) :
    SubSyms S c ∧ HasSyms S s := by
  have hp : HasSyms S (d.subGS p0) := hd.subGS p0
  have hp2 := hp.mul_left hS (hp.sub hS)
  obtain ⟨st, e1, e2⟩ := bind_ok_iff.1 h1
  obtain ⟨st', e1', e2'⟩ := bind_ok_iff.1 h2
  injection e2 with e2
  injection e2' with e2'
  subst e2 e2'
  exact ⟨(symsIn_taylor hS hp2 (.inr rfl) e1).2 ⟨subSyms_ofRat 1 S, subSyms_ofRat 1 S⟩, (symsIn_taylor hS hp2 (.inr rfl) e1').1 ⟨hp, hp.sub hS⟩⟩

theorem HasSyms.sin (hd : HasSyms S d) (h : d.sin = .ok r) : HasSyms S r := by
  obtain ⟨p0, -, h⟩ := bind_ok_iff.1 h
  obtain ⟨c, h1, h⟩ := bind_ok_iff.1 h
  obtain ⟨s, h2, h⟩ := bind_ok_iff.1 h
  injection h with h
  subst h
  obtain ⟨hc, hs⟩ := hd.trigParts hS h1 h2
  exact HasSyms.add_right hS (hc.mulSG _) (hs.mulSG hS _)

theorem HasSyms.cos (hd : HasSyms S d) (h : d.cos = .ok r) : HasSyms S r := by
  obtain ⟨p0, -, h⟩ := bind_ok_iff.1 h
  obtain ⟨c, h1, h⟩ := bind_ok_iff.1 h
  obtain ⟨s, h2, h⟩ := bind_ok_iff.1 h
  injection h with h
  subst h
  obtain ⟨hc, hs⟩ := hd.trigParts hS h1 h2
  exact HasSyms.sub_right hS (hc.mulSG _) (hs.mulSG hS _)

theorem HasSyms.sinh (hd : HasSyms S d) (h : d.sinh = .ok r) : HasSyms S r := by
  obtain ⟨p0, -, h⟩ := bind_ok_iff.1 h
  obtain ⟨c, h1, h⟩ := bind_ok_iff.1 h
  obtain ⟨s, h2, h⟩ := bind_ok_iff.1 h
  injection h with h
  subst h
  obtain ⟨hc, hs⟩ := hd.hypParts hS h1 h2
  exact HasSyms.add_right hS (hc.mulSG _) (hs.mulSG hS _)

theorem HasSyms.cosh (hd : HasSyms S d) (h : d.cosh = .ok r) : HasSyms S r := by
  obtain ⟨p0, -, h⟩ := bind_ok_iff.1 h
  obtain ⟨c, h1, h⟩ := bind_ok_iff.1 h
  obtain ⟨s, h2, h⟩ := bind_ok_iff.1 h
  injection h with h
  subst h
  obtain ⟨hc, hs⟩ := hd.hypParts hS h1 h2
  exact HasSyms.add_right hS (hc.mulSG _) (hs.mulSG hS _)

end

section
variable {C : Type} [CfFun C] {S : List String} {d r : GDual C}

theorem HasSyms.atanWith (hS : S.Pairwise (· < ·)) {bin : ℕ → ℕ → ℕ} (hd : HasSyms S d) (h1 : 1 ≤ d.order) (h : atanWith bin d = .ok r) :
    HasSyms S r := by
  unfold GDual.atanWith at h
  obtain ⟨p0, -, h⟩ := bind_ok_iff.1 h
  obtain ⟨phat, h0, h⟩ := bind_ok_iff.1 h
  obtain ⟨st, h2, h3⟩ := bind_ok_iff.1 h
  injection h3 with h3
  subst h3
  have hp : HasSyms S phat := (hd.subGS p0).divGS hS h0
  have hstep : ∀ (s : AtanSt C) (i : ℕ) (t : AtanSt C), (SubSyms S s.retval ∧ HasSyms S s.powphat) → atanStep bin p0 phat s i = .ok t →
      HasSyms S t.retval ∧ HasSyms S t.powphat := fun s i t hs ht => by
    unfold atanStep at ht
    split_ifs at ht
    all_goals
      obtain ⟨q, hq, ht⟩ := bind_ok_iff.1 ht
      injection ht with ht
      subst ht
      exact ⟨HasSyms.add_right hS hs.1 (((hs.2.mulSG hS _).mulGS hS _).divGS hS hq), hs.2.mul_left hS (hp.sub hS)⟩
  obtain ⟨n, hn⟩ := Nat.exists_eq_add_of_le' h1
  rw [hn, List.range'_succ, List.foldlM_cons] at h2
  obtain ⟨s1, e1, e2⟩ := bind_ok_iff.1 h2
  exact (foldlM_inv (P := fun s : AtanSt C => HasSyms S s.retval ∧ HasSyms S s.powphat)
    (fun s i t hs ht => hstep s i t ⟨hs.1.sub hS, hs.2⟩ ht) _ _ st (hstep _ _ _ ⟨subSyms_ofCf _ _, hp⟩ e1) e2).1

/-- At order 0 the loop of `atan` does not run: the result has no symbols. -/
theorem syms_atanWith_zero {bin : ℕ → ℕ → ℕ} (h0 : d.order = 0) (h : atanWith bin d = .ok r) : r.p.syms = [] := by
  unfold GDual.atanWith at h
  obtain ⟨p0, -, h⟩ := bind_ok_iff.1 h
  obtain ⟨phat, -, h⟩ := bind_ok_iff.1 h
  obtain ⟨st, h2, h3⟩ := bind_ok_iff.1 h
  injection h3 with h3
  subst h3
  rw [h0] at h2
  injection h2 with h2
  subst h2
  rfl

/-- The symbols of the root of a gdual are among those of the gdual. -/
theorem SubSyms.sqrt (hd : SubSyms S d) (h : d.sqrt = .ok r) : SubSyms S r := by
  unfold GDual.sqrt at h
  obtain ⟨p0, -, h⟩ := bind_ok_iff.1 h
  obtain ⟨_, -, h⟩ := bind_ok_iff.1 h
  unfold rootSeries at h
  obtain ⟨phat, h0, h⟩ := bind_ok_iff.1 h
  simp only at h
  injection h with h
  subst h
  have hp : SubSyms S phat := SubSyms.divGS (a := d.subGS p0) ⟨hd.sorted, hd.sub⟩ h0
  refine SubSyms.mulGS ?_ _
  have : ∀ (l : List ℕ) (st : PowSt C), SubSyms S st.retval → SubSyms S st.phat → SubSyms S (l.foldl (rootStep (Cf.ofRat (1 / 2)) phat) st).retval := by
    intro l
    induction l with
    | nil => exact fun st h _ => h
    | cons i l ih => exact fun st h1 h2 => ih _ (h1.add ((h2.mul hp).mulSG _)) (h2.mul hp)
  exact this _ _ ((subSyms_ofRat 1 S).add (hp.mulSG _)) hp

theorem le_order_divGS {a r : GDual C} {s : C} (h : a.divGS s = .ok r) : a.order ≤ r.order := by
  unfold GDual.divGS at h
  split_ifs at h <;> injection h with h <;> subst h
  · exact le_max_left _ _
  · exact le_rfl

theorem le_order_div {a b r : GDual C} (h : a.div b = .ok r) : a.order ≤ r.order := by
  unfold GDual.div at h
  obtain ⟨p0, -, h⟩ := bind_ok_iff.1 h
  split_ifs at h
  · obtain ⟨q, -, h2⟩ := bind_ok_iff.1 h
    exact (le_max_left a.order q.order).trans (le_order_divGS h2)
  · injection h with h
    subst h
    exact le_max_left _ _

theorem HasSyms.asinWith (hS : S.Pairwise (· < ·)) {bin : ℕ → ℕ → ℕ} (hd : HasSyms S d) (h1 : 1 ≤ d.order)
    (h : asinWith bin d = .ok r) : HasSyms S r := by
  unfold GDual.asinWith at h
  obtain ⟨s, h2, h⟩ := bind_ok_iff.1 h
  obtain ⟨q, h3, h⟩ := bind_ok_iff.1 h
  have hm : HasSyms S ((d.mul d).subSG (Cf.ofRat 1)) := HasSyms.subSG hS (hd.mul_left hS (hd.sub hS)) _
  have hq : HasSyms S q := hd.div_left hS ((hm.sub hS).sqrt h2) h3
  exact HasSyms.atanWith hS hq (h1.trans (le_order_div h3)) h


theorem mulCfPow_ok' {C : Type} [CfFun C] {t r : GDual C} {p0 : C} {q : ℚ} {S : List String} (hS : S.Pairwise (· < ·)) (ht : HasSyms S t)
    (h : mulCfPow t p0 q = .ok r) : HasSyms S r := by
  unfold mulCfPow at h
  split_ifs at h
  · injection h with h
    subst h
    exact ht.mulGS hS _
  · injection h with h
    subst h
    exact ht

theorem HasSyms.mulLoop {C : Type} [CfFun C] {S : List String} {d : GDual C} (hS : S.Pairwise (· < ·)) (hd : HasSyms S d) (n : ℕ) :
    HasSyms S (GDual.mulLoop d n) := by
  unfold GDual.mulLoop
  have : ∀ (l : List ℕ) (r : GDual C), HasSyms S r → HasSyms S (l.foldl (fun r _ => r.mul d) r) := by
    intro l
    induction l with
    | nil => exact fun r h => h
    | cons i l ih => exact fun r h => ih _ (h.mul_left hS (hd.sub hS))
  exact this _ d hd

theorem HasSyms.powQ {C : Type} [CfFun C] {S : List String} {d r : GDual C} (hS : S.Pairwise (· < ·)) {α : ℚ}
    (hd : HasSyms S d) (h : d.powQ α = .ok r) : HasSyms S r := by
  unfold GDual.powQ at h
  split_ifs at h with h1 h2
  · injection h with h
    subst h
    exact hd.mulLoop hS _
  obtain ⟨p0, -, h⟩ := bind_ok_iff.1 h
  obtain ⟨c0, -, h⟩ := bind_ok_iff.1 h
  obtain ⟨t, ht, h⟩ := bind_ok_iff.1 h
  obtain ⟨st, h1, h2⟩ := bind_ok_iff.1 h
  injection h2 with h2
  subst h2
  have hp : HasSyms S (d.subGS p0) := hd.subGS p0
  have := foldlM_inv (P := fun s : PowSt C => HasSyms S s.retval ∧ HasSyms S s.phat) (fun s i u hs hu => by
    unfold powStep at hu
    obtain ⟨q, hq, hu⟩ := bind_ok_iff.1 hu
    injection hu with hu
    subst hu
    have hph := hs.2.mul_left hS (hp.sub hS)
    exact ⟨hs.1.add_left hS ((mulCfPow_ok' hS (hph.mulSG hS _) hq).sub hS), hph⟩) _ _ st
    ⟨HasSyms.add_right hS (subSyms_ofCf _ S) (mulCfPow_ok' hS (hp.mulSG hS _) ht), hp⟩ h1
  exact this.1

end
end Audi.GDual
