import Verif.Proofs.Vectorized
import Verif.Proofs.Expr
import Verif.Props.C02_Ring

/-! Components of gduals with vectorized coefficients. -/

namespace Audi

open MvPolynomial Spec GDual

variable {C : Type} [Cf C] {ι : Type} {K : Type} [Field K] [Lanes C ι K] [DecidableEq K] {a b d r : GDual C}

theorem den_filter_ne (ss : List String) (l : List (List ℕ × K)) :
    (den () ss (l.filter fun t => !decide (t.2 = 0)) : MvPolynomial String K) = den () ss l := by
  induction l with
  | nil => rfl
  | cons t l ih =>
    unfold den at *
    by_cases h : t.2 = 0
    · rw [List.filter_cons_of_neg (by simp [h]), ih]
      have : (Lanes.lane () t.2 : K) = 0 := h
      simp [this]
    · rw [List.filter_cons_of_pos (by simp [h]), List.map_cons, List.sum_cons, ih, List.map_cons, List.sum_cons]

theorem toMv_proj (i : ι) (d : GDual C) : ((d.proj i).toMv () : MvPolynomial String K) = d.toMv i := by
  refine (den_filter_ne _ _).trans ?_
  unfold den GDual.toMv Poly.toMv den
  rw [List.map_map]
  rfl

theorem valid_proj (hd : d.Valid) (i : ι) : (d.proj i).Valid := by
  have hmem : ∀ t ∈ (d.proj i).p.terms, ∃ u ∈ d.p.terms, u.1 = t.1 := fun t ht => by
    obtain ⟨u, hu, rfl⟩ := List.mem_map.mp (List.mem_filter.mp ht).1
    exact ⟨u, hu, rfl⟩
  refine ⟨⟨hd.wf.sorted, fun t ht => ?_, ?_, fun t ht => ?_⟩, fun t ht => ?_⟩
  · obtain ⟨u, hu, h⟩ := hmem t ht
    rw [← h]; exact hd.wf.len u hu
  · have h : (d.p.terms.map fun t => (t.1, (Lanes.lane i t.2 : K))).map (·.1) = d.p.terms.map (·.1) := by
      rw [List.map_map]; rfl
    exact (List.filter_sublist.map _).nodup (h ▸ hd.wf.nodup)
  · have := (List.mem_filter.mp ht).2
    simpa [Cf.isZero] using this
  · obtain ⟨u, hu, h⟩ := hmem t ht
    rw [← h]; exact hd.deg u hu

theorem eq_proj (hr : r.Valid) {r' : GDual K} (hr' : r'.Valid) {i : ι} (h : (r.toMv i : MvPolynomial String K) = r'.toMv ()) :
    GDual.eq (r.proj i) r' = true :=
  eq_of_toMv (ι := Unit) (K := K) (valid_proj hr i) hr' fun _ => (toMv_proj i r).trans h

theorem toMv_mul_lane (ha : a.Valid) (hb : b.Valid) (i : ι) :
    ((a.mul b).toMv i : MvPolynomial String K) = ((a.proj i).mul (b.proj i)).toMv () := by
  refine EqUpTo.eq_of_degLE (m := max a.order b.order) ?_ ((ha.mul hb).degLE i)
    (Valid.degLE (ι := Unit) ((valid_proj ha i).mul (valid_proj hb i)) ())
  refine (toMv_mul ha hb i).trans (EqUpTo.symm ?_)
  have := toMv_mul (ι := Unit) (K := K) (valid_proj ha i) (valid_proj hb i) ()
  rwa [toMv_proj, toMv_proj] at this

omit [DecidableEq K] in
/-- The inverse series is determined by its low degree part. -/
theorem inv_unique {n : ℕ} {P I J : MvPolynomial String K} (h1 : EqUpTo n (I * P) 1) (h2 : EqUpTo n (J * P) 1) : EqUpTo n I J := by
  have h3 : EqUpTo n (I * (J * P)) (I * 1) := (EqUpTo.refl _).mul h2
  have h4 : EqUpTo n (J * (I * P)) (J * 1) := (EqUpTo.refl _).mul h1
  rw [mul_one] at h3 h4
  exact h3.symm.trans ((EqUpTo.of_eq (by ring)).trans h4)

/-! ### abs -/

section abs
variable {K : Type} [Field K] [LinearOrder K]

/-- The loop over the components. -/
theorem absLane_loop (p0 c : Vec K) (hc : c.c.length = p0.c.length) (k : ℕ) (hk : k ≤ p0.c.length) :
    ∃ c', (List.range k).foldlM (absLane p0) c = .ok c' ∧ c'.c.length = c.c.length ∧
      ∀ j : ℕ, c'.c[j]? = (c.c[j]?).map fun x => if j < k ∧ ∃ y, p0.c[j]? = some y ∧ y < 0 then -x else x := by
  induction k with
  | zero => exact ⟨c, rfl, rfl, fun j => by simp⟩
  | succ k ih =>
    obtain ⟨c1, h1, h2, h3⟩ := ih (by omega)
    have hget : ∀ v : Vec K, v.c.length = p0.c.length → ∃ x, v.c[k]? = some x ∧ v.get k = .ok x := fun v hv => by
      refine ⟨v.c[k]'(by omega), List.getElem?_eq_getElem _, ?_⟩
      rw [Vec.get_eq]
      rcases list_cases v.c with ⟨x, hx⟩ | hne
      · have : k = 0 := by rw [hx] at hv; simp at hv; omega
        subst this
        simp [hx, comp]
      · rw [comp_of_ne hne, List.getElem?_eq_getElem (by omega)]
    obtain ⟨y, hy, hy'⟩ := hget p0 rfl
    obtain ⟨x, hx, hx'⟩ := hget c1 (by omega)
    rw [List.range_succ, List.foldlM_append, bind_ok h1, List.foldlM_cons]
    have key : absLane p0 c1 k = if y < 0 then .ok ⟨c1.c.set k (-x)⟩ else .ok c1 := by
      unfold absLane
      rw [bind_ok hy']
      split_ifs with h
      · rw [bind_ok hx', Vec.setValue, if_pos (by omega)]
      · rfl
    have hpure : ∀ v : Vec K, List.foldlM (absLane p0) v [] = .ok v := fun v => rfl
    by_cases hneg : y < 0
    · rw [key, if_pos hneg]
      refine ⟨⟨c1.c.set k (-x)⟩, rfl, by simpa using h2, fun j => ?_⟩
      by_cases hj : j = k
      · subst hj
        have hxc : c.c[j]? = some x := by
          rw [h3] at hx
          obtain ⟨x0, h4, h5⟩ := Option.map_eq_some_iff.mp hx
          rw [if_neg (by simp)] at h5
          rw [h4, h5]
        rw [hxc]
        simp only [List.getElem?_set_self (show j < c1.c.length by omega), Option.map_some]
        rw [if_pos ⟨by omega, y, hy, hneg⟩]
      · rw [List.getElem?_set_ne (Ne.symm hj), h3]
        congr 1
        funext z
        have : j < k + 1 ↔ j < k := by omega
        simp only [this]
    · rw [key, if_neg hneg]
      refine ⟨c1, rfl, h2, fun j => ?_⟩
      rw [h3]
      congr 1
      funext z
      by_cases hj : j = k
      · subst hj
        rw [if_neg (by simp), if_neg]
        rintro ⟨-, y', h4, h5⟩
        rw [hy] at h4
        injection h4 with h4
        exact hneg (h4 ▸ h5)
      · have : j < k + 1 ↔ j < k := by omega
        simp only [this]

variable {n : ℕ} [NeZero n]

omit [NeZero n] in
/-- One coefficient, when the constant part has all the components or the coefficient has one. -/
theorem absCoeff_spec (p0 c : VecN n K) (h : p0.1.size = n ∨ c.1.size = 1) :
    ∃ c' : VecN n K, absCoeff p0.1 c.1 = .ok c'.1 ∧
      ∀ i : Fin n, VecN.laneOf i c' = if VecN.laneOf i p0 < 0 then -VecN.laneOf i c else VecN.laneOf i c := by
  have hn : ∀ _ : Fin n, 0 < n := fun i => by have := i.2; omega
  obtain ⟨e, he, hel, hec⟩ : ∃ e : Vec K, absResize p0.1 c.1 = .ok e ∧ e.c.length = p0.1.c.length ∧
      ∀ i : Fin n, comp e.c i = comp c.1.c i := by
    unfold absResize
    by_cases h1 : c.1.size = 1
    · rw [if_pos h1]
      obtain ⟨x, hx⟩ := List.length_eq_one_iff.mp h1
      have hg : c.1.get 0 = .ok x := by rw [Vec.get_eq, hx, comp_singleton]
      refine ⟨_, bind_ok hg _, ?_, fun i => ?_⟩
      · unfold Vec.resize Vec.size
        rw [hx]
        simp
        rcases Nat.eq_zero_or_pos p0.1.c.length with h0 | h0
        · rw [h0]; rfl
        · omega
      · rw [hx, comp_singleton]
        have hlen : p0.1.size = 1 ∨ p0.1.size = n := p0.2
        have hpos := hn i
        have hr : (c.1.resize p0.1.size x).c = List.replicate p0.1.size x := by
          unfold Vec.resize
          simp only [hx, List.length_singleton]
          obtain ⟨m, hm⟩ : ∃ m, p0.1.size = m + 1 := ⟨p0.1.size - 1, by omega⟩
          rw [hm, List.replicate_succ]; simp
        rw [hr]
        unfold comp
        rw [List.length_replicate]
        split_ifs with h2
        · rw [h2]; rfl
        · rw [List.getElem?_replicate, if_pos]
          have := i.2
          omega
    · rw [if_neg h1]
      have h2 : p0.1.size = n := h.resolve_right h1
      exact ⟨c.1, rfl, (c.2.resolve_left h1).trans h2.symm, fun i => rfl⟩
  obtain ⟨c', h1, h2, h3⟩ := absLane_loop p0.1 e hel p0.1.size le_rfl
  have hsz : c'.size = 1 ∨ c'.size = n := by
    have : c'.size = p0.1.size := h2.trans hel
    rw [this]; exact p0.2
  refine ⟨⟨c', hsz⟩, ?_, fun i => ?_⟩
  · unfold absCoeff
    rw [bind_ok he]
    exact h1
  · have hce := hec i
    rw [VecN.comp_eq] at hce
    have hp := VecN.comp_eq p0 i
    have hc' := VecN.comp_eq (⟨c', hsz⟩ : VecN n K) i
    have hlen : c'.c.length = p0.1.c.length := h2.trans hel
    have key : ∀ j : ℕ, e.c[j]? = some (VecN.laneOf i c) → p0.1.c[j]? = some (VecN.laneOf i p0) → j < p0.1.size →
        c'.c[j]? = some (VecN.laneOf i ⟨c', hsz⟩) →
        VecN.laneOf i ⟨c', hsz⟩ = if VecN.laneOf i p0 < 0 then -VecN.laneOf i c else VecN.laneOf i c := fun j e1 e2 e3 e4 => by
      rw [h3, e1, Option.map_some] at e4
      injection e4 with e4
      rw [← e4]
      refine if_congr ⟨?_, ?_⟩ rfl rfl
      · rintro ⟨-, y, h5, h6⟩
        rw [e2] at h5
        injection h5 with h5
        rw [h5]; exact h6
      · intro h5; exact ⟨e3, _, e2, h5⟩
    by_cases h1' : p0.1.c.length = 1
    · have e1 : e.c.length = 1 := hel.trans h1'
      have e2 : c'.c.length = 1 := hlen.trans h1'
      unfold comp at hce hp hc'
      rw [if_pos e1] at hce
      rw [if_pos h1'] at hp
      rw [if_pos e2] at hc'
      exact key 0 hce hp (by unfold Vec.size; omega) hc'
    · rw [comp_of_ne (by rw [hel]; exact h1')] at hce
      rw [comp_of_ne h1'] at hp
      rw [comp_of_ne (by simpa [hlen] using h1')] at hc'
      refine key i hce hp ?_ hc'
      have := List.getElem?_eq_some_iff.mp hp
      exact this.1

theorem mapM_ok {α β : Type} (f : α → Res β) (g : α → β) (l : List α) (h : ∀ t ∈ l, f t = .ok (g t)) : l.mapM f = .ok (l.map g) := by
  induction l with
  | nil => rfl
  | cons t l ih =>
    rw [List.mapM_cons, bind_ok (h t List.mem_cons_self), bind_ok (ih fun t ht => h t (List.mem_cons_of_mem _ ht))]
    rfl

/-- What `abs` computes for vectorized coefficients: if the constant part has all its components, or all coefficients have size 1, the sign of each
component is changed where the constant part is negative. -/
theorem absVec_spec {d : GDual (VecN n K)} (hd : d.Valid) {p0 : VecN n K} (hp0 : d.constantCf = .ok p0)
    (h : p0.1.size = n ∨ ∀ t ∈ d.p.terms, t.2.1.size = 1) :
    ∃ r, absVec d = .ok r ∧ r.Valid ∧ r.order = d.order ∧ r.p.syms = d.p.syms ∧
      ∀ i : Fin n, (r.toMv i : MvPolynomial String K) = if coeff 0 (d.toMv i : MvPolynomial String K) < 0 then -d.toMv i else d.toMv i := by
  have hc : ∀ t ∈ d.p.terms, ∃ c' : VecN n K, absCoeff p0.1 t.2.1 = .ok c'.1 ∧
      ∀ i : Fin n, VecN.laneOf i c' = if VecN.laneOf i p0 < 0 then -VecN.laneOf i t.2 else VecN.laneOf i t.2 := fun t ht =>
    absCoeff_spec p0 t.2 (h.imp_right fun h => h t ht)
  classical
  let g : List ℕ × VecN n K → List ℕ × VecN n K := fun t =>
    (t.1, if h : ∃ c' : VecN n K, absCoeff p0.1 t.2.1 = .ok c'.1 ∧
      ∀ i : Fin n, VecN.laneOf i c' = if VecN.laneOf i p0 < 0 then -VecN.laneOf i t.2 else VecN.laneOf i t.2 then h.choose else t.2)
  have hg : ∀ t ∈ d.p.terms, absCoeff p0.1 t.2.1 = .ok (g t).2.1 ∧
      ∀ i : Fin n, VecN.laneOf i (g t).2 = if VecN.laneOf i p0 < 0 then -VecN.laneOf i t.2 else VecN.laneOf i t.2 := fun t ht => by
    have h1 := hc t ht
    have : (g t).2 = h1.choose := dif_pos h1
    rw [this]
    exact h1.choose_spec
  have hlane : ∀ i : Fin n, VecN.laneOf i p0 = coeff 0 (d.toMv i : MvPolynomial String K) := lane_constantCf (K := K) hd hp0
  refine ⟨⟨⟨d.p.syms, d.p.terms.map g⟩, d.order⟩, ?_, ⟨⟨hd.wf.sorted, ?_, ?_, ?_⟩, ?_⟩, rfl, rfl, fun i => ?_⟩
  · unfold absVec
    rw [bind_ok hp0, bind_ok (mapM_ok _ g _ fun t ht => ?_)]
    rw [bind_ok (hg t ht).1]
    have : VecN.ofRes t.2 (.ok (g t).2.1) = (g t).2 := dif_pos (g t).2.2
    rw [this]
  · intro t ht
    obtain ⟨u, hu, rfl⟩ := List.mem_map.mp ht
    exact hd.wf.len u hu
  · rw [List.map_map]
    exact hd.wf.nodup
  · intro t ht
    obtain ⟨u, hu, rfl⟩ := List.mem_map.mp ht
    have h1 := hd.wf.nz u hu
    rw [Bool.eq_false_iff, Ne, Lanes.isZero_iff (ι := Fin n) (K := K)] at h1 ⊢
    refine fun h2 => h1 fun i => ?_
    have h3 : VecN.laneOf i (g u).2 = 0 := h2 i
    rw [(hg u hu).2] at h3
    change VecN.laneOf i u.2 = 0
    split_ifs at h3
    · exact neg_eq_zero.mp h3
    · exact h3
  · intro t ht
    obtain ⟨u, hu, rfl⟩ := List.mem_map.mp ht
    exact hd.deg u hu
  · rw [← hlane]
    unfold GDual.toMv Poly.toMv den
    simp only [List.map_map]
    split_ifs with hneg
    · rw [List.sum_neg, List.map_map]
      congr 1
      refine List.map_congr_left fun t ht => ?_
      change monomial (toExp d.p.syms t.1) (VecN.laneOf i (g t).2) = -monomial (toExp d.p.syms t.1) (VecN.laneOf i t.2)
      rw [(hg t ht).2, if_pos hneg, map_neg]
    · congr 1
      refine List.map_congr_left fun t ht => ?_
      change monomial (toExp d.p.syms t.1) (VecN.laneOf i (g t).2) = monomial (toExp d.p.syms t.1) (VecN.laneOf i t.2)
      rw [(hg t ht).2, if_neg hneg]

end abs

end Audi
