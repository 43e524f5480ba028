import Verif.Spec.Vectorized
import Verif.Spec.Order
import Verif.Proofs.Lift

/-! Vectorized coefficients. -/

namespace Audi

open Spec

variable {T : Type}

theorem comp_singleton (x : T) (i : ℕ) : comp [x] i = some x := by simp [comp]

theorem comp_of_ne {l : List T} (h : l.length ≠ 1) (i : ℕ) : comp l i = l[i]? := if_neg h

theorem comp_map {S : Type} (f : T → S) (l : List T) (i : ℕ) : comp (l.map f) i = (comp l i).map f := by
  unfold comp
  split_ifs with h1 h2 h2 <;> simp_all

theorem comp_zipWith {S U : Type} (f : T → S → U) {l : List T} {l' : List S} (h : l.length = l'.length) (i : ℕ) :
    comp (List.zipWith f l l') i = Option.map₂ f (comp l i) (comp l' i) := by
  unfold comp
  rw [List.length_zipWith, h, min_self]
  split_ifs <;> rw [List.getElem?_zipWith] <;>
    rcases l[_]? with _ | x <;> rcases l'[_]? with _ | y <;> rfl

theorem list_cases (l : List T) : (∃ x, l = [x]) ∨ l.length ≠ 1 := by
  by_cases h : l.length = 1
  · exact Or.inl (List.length_eq_one_iff.mp h)
  · exact Or.inr h

namespace Vec

theorem get_eq (v : Vec T) (i : ℕ) : v.get i = match comp v.c i with
    | some x => .ok x
    | none => .error .undefinedBehaviour := by
  obtain ⟨c⟩ := v
  unfold get
  rcases list_cases c with ⟨x, rfl⟩ | h
  · simp [comp]
  · rw [comp_of_ne h]
    rcases c with _ | ⟨a, _ | ⟨b, l⟩⟩
    · rfl
    · simp at h
    · rfl

theorem opAssign_spec {full right left f : T → T → T} (h1 : ∀ x y, full x y = f x y) (h2 : ∀ x y, right x y = f x y)
    (h3 : ∀ x y, left x y = f x y) (a b : Vec T) :
    (Compat a.size b.size → ∃ r, opAssign full right left a b = .ok r ∧ r.size = joinSize a.size b.size ∧
      ∀ i, comp r.c i = Option.map₂ f (comp a.c i) (comp b.c i)) ∧
    (¬ Compat a.size b.size → opAssign full right left a b = .error .invalidArgument) := by
  obtain rfl : full = f := funext fun x => funext fun y => h1 x y
  obtain rfl : right = full := funext fun x => funext fun y => h2 x y
  obtain rfl : left = right := funext fun x => funext fun y => h3 x y
  obtain ⟨a⟩ := a
  obtain ⟨b⟩ := b
  unfold opAssign joinSize Compat size
  by_cases hs : b.length = a.length
  · refine ⟨fun _ => ⟨_, if_pos hs, ?_, fun i => comp_zipWith _ hs.symm i⟩, fun h => absurd (Or.inl hs.symm) h⟩
    simp only [List.length_zipWith, hs, min_self, ite_self]
  · rw [if_neg hs]
    rcases list_cases b with ⟨y, rfl⟩ | hb
    · refine ⟨fun _ => ⟨_, rfl, ?_, fun i => ?_⟩, fun h => absurd (Or.inr (Or.inr rfl)) h⟩
      · have : ¬ a.length = 1 := fun h => hs h.symm
        simp [this]
      · rw [comp_map, comp_singleton]
        cases comp a i <;> rfl
    · rcases list_cases a with ⟨x, rfl⟩ | ha
      · refine ⟨fun _ => ⟨⟨b.map (left x)⟩, ?_, by simp, fun i => ?_⟩, fun h => absurd (Or.inr (Or.inl rfl)) h⟩
        · rcases b with _ | ⟨u, _ | ⟨v, l⟩⟩
          · rfl
          · simp at hb
          · rfl
        · rw [comp_map, comp_singleton]
          cases comp b i <;> rfl
      · refine ⟨fun h => ?_, fun _ => ?_⟩
        · rcases h with h | h | h
          · exact absurd h.symm hs
          · exact absurd h ha
          · exact absurd h hb
        · rcases b with _ | ⟨u, _ | ⟨v, l⟩⟩ <;> rcases a with _ | ⟨u', _ | ⟨v', l'⟩⟩ <;> first | rfl | exact absurd rfl hb | exact absurd rfl ha

theorem div_spec {K : Type} [Field K] [DecidableEq K] (a b : Vec K) :
    (¬ Compat a.size b.size → div a b = .error .invalidArgument) ∧
    (Compat a.size b.size → (0 : K) ∉ b.c → ∃ r, div a b = .ok r ∧ r.size = joinSize a.size b.size ∧
      ∀ i, comp r.c i = Option.map₂ (fun x y => x / y) (comp a.c i) (comp b.c i)) ∧
    (Compat a.size b.size → (0 : K) ∈ b.c → a.size ≠ 0 → div a b = .error .nonFinite) := by
  have h := opAssign_spec (full := fun x y : K => x / y) (right := fun x y => x / y) (left := fun s x => s / x) (f := fun x y => x / y)
    (fun _ _ => rfl) (fun _ _ => rfl) (fun _ _ => rfl) a b
  refine ⟨fun hc => ?_, fun hc h0 => ?_, fun hc h0 ha => ?_⟩
  · unfold div
    rw [h.2 hc]; rfl
  · obtain ⟨r, h1, h2⟩ := h.1 hc
    refine ⟨r, ?_, h2⟩
    unfold div
    rw [bind_ok h1, if_neg]
    simp only [Bool.and_eq_true, List.any_eq_true, decide_eq_true_eq, not_and]
    rintro ⟨x, hx, rfl⟩
    exact absurd hx h0
  · obtain ⟨r, h1, h2, -⟩ := h.1 hc
    unfold div
    rw [bind_ok h1, if_pos]
    have hb : b.size ≠ 0 := fun hb => by
      rw [List.eq_nil_of_length_eq_zero hb] at h0
      simp at h0
    have hr : r.c ≠ [] := fun hr => by
      have : r.size = 0 := by unfold size; rw [hr]; rfl
      rw [h2] at this
      unfold joinSize at this
      split_ifs at this
      · exact hb this
      · exact ha this
    simp only [Bool.and_eq_true, List.any_eq_true, decide_eq_true_eq, Bool.not_eq_true', List.isEmpty_eq_false_iff]
    exact ⟨⟨0, h0, rfl⟩, hr⟩

theorem all_iff_comp {l : List T} (h : l.length ≠ 1) (p : T → Bool) :
    l.all p = true ↔ ∀ i < l.length, ∃ x, comp l i = some x ∧ p x = true := by
  rw [List.all_eq_true]
  constructor
  · intro h1 i hi
    exact ⟨l[i], by rw [comp_of_ne h, List.getElem?_eq_getElem hi], h1 _ (List.getElem_mem hi)⟩
  · intro h1 x hx
    obtain ⟨i, hi, rfl⟩ := List.mem_iff_getElem.mp hx
    obtain ⟨y, h2, h3⟩ := h1 i hi
    rw [comp_of_ne h, List.getElem?_eq_getElem hi] at h2
    injection h2 with h2
    rw [h2]; exact h3

theorem comp_ext {l l' : List T} (h : l.length = l'.length) : l = l' ↔ ∀ i < l.length, comp l i = comp l' i := by
  constructor
  · rintro rfl i _; rfl
  · intro h1
    rcases list_cases l with ⟨x, rfl⟩ | hl
    · obtain ⟨y, rfl⟩ := List.length_eq_one_iff.mp h.symm
      have := h1 0 (by simp)
      simpa [comp] using this
    · refine List.ext_getElem h fun i hi hi' => ?_
      have := h1 i hi
      rw [comp_of_ne hl, comp_of_ne (h ▸ hl), List.getElem?_eq_getElem hi, List.getElem?_eq_getElem hi'] at this
      exact Option.some_injective _ this

/-- The branches for different sizes of the comparisons. -/
def pick (p q : T → T → Bool) (a b : List T) : Bool :=
  match a, b with
  | [x], _ => b.all fun y => p x y
  | _, [y] => a.all fun x => q x y
  | _, _ => false

theorem pick_right {p q : T → T → Bool} {a : List T} (ha : a.length ≠ 1) (y : T) : pick p q a [y] = a.all fun x => q x y := by
  rcases a with _ | ⟨u, _ | ⟨v, l⟩⟩
  · rfl
  · exact absurd rfl ha
  · rfl

theorem pick_none {p q : T → T → Bool} {a b : List T} (ha : a.length ≠ 1) (hb : b.length ≠ 1) : pick p q a b = false := by
  rcases b with _ | ⟨u, _ | ⟨v, l⟩⟩ <;> rcases a with _ | ⟨u', _ | ⟨v', l'⟩⟩ <;>
    first | rfl | exact absurd rfl hb | exact absurd rfl ha

/-- Comparisons with the structure of `operator==`, `operator<`, `operator>`: a comparison of equal sizes and one element by element. -/
theorem cmp_broadcast (a b : Vec T) (h : a.size ≠ b.size) (full : Bool) (p q : T → T → Bool) (hpq : ∀ x y, p x y = q x y) :
    (if a.size = b.size then full else pick p q a.c b.c) = true ↔
    Compat a.size b.size ∧ ∀ i < joinSize a.size b.size, ∃ x y, comp a.c i = some x ∧ comp b.c i = some y ∧ p x y = true := by
  rw [if_neg h]
  obtain rfl : p = q := funext fun x => funext fun y => hpq x y
  obtain ⟨a⟩ := a
  obtain ⟨b⟩ := b
  unfold joinSize Compat size at *
  simp only at *
  rcases list_cases a with ⟨x, rfl⟩ | ha
  · have hb : b.length ≠ 1 := fun hb => h (by simp [hb])
    simp only [List.length_singleton, if_true, true_or, or_true, true_and, comp_singleton]
    change (b.all fun y => p x y) = true ↔ _
    rw [all_iff_comp hb]
    refine forall₂_congr fun i _ => ⟨?_, ?_⟩
    · rintro ⟨y, h1, h2⟩; exact ⟨x, y, rfl, h1, h2⟩
    · rintro ⟨x', y, h0, h1, h2⟩; injection h0 with h0; exact ⟨y, h1, h0 ▸ h2⟩
  · rcases list_cases b with ⟨y, rfl⟩ | hb
    · simp only [List.length_singleton, if_neg ha, or_true, true_and, comp_singleton]
      rw [pick_right ha, all_iff_comp ha]
      refine forall₂_congr fun i _ => ⟨?_, ?_⟩
      · rintro ⟨x, h1, h2⟩; exact ⟨x, y, h1, rfl, h2⟩
      · rintro ⟨x, y', h1, h0, h2⟩; injection h0 with h0; exact ⟨x, h1, h0 ▸ h2⟩
    · rw [pick_none ha hb]
      simp [h, ha, hb]

theorem eq_spec [DecidableEq T] (a b : Vec T) : eq a b = true ↔ Compat a.size b.size ∧
    ∀ i < joinSize a.size b.size, comp a.c i = comp b.c i := by
  by_cases h : a.size = b.size
  · unfold eq
    rw [if_pos h, decide_eq_true_iff, comp_ext h]
    have : joinSize a.size b.size = a.c.length := by unfold joinSize; split_ifs with h1; exacts [h.symm, rfl]
    rw [this]
    exact ⟨fun h1 => ⟨Or.inl h, h1⟩, fun h1 => h1.2⟩
  · unfold eq
    refine (cmp_broadcast a b h _ (fun x y => decide (y = x)) (fun x y => decide (x = y)) (fun x y => by simp [eq_comm])).trans ?_
    refine and_congr_right fun hc => ?_
    refine forall₂_congr fun i hi => ⟨?_, fun he => ?_⟩
    · rintro ⟨x, y, h1, h2, h3⟩
      rw [h1, h2, of_decide_eq_true h3]
    · obtain ⟨x, hx⟩ : ∃ x, comp a.c i = some x := by
        unfold joinSize at hi
        split_ifs at hi with h1
        · obtain ⟨x, hx⟩ := List.length_eq_one_iff.mp h1
          exact ⟨x, by rw [hx, comp_singleton]⟩
        · exact ⟨a.c[i], by rw [comp_of_ne h1, List.getElem?_eq_getElem hi]⟩
      exact ⟨x, x, hx, he ▸ hx, by simp⟩

/-- Three sizes that can be combined: all sizes are 1 or the same number. -/
theorem fma3_spec [Add T] [Mul T] (ret x y : Vec T) :
    (Compat ret.size x.size ∧ Compat ret.size y.size ∧ Compat x.size y.size →
      ∃ r, fma3 ret x y = .ok r ∧ r.size = joinSize ret.size (joinSize x.size y.size) ∧
        ∀ i, comp r.c i = Option.map₂ (fun r p => r + p) (comp ret.c i)
          (Option.map₂ (fun a b => a * b) (comp x.c i) (comp y.c i))) ∧
    (¬ (Compat ret.size x.size ∧ Compat ret.size y.size ∧ Compat x.size y.size) →
      (ret.size = 1 ∨ x.size = 1 ∨ y.size = 1) → fma3 ret x y = .error .invalidArgument) ∧
    (¬ (Compat ret.size x.size ∧ Compat ret.size y.size ∧ Compat x.size y.size) →
      ¬ (ret.size = 1 ∨ x.size = 1 ∨ y.size = 1) → fma3 ret x y = .ok ret) := by
  obtain ⟨r⟩ := ret
  obtain ⟨x⟩ := x
  obtain ⟨y⟩ := y
  unfold fma3 joinSize Compat size
  simp only
  by_cases hall : x.length = y.length ∧ x.length = r.length
  · rw [if_pos hall]
    obtain ⟨h1, h2⟩ := hall
    refine ⟨fun _ => ⟨_, rfl, ?_, fun i => ?_⟩, fun h _ => ?_, fun h _ => ?_⟩
    · simp [← h1, h2]
    · simp only
      rw [comp_zipWith _ (by simp [h1.symm, h2.symm]), comp_zipWith _ h1]
    · exact absurd ⟨Or.inl h2.symm, Or.inl (h2.symm.trans h1), Or.inl h1⟩ h
    · exact absurd ⟨Or.inl h2.symm, Or.inl (h2.symm.trans h1), Or.inl h1⟩ h
  rw [if_neg hall]
  rcases list_cases r with ⟨r0, rfl⟩ | hr
  · rcases list_cases x with ⟨x0, rfl⟩ | hx
    · refine ⟨fun _ => ⟨_, rfl, by simp, fun i => ?_⟩, fun h _ => absurd (by simp) h, fun h _ => absurd (by simp) h⟩
      simp only [comp_map, comp_singleton]
      cases comp y i <;> rfl
    · rcases list_cases y with ⟨y0, rfl⟩ | hy
      · refine ⟨fun _ => ⟨⟨x.map fun a => r0 + a * y0⟩, ?_, by simp [hx], fun i => ?_⟩, fun h _ => absurd (by simp) h,
          fun h _ => absurd (by simp) h⟩
        · rcases x with _ | ⟨u, _ | ⟨v, l⟩⟩
          · rfl
          · exact absurd rfl hx
          · rfl
        · simp only [comp_map, comp_singleton]
          cases comp x i <;> rfl
      · by_cases hxy : y.length = x.length
        · refine ⟨fun _ => ⟨⟨List.zipWith (fun a b => r0 + a * b) x y⟩, ?_, by simp [hx, hxy], fun i => ?_⟩, fun h _ => absurd (by simp [hxy]) h,
            fun h _ => absurd (by simp [hxy]) h⟩
          · rcases x with _ | ⟨u, _ | ⟨v, l⟩⟩ <;> rcases y with _ | ⟨u', _ | ⟨v', l'⟩⟩ <;>
              first | exact absurd rfl hx | exact absurd rfl hy | exact if_pos hxy
          · simp only [comp_zipWith _ hxy.symm, comp_singleton]
            cases comp x i <;> cases comp y i <;> rfl
        · refine ⟨fun h => ?_, fun _ _ => ?_, fun _ h => absurd (by simp) h⟩
          · rcases h.2.2 with h | h | h
            · exact absurd h.symm hxy
            · exact absurd h hx
            · exact absurd h hy
          · rcases x with _ | ⟨u, _ | ⟨v, l⟩⟩ <;> rcases y with _ | ⟨u', _ | ⟨v', l'⟩⟩ <;>
              first | exact absurd rfl hx | exact absurd rfl hy | exact if_neg hxy
  · rcases list_cases x with ⟨x0, rfl⟩ | hx
    · rcases list_cases y with ⟨y0, rfl⟩ | hy
      · refine ⟨fun _ => ⟨⟨r.map fun r => r + x0 * y0⟩, ?_, by simp [hr], fun i => ?_⟩, fun h _ => absurd (by simp) h,
          fun h _ => absurd (by simp) h⟩
        · rcases r with _ | ⟨u, _ | ⟨v, l⟩⟩
          · rfl
          · exact absurd rfl hr
          · rfl
        · simp only [comp_map, comp_singleton]
          cases comp r i <;> rfl
      · by_cases hry : y.length = r.length
        · refine ⟨fun _ => ⟨⟨List.zipWith (fun r b => r + x0 * b) r y⟩, ?_, by simp [hr, hry], fun i => ?_⟩, fun h _ => absurd (by simp [hry]) h,
            fun h _ => absurd (by simp [hry]) h⟩
          · rcases r with _ | ⟨u, _ | ⟨v, l⟩⟩ <;> rcases y with _ | ⟨u', _ | ⟨v', l'⟩⟩ <;>
              first | exact absurd rfl hr | exact absurd rfl hy | exact if_pos hry
          · simp only [comp_zipWith _ hry.symm, comp_singleton]
            cases comp r i <;> cases comp y i <;> rfl
        · refine ⟨fun h => ?_, fun _ _ => ?_, fun _ h => absurd (by simp) h⟩
          · rcases h.2.1 with h | h | h
            · exact absurd h.symm hry
            · exact absurd h hr
            · exact absurd h hy
          · rcases r with _ | ⟨u, _ | ⟨v, l⟩⟩ <;> rcases y with _ | ⟨u', _ | ⟨v', l'⟩⟩ <;>
              first | exact absurd rfl hr | exact absurd rfl hy | exact if_neg hry
    · rcases list_cases y with ⟨y0, rfl⟩ | hy
      · by_cases hrx : r.length = x.length
        · refine ⟨fun _ => ⟨⟨List.zipWith (fun r a => r + a * y0) r x⟩, ?_, by simp [hrx, hx], fun i => ?_⟩, fun h _ => absurd (by simp [hrx]) h,
            fun h _ => absurd (by simp [hrx]) h⟩
          · rcases r with _ | ⟨u, _ | ⟨v, l⟩⟩ <;> rcases x with _ | ⟨u', _ | ⟨v', l'⟩⟩ <;>
              first | exact absurd rfl hr | exact absurd rfl hx | exact if_pos hrx
          · simp only [comp_zipWith _ hrx, comp_singleton]
            cases comp r i <;> cases comp x i <;> rfl
        · refine ⟨fun h => ?_, fun _ _ => ?_, fun _ h => absurd (by simp) h⟩
          · rcases h.1 with h | h | h
            · exact absurd h hrx
            · exact absurd h hr
            · exact absurd h hx
          · rcases r with _ | ⟨u, _ | ⟨v, l⟩⟩ <;> rcases x with _ | ⟨u', _ | ⟨v', l'⟩⟩ <;>
              first | exact absurd rfl hr | exact absurd rfl hx | exact if_neg hrx
      · refine ⟨fun h => ?_, fun _ h => ?_, fun _ _ => ?_⟩
        · have h1 : r.length = x.length := by
            rcases h.1 with h | h | h
            exacts [h, absurd h hr, absurd h hx]
          have h2 : x.length = y.length := by
            rcases h.2.2 with h | h | h
            exacts [h, absurd h hx, absurd h hy]
          exact absurd ⟨h2, h1.symm⟩ hall
        · rcases h with h | h | h
          exacts [absurd h hr, absurd h hx, absurd h hy]
        · rcases r with _ | ⟨u, _ | ⟨v, l⟩⟩ <;> rcases x with _ | ⟨u', _ | ⟨v', l'⟩⟩ <;> rcases y with _ | ⟨u'', _ | ⟨v'', l''⟩⟩ <;>
            first | exact absurd rfl hr | exact absurd rfl hx | exact absurd rfl hy | rfl

end Vec

namespace VecN
variable {n : ℕ}

/-- Every index below `n` has a component. -/
theorem exists_comp (v : VecN n T) (i : Fin n) : ∃ x, comp v.1.c i = some x := by
  obtain ⟨⟨c⟩, h⟩ := v
  rcases list_cases c with ⟨x, rfl⟩ | hc
  · exact ⟨x, comp_singleton x i⟩
  · have hl : c.length = n := h.resolve_left hc
    refine ⟨c[(i : ℕ)]'(by rw [hl]; exact i.2), ?_⟩
    rw [comp_of_ne hc, List.getElem?_eq_getElem]

theorem compat (a b : VecN n T) : Compat a.1.size b.1.size := by
  rcases a.2 with h | h <;> rcases b.2 with h' | h'
  · exact Or.inr (Or.inl h)
  · exact Or.inr (Or.inl h)
  · exact Or.inr (Or.inr h')
  · exact Or.inl (h.trans h'.symm)

theorem joinSize_mem (a b : VecN n T) : joinSize a.1.size b.1.size = 1 ∨ joinSize a.1.size b.1.size = n := by
  unfold joinSize
  split_ifs
  · exact b.2
  · exact a.2

/-- For vectors of size 1 or `n` the operations never throw. -/
theorem opAssign_ok {full right left f : T → T → T} (h1 : ∀ x y, full x y = f x y) (h2 : ∀ x y, right x y = f x y)
    (h3 : ∀ x y, left x y = f x y) (dflt a b : VecN n T) :
    Vec.opAssign full right left a.1 b.1 = .ok (ofRes dflt (Vec.opAssign full right left a.1 b.1)).1 ∧
      ∀ i, comp (ofRes dflt (Vec.opAssign full right left a.1 b.1)).1.c i = Option.map₂ f (comp a.1.c i) (comp b.1.c i) := by
  obtain ⟨r, hr, hs, hc⟩ := (Vec.opAssign_spec h1 h2 h3 a.1 b.1).1 (compat a b)
  have hsz : r.size = 1 ∨ r.size = n := by rw [hs]; exact joinSize_mem a b
  rw [hr]
  have : ofRes dflt (.ok r) = ⟨r, hsz⟩ := dif_pos hsz
  rw [this]
  exact ⟨rfl, hc⟩

variable {K : Type} [Field K]

/-- The `i`-th component. -/
def laneOf (i : Fin n) (v : VecN n K) : K := (comp v.1.c i).getD 0

theorem comp_eq (v : VecN n K) (i : Fin n) : comp v.1.c i = some (laneOf i v) := by
  obtain ⟨x, hx⟩ := exists_comp v i
  unfold laneOf
  rw [hx]; rfl

theorem lane_opAssign {full right left f : K → K → K} (h1 : ∀ x y, full x y = f x y) (h2 : ∀ x y, right x y = f x y)
    (h3 : ∀ x y, left x y = f x y) (dflt a b : VecN n K) (i : Fin n) :
    laneOf i (ofRes dflt (Vec.opAssign full right left a.1 b.1)) = f (laneOf i a) (laneOf i b) := by
  have := (opAssign_ok h1 h2 h3 dflt a b).2 i
  rw [comp_eq, comp_eq, comp_eq] at this
  exact Option.some_injective _ this

theorem lane_map (f : K → K) (v : VecN n K) (i : Fin n) : laneOf i (map f v) = f (laneOf i v) := by
  have : comp (map f v).1.c i = (comp v.1.c i).map f := comp_map f v.1.c i
  rw [comp_eq, comp_eq] at this
  exact Option.some_injective _ this

variable [NeZero n]

/-- All elements satisfy a condition iff all components do. -/
theorem all_iff (v : VecN n K) (p : K → Bool) : v.1.c.all p = true ↔ ∀ i : Fin n, p (laneOf i v) = true := by
  obtain ⟨⟨c⟩, h⟩ := v
  have hn : 0 < n := Nat.pos_of_ne_zero (NeZero.ne n)
  rcases list_cases c with ⟨x, rfl⟩ | hc
  · have : ∀ i : Fin n, laneOf i (⟨⟨[x]⟩, h⟩ : VecN n K) = x := fun i => by simp [laneOf, comp]
    simp only [this]
    simp only [List.all_cons, List.all_nil, Bool.and_true]
    exact ⟨fun hx _ => hx, fun hx => hx ⟨0, hn⟩⟩
  · have hl : c.length = n := h.resolve_left hc
    rw [Vec.all_iff_comp hc]
    constructor
    · intro h1 i
      obtain ⟨x, h2, h3⟩ := h1 i (by rw [hl]; exact i.2)
      have := comp_eq (⟨⟨c⟩, h⟩ : VecN n K) i
      simp only at this
      rw [h2] at this
      injection this with this
      rw [← this]; exact h3
    · intro h1 i hi
      have hi' : i < n := by rw [← hl]; exact hi
      exact ⟨_, comp_eq (⟨⟨c⟩, h⟩ : VecN n K) ⟨i, hi'⟩, h1 ⟨i, hi'⟩⟩

/-- Components of vectorized coefficients. -/
instance vecLanes [DecidableEq K] : Lanes (VecN n K) (Fin n) K where
  lane := laneOf
  lane_ofRat i q := by simp [Cf.ofRat, ofScalar, Vec.ofScalar, laneOf, comp]
  lane_add i a b := lane_opAssign (f := fun x y => x + y) (fun _ _ => rfl) (fun _ _ => rfl) (fun x y => add_comm y x) a a b i
  lane_sub i a b := lane_opAssign (f := fun x y => x - y) (fun _ _ => rfl) (fun _ _ => rfl) (fun _ _ => rfl) a a b i
  lane_mul i a b := lane_opAssign (f := fun x y => x * y) (fun _ _ => rfl) (fun _ _ => rfl) (fun _ _ => rfl) a a b i
  lane_neg i a := lane_map (fun x => -x) a i
  lane_div i a b := lane_opAssign (f := fun x y => x / y) (fun _ _ => rfl) (fun _ _ => rfl) (fun _ _ => rfl) a a b i
  isZero_iff a := by
    refine (all_iff a _).trans (forall_congr' fun i => ?_)
    simp
  isUnit_iff a := by
    refine (all_iff a _).trans (forall_congr' fun i => ?_)
    simp
  beq_iff a b := by
    refine (Vec.eq_spec a.1 b.1).trans ?_
    constructor
    · rintro ⟨-, h⟩ i
      by_cases h1 : joinSize a.1.size b.1.size = 1
      · have e1 : a.1.size = 1 ∧ b.1.size = 1 := by
          unfold joinSize at h1
          split_ifs at h1 with h2
          · exact ⟨h2, h1⟩
          · exact absurd h1 h2
        have h0 := h 0 (by omega)
        obtain ⟨x, hx⟩ := List.length_eq_one_iff.mp e1.1
        obtain ⟨y, hy⟩ := List.length_eq_one_iff.mp e1.2
        rw [hx, hy] at h0
        unfold laneOf
        rw [hx, hy]
        simpa [comp] using h0
      · have h2 := (joinSize_mem a b).resolve_left h1
        have := h i (by rw [h2]; exact i.2)
        rw [comp_eq, comp_eq] at this
        exact Option.some_injective _ this
    · intro h
      refine ⟨compat a b, fun i hi => ?_⟩
      have hn : 0 < n := Nat.pos_of_ne_zero (NeZero.ne n)
      by_cases h2 : joinSize a.1.size b.1.size = n
      · have := h ⟨i, by omega⟩
        have e := comp_eq a ⟨i, by omega⟩
        have e' := comp_eq b ⟨i, by omega⟩
        simp only at e e'
        rw [e, e', this]
      · have h1 := (joinSize_mem a b).resolve_right h2
        obtain rfl : i = 0 := by omega
        have e := comp_eq a ⟨0, hn⟩
        have e' := comp_eq b ⟨0, hn⟩
        simp only at e e'
        rw [e, e', h ⟨0, hn⟩]
  nonempty := ⟨⟨0, Nat.pos_of_ne_zero (NeZero.ne n)⟩⟩

theorem comp_abs_lt {q : K} [LinearOrder K] (v : VecN n K) :
    Vec.lt (Vec.map (fun x => |x|) v.1) (Vec.ofScalar q) = true ↔ ∀ i : Fin n, |laneOf i v| < q := by
  have hall := all_iff v fun x => decide (|x| < q)
  simp only [decide_eq_true_eq] at hall
  rw [← hall]
  obtain ⟨⟨c⟩, h⟩ := v
  rcases c with _ | ⟨a, _ | ⟨b, l⟩⟩
  · simp [Vec.lt, Vec.map, Vec.ofScalar, Vec.size]
  · simp [Vec.lt, Vec.map, Vec.ofScalar, Vec.size, Vec.lexLt]
  · simp [Vec.lt, Vec.map, Vec.ofScalar, Vec.size]

theorem comp_abs_gt {q : K} [LinearOrder K] (v : VecN n K) :
    Vec.gt (Vec.map (fun x => |x|) v.1) (Vec.ofScalar q) = true ↔ ∀ i : Fin n, |laneOf i v| > q := by
  have hall := all_iff v fun x => decide (q < |x|)
  simp only [decide_eq_true_eq] at hall
  simp only [gt_iff_lt]
  rw [← hall]
  obtain ⟨⟨c⟩, h⟩ := v
  rcases c with _ | ⟨a, _ | ⟨b, l⟩⟩
  · simp [Vec.gt, Vec.map, Vec.ofScalar, Vec.size]
  · simp [Vec.gt, Vec.map, Vec.ofScalar, Vec.size, Vec.lexLt]
  · simp [Vec.gt, Vec.map, Vec.ofScalar, Vec.size]

instance vecLanesOrd [LinearOrder K] : LanesOrd (VecN n K) (Fin n) K where
  absLt_iff c _ := comp_abs_lt c
  absGt_iff c _ := comp_abs_gt c

open Classical in
/-- Functions of the standard library on vectors of real numbers (overloads_vectorized.hpp:36-84): element by element. -/
noncomputable instance vecCfFun : CfFun (VecN n ℝ) where
  toCf := vecCf
  exp := map Real.exp
  log := map Real.log
  sqrt := map Real.sqrt
  cbrt := map Spec.cbrt
  sin := map Real.sin
  cos := map Real.cos
  tan := map Real.tan
  sinh := map Real.sinh
  cosh := map Real.cosh
  tanh := map Real.tanh
  asin := map Real.arcsin
  acos := map Real.arccos
  atan := map Real.arctan
  asinh := map Real.arsinh
  acosh := map Real.arcosh
  atanh := map Real.artanh
  erf := map Spec.erf
  pow c q := map (fun x => x ^ (q : ℝ)) c
  powBase q c := map (fun x => (q : ℝ) ^ x) c
  pi := ofScalar Real.pi
  twoOverSqrtPi := ofScalar (2 / √Real.pi)
  logOk c := c.1.c.all fun x => decide (0 < x)
  sqrtOk c := c.1.c.all fun x => decide (0 ≤ x)
  tanOk c := c.1.c.all fun x => decide (Real.cos x ≠ 0)
  asinOk c := c.1.c.all fun x => decide (|x| ≤ 1)
  acoshOk c := c.1.c.all fun x => decide (1 ≤ x)
  atanhOk c := c.1.c.all fun x => decide (|x| < 1)
  powOk c q := c.1.c.all fun x => decide (Spec.PowDom x q)
  powBaseOk q c := c.1.c.all fun x => decide (Spec.PowDom q x)

open Classical in
theorem all_decide (v : VecN n ℝ) (P : ℝ → Prop) : (v.1.c.all fun x => decide (P x)) = true ↔ ∀ i : Fin n, P (laneOf i v) :=
  (all_iff v _).trans (forall_congr' fun i => by simp)

omit [NeZero n] in
theorem lane_ofScalar (x : ℝ) (i : Fin n) : laneOf i (ofScalar x) = x := by simp [ofScalar, Vec.ofScalar, laneOf, comp]

open Classical in
instance vecLanesFun : LanesFun (VecN n ℝ) (Fin n) where
  lane_exp i c := lane_map _ c i
  lane_log i c _ := lane_map _ c i
  lane_sqrt i c _ := lane_map _ c i
  lane_cbrt i c := (congrArg (· ^ 3) (lane_map _ c i)).trans (Spec.cbrt_cube _)
  lane_sin i c := lane_map _ c i
  lane_cos i c := lane_map _ c i
  lane_tan i c _ := lane_map _ c i
  lane_sinh i c := lane_map _ c i
  lane_cosh i c := lane_map _ c i
  lane_tanh i c := lane_map _ c i
  lane_asin i c _ := lane_map _ c i
  lane_acos i c _ := lane_map _ c i
  lane_atan i c := lane_map _ c i
  lane_asinh i c := lane_map _ c i
  lane_acosh i c _ := lane_map _ c i
  lane_atanh i c _ := lane_map _ c i
  lane_erf i c := lane_map _ c i
  lane_pow i c q _ := lane_map _ c i
  lane_powBase i q c _ := lane_map _ c i
  lane_pi i := lane_ofScalar _ i
  lane_twoOverSqrtPi i := lane_ofScalar _ i
  logOk_iff c := all_decide c _
  sqrtOk_iff c := all_decide c _
  tanOk_iff c := (all_iff c _).trans (forall_congr' fun i => by simp; rfl)
  asinOk_iff c := all_decide c _
  acoshOk_iff c := all_decide c _
  atanhOk_iff c := all_decide c _
  powOk_iff c q := all_decide c _
  powBaseOk_iff q c := all_decide c _

end VecN

end Audi
