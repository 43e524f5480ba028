import Verif.Proofs.Lanes
import Verif.Props.C05_Division
import Verif.Props.C09_Calculus
import Verif.Props.C13_Terms
import Verif.Props.C30_Inverse

/-!
# C34 - C37, C20, C32: vectorized coefficients

`comp l i` is the `i`-th component with broadcasting, `Compat` and `joinSize` say which sizes can be combined and what the resulting size is,
`GDual.proj i d` is component `i` of a gdual (`Spec/Vectorized.lean`). The coefficients of a gdual in a program with common size `n` have type `VecN n K`
(size 1 or `n`).
-/

namespace Audi

open MvPolynomial Spec GDual Filter Topology

/-! ### C34 -/

section arithmetic
variable {K : Type} [Field K] [DecidableEq K] (a b : Vec K)

omit [DecidableEq K] in
/-- **C34.** Addition: component-wise with broadcasting; it throws iff the sizes are incompatible. -/
theorem C34_add : (Compat a.size b.size → ∃ r, a.add b = .ok r ∧ r.size = joinSize a.size b.size ∧
      ∀ i, comp r.c i = Option.map₂ (fun x y => x + y) (comp a.c i) (comp b.c i)) ∧
    (¬ Compat a.size b.size → a.add b = .error .invalidArgument) :=
  Vec.opAssign_spec (fun _ _ => rfl) (fun _ _ => rfl) (fun x y => add_comm y x) a b

omit [DecidableEq K] in
/-- **C34.** Subtraction. -/
theorem C34_sub : (Compat a.size b.size → ∃ r, a.sub b = .ok r ∧ r.size = joinSize a.size b.size ∧
      ∀ i, comp r.c i = Option.map₂ (fun x y => x - y) (comp a.c i) (comp b.c i)) ∧
    (¬ Compat a.size b.size → a.sub b = .error .invalidArgument) :=
  Vec.opAssign_spec (fun _ _ => rfl) (fun _ _ => rfl) (fun _ _ => rfl) a b

omit [DecidableEq K] in
/-- **C34.** Multiplication. -/
theorem C34_mul : (Compat a.size b.size → ∃ r, a.mul b = .ok r ∧ r.size = joinSize a.size b.size ∧
      ∀ i, comp r.c i = Option.map₂ (fun x y => x * y) (comp a.c i) (comp b.c i)) ∧
    (¬ Compat a.size b.size → a.mul b = .error .invalidArgument) :=
  Vec.opAssign_spec (fun _ _ => rfl) (fun _ _ => rfl) (fun _ _ => rfl) a b

/-- **C34.** Division; not finite iff some divisor is zero. -/
theorem C34_div :
    (¬ Compat a.size b.size → a.div b = .error .invalidArgument) ∧
    (Compat a.size b.size → (0 : K) ∉ b.c → ∃ r, a.div b = .ok r ∧ r.size = joinSize a.size b.size ∧
      ∀ i, comp r.c i = Option.map₂ (fun x y => x / y) (comp a.c i) (comp b.c i)) ∧
    (Compat a.size b.size → (0 : K) ∈ b.c → a.size ≠ 0 → a.div b = .error .nonFinite) := Vec.div_spec a b

omit [DecidableEq K] in
/-- **C34.** Negation and the other element-wise functions; `operator[]` reads the components. -/
theorem C34_map (f : K → K) : (∀ i, comp a.neg.c i = (comp a.c i).map fun x => -x) ∧ a.neg.size = a.size ∧
    (∀ i, comp (a.map f).c i = (comp a.c i).map f) ∧ (a.map f).size = a.size ∧
    ∀ i x, comp a.c i = some x → a.get i = .ok x := by
  refine ⟨comp_map _ _, by simp [Vec.neg, Vec.size], comp_map _ _, by simp [Vec.map, Vec.size], fun i x h => ?_⟩
  rw [Vec.get_eq, h]

omit [Field K] [DecidableEq K] in
/-- **C34.** Empty vectors cannot be built: the constructors from lists throw iff the list is empty, and the results of all operations on non empty
vectors are not empty. -/
theorem C34_not_empty (l : List K) : (Vec.ofList l = .error .invalidArgument ↔ l = []) ∧ (l ≠ [] → Vec.ofList l = .ok ⟨l⟩) ∧
    ∀ m n : ℕ, m ≠ 0 → n ≠ 0 → joinSize m n ≠ 0 := by
  unfold Vec.ofList joinSize
  refine ⟨?_, fun h => ?_, fun m n hm hn => ?_⟩
  · split_ifs with h
    · simpa using h
    · simpa using h
  · rw [if_neg (by simpa using h)]
  · split_ifs <;> assumption

example : Vec.add (⟨[1, 2, 3]⟩ : Vec ℚ) ⟨[10]⟩ = .ok ⟨[11, 12, 13]⟩ ∧ Vec.sub (⟨[1]⟩ : Vec ℚ) ⟨[1, 2]⟩ = .ok ⟨[0, -1]⟩ ∧
    Vec.mul (⟨[1, 2]⟩ : Vec ℚ) ⟨[1, 2, 3]⟩ = .error .invalidArgument ∧ Compat (Vec.size (⟨[1, 2, 3]⟩ : Vec ℚ)) (Vec.size (⟨[10]⟩ : Vec ℚ)) ∧
    ¬ Compat (Vec.size (⟨[1, 2]⟩ : Vec ℚ)) (Vec.size (⟨[1, 2, 3]⟩ : Vec ℚ)) ∧ (0 : ℚ) ∉ (⟨[1, 2]⟩ : Vec ℚ).c := by decide +kernel

end arithmetic

/-! ### C35 -/

/-- **C35 (partial).** `fma3(ret, x, y)` is `ret + x * y` component-wise with broadcasting for all compatible sizes, and it throws for incompatible sizes if one of
the sizes is 1. In the remaining case (three incompatible sizes, none of them 1) it does not throw: `C35_counterexample`. -/
theorem C35_fma3_partial {K : Type} [Field K] (ret x y : Vec K) :
    (Compat ret.size x.size ∧ Compat ret.size y.size ∧ Compat x.size y.size →
      ∃ r, Vec.fma3 ret x y = .ok r ∧ r.size = joinSize ret.size (joinSize x.size y.size) ∧
        ∀ i, comp r.c i = Option.map₂ (fun r p => r + p) (comp ret.c i)
          (Option.map₂ (fun a b => a * b) (comp x.c i) (comp y.c i))) ∧
    (¬ (Compat ret.size x.size ∧ Compat ret.size y.size ∧ Compat x.size y.size) →
      (ret.size = 1 ∨ x.size = 1 ∨ y.size = 1) → Vec.fma3 ret x y = .error .invalidArgument) :=
  ⟨(Vec.fma3_spec ret x y).1, (Vec.fma3_spec ret x y).2.1⟩

/-- **C35 (counterexample).** Sizes 2, 3, 2 are incompatible, but `fma3` does not throw: the first argument is returned unchanged. This is so for all
incompatible sizes different from 1. -/
theorem C35_counterexample :
    (∃ ret x y : Vec ℚ, ¬ Compat ret.size x.size ∧ Vec.fma3 ret x y = .ok ret) ∧
    ∀ ret x y : Vec ℚ, ¬ (Compat ret.size x.size ∧ Compat ret.size y.size ∧ Compat x.size y.size) →
      ¬ (ret.size = 1 ∨ x.size = 1 ∨ y.size = 1) → Vec.fma3 ret x y = .ok ret :=
  ⟨⟨⟨[1, 2]⟩, ⟨[1, 2, 3]⟩, ⟨[1, 2]⟩, by decide, by decide +kernel⟩, fun ret x y => (Vec.fma3_spec ret x y).2.2⟩

example : Vec.fma3 (⟨[1]⟩ : Vec ℚ) ⟨[1, 2]⟩ ⟨[3, 4]⟩ = .ok ⟨[4, 9]⟩ ∧ Vec.fma3 (⟨[1, 2]⟩ : Vec ℚ) ⟨[1, 2]⟩ ⟨[3]⟩ = .ok ⟨[4, 8]⟩ ∧
    Vec.fma3 (⟨[1]⟩ : Vec ℚ) ⟨[1, 2]⟩ ⟨[3, 4, 5]⟩ = .error .invalidArgument := by decide +kernel

/-! ### C36 -/

section comparisons
variable {T : Type} [LinearOrder T] (a b : Vec T)

omit [LinearOrder T] in
/-- **C36.** `==` is equality of the broadcast vectors, `!=` is its negation, and `==` is reflexive and symmetric. -/
theorem C36_eq [DecidableEq T] : (a.eq b = true ↔ Compat a.size b.size ∧ ∀ i < joinSize a.size b.size, comp a.c i = comp b.c i) ∧
    a.ne b = !a.eq b ∧ a.eq a = true ∧ a.eq b = b.eq a := by
  refine ⟨Vec.eq_spec a b, rfl, (Vec.eq_spec a a).mpr ⟨Or.inl rfl, fun _ _ => rfl⟩, ?_⟩
  rw [Bool.eq_iff_iff, Vec.eq_spec, Vec.eq_spec]
  have h1 : Compat a.size b.size ↔ Compat b.size a.size := by unfold Compat; tauto
  rw [h1]
  refine and_congr_right fun hc => ?_
  have h2 : joinSize a.size b.size = joinSize b.size a.size := by
    unfold joinSize
    rcases hc with h | h | h
    · rw [h]
    · rw [if_pos h]; split_ifs with h'; exacts [h.trans h'.symm, rfl]
    · rw [if_pos h]; split_ifs with h'; exacts [h'.trans h.symm, rfl]
  rw [h2]
  exact forall₂_congr fun i _ => eq_comm

/-- **C36 (partial).** `==` is transitive for vectors of sizes 1 and `n`; it is not in general: `C36_eq_counterexample`. -/
theorem C36_eq_trans_partial {K : Type} [Field K] [DecidableEq K] {n : ℕ} [NeZero n] (a b c : VecN n K) (h1 : a.1.eq b.1 = true) (h2 : b.1.eq c.1 = true) :
    a.1.eq c.1 = true := by
  have h : ∀ a b : VecN n K, a.1.eq b.1 = true ↔ ∀ i : Fin n, VecN.laneOf i a = VecN.laneOf i b := Lanes.beq_iff
  rw [h] at *
  exact fun i => (h1 i).trans (h2 i)

/-- **C36 (counterexample).** `==` is not transitive: `[1,1] == [1]`, `[1] == [1,1,1]`, but not `[1,1] == [1,1,1]`. -/
theorem C36_eq_counterexample : ∃ a b c : Vec ℚ, a.eq b = true ∧ b.eq c = true ∧ a.eq c = false :=
  ⟨⟨[1, 1]⟩, ⟨[1]⟩, ⟨[1, 1, 1]⟩, by decide +kernel⟩

/-- Lexicographic comparison of vectors of the same size. -/
theorem lexLt_iff (l l' : List T) (h : l.length = l'.length) : Vec.lexLt l l' = true ↔
    ∃ k : ℕ, (∀ j < k, l[j]? = l'[j]?) ∧ ∃ x y, l[k]? = some x ∧ l'[k]? = some y ∧ x < y := by
  induction l generalizing l' with
  | nil =>
    cases l' with
    | nil => simp [Vec.lexLt]
    | cons y l' => simp at h
  | cons x l ih =>
    cases l' with
    | nil => simp at h
    | cons y l' =>
      have h' : l.length = l'.length := by simpa using h
      unfold Vec.lexLt
      split_ifs with h1 h2
      · simp only [true_iff]
        exact ⟨0, fun j hj => absurd hj (by omega), x, y, rfl, rfl, h1⟩
      · simp only [false_iff]
        rintro ⟨k, h3, u, v, h4, h5, h6⟩
        cases k with
        | zero =>
          simp only [List.getElem?_cons_zero, Option.some.injEq] at h4 h5
          subst h4 h5
          exact h1 h6
        | succ k =>
          have := h3 0 (by omega)
          simp only [List.getElem?_cons_zero, Option.some.injEq] at this
          subst this
          exact lt_irrefl _ h2
      · rw [ih l' h']
        have hxy : x = y := le_antisymm (not_lt.mp h2) (not_lt.mp h1)
        subst hxy
        constructor
        · rintro ⟨k, h3, u, v, h4, h5, h6⟩
          refine ⟨k + 1, fun j hj => ?_, u, v, by simpa using h4, by simpa using h5, h6⟩
          cases j with
          | zero => rfl
          | succ j => simpa using h3 j (by omega)
        · rintro ⟨k, h3, u, v, h4, h5, h6⟩
          cases k with
          | zero =>
            simp only [List.getElem?_cons_zero, Option.some.injEq] at h4 h5
            subst h4
            exact absurd (h5 ▸ h6) (lt_irrefl _)
          | succ k =>
            exact ⟨k, fun j hj => by simpa using h3 (j + 1) (by omega), u, v, by simpa using h4, by simpa using h5, h6⟩

omit [LinearOrder T] in
theorem comp_eq_getElem? {l : List T} {i : ℕ} (h : i < l.length) : comp l i = l[i]? := by
  unfold comp
  split_ifs with h1
  · obtain rfl : i = 0 := by omega
    rfl
  · rfl

/-- **C36.** `a < b` iff `b > a`. -/
theorem C36_lt_gt : a.lt b = b.gt a := by
  obtain ⟨a⟩ := a
  obtain ⟨b⟩ := b
  unfold Vec.lt Vec.gt Vec.size
  by_cases h : a.length = b.length
  · rw [if_pos h, if_pos h.symm]
  · rw [if_neg h, if_neg (Ne.symm h)]
    rcases a with _ | ⟨u, _ | ⟨v, l⟩⟩ <;> rcases b with _ | ⟨u', _ | ⟨v', l'⟩⟩ <;> rfl

/-- **C36 (partial).** What the orders decide: vectors of the same size are compared lexicographically, vectors of different sizes by all the
components. They are therefore not compatible with broadcasting (`C36_order_counterexample`). -/
theorem C36_lt_partial :
    (a.size = b.size → (a.lt b = true ↔ ∃ k, (∀ j < k, comp a.c j = comp b.c j) ∧
      ∃ x y, k < a.size ∧ comp a.c k = some x ∧ comp b.c k = some y ∧ x < y)) ∧
    (a.size ≠ b.size → (a.lt b = true ↔ Compat a.size b.size ∧
      ∀ i < joinSize a.size b.size, ∃ x y, comp a.c i = some x ∧ comp b.c i = some y ∧ x < y)) := by
  constructor
  · intro h
    unfold Vec.lt
    rw [if_pos h, lexLt_iff _ _ h]
    constructor
    · rintro ⟨k, h1, x, y, h2, h3, h4⟩
      have hk : k < a.c.length := (List.getElem?_eq_some_iff.mp h2).1
      have hk' : k < b.c.length := (List.getElem?_eq_some_iff.mp h3).1
      exact ⟨k, fun j hj => by rw [comp_eq_getElem? (by omega), comp_eq_getElem? (by omega), h1 j hj], x, y, hk,
        by rw [comp_eq_getElem? hk, h2], by rw [comp_eq_getElem? hk', h3], h4⟩
    · rintro ⟨k, h1, x, y, hk, h2, h3, h4⟩
      have hk' : k < b.c.length := by unfold Vec.size at h hk; omega
      have hk : k < a.c.length := hk
      refine ⟨k, fun j hj => ?_, x, y, by rw [← comp_eq_getElem? hk, h2], by rw [← comp_eq_getElem? hk', h3], h4⟩
      have := h1 j hj
      rwa [comp_eq_getElem? (by omega), comp_eq_getElem? (by omega)] at this
  · intro h
    refine (Vec.cmp_broadcast a b h (Vec.lexLt a.c b.c) (fun x y => decide (x < y)) (fun x y => decide (x < y)) fun _ _ => rfl).trans ?_
    simp only [decide_eq_true_eq]

/-- **C36 (counterexample).** The orders are not compatible with broadcasting: `[1,1] < [2,0]`, but not `[1] < [2,0]`, although `[1] == [1,1]`. `<` is not transitive:
`[0,5] < [1,0]`, `[1,0] < [2]`, but not `[0,5] < [2]`. -/
theorem C36_order_counterexample :
    (∃ a a' b : Vec ℚ, a.eq a' = true ∧ a.lt b = true ∧ a'.lt b = false) ∧
    ∃ a b c : Vec ℚ, a.lt b = true ∧ b.lt c = true ∧ a.lt c = false :=
  ⟨⟨⟨[1, 1]⟩, ⟨[1]⟩, ⟨[2, 0]⟩, by decide +kernel⟩, ⟨[0, 5]⟩, ⟨[1, 0]⟩, ⟨[2]⟩, by decide +kernel⟩

example : Vec.lt (⟨[1]⟩ : Vec ℚ) ⟨[2, 3]⟩ = true ∧ Vec.lt (⟨[1, 3]⟩ : Vec ℚ) ⟨[2, 2]⟩ = true ∧ Vec.eq (⟨[1]⟩ : Vec ℚ) ⟨[1, 1]⟩ = true := by
  decide +kernel

end comparisons

/-! ### C37 -/

section bridge
variable {K : Type} [Field K] [DecidableEq K] {n : ℕ}

/-- **C37.** The operations on vectors of sizes 1 and `n` never throw, so the coefficient type `VecN n K` of the model computes what the C++ operations
compute; in particular `fma3` is the combination of `*` and `+`. -/
theorem C37_no_throw (a b c : VecN n K) :
    Vec.add a.1 b.1 = .ok (Cf.add a b).1 ∧ Vec.sub a.1 b.1 = .ok (Cf.sub a b).1 ∧ Vec.mul a.1 b.1 = .ok (Cf.mul a b).1 ∧
    Vec.neg a.1 = (Cf.neg a).1 ∧ ((0 : K) ∉ b.1.c → Vec.div a.1 b.1 = .ok (Cf.div a b).1) ∧
    Vec.fma3 a.1 b.1 c.1 = .ok (Cf.add a (Cf.mul b c)).1 := by
  have hadd : ∀ a b : VecN n K, Vec.add a.1 b.1 = .ok (Cf.add a b).1 := fun a b =>
    (VecN.opAssign_ok (f := fun x y => x + y) (fun _ _ => rfl) (fun _ _ => rfl) (fun x y => add_comm y x) a a b).1
  have hmul : ∀ a b : VecN n K, Vec.mul a.1 b.1 = .ok (Cf.mul a b).1 := fun a b =>
    (VecN.opAssign_ok (f := fun x y => x * y) (fun _ _ => rfl) (fun _ _ => rfl) (fun _ _ => rfl) a a b).1
  have hdiv := (VecN.opAssign_ok (f := fun x y => x / y) (full := fun x y => x / y) (right := fun x y => x / y) (left := fun x y => x / y)
    (fun _ _ => rfl) (fun _ _ => rfl) (fun _ _ => rfl) a a b).1
  refine ⟨hadd a b, (VecN.opAssign_ok (f := fun x y => x - y) (fun _ _ => rfl) (fun _ _ => rfl) (fun _ _ => rfl) a a b).1, hmul a b,
    rfl, fun h0 => ?_, ?_⟩
  · unfold Vec.div
    rw [bind_ok hdiv, if_neg]
    · rfl
    · simp only [Bool.and_eq_true, List.any_eq_true, decide_eq_true_eq, not_and]
      rintro ⟨x, hx, rfl⟩
      exact absurd hx h0
  · obtain ⟨r, h1, h2, h3⟩ := (Vec.fma3_spec a.1 b.1 c.1).1 ⟨VecN.compat a b, VecN.compat a c, VecN.compat b c⟩
    obtain ⟨p, g1, g2, g3⟩ := (C34_mul b.1 c.1).1 (VecN.compat b c)
    rw [hmul] at g1
    injection g1 with g1
    obtain ⟨q, k1, k2, k3⟩ := (C34_add a.1 (Cf.mul b c).1).1 (VecN.compat _ _)
    rw [hadd] at k1
    injection k1 with k1
    rw [h1, k1]
    congr 1
    obtain ⟨r⟩ := r
    obtain ⟨q⟩ := q
    have hlen : r.length = q.length := by
      have e1 : r.length = joinSize a.1.size (joinSize b.1.size c.1.size) := h2
      have e2 : q.length = joinSize a.1.size (Cf.mul b c).1.size := k2
      rw [e1, e2, g1, g2]
    rw [(Vec.comp_ext hlen).mpr fun i _ => ?_]
    rw [h3 i, k3 i, g1, g3 i]

example : ∃ a b : VecN 2 ℚ, a.1 = ⟨[1, 2]⟩ ∧ b.1 = ⟨[10]⟩ ∧ (Cf.add a b).1 = ⟨[11, 12]⟩ :=
  ⟨⟨⟨[1, 2]⟩, by decide⟩, ⟨⟨[10]⟩, by decide⟩, rfl, rfl, by decide +kernel⟩

end bridge

section operations
variable {C : Type} [Cf C] {ι : Type} {K : Type} [Field K] [Lanes C ι K] [DecidableEq K] {a b d r : GDual C} {s : C}

/-- **C37.** The ring operations compute each component independently: component `i` of the result is the result of the operation on the components `i` of the
operands. -/
theorem C37_ring (ha : a.Valid) (hb : b.Valid) (s : C) (i : ι) :
    GDual.eq ((a.add b).proj i) ((a.proj i).add (b.proj i)) = true ∧
    GDual.eq ((a.sub b).proj i) ((a.proj i).sub (b.proj i)) = true ∧
    GDual.eq ((a.mul b).proj i) ((a.proj i).mul (b.proj i)) = true ∧
    GDual.eq (a.neg.proj i) (a.proj i).neg = true ∧
    GDual.eq ((addSG s b).proj i) (addSG (Lanes.lane i s) (b.proj i)) = true ∧
    GDual.eq ((addGS b s).proj i) (addGS (b.proj i) (Lanes.lane i s)) = true ∧
    GDual.eq ((subSG s b).proj i) (subSG (Lanes.lane i s) (b.proj i)) = true ∧
    GDual.eq ((subGS b s).proj i) (subGS (b.proj i) (Lanes.lane i s)) = true ∧
    GDual.eq ((mulSG s b).proj i) (mulSG (Lanes.lane i s) (b.proj i)) = true ∧
    GDual.eq ((mulGS b s).proj i) (mulGS (b.proj i) (Lanes.lane i s)) = true := by
  have ha' := valid_proj ha i
  have hb' := valid_proj hb i
  refine ⟨eq_proj (ha.add hb) (ha'.add hb') ?_, eq_proj (ha.sub hb) (ha'.sub hb') ?_, eq_proj (ha.mul hb) (ha'.mul hb') (toMv_mul_lane ha hb i),
    eq_proj (Valid.neg (ι := ι) (K := K) ha) (Valid.neg (ι := Unit) (K := K) ha') ?_,
    eq_proj (hb.addSG s) (hb'.addSG _) ?_, eq_proj (hb.addGS s) (hb'.addGS _) ?_, eq_proj (hb.subSG s) (hb'.subSG _) ?_,
    eq_proj (hb.subGS s) (hb'.subGS _) ?_, eq_proj (hb.mulSG s) (hb'.mulSG _) ?_, eq_proj (hb.mulGS s) (hb'.mulGS _) ?_⟩
  · rw [toMv_add ha hb, toMv_add ha' hb', toMv_proj, toMv_proj]
  · rw [toMv_sub ha hb, toMv_sub ha' hb', toMv_proj, toMv_proj]
  · rw [toMv_neg, toMv_neg, toMv_proj]
  · rw [toMv_addSG s hb, toMv_addSG _ hb', toMv_proj]; rfl
  · rw [toMv_addGS s hb, toMv_addGS _ hb', toMv_proj]; rfl
  · rw [toMv_subSG s hb, toMv_subSG _ hb', toMv_proj]; rfl
  · rw [toMv_subGS s hb, toMv_subGS _ hb', toMv_proj]; rfl
  · rw [toMv_mulSG s hb, toMv_mulSG _ hb', toMv_proj]; rfl
  · rw [toMv_mulGS s hb, toMv_mulGS _ hb', toMv_proj]; rfl

/-- **C37.** Division by a gdual: when it succeeds it succeeds in each component, with the component of the result. -/
theorem C37_div (ha : a.Valid) (hb : b.Valid) (h : a.div b = .ok r) (i : ι) :
    ∃ r', (a.proj i).div (b.proj i) = .ok r' ∧ r'.getOrder = r.getOrder ∧ GDual.eq (r.proj i) r' = true := by
  have ha' := valid_proj ha i
  have hb' := valid_proj hb i
  by_cases h0 : ∀ i : ι, coeff 0 (b.toMv i) ≠ (0 : K)
  · obtain ⟨r1, h1, h2, h3, h4⟩ := div_spec' ha hb h0
    rw [h] at h1
    injection h1 with h1
    subst h1
    obtain ⟨r', g1, g2, g3, g4⟩ := div_spec' (ι := Unit) (K := K) ha' hb' fun _ => by rw [toMv_proj]; exact h0 i
    refine ⟨r', g1, g3.trans h3.symm, eq_proj h2 g2 ?_⟩
    obtain ⟨I, e1, e2, e3⟩ := h4 i
    obtain ⟨J, f1, f2, f3⟩ := g4 ()
    rw [toMv_proj] at f2 f3
    have hIJ : I = J := (inv_unique e2 f2).eq_of_degLE e1 f1
    subst hIJ
    refine EqUpTo.eq_of_degLE (m := max a.order b.order) (e3.trans (EqUpTo.symm ?_)) ?_ ?_
    · exact f3
    · rw [← h3]; exact h2.degLE i
    · have := Valid.degLE (ι := Unit) (K := K) g2 ()
      rw [g3] at this; exact this
  · have hz : a.p.terms = [] := by
      by_contra hne
      rw [div_error (ι := ι) (K := K) hb h0 hne] at h
      cases h
    have hz' := (terms_nil_iff (ι := ι) (K := K) ha).mp hz
    obtain ⟨r1, h1, h2, h3⟩ := C05_zero_dividend (ι := ι) (K := K) ha hb hz'
    rw [h] at h1
    injection h1 with h1
    subst h1
    obtain ⟨r', g1, g2, g3⟩ := C05_zero_dividend (ι := Unit) (K := K) ha' hb' fun _ => by rw [toMv_proj, hz']
    have hv : r.Valid := ha.div hb h
    have hv' : r'.Valid := Valid.div ha' hb' g1
    exact ⟨r', g1, g2.trans h2.symm, eq_proj hv hv' (by rw [h3, g3])⟩

/-- **C37.** Division of a scalar by a gdual. -/
theorem C37_div_scalar_gdual (hb : b.Valid) (h : divSG s b = .ok r) (i : ι) :
    ∃ r', divSG (Lanes.lane i s) (b.proj i) = .ok r' ∧ r'.getOrder = r.getOrder ∧ GDual.eq (r.proj i) r' = true := by
  have hb' := valid_proj hb i
  by_cases h0 : ∀ i : ι, coeff 0 (b.toMv i) ≠ (0 : K)
  · obtain ⟨r1, h1, h2, h3, h4⟩ := divSG_spec s hb h0
    rw [h] at h1
    injection h1 with h1
    subst h1
    obtain ⟨r', g1, g2, g3, g4⟩ := divSG_spec (ι := Unit) (K := K) (Lanes.lane i s : K) hb' fun _ => by rw [toMv_proj]; exact h0 i
    refine ⟨r', g1, g3.trans h3.symm, eq_proj h2 g2 ?_⟩
    obtain ⟨I, e2, e3⟩ := h4 i
    obtain ⟨J, f2, f3⟩ := g4 ()
    rw [toMv_proj] at f2
    refine EqUpTo.eq_of_degLE (m := b.order) (e3.trans (EqUpTo.symm (f3.trans ?_))) ?_ ?_
    · exact (EqUpTo.refl _).mul (inv_unique e2 f2).symm
    · rw [← h3]; exact h2.degLE i
    · have := Valid.degLE (ι := Unit) (K := K) g2 ()
      rw [g3] at this; exact this
  · have hz : Cf.isZero s = true := by
      by_contra hne
      rw [divSG_error (ι := ι) (K := K) hb h0 (by simpa using hne)] at h
      cases h
    have hs : (Lanes.lane i s : K) = 0 := (Lanes.isZero_iff (ι := ι) (K := K) s).mp hz i
    rw [divSG_empty (ι := ι) (K := K) hb h0 hz] at h
    injection h with h
    subst h
    have hr : ((mulSG s b).toMv i : MvPolynomial String K) = 0 := by rw [toMv_mulSG s hb, hs]; simp
    by_cases h1 : ∀ _ : Unit, coeff 0 ((b.proj i).toMv ()) ≠ (0 : K)
    · obtain ⟨r', g1, g2, g3, g4⟩ := divSG_spec (ι := Unit) (K := K) (Lanes.lane i s : K) hb' h1
      refine ⟨r', g1, g3.trans (order_mulSG s b).symm, eq_proj (hb.mulSG s) g2 ?_⟩
      rw [hr]
      obtain ⟨J, -, f3⟩ := g4 ()
      have hs' : (Lanes.lane () (Lanes.lane i s : K) : K) = 0 := hs
      rw [hs', map_zero, zero_mul] at f3
      refine (f3.eq_of_degLE ?_ fun _ _ => by simp).symm
      have := Valid.degLE (ι := Unit) (K := K) g2 ()
      rw [g3] at this; exact this
    · refine ⟨_, divSG_empty (ι := Unit) (K := K) hb' h1 ?_, (order_mulSG _ _).trans (order_mulSG s b).symm, eq_proj (hb.mulSG s) (hb'.mulSG _) ?_⟩
      · rw [Lanes.isZero_iff (ι := Unit) (K := K)]; exact fun _ => hs
      · rw [hr, toMv_mulSG _ hb']
        have hs' : (Lanes.lane () (Lanes.lane i s : K) : K) = 0 := hs
        rw [hs', map_zero, zero_mul]

/-- **C37.** Division of a gdual by a scalar. -/
theorem C37_div_gdual_scalar (ha : a.Valid) (h : a.divGS s = .ok r) (i : ι) :
    ∃ r', (a.proj i).divGS (Lanes.lane i s) = .ok r' ∧ r'.getOrder = r.getOrder ∧ GDual.eq (r.proj i) r' = true := by
  have ha' := valid_proj ha i
  by_cases hu : Cf.isUnit s = true
  · rw [divGS_eq hu] at h
    injection h with h
    subst h
    have hu' : Cf.isUnit (Lanes.lane i s : K) = true :=
      (Lanes.isUnit_iff (ι := Unit) (K := K) _).mpr fun _ => (Lanes.isUnit_iff (ι := ι) (K := K) s).mp hu i
    refine ⟨_, divGS_eq hu', (order_mulGS _ _).trans (order_mulGS (Cf.div (Cf.ofRat 1) s) a).symm, eq_proj (ha.mulGS _) (ha'.mulGS _) ?_⟩
    rw [toMv_mulGS_div s ha, toMv_mulGS_div _ ha', toMv_proj]; rfl
  · by_cases he : a.p.terms = []
    · rw [divGS_empty hu he] at h
      injection h with h
      subst h
      have he' : (a.proj i).p.terms = [] := by simp [GDual.proj, he]
      have hz : (a.toMv i : MvPolynomial String K) = 0 := (terms_nil_iff (ι := ι) (K := K) ha).mp he i
      by_cases hu' : Cf.isUnit (Lanes.lane i s : K) = true
      · refine ⟨_, divGS_eq hu', order_mulGS _ _, eq_proj ha (ha'.mulGS _) ?_⟩
        rw [toMv_mulGS_div _ ha', toMv_proj, hz, zero_mul]
      · exact ⟨_, divGS_empty hu' he', rfl, eq_proj ha ha' (toMv_proj i a).symm⟩
    · rw [divGS_error hu he] at h
      cases h

/-- **C37.** Derivatives, integrals, substitutions, extraction of terms, coefficients and evaluation. -/
theorem C37_calculus [CharZero K] (hd : d.Valid) (hb : b.Valid) (x : String) (s : C) (i : ι) :
    (∀ r, d.partial' x = .ok r → ∃ r', (d.proj i).partial' x = .ok r' ∧ GDual.eq (r.proj i) r' = true) ∧
    (∀ r, d.integrate x = .ok r → ∃ r', (d.proj i).integrate x = .ok r' ∧ GDual.eq (r.proj i) r' = true) ∧
    GDual.eq ((d.subsVal x s).proj i) ((d.proj i).subsVal x (Lanes.lane i s)) = true ∧
    GDual.eq ((d.subs x b).proj i) ((d.proj i).subs x (b.proj i)) = true ∧
    (∀ k r, d.extractTerms k = .ok r → ∃ r', (d.proj i).extractTerms k = .ok r' ∧ GDual.eq (r.proj i) r' = true) ∧
    (∀ e c, d.findCf e = .ok c → (d.proj i).findCf e = .ok (Lanes.lane i c)) ∧
    (∀ e c, d.getDerivative e = .ok c → (d.proj i).getDerivative e = .ok (Lanes.lane i c)) := by
  have hd' := valid_proj hd i
  have hb' := valid_proj hb i
  have hfind : ∀ e c, d.findCf e = .ok c → (d.proj i).findCf e = .ok (Lanes.lane i c) := fun e c h => by
    have h1 := findCf_ok h
    obtain ⟨c', hc'⟩ : ∃ c', (d.proj i).findCf e = .ok c' := by
      unfold findCf
      rw [if_neg (by unfold expSum; exact not_lt.mpr h1.1), if_neg (by unfold symbolSetSize; exact not_not.mpr h1.2)]
      split <;> exact ⟨_, rfl⟩
    have h2 := lane_findCf (ι := Unit) (K := K) hd' hc' ()
    rw [toMv_proj] at h2
    have h3 := lane_findCf (K := K) hd h i
    rw [hc']
    congr 1
    exact h2.trans h3.symm
  refine ⟨fun r h => ?_, fun r h => ?_, eq_proj (hd.subsVal x s) (hd'.subsVal x _) ?_,
    eq_proj (Valid.subs (ι := ι) (K := K) hd hb x) (Valid.subs (ι := Unit) (K := K) hd' hb' x) ?_, fun k r h => ?_, hfind, fun e c h => ?_⟩
  · obtain ⟨r', hr'⟩ : ∃ r', (d.proj i).partial' x = .ok r' := ⟨_, partial_ok.mpr ⟨(partial_ok.mp h).1, rfl⟩⟩
    exact ⟨r', hr', eq_proj (hd.partial' h) (hd'.partial' hr') (by rw [toMv_partial hd h, toMv_partial hd' hr', toMv_proj])⟩
  · obtain ⟨r', hr'⟩ : ∃ r', (d.proj i).integrate x = .ok r' := ⟨_, integrate_ok.mpr ⟨(integrate_ok.mp h).1, rfl⟩⟩
    refine ⟨r', hr', eq_proj (hd.integrate h) (hd'.integrate hr') (MvPolynomial.ext _ _ fun m => ?_)⟩
    rw [coeff_integrate hd h, coeff_integrate hd' hr', toMv_proj]; rfl
  · rw [toMv_subsVal hd, toMv_subsVal hd', toMv_proj]; rfl
  · refine MvPolynomial.ext _ _ fun m => ?_
    rw [coeff_subs hd hb, coeff_subs hd' hb', toMv_proj, toMv_proj]; rfl
  · have hk : ¬ k > d.order := fun hk => by
      unfold GDual.extractTerms at h
      rw [if_pos hk] at h
      cases h
    obtain ⟨r', hr'⟩ : ∃ r', (d.proj i).extractTerms k = .ok r' := ⟨_, if_neg hk⟩
    refine ⟨r', hr', eq_proj (hd.extractTerms h) (hd'.extractTerms hr') (MvPolynomial.ext _ _ fun m => ?_)⟩
    rw [coeff_extractTerms hd h, coeff_extractTerms hd' hr', toMv_proj]
  · unfold getDerivative at h ⊢
    obtain ⟨c0, h1, h2⟩ := bind_ok_iff.mp h
    rw [bind_ok (hfind e c0 h1)]
    injection h2 with h2
    subst h2
    rw [Lanes.lane_mul, Lanes.lane_ofRat]
    rfl

end operations

section functions
variable {C : Type} [CfFun C] {ι : Type} [Lanes C ι ℝ] {d r : GDual C}

/-- **C37.** Every function that computes Taylor expansions, for vectorized and for scalar coefficients, computes each component independently. -/
theorem C37_function {f : GDual C → Res (GDual C)} {f' : GDual ℝ → Res (GDual ℝ)} {g : ℝ → ℝ} {dom : ℝ → Prop}
    (hf : Computes (ι := ι) f g dom) (hf' : Computes (ι := Unit) f' g dom) (hd : d.Valid) (h : f d = .ok r) (i : ι) :
    ∃ r', f' (d.proj i) = .ok r' ∧ r'.getOrder = r.getOrder ∧ GDual.eq (r.proj i) r' = true := by
  have hdom : ∀ i : ι, dom (coeff 0 (d.toMv i : MvPolynomial String ℝ)) := by
    by_contra hc
    rw [hf.undef d hd hc] at h
    cases h
  obtain ⟨r1, h1, h2⟩ := hf.lift d hd hdom
  rw [h] at h1
  injection h1 with h1
  subst h1
  obtain ⟨r', h3, h4⟩ := hf'.lift (d.proj i) (valid_proj hd i) fun _ => by rw [toMv_proj]; exact hdom i
  refine ⟨r', h3, h4.order.trans h2.order.symm, eq_proj h2.valid h4.valid ?_⟩
  have hF := isTaylor_poly (fun _ => 0) d.order (d.toMv i : MvPolynomial String ℝ)
  have t1 := h2.taylor i _ _ hF
  have t2 := h4.taylor () _ _ (by rw [toMv_proj]; exact hF)
  refine (t1.unique t2).eq_of_degLE ?_ ?_
  · rw [← h2.order]; exact h2.valid.degLE i
  · have := Valid.degLE (ι := Unit) (K := ℝ) h4.valid ()
    rw [h4.order] at this; exact this

variable [LanesFun C ι]

/-- **C37.** The functions of `C37_function`. -/
theorem C37_functions (hd : d.Valid) (i : ι) :
    (∀ r, exp d = .ok r → ∃ r', exp (d.proj i) = .ok r' ∧ r'.getOrder = r.getOrder ∧ GDual.eq (r.proj i) r' = true) ∧
    (∀ r, log d = .ok r → ∃ r', log (d.proj i) = .ok r' ∧ r'.getOrder = r.getOrder ∧ GDual.eq (r.proj i) r' = true) ∧
    (∀ r, sin d = .ok r → ∃ r', sin (d.proj i) = .ok r' ∧ r'.getOrder = r.getOrder ∧ GDual.eq (r.proj i) r' = true) ∧
    (∀ r, cos d = .ok r → ∃ r', cos (d.proj i) = .ok r' ∧ r'.getOrder = r.getOrder ∧ GDual.eq (r.proj i) r' = true) ∧
    (∀ r, tan d = .ok r → ∃ r', tan (d.proj i) = .ok r' ∧ r'.getOrder = r.getOrder ∧ GDual.eq (r.proj i) r' = true) ∧
    (∀ r, sinh d = .ok r → ∃ r', sinh (d.proj i) = .ok r' ∧ r'.getOrder = r.getOrder ∧ GDual.eq (r.proj i) r' = true) ∧
    (∀ r, cosh d = .ok r → ∃ r', cosh (d.proj i) = .ok r' ∧ r'.getOrder = r.getOrder ∧ GDual.eq (r.proj i) r' = true) ∧
    (∀ r, tanh d = .ok r → ∃ r', tanh (d.proj i) = .ok r' ∧ r'.getOrder = r.getOrder ∧ GDual.eq (r.proj i) r' = true) ∧
    (∀ r, asinh d = .ok r → ∃ r', asinh (d.proj i) = .ok r' ∧ r'.getOrder = r.getOrder ∧ GDual.eq (r.proj i) r' = true) ∧
    (∀ r, atanh d = .ok r → ∃ r', atanh (d.proj i) = .ok r' ∧ r'.getOrder = r.getOrder ∧ GDual.eq (r.proj i) r' = true) :=
  ⟨fun _ h => C37_function C22_exp C22_exp hd h i, fun _ h => C37_function C23_log C23_log hd h i,
    fun _ h => C37_function C26_sin C26_sin hd h i, fun _ h => C37_function C26_cos C26_cos hd h i,
    fun _ h => C37_function C28_tan C28_tan hd h i, fun _ h => C37_function C27_sinh C27_sinh hd h i,
    fun _ h => C37_function C27_cosh C27_cosh hd h i, fun _ h => C37_function C28_tanh C28_tanh hd h i,
    fun _ h => C37_function C30_asinh C30_asinh hd h i, fun _ h => C37_function C29_atanh C29_atanh hd h i⟩

omit [LanesFun C ι] in
theorem Expr.sem_proj (i : ι) (e : Expr C) (x : String → ℝ) : (e.proj i : Expr ℝ).sem () x = e.sem i x := by
  induction e with
  | var s => rfl
  | const c => rfl
  | bin op e1 e2 h1 h2 => simp only [proj, sem, h1, h2]
  | left op c e h => simp only [proj, sem, h]; rfl
  | right op e c h => simp only [proj, sem, h]; rfl
  | fn f e h => simp only [proj, sem, h]
  | pow e1 e2 h1 h2 => simp only [proj, sem, h1, h2]

omit [LanesFun C ι] in
theorem Expr.dom_proj (i : ι) (e : Expr C) (x : String → ℝ) : (e.proj i : Expr ℝ).Dom () x ↔ e.Dom i x := by
  induction e with
  | var s => rfl
  | const c => rfl
  | bin op e1 e2 h1 h2 => simp only [proj, Dom, h1, h2, sem_proj]
  | left op c e h => simp only [proj, Dom, h, sem_proj]
  | right op e c h => simp only [proj, Dom, h]; rfl
  | fn f e h => simp only [proj, Dom, h, sem_proj]
  | pow e1 e2 h1 h2 => simp only [proj, Dom, h1, h2, sem_proj]

omit [LanesFun C ι] in
theorem Expr.legal_proj (i : ι) (m : ℕ) (e : Expr C) : (e.proj i : Expr ℝ).Legal m ↔ e.Legal m := by
  induction e with
  | var s => rfl
  | const c => rfl
  | bin op e1 e2 h1 h2 => simp only [proj, Legal, h1, h2]
  | left op c e h => simp only [proj, Legal, h]
  | right op e c h => simp only [proj, Legal, h]
  | fn f e h => simp only [proj, Legal, h]
  | pow e1 e2 h1 h2 => simp only [proj, Legal, h1, h2]

/-- **C37 (partial).** Programs: every expression tree evaluated on vectorized gduals gives, in each component, the polynomial obtained by the evaluation on the
components. Restrictions: the expression is evaluated inside its domain, at orders up to 30 if it contains `atan`, `asin` or `acos` (`Legal`); `trim` and `abs` do not
have the property: `C37_trim_counterexample`, `C32_counterexample`. -/
theorem C37_program_partial {v : String → C} {m : ℕ} (hm : m < UINT_MAX - 10) (e : Expr C) (hl : e.Legal m)
    (hd : ∀ i : ι, e.Dom i fun s => Lanes.lane i (v s)) :
    ∃ r, e.run v m = .ok r ∧ ∀ i : ι, ∃ r', (e.proj i : Expr ℝ).run (fun s => Lanes.lane i (v s)) m = .ok r' ∧
      GDual.eq (r.proj i) r' = true := by
  classical
  let p : ι → String → ℝ := fun i => Function.extend (fun s => "d" ++ s) (fun s => Lanes.lane i (v s)) 0
  have hinj : Function.Injective fun s : String => "d" ++ s := fun s t h => by
    have := congrArg String.toList h
    simp only [String.toList_append] at this
    exact String.toList_injective (List.append_cancel_left this)
  have hp : ∀ (i : ι) (s : String), p i ("d" ++ s) = Lanes.lane i (v s) := fun i s => hinj.extend_apply _ _ s
  obtain ⟨r, hr, hg, -⟩ := Expr.run_good hm hp e hl hd
  refine ⟨r, hr, fun i => ?_⟩
  obtain ⟨r', hr', hg', -⟩ := Expr.run_good (C := ℝ) (ι := Unit) (p := fun _ => p i) (v := fun s => (Lanes.lane i (v s) : ℝ)) hm
    (fun _ s => hp i s) (e.proj i) ((Expr.legal_proj i m e).mpr hl) fun _ => (Expr.dom_proj i e _).mpr (hd i)
  refine ⟨r', hr', eq_proj hg.valid hg'.valid ?_⟩
  have h1 := hg.taylor i
  have h2 := hg'.taylor ()
  simp only [Expr.sem_proj] at h2
  have d1 : DegLE m (r.toMv i : MvPolynomial String ℝ) := fun k hk => hg.valid.degLE i k (hg.le.trans_lt hk)
  have d2 : DegLE m (r'.toMv () : MvPolynomial String ℝ) := fun k hk => Valid.degLE (ι := Unit) hg'.valid () k (hg'.le.trans_lt hk)
  exact (h1.unique h2).eq_of_degLE d1 d2

end functions

/-- The statements apply to vectors of real numbers: `exp(x) / x` at the points `1, 2, 3`. -/
example : ∃ (e : Expr (VecN 3 ℝ)) (v : VecN 3 ℝ), v.1 = ⟨[1, 2, 3]⟩ ∧ e = .bin .div (.fn .exp (.var "x")) (.var "x") ∧ e.Legal 5 ∧
    ∀ i : Fin 3, e.Dom i fun _ => Lanes.lane i v := by
  refine ⟨_, ⟨⟨[1, 2, 3]⟩, Or.inr rfl⟩, rfl, rfl, ?_, fun i => ?_⟩
  · simp [Expr.Legal, Fn.MaxOrder]
  · simp only [Expr.Dom, Expr.sem, Fn.Dom, Op.Dom, true_and]
    change VecN.laneOf i _ ≠ 0
    fin_cases i <;> simp [VecN.laneOf, comp]

/-! ### Examples with vectorized coefficients over the rational numbers -/

/-- `[1,0] dx` -/
def Ex.v10 : GDual (VecN 2 ℚ) := ⟨⟨["dx"], [([1], ⟨⟨[1, 0]⟩, by decide⟩)]⟩, 1⟩

theorem Ex.v10_valid : Ex.v10.Valid := ⟨⟨by decide, by decide, by decide, by decide +kernel⟩, by decide⟩

example : ∀ i : Fin 2, GDual.eq ((Ex.v10.mul Ex.v10).proj i) ((Ex.v10.proj i).mul (Ex.v10.proj i)) = true := fun i =>
  (C37_ring Ex.v10_valid Ex.v10_valid (VecN.ofScalar 1) i).2.2.1

/-- **C37 (counterexample).** `trim` does not act on each component independently: `trim(1/2)` keeps the term `[1, 1/4] dx`, because one component is not
smaller than the tolerance, whereas the scalar gdual `1/4 dx` in component 1 is trimmed to 0. -/
theorem C37_trim_counterexample : ∃ d r : GDual (VecN 2 ℚ), d.Valid ∧ d.trim (1 / 2) = .ok r ∧
    ∃ r', (d.proj (1 : Fin 2)).trim (1 / 2) = .ok r' ∧ GDual.eq (r.proj (1 : Fin 2)) r' = false := by
  let d : GDual (VecN 2 ℚ) := ⟨⟨["dx"], [([1], ⟨⟨[1, 1 / 4]⟩, by decide⟩)]⟩, 1⟩
  exact ⟨d, _, ⟨⟨by decide, by decide, by decide, by decide +kernel⟩, by decide⟩, if_neg (by norm_num), _, if_neg (by norm_num),
    by decide +kernel⟩

/-! ### C20 -/

/-- **C20 (counterexample).** For vectorized coefficients `is_zero(tol)` is true although the coefficient `[1, 0]` has a component larger than the tolerance. -/
theorem C20_vectorized_counterexample : ∃ d : GDual (VecN 2 ℚ), d.Valid ∧ d.isZeroTol (1 / 2) = true ∧
    ∃ (i : Fin 2) (e : String →₀ ℕ), (1 / 2 : ℚ) < |(coeff e (d.toMv i) : ℚ)| := by
  refine ⟨Ex.v10, Ex.v10_valid, by decide +kernel, 0, toExp ["dx"] [1], ?_⟩
  let c : VecN 2 ℚ := ⟨⟨[1, 0]⟩, by decide⟩
  have h : (coeff (toExp ["dx"] [1]) (Ex.v10.toMv (0 : Fin 2)) : ℚ) = Lanes.lane (0 : Fin 2) c :=
    Poly.coeff_toMv_of_mem (e := [1]) (c := c) Ex.v10_valid.wf (by unfold Ex.v10; simp [c]) (0 : Fin 2)
  have h1 : (Lanes.lane (0 : Fin 2) c : ℚ) = 1 := by decide +kernel
  rw [h, h1]
  norm_num

/-! ### C32 -/

/-- **C32 (partial).** `abs` for vectorized coefficients: if the constant part has all its components (or all coefficients have one component) the result is, in
each component in which the constant part is not zero, the Taylor expansion of the absolute value. The condition is needed: `C32_counterexample`. -/
theorem C32_abs_vectorized_partial {n : ℕ} [NeZero n] {d : GDual (VecN n ℝ)} (hd : d.Valid) {p0 : VecN n ℝ} (hp0 : d.constantCf = .ok p0)
    (h : p0.1.size = n ∨ ∀ t ∈ d.p.terms, t.2.1.size = 1) :
    ∃ r, absVec d = .ok r ∧ r.Valid ∧ r.getOrder = d.getOrder ∧ ∀ i : Fin n, coeff 0 (d.toMv i : MvPolynomial String ℝ) ≠ 0 →
      ∀ (F : (String → ℝ) → ℝ) (a : String → ℝ), IsTaylor a d.order F (d.toMv i) → IsTaylor a d.order (fun x => |F x|) (r.toMv i) := by
  obtain ⟨r, h1, h2, h3, -, h4⟩ := absVec_spec hd hp0 h
  refine ⟨r, h1, h2, h3, fun i hi F a hF => ?_⟩
  rw [h4]
  have hc := hF.cont
  rcases lt_or_gt_of_ne hi with hneg | hpos
  · rw [if_pos hneg]
    refine hF.neg.congr_fun ?_
    filter_upwards [hc.eventually (gt_mem_nhds (hF.val.trans_lt hneg))] with x hx
    exact (abs_of_neg hx).symm
  · rw [if_neg (not_lt.mpr hpos.le)]
    refine hF.congr_fun ?_
    filter_upwards [hc.eventually (lt_mem_nhds (hpos.trans_eq hF.val.symm))] with x hx
    exact (abs_of_pos hx).symm

/-- `-1 + [2,3] dx` -/
def Ex.v23 : GDual (VecN 2 ℚ) := ⟨⟨["dx"], [([0], ⟨⟨[-1]⟩, by decide⟩), ([1], ⟨⟨[2, 3]⟩, by decide⟩)]⟩, 1⟩

theorem Ex.v23_valid : Ex.v23.Valid := ⟨⟨by decide, by decide, by decide, by decide +kernel⟩, by decide⟩

/-- **C32 (counterexample).** If the constant part is a vector of size 1 and a coefficient has size 2, `abs` changes the sign of the first component only: in the
component 1 of `abs(-1 + [2,3] dx)` the constant becomes 1 but the coefficient of `dx` remains 3. The gdual is obtained by
`(x + 1) * [2, 3] - 1` with `x = gdual(-1, "x", 1)`. -/
theorem C32_counterexample : ∃ x d r : GDual (VecN 2 ℚ), mk3 (VecN.ofScalar (-1)) "x" 1 = .ok x ∧ d.Valid ∧
    GDual.eq d (subGS (mulGS (addGS x (VecN.ofScalar 1)) ⟨⟨[2, 3]⟩, by decide⟩) (VecN.ofScalar 1)) = true ∧
    d.constantCf = .ok (VecN.ofScalar (-1)) ∧ absVec d = .ok r ∧
    r.toMv (1 : Fin 2) ≠ (-d.toMv (1 : Fin 2) : MvPolynomial String ℚ) := by
  have hr : absVec Ex.v23 = .ok ⟨⟨["dx"], [([0], ⟨⟨[1]⟩, by decide⟩), ([1], ⟨⟨[-2, 3]⟩, by decide⟩)]⟩, 1⟩ := by rfl
  refine ⟨_, Ex.v23, _, rfl, Ex.v23_valid, by decide +kernel, rfl, hr, fun h => ?_⟩
  have h1 := congrArg (coeff (toExp ["dx"] [1])) h
  rw [coeff_neg] at h1
  have hv : (⟨⟨["dx"], [([0], ⟨⟨[1]⟩, by decide⟩), ([1], ⟨⟨[-2, 3]⟩, by decide⟩)]⟩, 1⟩ : GDual (VecN 2 ℚ)).Valid :=
    ⟨⟨by decide, by decide, by decide, by decide +kernel⟩, by decide⟩
  have e1 := Poly.coeff_toMv_of_mem (K := ℚ) (e := [1]) (c := (⟨⟨[-2, 3]⟩, by decide⟩ : VecN 2 ℚ)) hv.wf (by simp) (1 : Fin 2)
  have e2 := Poly.coeff_toMv_of_mem (K := ℚ) (e := [1]) (c := (⟨⟨[2, 3]⟩, by decide⟩ : VecN 2 ℚ)) Ex.v23_valid.wf (by unfold Ex.v23; simp) (1 : Fin 2)
  have e3 := e1.symm.trans (h1.trans (congrArg Neg.neg e2))
  revert e3
  decide +kernel

end Audi
