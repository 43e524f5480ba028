import Verif.Model.VectorizedMore
import Verif.Props.C34_Vectorized
import Mathlib.Data.List.Sort

/-! # C73, C74: vectorized and numbers, conversions of the Python module -/

namespace Audi

open Spec

/-! ### C73 -/

section arithmetic
variable {K : Type} [Field K] [DecidableEq K] (v : Vec K) (s : K)

omit [DecidableEq K] in
/-- **C73.** Sums, differences and products of a vectorized and a number never throw, and act on each component. -/
theorem C73_arithmetic :
    v.addS s = .ok ⟨v.c.map fun x => x + s⟩ ∧ Vec.sAdd s v = .ok ⟨v.c.map fun x => s + x⟩ ∧
    v.subS s = .ok ⟨v.c.map fun x => x - s⟩ ∧ Vec.sSub s v = .ok ⟨v.c.map fun x => s - x⟩ ∧
    v.mulS s = .ok ⟨v.c.map fun x => x * s⟩ ∧ Vec.sMul s v = .ok ⟨v.c.map fun x => s * x⟩ := by
  obtain ⟨_ | ⟨x, _ | ⟨y, l⟩⟩⟩ := v <;>
    simp [Vec.addS, Vec.sAdd, Vec.subS, Vec.sSub, Vec.mulS, Vec.sMul, Vec.add, Vec.sub, Vec.mul, Vec.opAssign, Vec.ofScalar, Vec.size, add_comm]

/-- **C73.** Quotients: not finite iff some component is divided by zero. -/
theorem C73_division :
    (s ≠ 0 → v.divS s = .ok ⟨v.c.map fun x => x / s⟩ ∧ v.divAssignS s = .ok ⟨v.c.map fun x => x / s⟩) ∧
    (v.c ≠ [] → v.divS 0 = .error .nonFinite ∧ v.divAssignS 0 = .error .nonFinite) ∧
    (0 ∉ v.c → Vec.sDiv s v = .ok ⟨v.c.map fun x => s / x⟩) ∧ (0 ∈ v.c → Vec.sDiv s v = .error .nonFinite) := by
  obtain ⟨_ | ⟨x, _ | ⟨y, l⟩⟩⟩ := v
  · refine ⟨fun h => ?_, fun h => absurd rfl h, fun _ => ?_, fun h => ?_⟩
    · simp [Vec.divS, Vec.divAssignS, Vec.div, Vec.opAssign, Vec.ofScalar, Vec.size, bind, Except.bind]
    · simp [Vec.sDiv, Vec.div, Vec.opAssign, Vec.ofScalar, Vec.size, bind, Except.bind]
    · simp at h
  · refine ⟨fun h => ?_, fun h => ?_, fun h => ?_, fun h => ?_⟩
    · simp [Vec.divS, Vec.divAssignS, Vec.div, Vec.opAssign, Vec.ofScalar, Vec.size, bind, Except.bind, h]
    · simp [Vec.divS, Vec.divAssignS, Vec.div, Vec.opAssign, Vec.ofScalar, Vec.size, bind, Except.bind]
    · have : x ≠ 0 := fun h0 => h (by simp [h0])
      simp [Vec.sDiv, Vec.div, Vec.opAssign, Vec.ofScalar, Vec.size, bind, Except.bind, this]
    · obtain rfl : x = 0 := by simpa [eq_comm] using h
      simp [Vec.sDiv, Vec.div, Vec.opAssign, Vec.ofScalar, Vec.size, bind, Except.bind]
  · refine ⟨fun h => ?_, fun h => ?_, fun h => ?_, fun h => ?_⟩
    · simp [Vec.divS, Vec.divAssignS, Vec.div, Vec.opAssign, Vec.ofScalar, Vec.size, bind, Except.bind, h]
    · simp [Vec.divS, Vec.divAssignS, Vec.div, Vec.opAssign, Vec.ofScalar, Vec.size, bind, Except.bind]
    · have h1 : (x :: y :: l).any (fun y => decide (y = 0)) = false := by
        rw [List.any_eq_false]
        intro z hz
        simpa using fun h0 : z = 0 => h (h0 ▸ hz)
      simp only [Vec.sDiv, Vec.div, Vec.opAssign, Vec.ofScalar, Vec.size, bind, Except.bind, h1]
      simp
    · have h1 : (x :: y :: l).any (fun y => decide (y = 0)) = true := by
        rw [List.any_eq_true]
        exact ⟨0, h, by simp⟩
      simp only [Vec.sDiv, Vec.div, Vec.opAssign, Vec.ofScalar, Vec.size, bind, Except.bind, h1]
      simp

omit [DecidableEq K] in
/-- What the loop of `v /= s` does when `s` refers to component `k`. -/
theorem divAliasLoop_spec {c : List K} {k : ℕ} {s : K} (hk : c[k]? = some s) (hs : s ≠ 0) : ∀ i ≤ c.length,
    (Vec.divAliasLoop k c i).length = c.length ∧ ∀ j, (Vec.divAliasLoop k c i)[j]? = if j < i ∧ j ≤ k then c[j]?.map (fun x => x / s) else c[j]? := by
  intro i
  induction i with
  | zero => intro _; simp [Vec.divAliasLoop]
  | succ i ih =>
    intro hi
    obtain ⟨h1, h2⟩ := ih (by omega)
    have hi' : c[i]? = some c[i] := List.getElem?_eq_getElem (by omega)
    have hkl : k < c.length := (List.getElem?_eq_some_iff.mp hk).1
    have e1 : (Vec.divAliasLoop k c i)[i]? = some c[i] := by rw [h2, if_neg (by omega), hi']
    have e2 : (Vec.divAliasLoop k c i)[k]? = some (if k < i then 1 else s) := by
      rw [h2, hk]
      by_cases h : k < i
      · rw [if_pos ⟨h, le_rfl⟩, if_pos h]; simp [hs]
      · rw [if_neg (by omega), if_neg h]
    have e3 : Vec.divAliasLoop k c (i + 1) = (Vec.divAliasLoop k c i).set i (c[i] / if k < i then 1 else s) := by
      rw [Vec.divAliasLoop]
      simp only [e1, e2]
    rw [e3]
    refine ⟨by simpa using h1, fun j => ?_⟩
    rw [List.getElem?_set]
    by_cases hj : i = j
    · subst hj
      rw [if_pos rfl, if_pos (by omega), hi']
      by_cases h : k < i
      · rw [if_pos h, if_neg (by omega), div_one]
      · rw [if_neg h, if_pos (by omega)]; rfl
    · rw [if_neg hj, h2]
      by_cases h : j < i ∧ j ≤ k
      · rw [if_pos h, if_pos (by omega)]
      · rw [if_neg h, if_neg (by omega)]

/-- **C73 (partial).** `v /= s` when `s` is a reference to component `k` of `v`: the components up to `k` are divided by it, the others are not changed
(by then the component has become 1). So the result is the quotient iff `k` is the last component or the other ones do not change
(`C73_alias_counterexample`). `operator[]` returns a copy, so that `v /= v[k]` is `v.divAssignS`, which is right (`C73_division`). -/
theorem C73_alias_partial {k : ℕ} {s : K} (hk : v.c[k]? = some s) (hs : s ≠ 0) :
    ∃ r, v.divAssignRef k = .ok r ∧ r.size = v.size ∧ (∀ j, r.c[j]? = if j ≤ k then v.c[j]?.map (fun x => x / s) else v.c[j]?) ∧
      (k + 1 = v.size → v.divAssignRef k = v.divAssignS s) := by
  obtain ⟨h1, h2⟩ := divAliasLoop_spec hk hs v.size le_rfl
  have e : v.divAssignRef k = .ok ⟨Vec.divAliasLoop k v.c v.size⟩ := by
    unfold Vec.divAssignRef
    rw [hk]
    simp [hs]
  have h3 : ∀ j, (Vec.divAliasLoop k v.c v.size)[j]? = if j ≤ k then v.c[j]?.map (fun x => x / s) else v.c[j]? := fun j => by
    rw [h2]
    by_cases hj : j < v.size
    · simp [hj]
    · have : v.c[j]? = none := List.getElem?_eq_none (by unfold Vec.size at hj; omega)
      rw [this]; simp
  refine ⟨_, e, h1, h3, fun hl => ?_⟩
  rw [e, Vec.divAssignS, if_neg (by simp [hs])]
  congr 2
  refine List.ext_getElem? fun j => ?_
  rw [h3, List.getElem?_map]
  by_cases hj : j ≤ k
  · rw [if_pos hj]
  · have : v.c[j]? = none := List.getElem?_eq_none (by unfold Vec.size at hl; omega)
    rw [this]; simp

/-- **C73 (counterexample).** `v /= *v.begin()` with `v = [2, 4]` gives `[1, 4]` instead of `[1, 2]`. -/
theorem C73_alias_counterexample : Vec.divAssignRef (⟨[2, 4]⟩ : Vec ℚ) 0 = .ok ⟨[1, 4]⟩ ∧ Vec.divAssignS (⟨[2, 4]⟩ : Vec ℚ) 2 = .ok ⟨[1, 2]⟩ := by
  decide +kernel

end arithmetic

section comparisons
variable {T : Type} [LinearOrder T] (v : Vec T) (s : T)

/-- **C73.** Comparisons of a (not empty) vectorized with a number hold iff they hold for all components. -/
theorem C73_comparisons (h : v.c ≠ []) : (v.eqS s = true ↔ ∀ x ∈ v.c, x = s) ∧ (Vec.sEq s v = true ↔ ∀ x ∈ v.c, s = x) ∧
    (v.gtS s = true ↔ ∀ x ∈ v.c, x > s) ∧ (Vec.sGt s v = true ↔ ∀ x ∈ v.c, s > x) ∧
    (v.ltS s = true ↔ ∀ x ∈ v.c, x < s) ∧ (Vec.sLt s v = true ↔ ∀ x ∈ v.c, s < x) := by
  have key : ∀ x y : T, Vec.lexLt [x] [y] = true ↔ x < y := fun x y => by
    simp only [Vec.lexLt]
    split_ifs with h1 h2 <;> simp [h1]
  obtain ⟨_ | ⟨x, _ | ⟨y, l⟩⟩⟩ := v
  · exact absurd rfl h
  · simp [Vec.eqS, Vec.sEq, Vec.gtS, Vec.sGt, Vec.ltS, Vec.sLt, Vec.eq, Vec.gt, Vec.lt, Vec.ofScalar, Vec.size, key]
  · simp [Vec.eqS, Vec.sEq, Vec.gtS, Vec.sGt, Vec.ltS, Vec.sLt, Vec.eq, Vec.gt, Vec.lt, Vec.ofScalar, Vec.size, eq_comm (a := s)]

example : Vec.gtS (⟨[2, 3]⟩ : Vec ℚ) 1 = true ∧ Vec.gtS (⟨[2, 1]⟩ : Vec ℚ) 1 = false ∧ Vec.sGt 1 (⟨[2, 1]⟩ : Vec ℚ) = false ∧
    (⟨[2, 3]⟩ : Vec ℚ).c ≠ [] ∧ (⟨[2, 3]⟩ : Vec ℚ).c[1]? = some 3 ∧ (0 : ℚ) ∉ (⟨[2, 3]⟩ : Vec ℚ).c := by decide +kernel

end comparisons

section stream
variable {T : Type} (sh : T → String)

/-- The loop of the stream operator. -/
theorem streamLoop_ok (c : List T) : ∀ n ≤ c.length, Vec.streamLoop sh c n = .ok (String.join ((c.take n).map fun x => sh x ++ ", "))
  | 0, _ => by simp [Vec.streamLoop]
  | n + 1, h => by
    rw [Vec.streamLoop, bind_ok (streamLoop_ok c n (by omega)), List.getElem?_eq_getElem (by omega)]
    rw [List.take_add_one, List.getElem?_eq_getElem (by omega), List.map_append]
    simp [String.append_assoc, -List.map_take]

/-- **C73.** The stream operator shows all the components of a vectorized with up to 5 components, separated by commas, and the first 5 components of a longer one,
followed by three dots. -/
theorem C73_stream (v : Vec T) (hv : v.c ≠ []) :
    (v.size ≤ 5 → v.stream sh = .ok ("[" ++ String.intercalate ", " (v.c.map sh) ++ "]")) ∧
    (5 < v.size → v.stream sh = .ok ("[" ++ String.join ((v.c.take 5).map fun x => sh x ++ ", ") ++ "... ]")) := by
  obtain ⟨c⟩ := v
  constructor
  · intro h
    obtain ⟨l, x, rfl⟩ : ∃ l x, c = l ++ [x] := ⟨c.dropLast, c.getLast hv, (List.dropLast_append_getLast hv).symm⟩
    have h1 : Vec.size (⟨l ++ [x]⟩ : Vec T) = l.length + 1 := by simp [Vec.size]
    unfold Vec.stream
    rw [if_pos h, h1, if_neg (by omega), bind_ok (streamLoop_ok sh _ _ (by simp))]
    have h2 : (l ++ [x]).getLast? = some x := by simp
    simp only [h2, Nat.add_sub_cancel, List.take_left]
    congr 1
    rw [String.append_assoc, String.append_assoc, String.append_assoc]
    congr 1
    rw [← String.append_assoc]
    congr 1
    clear h2 h1 h hv
    induction l with
    | nil => simp
    | cons y l ih =>
      simp only [List.map_cons, List.cons_append]
      rw [String.join_cons, String.append_assoc, ih]
      cases l <;> simp [String.intercalate_cons_cons, String.append_assoc]
  · intro h
    unfold Vec.stream
    rw [if_neg (by omega), bind_ok (streamLoop_ok sh _ _ h.le)]

end stream

/-! ### C74 -/

section python
variable {T : Type}

/-- The loop of `load`. -/
theorem pyLoad_eq (l : List T) : Vec.pyLoad l = ⟨l⟩ := by
  have : ∀ (l c : List T), l.foldl (fun c x => c ++ [x]) c = c ++ l := fun l => by
    induction l with
    | nil => simp
    | cons x l ih => intro c; rw [List.foldl_cons, ih]; simp
  unfold Vec.pyLoad
  rw [this]; rfl

/-- **C74.** A list of numbers passed to C++ and back is not changed, and every vectorized comes from a list. -/
theorem C74_round_trip (l : List T) : (Vec.pyLoad l).pyCast = .ok l ∧ ∀ v : Vec T, ∃ l, v.pyCast = .ok l ∧ Vec.pyLoad l = v := by
  have key : ∀ l : List T, Vec.pyCast ⟨l⟩ = .ok l := fun l => by
    have hg : ∀ i (h : i < l.length), Vec.get ⟨l⟩ i = .ok l[i] := fun i h => by
      rw [Vec.get_eq, comp_eq_getElem? h, List.getElem?_eq_getElem h]
    have h1 : ∀ n ≤ l.length, (List.range n).mapM (Vec.get ⟨l⟩) = .ok (l.take n) := fun n => by
      induction n with
      | zero => intro _; rfl
      | succ n ih =>
        intro h
        rw [List.range_succ, List.mapM_append, ih (by omega), List.take_add_one, List.getElem?_eq_getElem (by omega)]
        simp [hg n (by omega), bind, Except.bind, pure, Except.pure]
    exact (h1 _ le_rfl).trans (by rw [List.take_length])
  refine ⟨by rw [pyLoad_eq, key], fun v => ⟨v.c, key v.c, pyLoad_eq _⟩⟩

/-- **C74.** The map made from a dictionary does not depend on the order of its entries, is sorted by the names, and has the same entries as the dictionary: lookups
and evaluations are those of the dictionary. -/
theorem C74_dict {C : Type} [Cf C] {d d' : List (String × C)} (h : d.Perm d') (hk : (d.map (·.1)).Nodup) :
    pyDict d = pyDict d' ∧ (pyDict d).Pairwise (fun p q => p.1 < q.1) ∧ (∀ k, (pyDict d).lookup k = d.lookup k) ∧
      ∀ g : GDual C, g.evaluate (pyDict d) = g.evaluate d ∧ g.evaluate (pyDict d') = g.evaluate d := by
  have hp : ∀ d : List (String × C), (pyDict d).Perm d := fun d => List.perm_insertionSort _ d
  have hs : ∀ d : List (String × C), (pyDict d).Pairwise (fun p q => p.1 ≤ q.1) := fun d => by
    have ht : Std.Total (fun p q : String × C => p.1 ≤ q.1) := ⟨fun p q => le_total p.1 q.1⟩
    have htr : IsTrans (String × C) (fun p q => p.1 ≤ q.1) := ⟨fun p q r h1 h2 => le_trans h1 h2⟩
    exact List.pairwise_insertionSort _ d
  have hlt : ∀ d : List (String × C), (d.map (·.1)).Nodup → (pyDict d).Pairwise (fun p q => p.1 < q.1) := fun d hk => by
    have h1 : ((pyDict d).map (·.1)).Nodup := ((hp d).map _).nodup_iff.2 hk
    rw [List.Nodup, List.pairwise_map] at h1
    exact ((hs d).and h1).imp fun h => lt_of_le_of_ne h.1 h.2
  have hk' : (d'.map (·.1)).Nodup := (h.map _).nodup_iff.1 hk
  have hl : ∀ {l l' : List (String × C)}, l.Perm l' → (l.map (·.1)).Nodup → ∀ k, l.lookup k = l'.lookup k := fun {l l'} hp => by
    induction hp with
    | nil => intro _ k; rfl
    | cons x _ ih =>
      intro hn k
      rw [List.map_cons, List.nodup_cons] at hn
      rw [List.lookup_cons, List.lookup_cons, ih hn.2]
    | swap x y l =>
      intro hn k
      rw [List.map_cons, List.map_cons, List.nodup_cons, List.mem_cons, not_or] at hn
      rw [List.lookup_cons, List.lookup_cons, List.lookup_cons, List.lookup_cons]
      by_cases h1 : k = x.1 <;> by_cases h2 : k = y.1
      · exact absurd (h2.symm.trans h1) hn.1.1
      · rw [beq_iff_eq.2 h1, beq_eq_false_iff_ne.2 h2]
      · rw [beq_iff_eq.2 h2, beq_eq_false_iff_ne.2 h1]
      · rw [beq_eq_false_iff_ne.2 h1, beq_eq_false_iff_ne.2 h2]
    | trans h1 _ ih1 ih2 => exact fun hn k => (ih1 hn k).trans (ih2 ((h1.map _).nodup_iff.1 hn) k)
  have e1 : ∀ k, (pyDict d).lookup k = d.lookup k := fun k => (hl (hp d).symm hk k).symm
  have e2 : ∀ k, (pyDict d').lookup k = d.lookup k := fun k => (hl (h.trans (hp d').symm) hk k).symm
  refine ⟨?_, hlt d hk, e1, fun g => ?_⟩
  · exact ((hp d).trans (h.trans (hp d').symm)).eq_of_pairwise (le := fun p q => p.1 < q.1)
      (fun a b _ _ h1 h2 => absurd h2 (lt_asymm h1)) (hlt d hk) (hlt d' hk')
  · unfold GDual.evaluate Poly.evaluate
    simp only [e1, e2, and_self]

example : pyDict [("dy", (1 : ℚ)), ("dx", 2)] = [("dx", 2), ("dy", 1)] ∧ [("dy", (1 : ℚ)), ("dx", 2)].Perm [("dx", 2), ("dy", 1)] ∧
    ([("dy", (1 : ℚ)), ("dx", 2)].map (·.1)).Nodup := by decide +kernel

instance {n : ℕ} {T : Type} [DecidableEq T] : DecidableEq (VecN n T) := inferInstanceAs (DecidableEq {v : Vec T // v.size = 1 ∨ v.size = n})

/-- The coefficient which Python's empty list becomes. -/
def Ex.empty : VecN 0 ℚ := ⟨Vec.pyLoad [], Or.inr rfl⟩

/-- **C74 (counterexample).** An empty vectorized cannot be built in C++ (`C34_not_empty`), but an empty Python list is converted to one. `gdual_vdouble([], "x", 3)` is then
the same as `gdual_vdouble([0.], "x", 3)`; the empty vectorized equals all numbers, is smaller and larger than all of them, takes part in sums with numbers without an
exception, and writing it to a stream is undefined. -/
theorem C74_empty_counterexample : Vec.ofList ([] : List ℚ) = .error .invalidArgument ∧ (Vec.pyLoad ([] : List ℚ)).size = 0 ∧
    GDual.mk3 Ex.empty "x" 3 = GDual.mk3 (Cf.ofRat 0 : VecN 0 ℚ) "x" 3 ∧
    (∀ s : ℚ, Ex.empty.1.eqS s = true ∧ Ex.empty.1.ltS s = true ∧ Ex.empty.1.gtS s = true ∧ Ex.empty.1.addS s = .ok Ex.empty.1) ∧
    ∀ sh : ℚ → String, Ex.empty.1.stream sh = .error .undefinedBehaviour := by
  have h0 : (Ex.empty.1 : Vec ℚ) = ⟨[]⟩ := rfl
  refine ⟨rfl, rfl, by decide +kernel, fun s => ?_, fun sh => ?_⟩
  · rw [h0]
    refine ⟨rfl, rfl, rfl, rfl⟩
  · have : ∀ n, Vec.streamLoop sh ([] : List ℚ) (n + 1) = .error .undefinedBehaviour := fun n => by
      induction n with
      | zero => rfl
      | succ n ih => rw [Vec.streamLoop, bind_error ih]
    rw [h0, Vec.stream, if_pos (by decide)]
    have h1 : Vec.size (⟨[]⟩ : Vec ℚ) = 0 := rfl
    have h2 : 2 ^ 64 - 1 = (2 ^ 64 - 2) + 1 := by norm_num
    rw [h1, if_pos rfl, h2, bind_error (this _)]

end python
end Audi
