import Verif.Props.C115_Output

/-!
# C117: the output of expansion points, domains and Taylor models
-/

namespace Audi.Io

theorem mapDLoop_eq (m : List (Str × Str)) : ∀ os, mapDLoop os true m = os ++ joined ", ".toList (m.map fun p => p.1 ++ ": ".toList ++ p.2) := by
  have step : ∀ (m : List (Str × Str)) os x, mapDLoop (os ++ x) false m = os ++ joined ", ".toList (x :: m.map fun p => p.1 ++ ": ".toList ++ p.2) := fun m => by
    induction m with
    | nil => intro os x; simp [mapDLoop, joined]
    | cons p m ih =>
      intro os x
      obtain ⟨k, v⟩ := p
      have := ih (os ++ x ++ ", ".toList) (k ++ ": ".toList ++ v)
      simp only [mapDLoop, Bool.not_false, if_true, joined, List.map_cons]
      simp only [List.append_assoc] at this ⊢
      exact this
  intro os
  cases m with
  | nil => simp [mapDLoop, joined]
  | cons p m =>
    obtain ⟨k, v⟩ := p
    have := step m os (k ++ ": ".toList ++ v)
    simp only [mapDLoop, Bool.not_true, Bool.false_eq_true, if_false, List.map_cons]
    simp only [List.append_assoc] at this ⊢
    exact this

theorem mapILoop_eq (m : List (Str × Str × Str)) : ∀ os, mapILoop os true m = os ++ joined ", ".toList (m.map fun p => p.1 ++ ":[".toList ++ p.2.1 ++ ", ".toList ++ p.2.2 ++ "]".toList) := by
  have e : (":[".toList : Str) = ":".toList ++ "[".toList := rfl
  have step : ∀ (m : List (Str × Str × Str)) os x, mapILoop (os ++ x) false m =
      os ++ joined ", ".toList (x :: m.map fun p => p.1 ++ ":[".toList ++ p.2.1 ++ ", ".toList ++ p.2.2 ++ "]".toList) := fun m => by
    induction m with
    | nil => intro os x; simp [mapILoop, joined]
    | cons p m ih =>
      intro os x
      obtain ⟨k, lo, hi⟩ := p
      have := ih (os ++ x ++ ", ".toList) (k ++ ":[".toList ++ lo ++ ", ".toList ++ hi ++ "]".toList)
      simp only [mapILoop, Bool.not_false, if_true, joined, List.map_cons]
      rw [e] at this ⊢
      simp only [List.append_assoc] at this ⊢
      exact this
  intro os
  cases m with
  | nil => simp [mapILoop, joined]
  | cons p m =>
    obtain ⟨k, lo, hi⟩ := p
    have := step m os (k ++ ":[".toList ++ lo ++ ", ".toList ++ hi ++ "]".toList)
    simp only [mapILoop, Bool.not_true, Bool.false_eq_true, if_false, List.map_cons]
    rw [e] at this ⊢
    simp only [List.append_assoc] at this ⊢
    exact this

/-- **C117 (maps).** A map of numbers is written as `{x: 1, y: 2}`, a map of intervals as `{x:[0, 1], y:[2, 5]}`, with all entries. -/
theorem C117_maps (os : Str) (m : List (Str × Str)) (d : List (Str × Str × Str)) :
    streamMapD os m = os ++ "{".toList ++ joined ", ".toList (m.map fun p => p.1 ++ ": ".toList ++ p.2) ++ "}".toList ∧
    streamMapI os d = os ++ "{".toList ++ joined ", ".toList (d.map fun p => p.1 ++ ":[".toList ++ p.2.1 ++ ", ".toList ++ p.2.2 ++ "]".toList) ++ "}".toList := by
  refine ⟨?_, ?_⟩
  · rw [streamMapD, mapDLoop_eq]; simp
  · rw [streamMapI, mapILoop_eq]; simp

theorem colon_split {s t r r' : Str} (hs : ':' ∉ s) (ht : ':' ∉ t) (h : s ++ ':' :: r = t ++ ':' :: r') : s = t ∧ r = r' := by
  induction s generalizing t with
  | nil =>
    cases t with
    | nil => simpa using h
    | cons c t => simp only [List.nil_append, List.cons_append, List.cons.injEq] at h; exact absurd (h.1 ▸ List.mem_cons_self) ht
  | cons c s ih =>
    cases t with
    | nil => simp only [List.nil_append, List.cons_append, List.cons.injEq] at h; exact absurd (h.1 ▸ List.mem_cons_self) hs
    | cons d t =>
      simp only [List.cons_append, List.cons.injEq] at h
      obtain ⟨h1, h2⟩ := ih (fun hm => hs (List.mem_cons_of_mem _ hm)) (fun hm => ht (List.mem_cons_of_mem _ hm)) h.2
      exact ⟨by rw [h.1, h1], h2⟩

/-- **C117 (expansion points can be told apart).** If the names of the variables contain neither colons nor commas, and the values are written without commas, then the map can be read from what is written: names, values and their order. -/
theorem C117_map_unique {os : Str} {m m' : List (Str × Str)} (h1 : ∀ p ∈ m, ':' ∉ p.1 ∧ ',' ∉ p.1 ∧ ',' ∉ p.2) (h2 : ∀ p ∈ m', ':' ∉ p.1 ∧ ',' ∉ p.1 ∧ ',' ∉ p.2)
    (h : streamMapD os m = streamMapD os m') : m = m' := by
  rw [(C117_maps os m []).1, (C117_maps os m' []).1] at h
  simp only [List.append_assoc, List.append_cancel_left_eq] at h
  have entry : ∀ m : List (Str × Str), (∀ p ∈ m, ':' ∉ p.1 ∧ ',' ∉ p.1 ∧ ',' ∉ p.2) → ∀ x ∈ m.map fun p => p.1 ++ (": ".toList ++ p.2), ',' ∉ x ∧ x ≠ [] := fun m hm x hx => by
    obtain ⟨p, hp, rfl⟩ := List.mem_map.1 hx
    obtain ⟨-, b, c⟩ := hm p hp
    simp [b, c]
  have key := joined_inj (entry m h1) (entry m' h2) (List.append_cancel_right h)
  have e : (": ".toList : Str) = [':', ' '] := rfl
  rw [e] at key
  clear h entry
  induction m generalizing m' with
  | nil =>
    cases m' with
    | nil => rfl
    | cons q m' => simp at key
  | cons p m ih =>
    cases m' with
    | nil => simp at key
    | cons q m' =>
      simp only [List.map_cons, List.cons.injEq, List.cons_append, List.nil_append] at key
      obtain ⟨a, b⟩ := colon_split (h1 p (by simp)).1 (h2 q (by simp)).1 key.1
      rw [ih (fun p hp => h1 p (List.mem_cons_of_mem _ hp)) (fun p hp => h2 p (List.mem_cons_of_mem _ hp)) (by simpa using key.2)]
      congr 1
      exact Prod.ext a (by simpa using b)

/-- **C117 (counterexample, quotes).** The names are written without quotes, contrary to the example in the documentation. -/
theorem C117_quotes_counterexample : streamMapD [] [("x".toList, "1.23".toList), ("y".toList, "4.56".toList)] = "{x: 1.23, y: 4.56}".toList ∧
    streamMapD [] [("x".toList, "1.23".toList), ("y".toList, "4.56".toList)] ≠ "{\"x\": 1.23, \"y\": 4.56}".toList ∧
    streamMapI [] [("x".toList, "0".toList, "1".toList), ("y".toList, "2".toList, "5".toList)] ≠ "{\"x\":[0, 1], \"y\":[2, 5]}".toList := by
  refine ⟨by decide, by decide, by decide⟩

/-- **C117 (counterexample, order).** Two maps with the same entries can be written differently: the entries of an `unordered_map` come in no particular order. -/
theorem C117_order_counterexample : ∃ m m' : List (Str × Str), m.Perm m' ∧ streamMapD [] m ≠ streamMapD [] m' :=
  ⟨[("x".toList, "1".toList), ("y".toList, "2".toList)], [("y".toList, "2".toList), ("x".toList, "1".toList)], List.Perm.swap _ _ _, by decide⟩

/-- **C117 (Taylor models).** Polynomial, remainder bound, expansion point and domain are written, in this order. -/
theorem C117_taylor_model (os tpol lo hi : Str) (exp : List (Str × Str)) (dom : List (Str × Str × Str)) : streamTM os tpol lo hi exp dom =
    os ++ "Taylor Polynomial:\n".toList ++ tpol ++ "\nRemainder Bound: [".toList ++ lo ++ ", ".toList ++ hi ++ "]\nExpansion Point: {".toList ++
      joined ", ".toList (exp.map fun p => p.1 ++ ": ".toList ++ p.2) ++ "}\nDomain: {".toList ++
      joined ", ".toList (dom.map fun p => p.1 ++ ":[".toList ++ p.2.1 ++ ", ".toList ++ p.2.2 ++ "]".toList) ++ "}".toList := by
  rw [streamTM, (C117_maps _ [] dom).2, (C117_maps _ exp []).1]
  have e1 : ("]\nExpansion Point: {".toList : Str) = "]".toList ++ ("\nExpansion Point: ".toList ++ "{".toList) := by decide
  have e2 : ("}\nDomain: {".toList : Str) = "}".toList ++ ("\nDomain: ".toList ++ "{".toList) := by decide
  rw [e1, e2]
  simp only [List.append_assoc]

/-- An expansion point that meets the hypotheses of `C117_map_unique`. -/
example : ∀ p ∈ [("x".toList, "1.23".toList), ("y".toList, "-4e-05".toList)], ':' ∉ p.1 ∧ ',' ∉ p.1 ∧ ',' ∉ p.2 := by decide

end Audi.Io
