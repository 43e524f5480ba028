import Verif.Model.Text
import Verif.Proofs.Archive
import Verif.Proofs.GDualOps
import Mathlib.Data.List.SplitOn

/-! # C118: the text of gduals and of exceptions -/

namespace Audi.Io

open Archive

variable {C : Type} [Cf C]

/-- A text is cut at the first `c`. -/
theorem first_split {c : Char} {s t r r' : Str} (hs : c ∉ s) (ht : c ∉ t) (h : s ++ c :: r = t ++ c :: r') : s = t ∧ r = r' := by
  induction s generalizing t with
  | nil =>
    cases t with
    | nil => exact ⟨rfl, (List.cons.inj h).2⟩
    | cons b t => exact absurd (List.mem_cons.2 (.inl (List.cons.inj h).1)) ht
  | cons a s ih =>
    cases t with
    | nil => exact absurd (List.mem_cons.2 (.inl (List.cons.inj h).1.symm)) hs
    | cons b t =>
      obtain ⟨h1, h2⟩ := List.cons.inj h
      obtain ⟨h3, h4⟩ := ih (fun h => hs (List.mem_cons_of_mem _ h)) (fun h => ht (List.mem_cons_of_mem _ h)) h2
      exact ⟨by rw [h1, h3], h4⟩

/-- A text is cut at the last `c`. -/
theorem last_split {c : Char} {s t r r' : Str} (hr : c ∉ r) (hr' : c ∉ r') (h : s ++ c :: r = t ++ c :: r') : s = t ∧ r = r' := by
  have h1 := congrArg List.reverse h
  simp only [List.reverse_append, List.reverse_cons, List.append_assoc, List.singleton_append] at h1
  obtain ⟨h2, h3⟩ := first_split (by simpa using hr) (by simpa using hr') h1
  exact ⟨List.reverse_injective h3, List.reverse_injective h2⟩

theorem digits_natChars {c : Char} {n : ℕ} (h : c ∈ natChars n) : (dval c).isSome := by
  induction n using Nat.strong_induction_on with
  | _ n ih =>
    rw [natChars] at h
    split_ifs at h with hn
    · rw [List.mem_singleton.1 h, dval_dchar]; rfl
    · rcases List.mem_append.1 h with h | h
      · exact ih (n / 10) (Nat.div_lt_self (by omega) (by omega)) h
      · rw [List.mem_singleton.1 h, dval_dchar]; rfl

theorem notMem_natChars {c : Char} (hc : dval c = none) (n : ℕ) : c ∉ natChars n := fun h => by
  have := digits_natChars h
  rw [hc] at this
  exact absurd this (by simp)

theorem natChars_injective {n n' : ℕ} (h : natChars n = natChars n') : n = n' := by
  obtain ⟨k, -, h1⟩ := readDigits_nat n (rest := []) trivial
  obtain ⟨k', -, h2⟩ := readDigits_nat n' (rest := []) trivial
  rw [h, h2] at h1
  exact (Prod.mk.inj h1).1.symm

/-- **C118.** The text of `info` shows the order and the degree: gduals with the same text have the same order, the same degree and the same text of the polynomial, whatever this text is. -/
theorem C118_info {text text' : Poly C → Str} {d d' : GDual C} (h : info text d = info text' d') : text d.p = text' d'.p ∧ d.getOrder = d'.getOrder ∧ d.degree = d'.degree := by
  have hn : ∀ (a : Poly C → Str) (d : GDual C), info a d =
      (a d.p ++ "\nOrder:".toList ++ ' ' :: (natChars d.getOrder ++ "\nDegree:".toList)) ++ ' ' :: (natChars d.degree ++ "\n".toList) := fun a d => by
    simp [info]
  have hsp : ∀ n (l : Str), ' ' ∉ l → ' ' ∉ natChars n ++ l := fun n l hl hc => (List.mem_append.1 hc).elim (notMem_natChars (by decide) n) hl
  rw [hn, hn] at h
  obtain ⟨h1, h2⟩ := last_split (hsp _ _ (by decide)) (hsp _ _ (by decide)) h
  obtain ⟨h3, h4⟩ := last_split (hsp _ _ (by decide)) (hsp _ _ (by decide)) h1
  exact ⟨List.append_cancel_right h3, natChars_injective (List.append_cancel_right h4), natChars_injective (List.append_cancel_right h2)⟩

/-- **C118.** The lines of the text of `info`: the polynomial, the order and the degree in decimal, and the end of the text. -/
theorem C118_info_lines {text : Poly C → Str} {d : GDual C} (h : '\n' ∉ text d.p) :
    (info text d).splitOn '\n' = [text d.p, "Order: ".toList ++ natChars d.getOrder, "Degree: ".toList ++ natChars d.degree, []] := by
  have hl : ∀ l : Str, '\n' ∉ l → ∀ n, '\n' ∉ l ++ natChars n := fun l hl n hc => (List.mem_append.1 hc).elim hl (notMem_natChars (by decide) n)
  rw [← List.splitOn_intercalate (ls := [text d.p, "Order: ".toList ++ natChars d.getOrder, "Degree: ".toList ++ natChars d.degree, []]) '\n' ?_ (by simp)]
  · congr 1
    simp [info, List.intercalate]
  · intro l hm
    simp only [List.mem_cons, List.not_mem_nil, or_false] at hm
    rcases hm with rfl | rfl | rfl | rfl
    · exact h
    · exact hl _ (by decide) _
    · exact hl _ (by decide) _
    · simp

/-- **C118.** What holds of the stream operator: gduals written in the same way to the same stream have the same terms in text. Missing is the order. -/
theorem C118_stream_partial {terms terms' : Poly C → Str} {os : Str} {d d' : GDual C} (h : streamGDual terms os d = streamGDual terms' os d') : terms d.p = terms' d'.p :=
  List.append_cancel_left h

/-- **C118.** The LaTeX form of a gdual, in Python, ends with the order of the terms that are missing, the order plus 1, for every order that the constructors accept; gduals with the same LaTeX form have the same order and the same
text of the polynomial. -/
theorem C118_latex {tex tex' : Poly C → Str} {d d' : GDual C} (hd : d.getOrder < UINT_MAX - 10) (hd' : d'.getOrder < UINT_MAX - 10) :
    reprLatex tex d = "\\[ ".toList ++ tex d.p ++ "+\\mathcal{O}\\left(".toList ++ natChars (d.getOrder + 1) ++ "\\right) \\]".toList ∧
      (reprLatex tex d = reprLatex tex' d' → tex d.p = tex' d'.p ∧ d.getOrder = d'.getOrder) := by
  have hw : ∀ {n : ℕ}, n < UINT_MAX - 10 → (n + 1) % 2 ^ 32 = n + 1 := fun {n} h => Nat.mod_eq_of_lt (by unfold UINT_MAX at h; omega)
  have hsp : ∀ n, '(' ∉ natChars n ++ "\\right) \\]".toList := fun n hc => (List.mem_append.1 hc).elim (notMem_natChars (by decide) n) (by decide)
  refine ⟨by simp only [reprLatex, hw hd, List.append_assoc], fun h => ?_⟩
  have hn : ∀ (a : Poly C → Str) (d : GDual C), d.getOrder < UINT_MAX - 10 → reprLatex a d =
      ("\\[ ".toList ++ (a d.p ++ "+\\mathcal{O}\\left".toList)) ++ '(' :: (natChars (d.getOrder + 1) ++ "\\right) \\]".toList) := fun a d h => by
    simp only [reprLatex, hw h]
    simp
  rw [hn _ _ hd, hn _ _ hd'] at h
  obtain ⟨h1, h2⟩ := last_split (hsp _) (hsp _) h
  refine ⟨List.append_cancel_right (List.append_cancel_left h1), ?_⟩
  have := natChars_injective (List.append_cancel_right h2)
  omega

theorem exMessage_eq (f g : Str) (l : ℕ) (e : Str) : exMessage f g l e =
    List.append "\nfunction: ".toList (List.append f ('\n' :: List.append "where: ".toList (List.append (List.append g (',' :: ' ' :: natChars l)) ('\n' :: List.append "what: ".toList (List.append e "\n".toList))))) := by
  have e1 : "\nwhere: ".toList = '\n' :: "where: ".toList := by decide
  have e2 : "\nwhat: ".toList = '\n' :: "what: ".toList := by decide
  have e3 : ", ".toList = [',', ' '] := by decide
  delta exMessage
  simp only [e1, e2, e3, List.append_eq, List.append_assoc, List.cons_append, List.nil_append]

/-- **C118.** The message of an exception tells the function, the file, the line and the description: exceptions with the same message have the same ones, if the names of functions and files contain no line breaks. -/
theorem C118_message {func func' file file' desc desc' : Str} {line line' : ℕ} (h1 : '\n' ∉ func) (h1' : '\n' ∉ func') (h2 : '\n' ∉ file) (h2' : '\n' ∉ file') :
    exMessage func file line desc = exMessage func' file' line' desc' → func = func' ∧ file = file' ∧ line = line' ∧ desc = desc' := by
  intro h
  rw [exMessage_eq, exMessage_eq] at h
  obtain ⟨h3, h4⟩ := first_split h1 h1' (List.append_cancel_left h)
  have hl : ∀ {g : Str} (l : ℕ), '\n' ∉ g → '\n' ∉ g ++ ',' :: ' ' :: natChars l := fun l hg hc => by
    rcases List.mem_append.1 hc with hc | hc
    · exact hg hc
    · rcases List.mem_cons.1 hc with hc | hc
      · exact absurd hc (by decide)
      · rcases List.mem_cons.1 hc with hc | hc
        · exact absurd hc (by decide)
        · exact notMem_natChars (by decide) l hc
  obtain ⟨h5, h6⟩ := first_split (hl line h2) (hl line' h2') (List.append_cancel_left h4)
  have h7 : (file ++ [',']) ++ ' ' :: natChars line = (file' ++ [',']) ++ ' ' :: natChars line' := by simpa using h5
  obtain ⟨h8, h9⟩ := last_split (notMem_natChars (by decide) _) (notMem_natChars (by decide) _) h7
  exact ⟨h3, List.append_cancel_right h8, natChars_injective h9, List.append_cancel_right (List.append_cancel_left h6)⟩

/-- **C118.** The lines of the message of an exception. -/
theorem C118_message_lines {func file desc : Str} (line : ℕ) (h1 : '\n' ∉ func) (h2 : '\n' ∉ file) (h3 : '\n' ∉ desc) :
    (exMessage func file line desc).splitOn '\n' = [[], "function: ".toList ++ func, "where: ".toList ++ file ++ ", ".toList ++ natChars line, "what: ".toList ++ desc, []] := by
  have ha : ∀ l l' : Str, '\n' ∉ l → '\n' ∉ l' → '\n' ∉ l ++ l' := fun l l' hl hl' hc => (List.mem_append.1 hc).elim hl hl'
  rw [← List.splitOn_intercalate (ls := [[], "function: ".toList ++ func, "where: ".toList ++ file ++ ", ".toList ++ natChars line, "what: ".toList ++ desc, []]) '\n' ?_ (by simp), exMessage_eq]
  · have e1 : "\nfunction: ".toList = '\n' :: "function: ".toList := by decide
    have e2 : ", ".toList = [',', ' '] := by decide
    have e3 : "\n".toList = ['\n'] := by decide
    congr 1
    simp only [e1, e2, e3, List.intercalate, List.intersperse, List.flatten_cons, List.flatten_nil, List.append_eq, List.append_assoc, List.cons_append, List.nil_append, List.append_nil]
  · intro l hm
    simp only [List.mem_cons, List.not_mem_nil, or_false] at hm
    rcases hm with rfl | rfl | rfl | rfl | rfl
    · simp
    · exact ha _ _ (by decide) h1
    · exact ha _ _ (ha _ _ (ha _ _ (by decide) h2) (by decide)) (notMem_natChars (by decide) _)
    · exact ha _ _ (by decide) h3
    · simp

/-- **C118, counterexample.** The stream operator, and `print` in Python, do not show the order: the variable `x = 1` of order 1 and that of order 2 are written in the same way, whatever obake writes, although the
second derivative of the one is 0 and asking for that of the other throws. -/
theorem C118_stream_counterexample : ¬ ∀ (terms : Poly ℚ → Str) (d d' : GDual ℚ), (∃ m, GDual.mk3 1 "x" m = .ok d) → (∃ m, GDual.mk3 1 "x" m = .ok d') →
    streamGDual terms [] d = streamGDual terms [] d' → d.getDerivative [2] = d'.getDerivative [2] := by
  intro H
  have h := H (fun _ => []) _ _ ⟨1, rfl⟩ ⟨2, rfl⟩ rfl
  revert h
  decide

/-- The text of the variable `x = 1` of order 3. -/
example : ∃ d : GDual ℚ, GDual.mk3 1 "x" 3 = .ok d ∧ info (fun _ => "1+dx".toList) d = "1+dx\nOrder: 3\nDegree: 1\n".toList ∧ d.getOrder < UINT_MAX - 10 ∧ '\n' ∉ "1+dx".toList ∧
    reprLatex (fun _ => "1+{dx}".toList) d = "\\[ 1+{dx}+\\mathcal{O}\\left(4\\right) \\]".toList := by
  refine ⟨_, rfl, ?_, by decide, by decide, ?_⟩
  · have h1 : natChars 3 = ['3'] := by rw [natChars]; decide
    have h2 : natChars 1 = ['1'] := by rw [natChars]; decide
    exact (congrArg₂ (fun a b : Str => ("1+dx".toList ++ "\n".toList) ++ "Order: ".toList ++ a ++ "\n".toList ++ "Degree: ".toList ++ b ++ "\n".toList) h1 h2).trans (by decide)
  · have h1 : natChars 4 = ['4'] := by rw [natChars]; decide
    exact (congrArg (fun a : Str => "\\[ ".toList ++ ("1+{dx}".toList ++ ("+\\mathcal{O}\\left(".toList ++ a ++ "\\right) \\]".toList))) h1).trans (by decide)

/-- Names without line breaks. -/
example : '\n' ∉ "check".toList ∧ '\n' ∉ "gdual.hpp".toList ∧ '\n' ∉ "bad".toList ∧
    exMessage "check".toList "gdual.hpp".toList 9 "bad".toList = "\nfunction: check\nwhere: gdual.hpp, 9\nwhat: bad\n".toList := by
  refine ⟨by decide, by decide, by decide, ?_⟩
  have h1 : natChars 9 = ['9'] := by rw [natChars]; decide
  delta exMessage
  simp only [h1]
  decide

end Audi.Io
