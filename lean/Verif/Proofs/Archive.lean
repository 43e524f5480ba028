import Verif.Proofs.Decimal
import Mathlib.Tactic.IntervalCases

/-! What is written to a text archive is read again. -/

namespace Audi.Archive

theorem dval_dchar (n : ℕ) : dval (dchar n) = some (n % 10) := by
  unfold dchar
  have h : n % 10 < 10 := Nat.mod_lt _ (by norm_num)
  generalize n % 10 = k at *
  interval_cases k <;> rfl

/-- What may follow a number: the end, or a character which is not a digit. -/
def Stop : List Char → Prop
  | [] => True
  | c :: _ => dval c = none

theorem readDigits_stop (n k : ℕ) {rest : List Char} (h : Stop rest) : readDigits n k rest = (n, k, rest) := by
  cases rest with
  | nil => rfl
  | cons c cs =>
    have h' : dval c = none := h
    simp [readDigits, h']

theorem readDigits_dchar (n k m : ℕ) (rest : List Char) : readDigits n k (dchar m :: rest) = readDigits (n * 10 + m % 10) (k + 1) rest := by
  rw [readDigits, dval_dchar]

theorem readDigits_fix (k : ℕ) : ∀ (n j m : ℕ) (rest : List Char), readDigits n j (fixChars k m ++ rest) = readDigits (n * 10 ^ k + m % 10 ^ k) (j + k) rest := by
  induction k with
  | zero => intro n j m rest; simp [fixChars, Nat.mod_one]
  | succ k ih =>
    intro n j m rest
    rw [fixChars, List.append_assoc, ih, List.singleton_append, readDigits_dchar]
    congr 1
    rw [pow_succ, mul_comm (10 ^ k) 10, Nat.mod_mul]
    ring

/-- The number of digits. -/
def width (n : ℕ) : ℕ := if n < 10 then 1 else width (n / 10) + 1
termination_by n
decreasing_by omega

theorem natChars_eq (n : ℕ) : natChars n = fixChars (width n) n ∧ n < 10 ^ width n ∧ 0 < width n := by
  induction n using Nat.strong_induction_on with
  | _ n ih =>
    unfold natChars width
    split_ifs with h
    · exact ⟨by simp [fixChars], by simpa using h, by norm_num⟩
    · obtain ⟨h1, h2, h3⟩ := ih (n / 10) (by omega)
      refine ⟨by rw [fixChars, h1], ?_, by omega⟩
      rw [pow_succ]
      omega

theorem readDigits_nat (m : ℕ) {rest : List Char} (h : Stop rest) : ∃ k, 0 < k ∧ readDigits 0 0 (natChars m ++ rest) = (m, k, rest) := by
  obtain ⟨h1, h2, h3⟩ := natChars_eq m
  refine ⟨width m, h3, ?_⟩
  rw [h1, readDigits_fix, readDigits_stop _ _ h, Nat.mod_eq_of_lt h2]
  simp

theorem skip_dchar (n : ℕ) (cs : List Char) : skip (dchar n :: cs) = dchar n :: cs := by
  unfold skip
  split
  · rename_i h
    have h2 := dval_dchar n
    rw [(List.cons.inj h).1] at h2
    simp [dval] at h2
  · rfl

theorem natChars_cons (n : ℕ) : ∃ m cs, natChars n = dchar m :: cs := by
  induction n using Nat.strong_induction_on with
  | _ n ih =>
    unfold natChars
    split_ifs with h
    · exact ⟨n, [], rfl⟩
    · obtain ⟨m, cs, h1⟩ := ih (n / 10) (by omega)
      exact ⟨m, cs ++ [dchar n], by rw [h1]; rfl⟩

/-- What follows an item: the end, or a space. -/
def Sep : List Char → Prop
  | [] => True
  | c :: _ => c = ' '

theorem Sep.stop {rest : List Char} (h : Sep rest) : Stop rest := by
  cases rest with
  | nil => trivial
  | cons c cs => cases h; rfl

theorem skip_natChars (n : ℕ) (rest : List Char) : skip (' ' :: (natChars n ++ rest)) = natChars n ++ rest := by
  obtain ⟨m, cs, h⟩ := natChars_cons n
  rw [h, skip, List.cons_append, skip_dchar]

theorem getNat_put (n : ℕ) {rest : List Char} (h : Stop rest) : getNat (putNat n ++ rest) = some (n, rest) := by
  unfold getNat putNat
  rw [List.cons_append, skip_natChars]
  obtain ⟨k, hk, h1⟩ := readDigits_nat n h
  rw [h1]
  cases k with
  | zero => omega
  | succ k => rfl

theorem getString_put (s : String) (rest : List Char) : getString (putString s ++ rest) = some (s, rest) := by
  unfold getString putString
  rw [List.append_assoc, getNat_put _ (show Stop (' ' :: s.toList ++ rest) from rfl)]
  simp

theorem readSign_dchar (n : ℕ) (cs : List Char) : readSign (dchar n :: cs) = (false, dchar n :: cs) := by
  unfold readSign
  split
  · rename_i h
    have h2 := dval_dchar n
    rw [(List.cons.inj h).1] at h2
    simp [dval] at h2
  · rename_i h
    have h2 := dval_dchar n
    rw [(List.cons.inj h).1] at h2
    simp [dval] at h2
  · rfl

theorem readExponent_put (e : ℤ) {rest : List Char} (h : Stop rest) : readExponent ('e' :: (expChars e ++ rest)) = some (e, rest) := by
  have key : ∃ k, 0 < k ∧ readDigits 0 0 ((if e.natAbs < 10 then '0' :: natChars e.natAbs else natChars e.natAbs) ++ rest) = (e.natAbs, k, rest) := by
    split_ifs with h1
    · have h2 : '0' = dchar 0 := rfl
      rw [List.cons_append, h2, readDigits_dchar]
      obtain ⟨h3, h4, h5⟩ := natChars_eq e.natAbs
      refine ⟨0 + 1 + width e.natAbs, by omega, ?_⟩
      rw [h3, readDigits_fix, readDigits_stop _ _ h, Nat.mod_eq_of_lt h4]
      simp
    · exact readDigits_nat _ h
  obtain ⟨k, hk, h1⟩ := key
  unfold expChars
  by_cases hs : e < 0
  · rw [if_pos hs, List.cons_append, readExponent, readSign]
    simp only [h1]
    cases k with
    | zero => omega
    | succ k => simp only [if_true]; congr 2; omega
  · rw [if_neg hs, List.cons_append, readExponent, readSign]
    simp only [h1]
    cases k with
    | zero => omega
    | succ k => simp only [Bool.false_eq_true, if_false]; congr 2; omega

/-- The unsigned part of a number: digits, fraction, exponent. -/
theorem read_unsigned (m : ℕ) (hm : m < 10 ^ 18) (e : ℤ) {rest : List Char} (h : Stop rest) :
    readDigits 0 0 (dchar (m / 10 ^ 17) :: '.' :: (fixChars 17 m ++ 'e' :: expChars e) ++ rest) = (m / 10 ^ 17, 1, '.' :: (fixChars 17 m ++ 'e' :: (expChars e ++ rest))) ∧
      readFraction (m / 10 ^ 17) ('.' :: (fixChars 17 m ++ 'e' :: (expChars e ++ rest))) = (m, 17, 'e' :: (expChars e ++ rest)) := by
  constructor
  · rw [List.cons_append, readDigits_dchar, List.cons_append, readDigits_stop _ _ (show Stop ('.' :: _) from rfl)]
    simp only [List.append_assoc, List.cons_append]
    congr 1
    have : m / 10 ^ 17 < 10 := by omega
    omega
  · rw [readFraction, readDigits_fix, readDigits_stop _ _ (show Stop ('e' :: _) from rfl)]
    congr 1
    omega

theorem sign_near {q B : ℚ} {m : ℕ} {e : ℤ} (h : |(m : ℚ) * 10 ^ (e - 17) - (|q|)| ≤ B) :
    |(if decide (q < 0) = true then -1 else 1) * (m : ℚ) * 10 ^ (e - ((17 : ℕ) : ℤ)) - q| ≤ B := by
  rw [Nat.cast_ofNat, mul_assoc]
  generalize (m : ℚ) * 10 ^ (e - 17) = X at *
  by_cases hs : q < 0
  · simp only [hs, decide_true, if_true]
    rw [abs_of_neg hs] at h
    rw [← abs_neg]
    have : -(-1 * X - q) = X - -q := by ring
    rw [this]
    exact h
  · simp only [hs, decide_false, Bool.false_eq_true, if_false, one_mul]
    rwa [abs_of_nonneg (not_lt.mp hs)] at h

theorem getDouble_put {x : XF .binary64} {q : ℚ} (hx : x.v = .fin q) {rest : List Char} (h : Stop rest) : getDouble (putDouble x ++ rest) = some (x, rest) := by
  have hr : rnd64 q = .fin q := x.repr q hx
  have hq : round64 q = q ∧ |q| < 2 ^ 1024 := by
    unfold rnd64 at hr
    split_ifs at hr with h1
    simp only [Xv.fin.injEq] at hr
    rw [hr] at h1
    exact ⟨hr, h1⟩
  obtain ⟨m, e, hme, hm, hnear⟩ : ∃ m e, (if q = 0 then ((0, 0) : ℕ × ℤ) else sci q) = (m, e) ∧ m < 10 ^ 18 ∧ |(m : ℚ) * 10 ^ (e - 17) - (|q|)| ≤ |q| / 2 ^ 55 := by
    by_cases h0 : q = 0
    · exact ⟨0, 0, by rw [if_pos h0], by norm_num, by simp [h0]⟩
    · obtain ⟨h1, h2, h3⟩ := sci_spec h0
      exact ⟨_, _, by rw [if_neg h0], h2, h3⟩
  obtain ⟨u1, u2⟩ := read_unsigned m hm e h
  -- the sign
  have hsign : ∀ cs, readSign (skip (' ' :: ((if q < 0 then ['-'] else []) ++ dchar (m / 10 ^ 17) :: cs))) = (decide (q < 0), dchar (m / 10 ^ 17) :: cs) := fun cs => by
    by_cases hs : q < 0
    · simp only [hs, if_true, List.cons_append, List.nil_append, decide_true]
      have h1 : skip (' ' :: '-' :: dchar (m / 10 ^ 17) :: cs) = '-' :: dchar (m / 10 ^ 17) :: cs := rfl
      rw [h1]; rfl
    · simp only [hs, if_false, List.nil_append, decide_false]
      rw [skip, skip_dchar, readSign_dchar]
  have hval : XF.round .binary64 ((if decide (q < 0) = true then -1 else 1) * (m : ℚ) * 10 ^ (e - ((17 : ℕ) : ℤ))) = x := by
    have h1 := sign_near hnear
    have h2 := round64_near hq.1 h1
    have h3 : (XF.round .binary64 ((if decide (q < 0) = true then -1 else 1) * (m : ℚ) * 10 ^ (e - ((17 : ℕ) : ℤ)))).v = x.v := by
      change rnd64 _ = _
      rw [rnd64, h2, if_pos hq.2, hx]
    generalize XF.round .binary64 _ = y at h3
    cases x; cases y; cases h3; rfl
  have hput : putDouble x ++ rest = ' ' :: ((if q < 0 then ['-'] else []) ++ dchar (m / 10 ^ 17) :: ('.' :: (fixChars 17 m ++ 'e' :: expChars e) ++ rest)) := by
    unfold putDouble doubleChars
    rw [hx]
    simp only [hme, List.cons_append, List.append_assoc]
  unfold getDouble
  rw [hput, hsign]
  simp only
  rw [show dchar (m / 10 ^ 17) :: ('.' :: (fixChars 17 m ++ 'e' :: expChars e) ++ rest) = dchar (m / 10 ^ 17) :: '.' :: (fixChars 17 m ++ 'e' :: expChars e) ++ rest from rfl, u1]
  simp only [u2, readExponent_put e h, Option.bind_eq_bind, Option.bind_some]
  rw [hval, hx]

/-! ### Lists, polynomials, gduals -/

theorem sep_putNat (n : ℕ) (rest : List Char) : Sep (putNat n ++ rest) := rfl

theorem getMany_put {α : Type} {get : List Char → Option (α × List Char)} {put : α → List Char} {l : List α} {rest : List Char}
    (h : ∀ x ∈ l, ∀ r, Sep r → get (put x ++ r) = some (x, r) ∧ Sep (put x ++ r)) (hr : Sep rest) : getMany get l.length (l.flatMap put ++ rest) = some (l, rest) ∧ Sep (l.flatMap put ++ rest) := by
  induction l with
  | nil => exact ⟨rfl, hr⟩
  | cons x l ih =>
    obtain ⟨h1, h2⟩ := ih fun y hy => h y (List.mem_cons_of_mem _ hy)
    obtain ⟨h3, h4⟩ := h x (by simp) _ h2
    rw [List.flatMap_cons, List.append_assoc]
    refine ⟨?_, h4⟩
    rw [List.length_cons, getMany, h3]
    simp only [Option.bind_eq_bind, Option.bind_some, h1]

theorem getList_put {α : Type} {get : List Char → Option (α × List Char)} {put : α → List Char} {l : List α} {rest : List Char}
    (h : ∀ x ∈ l, ∀ r, Sep r → get (put x ++ r) = some (x, r) ∧ Sep (put x ++ r)) (hr : Sep rest) : getList get (putList put l ++ rest) = some (l, rest) ∧ Sep (putList put l ++ rest) := by
  obtain ⟨h1, h2⟩ := getMany_put h hr
  unfold getList putList
  rw [List.append_assoc, getNat_put _ h2.stop]
  simp only [Option.bind_eq_bind, Option.bind_some, h1]
  exact ⟨trivial, rfl⟩

variable {C : Type} [Archived C]

/-- The coefficient can be read again. -/
def Readable (c : C) : Prop := ∀ r, Sep r → Archived.get (Archived.put c ++ r) = some (c, r) ∧ Sep (Archived.put c ++ r)

theorem getTerm_put {t : List ℕ × C} (h : Readable t.2) {rest : List Char} (hr : Sep rest) : getTerm t.1.length (putTerm t ++ rest) = some (t, rest) ∧ Sep (putTerm t ++ rest) := by
  obtain ⟨h1, h2⟩ := h rest hr
  obtain ⟨h3, h4⟩ := getMany_put (get := getNat) (put := putNat) (l := t.1) (fun x _ r hr => ⟨getNat_put x hr.stop, rfl⟩) h2
  unfold getTerm putTerm
  rw [List.append_assoc, h3]
  simp only [Option.bind_eq_bind, Option.bind_some, h1]
  exact ⟨trivial, h4⟩

theorem getPoly_put {p : Poly C} (hl : ∀ t ∈ p.terms, t.1.length = p.syms.length) (hc : ∀ t ∈ p.terms, Readable t.2) {rest : List Char} (hr : Sep rest) :
    getPoly (putPoly p ++ rest) = some (p, rest) ∧ Sep (putPoly p ++ rest) := by
  obtain ⟨h1, h2⟩ := getList_put (get := getTerm p.syms.length) (put := putTerm) (l := p.terms) (fun t ht r hr => by rw [← hl t ht]; exact getTerm_put (hc t ht) hr) hr
  obtain ⟨h3, h4⟩ := getList_put (get := getString) (put := putString) (l := p.syms) (fun s _ r _ => ⟨getString_put s r, rfl⟩) h2
  unfold getPoly putPoly
  rw [List.append_assoc, h3]
  simp only [Option.bind_eq_bind, Option.bind_some, h1]
  exact ⟨trivial, h4⟩

theorem getGDual_put {d : GDual C} (hl : ∀ t ∈ d.p.terms, t.1.length = d.p.syms.length) (hc : ∀ t ∈ d.p.terms, Readable t.2) {rest : List Char} (hr : Sep rest) :
    getGDual (putGDual d ++ rest) = some (d, rest) ∧ Sep (putGDual d ++ rest) := by
  obtain ⟨h1, h2⟩ := getPoly_put (p := d.p) hl hc (sep_putNat d.order rest)
  unfold getGDual putGDual
  rw [List.append_assoc, h1]
  simp only [Option.bind_eq_bind, Option.bind_some, getNat_put _ hr.stop]
  exact ⟨trivial, h2⟩

theorem getHeader_put {rest : List Char} (hr : Sep rest) : getHeader (header ++ rest) = some rest := by
  have h1 : header ++ rest = natChars 22 ++ (' ' :: ("serialization::archive".toList ++ (putNat 19 ++ rest))) := by
    have h2 : natChars 22 = ['2', '2'] := by simp [natChars]; decide
    have h9 : natChars 19 = ['1', '9'] := by simp [natChars]; decide
    rw [h2, putNat, h9]
    rfl
  have h2 : getNat (header ++ rest) = some (22, ' ' :: ("serialization::archive".toList ++ (putNat 19 ++ rest))) := by
    rw [h1]
    obtain ⟨k, hk, h3⟩ := readDigits_nat 22 (rest := ' ' :: ("serialization::archive".toList ++ (putNat 19 ++ rest))) rfl
    obtain ⟨m, cs, h4⟩ := natChars_cons 22
    unfold getNat
    rw [show skip (natChars 22 ++ (' ' :: ("serialization::archive".toList ++ (putNat 19 ++ rest)))) = natChars 22 ++ (' ' :: ("serialization::archive".toList ++ (putNat 19 ++ rest))) by
      rw [h4, List.cons_append, skip_dchar], h3]
    cases k with
    | zero => omega
    | succ k => rfl
  have h3 : getString (header ++ rest) = some ("serialization::archive", putNat 19 ++ rest) := by
    unfold getString
    rw [h2]
    rfl
  unfold getHeader
  rw [h3]
  simp only [Option.bind_eq_bind, Option.bind_some, ne_eq, not_true_eq_false, if_false, getNat_put _ hr.stop]
  rfl

end Audi.Archive
