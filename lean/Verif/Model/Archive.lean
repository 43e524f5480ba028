import Verif.Proofs.Binary64
import Verif.Model.Vectorized

/-!
# Model: text archives

The serialization of gduals (gdual.hpp:995-1000) and of vectorized coefficients (vectorized.hpp:238-242) with `boost::archive::text_oarchive` and
`boost::archive::text_iarchive`, and the pickling of gduals in Python (expose_gdual.hpp:83-100), on the level of characters.

The archives of Boost and the serialization of the polynomials of obake are not part of the repository. What is assumed of them: every item is
written after a space; unsigned numbers in decimal; strings as their length, a space and their characters; a `double` with `operator<<` in scientific notation with a precision of `digits10 + 2 = 17` and read
with `operator>>` (correctly rounded); a polynomial as its symbols (their number first) and its terms (their number first), each as exponents and coefficient. A failure of `operator>>` is an exception of the archive (`none`).

Simplified: the class identifiers, tracking levels and versions, which are constants, are left out; characters are bytes; sizes do not overflow.
-/

namespace Audi.Archive

/-- The last decimal digit of `n`. -/
def dchar (n : ℕ) : Char := Char.ofNat (n % 10 + 48)

/-- The value of a decimal digit. -/
def dval (c : Char) : Option ℕ := if 48 ≤ c.toNat ∧ c.toNat ≤ 57 then some (c.toNat - 48) else none

/-- `operator<<` of an unsigned number. -/
def natChars (n : ℕ) : List Char := if n < 10 then [dchar n] else natChars (n / 10) ++ [dchar n]
termination_by n
decreasing_by omega

/-- The last `k` digits of `n`. -/
def fixChars : ℕ → ℕ → List Char
  | 0, _ => []
  | k + 1, n => fixChars k (n / 10) ++ [dchar n]

/-- The 18 significant digits and the exponent of a number which is not zero: `|q|` is near `(m / 10^17) * 10^e`. -/
def sci (q : ℚ) : ℕ × ℤ :=
  let e := Int.log 10 |q|
  let m := (nearestInt (|q| / 10 ^ (e - 17))).toNat
  if m = 10 ^ 18 then (10 ^ 17, e + 1) else (m, e)

/-- The exponent: a sign and at least two digits. -/
def expChars (e : ℤ) : List Char :=
  (if e < 0 then '-' else '+') :: (if e.natAbs < 10 then '0' :: natChars e.natAbs else natChars e.natAbs)

/-- `os << std::setprecision(17) << std::scientific << x`. -/
def doubleChars (x : XF .binary64) : List Char :=
  match x.v with
  | .nan => ['n', 'a', 'n']
  | .inf s => (if s then ['-'] else []) ++ ['i', 'n', 'f']
  | .fin q =>
    let me := if q = 0 then (0, 0) else sci q
    (if q < 0 then ['-'] else []) ++ dchar (me.1 / 10 ^ 17) :: '.' :: (fixChars 17 me.1 ++ 'e' :: expChars me.2)

/-- Items of the archive. -/
def putNat (n : ℕ) : List Char := ' ' :: natChars n
def putString (s : String) : List Char := putNat s.toList.length ++ ' ' :: s.toList
def putDouble (x : XF .binary64) : List Char := ' ' :: doubleChars x

/-- Reads digits: the number, how many digits, the rest. -/
def readDigits (n k : ℕ) : List Char → ℕ × ℕ × List Char
  | [] => (n, k, [])
  | c :: cs => match dval c with
    | some d => readDigits (n * 10 + d) (k + 1) cs
    | none => (n, k, c :: cs)

/-- Skips spaces (`std::skipws`). -/
def skip : List Char → List Char
  | ' ' :: cs => skip cs
  | cs => cs

/-- `operator>>` of an unsigned number. -/
def getNat (cs : List Char) : Option (ℕ × List Char) :=
  match readDigits 0 0 (skip cs) with
  | (_, 0, _) => none
  | (n, _, r) => some (n, r)

/-- Reads a string: length, one character, the characters. -/
def getString (cs : List Char) : Option (String × List Char) := do
  let (n, r) ← getNat cs
  match r with
  | [] => none
  | _ :: r => if n ≤ r.length then some (String.ofList (r.take n), r.drop n) else none

/-- A sign. -/
def readSign : List Char → Bool × List Char
  | '-' :: cs => (true, cs)
  | '+' :: cs => (false, cs)
  | cs => (false, cs)

/-- The optional fraction. -/
def readFraction (n : ℕ) : List Char → ℕ × ℕ × List Char
  | '.' :: cs => readDigits n 0 cs
  | cs => (n, 0, cs)

/-- The optional exponent; without digits it is an error. -/
def readExponent : List Char → Option (ℤ × List Char)
  | 'e' :: cs =>
    let (s, cs) := readSign cs
    match readDigits 0 0 cs with
    | (_, 0, _) => none
    | (n, _, r) => some (if s then -(n : ℤ) else n, r)
  | cs => some (0, cs)

/-- `operator>>` of a `double`: the nearest `double`; failure if there are no digits (`inf`, `nan`) or if the number overflows. -/
def getDouble (cs : List Char) : Option (XF .binary64 × List Char) := do
  let (s, cs) := readSign (skip cs)
  match readDigits 0 0 cs with
  | (_, 0, _) => none
  | (n, _, cs) =>
    let (n, k, cs) := readFraction n cs
    let (e, cs) ← readExponent cs
    let x := XF.round .binary64 ((if s then -1 else 1) * n * 10 ^ (e - k))
    match x.v with
    | .fin _ => some (x, cs)
    | _ => none

/-- Coefficients that can be written and read. -/
class Archived (C : Type) where
  put : C → List Char
  get : List Char → Option (C × List Char)

instance : Archived (XF .binary64) := ⟨putDouble, getDouble⟩

/-- Reads `n` items. -/
def getMany {α : Type} (get : List Char → Option (α × List Char)) : ℕ → List Char → Option (List α × List Char)
  | 0, cs => some ([], cs)
  | n + 1, cs => do
    let (x, cs) ← get cs
    let (xs, cs) ← getMany get n cs
    some (x :: xs, cs)

/-- Writes the number of items and the items. -/
def putList {α : Type} (put : α → List Char) (l : List α) : List Char := putNat l.length ++ l.flatMap put

/-- Reads the number of items and the items. -/
def getList {α : Type} (get : List Char → Option (α × List Char)) (cs : List Char) : Option (List α × List Char) := do
  let (n, cs) ← getNat cs
  getMany get n cs

/-- `serialize` of vectorized coefficients (vectorized.hpp:238-242), a `std::vector`: the number of items, the version of the items and the items. -/
instance {T : Type} [Archived T] : Archived (Vec T) where
  put v := putNat v.c.length ++ (putNat 0 ++ v.c.flatMap Archived.put)
  get cs := do
    let (n, cs) ← getNat cs
    let (_, cs) ← getNat cs
    let (l, cs) ← getMany Archived.get n cs
    some (⟨l⟩, cs)

section
variable {C : Type} [Archived C]

/-- A term: the exponents and the coefficient. -/
def putTerm (t : List ℕ × C) : List Char := t.1.flatMap putNat ++ Archived.put t.2

/-- Reads a term with `n` exponents. -/
def getTerm (n : ℕ) (cs : List Char) : Option ((List ℕ × C) × List Char) := do
  let (e, cs) ← getMany getNat n cs
  let (c, cs) ← Archived.get cs
  some ((e, c), cs)

/-- `ar & m_p` when writing. -/
def putPoly (p : Poly C) : List Char := putList putString p.syms ++ putList putTerm p.terms

/-- `ar & m_p` when reading. -/
def getPoly (cs : List Char) : Option (Poly C × List Char) := do
  let (ss, cs) ← getList getString cs
  let (ts, cs) ← getList (getTerm ss.length) cs
  some (⟨ss, ts⟩, cs)

/-- `serialize` of gduals, writing (gdual.hpp:995-1000). -/
def putGDual (d : GDual C) : List Char := putPoly d.p ++ putNat d.order

/-- `serialize` of gduals, reading (gdual.hpp:995-1000). -/
def getGDual (cs : List Char) : Option (GDual C × List Char) := do
  let (p, cs) ← getPoly cs
  let (n, cs) ← getNat cs
  some (⟨p, n⟩, cs)

/-- The signature of the archives, written by the constructor of `text_oarchive`: its length, the string and the version of the library. -/
def header : List Char := "22 serialization::archive 19".toList

/-- The constructor of `text_iarchive`: the signature and the version are read; another signature, or a newer version, is an error. -/
def getHeader (cs : List Char) : Option (List Char) := do
  let (s, cs) ← getString cs
  if s ≠ "serialization::archive" then none
  let (v, cs) ← getNat cs
  if 19 < v then none
  some cs

/-- An archive with one gdual: `oa << d`. -/
def dump (d : GDual C) : List Char := header ++ putGDual d

/-- `ia >> d`. What is after the gdual is not read. -/
def load (cs : List Char) : Option (GDual C) := do
  let cs ← getHeader cs
  let (d, _) ← getGDual cs
  some d

/-- `__getstate__` (expose_gdual.hpp:84-90): a tuple with the text. -/
def getstate (d : GDual C) : List (List Char) := [dump d]

/-- `__setstate__` (expose_gdual.hpp:91-100). -/
def setstate : List (List Char) → Option (GDual C)
  | [cs] => load cs
  | _ => none

end
end Audi.Archive
