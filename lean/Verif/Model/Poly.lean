import Verif.Model.Cf
import Mathlib.Data.String.Basic

/-!
# Model: polynomials (contract of the external library obake)

`gdual::m_p` is an `obake::polynomial<Monomial, Cf>` (gdual.hpp:109, 267). obake is not part of /repo; this file is the
contract assumed of it: a symbol set (sorted, without repetitions) and a table of pairs (exponents, coefficient), one
exponent per symbol, no repeated exponent vector, no zero coefficient. The iteration order of obake's hash
table is not specified; here it is the order of the list, and no theorem depends on it.
-/

namespace Audi

/-- `obake::polynomial`: symbol set and term table. -/
structure Poly (C : Type) where
  syms : List String
  terms : List (List ℕ × C)
deriving Repr, DecidableEq

/-- Insert a name in a sorted list without repetitions (`obake::symbol_set` is a sorted set of strings). -/
def insertSym (s : String) : List String → List String
  | [] => [s]
  | t :: ts => if s = t then t :: ts else if s < t then s :: t :: ts else t :: insertSym s ts

/-- Union of a symbol set with a list of names. -/
def mergeSyms (a b : List String) : List String := b.foldl (fun acc s => insertSym s acc) a

/-- Exponent of the symbol `s` in a monomial over the symbols `ss`; 0 if `s` does not occur. -/
def expOf : List String → List ℕ → String → ℕ
  | s' :: ss, k :: ks, s => if s = s' then k else expOf ss ks s
  | _, _, _ => 0

/-- Rewrite a monomial over the symbols `old` as a monomial over the symbols `new`. -/
def reindex (old new : List String) (e : List ℕ) : List ℕ := new.map (expOf old e)

namespace Poly
variable {C : Type} [Cf C]

/-- Accumulate a term in the table; terms that become zero are removed (obake's `series_add_term`). -/
def insertTerm (e : List ℕ) (c : C) : List (List ℕ × C) → List (List ℕ × C)
  | [] => if Cf.isZero c then [] else [(e, c)]
  | (e', c') :: t =>
    if e = e' then
      (if Cf.isZero (Cf.add c' c) then t else (e', Cf.add c' c) :: t)
    else (e', c') :: insertTerm e c t

/-- Accumulate a list of terms. -/
def insertTerms (t new : List (List ℕ × C)) : List (List ℕ × C) :=
  new.foldl (fun acc x => insertTerm x.1 x.2 acc) t

/-- The zero polynomial without symbols: `m_p()`. -/
def zero : Poly C := ⟨[], []⟩

/-- The constant polynomial without symbols: `m_p(c)`. -/
def const (c : C) : Poly C := ⟨[], insertTerm [] c []⟩

/-- `obake::make_polynomials<p_type>(s)[0]`: the polynomial `s`. -/
def var (s : String) : Poly C := ⟨[s], [([1], Cf.one)]⟩

/-- `obake::add_symbols(p, ss)`: the same polynomial over a larger symbol set. -/
def addSymbols (p : Poly C) (ss : List String) : Poly C :=
  let new := mergeSyms p.syms ss
  ⟨new, p.terms.map fun t => (reindex p.syms new t.1, t.2)⟩

/-- `p + q` (symbol sets are merged). -/
def add (p q : Poly C) : Poly C :=
  let p' := p.addSymbols q.syms
  let q' := q.addSymbols p.syms
  ⟨p'.syms, insertTerms p'.terms q'.terms⟩

/-- `-p`. -/
def neg (p : Poly C) : Poly C := ⟨p.syms, p.terms.map fun t => (t.1, Cf.neg t.2)⟩

/-- `p - q`. -/
def sub (p q : Poly C) : Poly C := p.add q.neg

/-- Total degree of a monomial: `obake::key_degree`. -/
def keyDegree (e : List ℕ) : ℕ := e.sum

/-- Product of two polynomials restricted to the monomials satisfying `keep`. -/
def mulBy (keep : List ℕ → Bool) (p q : Poly C) : Poly C :=
  let p' := p.addSymbols q.syms
  let q' := q.addSymbols p.syms
  ⟨p'.syms, insertTerms [] (p'.terms.flatMap fun t =>
    (q'.terms.map fun u => (List.zipWith (· + ·) t.1 u.1, Cf.mul t.2 u.2)).filter fun v => keep v.1)⟩

/-- `truncated_mul(p, q, n)`: product without the terms of total degree larger than `n` (used at gdual.hpp:204). -/
def truncMul (p q : Poly C) (n : ℕ) : Poly C := mulBy (fun e => keyDegree e ≤ n) p q

/-- Exact product. -/
def mul (p q : Poly C) : Poly C := mulBy (fun _ => true) p q

/-- `p ^ n`, exact. -/
def npow (p : Poly C) : ℕ → Poly C
  | 0 => const Cf.one
  | n + 1 => mul (npow p n) p

/-- `obake::degree(p)`: 0 for the zero polynomial. -/
def degree (p : Poly C) : ℕ := (p.terms.map fun t => keyDegree t.1).foldr max 0

/-- `obake::truncate_degree(p, n)`. -/
def truncate (p : Poly C) (n : ℕ) : Poly C := ⟨p.syms, p.terms.filter fun t => keyDegree t.1 ≤ n⟩

/-- `obake::filter(p, keep)`. -/
def filter (p : Poly C) (keep : List ℕ × C → Bool) : Poly C := ⟨p.syms, p.terms.filter keep⟩

/-- Change the exponent of one symbol. -/
def setExp : List String → List ℕ → String → ℕ → List ℕ
  | s' :: ss, k :: ks, s, n => if s = s' then n :: ks else k :: setExp ss ks s n
  | _, ks, _, _ => ks

/-- `obake::diff(p, s)`: partial derivative; zero if `s` is not in the symbol set. -/
def diff (p : Poly C) (s : String) : Poly C :=
  ⟨p.syms, insertTerms [] (p.terms.filterMap fun t =>
    let k := expOf p.syms t.1 s
    if k = 0 then none else some (setExp p.syms t.1 s (k - 1), Cf.mul t.2 (Cf.ofRat k)))⟩

/-- `obake::integrate(p, s)`: antiderivative without terms independent of `s`; the symbol is added if absent. -/
def integrate (p : Poly C) (s : String) : Poly C :=
  let p' := p.addSymbols [s]
  ⟨p'.syms, insertTerms [] (p'.terms.map fun t =>
    let k := expOf p'.syms t.1 s
    (setExp p'.syms t.1 s (k + 1), Cf.div t.2 (Cf.ofRat (k + 1))))⟩

/-- `obake::subs(p, {s: v})`, a value for a symbol. The symbol stays in the symbol set (pyaudi/expose_gdual.hpp:164). -/
def subsVal (p : Poly C) (s : String) (v : C) : Poly C :=
  ⟨p.syms, insertTerms [] (p.terms.map fun t =>
    (setExp p.syms t.1 s 0, Cf.mul t.2 (Cf.npow v (expOf p.syms t.1 s))))⟩

/-- `obake::subs(p, {s: q})`, a polynomial for a symbol; exact. -/
def subsPoly (p : Poly C) (s : String) (q : Poly C) : Poly C :=
  (p.terms.map fun t =>
      mul ⟨p.syms, [(setExp p.syms t.1 s 0, t.2)]⟩ (npow q (expOf p.syms t.1 s))).foldl add
    ((⟨p.syms, []⟩ : Poly C).addSymbols q.syms)

/-- `obake::trim(p)`: remove from the symbol set the symbols that do not occur. -/
def trimSyms (p : Poly C) : Poly C :=
  let used := p.syms.filter fun s => p.terms.any fun t => expOf p.syms t.1 s != 0
  ⟨used, p.terms.map fun t => (reindex p.syms used t.1, t.2)⟩

/-- Look up a monomial in the table: `p.find(key)`. -/
def find? (p : Poly C) (e : List ℕ) : Option C := (p.terms.find? fun t => t.1 = e).map (·.2)

/-- `p == q`: after merging the symbol sets, the tables contain the same terms. -/
def eq (p q : Poly C) : Bool :=
  let p' := p.addSymbols q.syms
  let q' := q.addSymbols p.syms
  p'.terms.length == q'.terms.length &&
    p'.terms.all fun t => match q'.find? t.1 with
      | none => false
      | some c => Cf.beq t.2 c

/-- Value of a monomial at given values of the symbols. -/
def monoVal (vals : String → C) : List String → List ℕ → C
  | s :: ss, k :: ks => Cf.mul (Cf.npow (vals s) k) (monoVal vals ss ks)
  | _, _ => Cf.one

/-- `obake::evaluate(p, dict)`: throws `std::invalid_argument` if a symbol is missing from the dictionary. -/
def evaluate (p : Poly C) (dict : List (String × C)) : Res C :=
  if p.syms.all fun s => (dict.lookup s).isSome then
    .ok ((p.terms.map fun t => Cf.mul t.2
      (monoVal (fun s => (dict.lookup s).getD Cf.zero) p.syms t.1)).foldl Cf.add Cf.zero)
  else .error .invalidArgument

end Poly
end Audi
