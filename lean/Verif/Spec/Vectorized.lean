import Verif.Model.Vectorized
import Verif.Spec.Expr

/-!
# Specification: broadcasting and components

The `i`-th component of a list of numbers, where a list of length 1 stands for a constant vector of any length; the `i`-th component of a gdual
and of an expression.
-/

namespace Audi

namespace Spec

/-- The `i`-th component, with broadcasting. -/
def comp {T : Type} (l : List T) (i : ℕ) : Option T := if l.length = 1 then l[0]? else l[i]?

/-- Two lengths that can be combined. -/
def Compat (m n : ℕ) : Prop := m = n ∨ m = 1 ∨ n = 1

instance (m n : ℕ) : Decidable (Compat m n) := inferInstanceAs (Decidable (_ ∨ _ ∨ _))

/-- The length of a combination. -/
def joinSize (m n : ℕ) : ℕ := if m = 1 then n else m

end Spec

variable {C : Type} [Cf C] {ι : Type} {K : Type} [Field K] [Lanes C ι K]

/-- Component `i` of a gdual: the table made of component `i` of every coefficient, without the terms whose coefficient becomes zero. -/
def GDual.proj [DecidableEq K] (i : ι) (d : GDual C) : GDual K :=
  ⟨⟨d.p.syms, (d.p.terms.map fun t => (t.1, Lanes.lane i t.2)).filter fun t => !decide (t.2 = 0)⟩, d.order⟩

/-- Component `i` of the constants of an expression. -/
def Expr.proj (i : ι) : Expr C → Expr K
  | var s => var s
  | const c => const (Lanes.lane i c)
  | bin op e1 e2 => bin op (e1.proj i) (e2.proj i)
  | left op c e => left op (Lanes.lane i c) (e.proj i)
  | right op e c => right op (e.proj i) (Lanes.lane i c)
  | fn f e => fn f (e.proj i)
  | pow e1 e2 => pow (e1.proj i) (e2.proj i)

end Audi
