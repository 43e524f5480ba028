import Verif.Model.Special
import Verif.Spec.Denote

/-!
# Specification: what happens to inf and NaN

A class of special values that ordinary arithmetic cannot leave (NaN; or NaN and the infinities), and where such values are in a gdual.
-/

namespace Audi

/-- Values which sums, products and quotients cannot turn back into others. -/
structure Absorbing {C : Type} [Cf C] (N : C → Prop) : Prop where
  add_left : ∀ a b, N a → N (Cf.add a b)
  add_right : ∀ a b, N b → N (Cf.add a b)
  mul_left : ∀ a b, N a → N (Cf.mul a b)
  mul_right : ∀ a b, N b → N (Cf.mul a b)
  div_left : ∀ a b, N a → N (Cf.div a b)
  neg : ∀ a, N a → N (Cf.neg a)
  nz : ∀ a, N a → Cf.isZero a = false

/-- Negation neither makes nor unmakes zeros. -/
class NegZero (C : Type) [Cf C] : Prop where
  isZero_neg : ∀ c : C, Cf.isZero (Cf.neg c) = Cf.isZero c

/-- The gdual has a coefficient satisfying `N` for the monomial with exponents `E` (by name). -/
def HasAt {C : Type} (N : C → Prop) (d : GDual C) (E : String →₀ ℕ) : Prop :=
  ∃ t ∈ d.p.terms, N t.2 ∧ toExp d.p.syms t.1 = E

/-- NaN. -/
def IsNaN {F : XFormat} (x : XF F) : Prop := x.v = .nan

/-- NaN or an infinity. -/
def NonFinite {F : XFormat} (x : XF F) : Prop := ∀ q, x.v ≠ .fin q

end Audi
