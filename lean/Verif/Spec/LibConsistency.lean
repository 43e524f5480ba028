import Verif.Spec.Consistency
import Verif.Spec.LibExpr
import Verif.Model.RoundedBounds

/-!
# Specification: rounded evaluation of expressions with all the functions
-/

namespace Audi

/-- Rounded coefficients: `abs` for scalar coefficients (functions.hpp:889-897). -/
noncomputable instance {R : Rounding ℝ} [Libm R] : AbsFn (Fl R) := ⟨GDual.absScalar⟩

namespace LExpr

/-- Change the constants. -/
def map {C D : Type} (f : C → D) : LExpr C → LExpr D
  | var s => var s
  | const c => const (f c)
  | bin op e1 e2 => bin op (e1.map f) (e2.map f)
  | left op c e => left op (f c) (e.map f)
  | right op e c => right op (e.map f) (f c)
  | fn g e => fn g (e.map f)
  | pow e1 e2 => pow (e1.map f) (e2.map f)

end LExpr
end Audi
