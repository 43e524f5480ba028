import Verif.Spec.Trunc
import Mathlib.Analysis.Calculus.Deriv.Basic
import Mathlib.Topology.Algebra.Monoid

/-!
# Specification: Taylor expansions

Independent of the model. "`P` is the Taylor expansion of `F` at `a` to order `m`" is expressed by
recursion on `m`, with values, continuity and one-variable derivatives only (over the real or the complex numbers):

* the constant coefficient of `P` is the value `F a`,
* near `a`, `F` has a partial derivative with respect to each variable, and the formal partial derivative of
  `P` is the Taylor expansion to order `m - 1` of that partial derivative.
-/

namespace Audi.Spec

open MvPolynomial Topology

variable {σ : Type*} [DecidableEq σ] {𝕜 : Type*} [NontriviallyNormedField 𝕜]

/-- `F' ` is the partial derivative of `F` with respect to the variable `s` at the point `x`. -/
def HasPartialAt (F : (σ → 𝕜) → 𝕜) (F' : 𝕜) (s : σ) (x : σ → 𝕜) : Prop :=
  HasDerivAt (fun t => F (Function.update x s t)) F' (x s)

/-- `P`, a polynomial in the variations around `a`, is the Taylor expansion of `F` at `a` to order `m`. -/
def IsTaylor (a : σ → 𝕜) : ℕ → ((σ → 𝕜) → 𝕜) → MvPolynomial σ 𝕜 → Prop
  | 0, F, P => ContinuousAt F a ∧ F a = P.coeff 0
  | m + 1, F, P => ContinuousAt F a ∧ F a = P.coeff 0 ∧
      ∀ s, ∃ F' : (σ → 𝕜) → 𝕜, (∀ᶠ x in 𝓝 a, HasPartialAt F (F' x) s x) ∧
        IsTaylor a m F' (pderiv s P)

/-- The same for functions of one variable, the polynomial being given by its coefficients. -/
def IsTaylor₁ (c : 𝕜) : ℕ → (𝕜 → 𝕜) → (ℕ → 𝕜) → Prop
  | 0, g, b => ContinuousAt g c ∧ g c = b 0
  | m + 1, g, b => ContinuousAt g c ∧ g c = b 0 ∧
      ∃ g' : 𝕜 → 𝕜, (∀ᶠ t in 𝓝 c, HasDerivAt g (g' t) t) ∧
        IsTaylor₁ c m g' (fun i => (i + 1 : 𝕜) * b (i + 1))

/-- The function `∂F/∂s`, using Mathlib's derivative of a function of one variable. -/
noncomputable def pd (s : σ) (F : (σ → 𝕜) → 𝕜) : (σ → 𝕜) → 𝕜 :=
  fun x => deriv (fun t => F (Function.update x s t)) (x s)

/-- Successive partial derivatives with respect to the variables in the list, first element first. -/
noncomputable def pds : List σ → ((σ → 𝕜) → 𝕜) → ((σ → 𝕜) → 𝕜)
  | [], F => F
  | s :: l, F => pds l (pd s F)

end Audi.Spec
