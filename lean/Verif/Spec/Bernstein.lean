import Mathlib.Algebra.Order.Field.Basic
import Verif.Model.Interval

/-!
# Specification: values of polynomials given by exponents, boxes
-/

namespace Audi.Spec

/-- Value at `x` of the polynomial with the given coefficients and exponents. -/
def polyVal {K : Type} [Field K] (coeffs : List K) (exps : List (List ℕ)) (x : List K) : K :=
  (List.zipWith (fun c e => c * (List.zipWith (fun (xi : K) (k : ℕ) => xi ^ k) x e).prod) coeffs exps).sum

/-- `x` lies in the interval. -/
def InItv {K : Type} [LE K] (I : Itv K) (x : K) : Prop := I.lo ≤ x ∧ x ≤ I.hi

/-- `x` lies in the box. -/
def InBox {K : Type} [LE K] (box : List (Itv K)) (x : List K) : Prop := List.Forall₂ InItv box x

/-- Product of `k` copies of an interval, by interval arithmetic. -/
def itvProd {K : Type} [Field K] [LinearOrder K] (I : Itv K) : ℕ → Itv K
  | 0 => Itv.point 1
  | k + 1 => I.mul (itvProd I k)

/-- Value of the polynomial over a box by interval arithmetic, term by term. -/
def itvVal {K : Type} [Field K] [LinearOrder K] (coeffs : List K) (exps : List (List ℕ)) (box : List (Itv K)) : Itv K :=
  (List.zipWith (fun c e => (Itv.point c).mul ((List.zipWith itvProd box e).foldr Itv.mul (Itv.point 1))) coeffs exps).foldr Itv.add (Itv.point 0)

end Audi.Spec
