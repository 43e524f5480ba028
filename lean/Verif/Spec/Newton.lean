import Verif.Spec.Ode

/-!
# Specification: fixed point iterations on gduals

The iteration `y := f(y, p)`, in particular Newton's method, by which expansions of implicitly defined functions are computed with gduals.
-/

namespace Audi

variable {C : Type} [CfFun C]

/-- One step: each `y ∈ ys` becomes `rhs y`, computed with the previous values; the other variables are unchanged. -/
def FixStep (ys : List String) (rhs : String → Expr C) (σ σ' : String → GDual C) : Prop :=
  (∀ y ∈ ys, (rhs y).eval σ = .ok (σ' y)) ∧ ∀ y ∉ ys, σ' y = σ y

/-- `k` steps. -/
inductive FixIter (ys : List String) (rhs : String → Expr C) (σ0 : String → GDual C) : ℕ → (String → GDual C) → Prop
  | zero : FixIter ys rhs σ0 0 σ0
  | succ {k σ σ'} : FixIter ys rhs σ0 k σ → FixStep ys rhs σ σ' → FixIter ys rhs σ0 (k + 1) σ'

/-- The values of all the variables at the point `x` of the variables in `I`: the unknowns `ys` are functions `ψ`, the remaining variables are numbers `w`. -/
def solEnv (ys I : List String) (w : String → ℝ) (ψ : String → (String → ℝ) → ℝ) (x : String → ℝ) : String → ℝ :=
  fun s => if s ∈ ys then ψ s x else if s ∈ I then x s else w s

/-- The partial derivatives of degree at most `n` read from `d` are those of the functions `F` at the points `w`. -/
def ReadsDerivatives {ι : Type} [Lanes C ι ℝ] (d : GDual C) (n : ℕ) (F : ι → (String → ℝ) → ℝ) (w : ι → String → ℝ) : Prop :=
  ∀ l : List String, l.length ≤ n → ∀ dict : List (String × ℕ), (dict.map (·.1)).Nodup → (∀ p ∈ dict, 0 < p.2) →
    (∀ u, (dict.lookup u).getD 0 = (l.map fun s => "d" ++ s).count u) →
    ∃ c, d.getDerivativeDict dict = .ok c ∧ ∀ i : ι, Lanes.lane i c = Spec.pds l (F i) (w i)

/-- The functions `φ` of the displacements from the centre (named as the symbols of the gduals: `d` followed by the name) satisfy `y = rhs y`, `y ∈ ys`, near the centre.

* `base`: the initial values have order `m`, or are constants of a smaller order;
* `full`: each right hand side uses a variable of order `m`;
* `init`: the iteration starts with the value of the solution at the centre;
* `smooth`: the solution has an expansion of order `m`. -/
structure Fixed {ι : Type} [Lanes C ι ℝ] (ys : List String) (rhs : String → Expr C) (m : ℕ) (σ0 : String → GDual C)
    (φ : ι → String → (String → ℝ) → ℝ) : Prop where
  base : ∀ s, (σ0 s).Valid ∧ (σ0 s).order ≤ m ∧ ((σ0 s).order = m ∨ ∀ i : ι, (σ0 s).toMv i = MvPolynomial.C (MvPolynomial.coeff 0 ((σ0 s).toMv i) : ℝ))
  fnOrder : ∀ y ∈ ys, (rhs y).FnOrder m
  full : ∀ y ∈ ys, (rhs y).FullIn fun s => (σ0 s).order = m
  dom : ∀ y ∈ ys, ∀ i : ι, (rhs y).Dom i fun s => φ i s 0
  other : ∀ s ∉ ys, ∀ (i : ι) x, φ i s x = MvPolynomial.eval x ((σ0 s).toMv i)
  init : ∀ y ∈ ys, ∀ i : ι, φ i y 0 = MvPolynomial.coeff 0 ((σ0 y).toMv i)
  smooth : ∀ y ∈ ys, ∀ i : ι, ∃ P, Spec.IsTaylor 0 m (φ i y) P
  eqn : ∀ y ∈ ys, ∀ i : ι, ∀ᶠ x in nhds 0, φ i y x = (rhs y).sem i fun s => φ i s x

/-- The data of the iterations. The variables in `I` (the parameters) are `gdual(v s, s, m)`, all the others, among them the unknowns `ys`, are `gdual(v s)`. The functions `ψ y`,
which have an expansion of order `m` at the point `v`, take the values `v y` there and satisfy `ψ y = rhs y` near `v`.

Restrictions: the order is at most 30 if `atan`, `asin` or `acos` occurs (finding 1); each right hand side uses a variable of order `m`. -/
structure Implicit {ι : Type} [Lanes C ι ℝ] (ys I : List String) (rhs : String → Expr C) (m : ℕ) (v : String → C) (σ0 : String → GDual C) (ψ : ι → String → (String → ℝ) → ℝ) : Prop where
  order : 0 < m
  disj : ∀ y ∈ ys, y ∉ I
  params : ∀ s ∈ I, GDual.mk3 (v s) s m = .ok (σ0 s)
  others : ∀ s ∉ I, σ0 s = GDual.ofCf (v s)
  fnOrder : ∀ y ∈ ys, (rhs y).FnOrder m
  full : ∀ y ∈ ys, (rhs y).FullIn (· ∈ I)
  dom : ∀ y ∈ ys, ∀ i : ι, (rhs y).Dom i fun s => Lanes.lane i (v s)
  smooth : ∀ y ∈ ys, ∀ i : ι, ∃ P, Spec.IsTaylor (fun s => Lanes.lane i (v s)) m (ψ i y) P
  init : ∀ y ∈ ys, ∀ i : ι, ψ i y (fun s => Lanes.lane i (v s)) = Lanes.lane i (v y)
  eqn : ∀ y ∈ ys, ∀ i : ι, ∀ᶠ x in nhds fun s => Lanes.lane i (v s), ψ i y x = (rhs y).sem i (solEnv ys I (fun s => Lanes.lane i (v s)) (ψ i) x)

end Audi
