import Verif.Model.TaylorModel
import Verif.Spec.Denote
import Verif.Spec.Bernstein

/-!
# Specification: what a Taylor model means

Only the data structure `TM` of the model is used here, none of its operations.
-/

namespace Audi

/-- The name of a variable: the symbol without its first character. -/
def varName (s : String) : String := String.ofList (s.toList.drop 1)

/-- Sum of the absolute values of the terms of a polynomial when the variables have the absolute values `R`. -/
noncomputable def Spec.absVal {K : Type} [Field K] [LinearOrder K] (R : String → K) (f : MvPolynomial String K) : K :=
  ∑ m ∈ f.support, |f.coeff m| * m.prod fun s k => R s ^ k

namespace TM

variable {K : Type} [Field K] [LinearOrder K]

/-- The point `x` lies in the domain. -/
def InDom (tm : TM K) (x : String → K) : Prop := ∀ e ∈ tm.dom, Spec.InItv e.2 (x e.1)

/-- The value of the differential of the symbol `s` at `x`: distance from the expansion point. -/
def displacement (exp : VMap K) (x : String → K) (s : String) : K := x (varName s) - (exp.lookup (varName s)).getD 0

/-- The value of the Taylor polynomial at the point `x`. -/
noncomputable def polyAt (tm : TM K) (x : String → K) : K := MvPolynomial.eval (displacement tm.exp x) (tm.tpol.toMv ())

/-- The Taylor model allows the value `y` at the point `x`: the difference to the polynomial lies in the remainder interval. -/
def Allows (tm : TM K) (x : String → K) (y : K) : Prop := Spec.InItv tm.rem (y - tm.polyAt x)

/-- The Taylor model encloses the function `F` over the set of points `D`. -/
def Encloses (tm : TM K) (D : Set (String → K)) (F : (String → K) → K) : Prop := ∀ x ∈ D, tm.Allows x (F x)

/-- A well formed Taylor model: valid polynomial in symbols that are differentials, one interval and one expansion point for each
variable and no others, the expansion point lies in the interval, the remainder is an interval. -/
structure WF (tm : TM K) : Prop where
  valid : tm.tpol.Valid
  names : ∀ s ∈ tm.tpol.p.syms, ∃ v, s = "d" ++ v
  order : tm.order = tm.tpol.order
  ndim : tm.ndim = tm.tpol.p.syms.length
  expKeys : (tm.exp.map Prod.fst).Perm (tm.tpol.p.syms.map varName)
  domKeys : (tm.dom.map Prod.fst).Perm (tm.tpol.p.syms.map varName)
  inside : ∀ e ∈ tm.dom, ∃ x, (e.1, x) ∈ tm.exp ∧ Spec.InItv e.2 x
  rem : tm.rem.lo ≤ tm.rem.hi

/-- The two Taylor models give the same expansion point and interval to the variables they share. -/
def Compatible (a b : TM K) : Prop :=
  (∀ e ∈ a.exp, ∀ f ∈ b.exp, e.1 = f.1 → e.2 = f.2) ∧ ∀ e ∈ a.dom, ∀ f ∈ b.dom, e.1 = f.1 → e.2 = f.2

/-- Maps with entries for the variables `vs` are traversed in the order in which these entries were inserted. -/
def Faithful (ord : List String → List String) (vs : List String) : Prop := ∀ l : List String, l.Nodup → l ⊆ vs → ord l = l

/-- The operation on `a` succeeds; the result is a well formed Taylor model over the same domain; where `a` allows a value `y`, the
result allows all values `z` that are related to `y`. -/
def Sound₁ (a : TM K) (o : Res (TM K)) (R : K → K → Prop) : Prop :=
  ∃ r, o = .ok r ∧ r.WF ∧ r.order = a.order ∧ (∀ x, r.InDom x ↔ a.InDom x) ∧
    ∀ x, a.InDom x → ∀ y z, a.Allows x y → R y z → r.Allows x z

/-- The operation on `a` and `b` succeeds; the result is a well formed Taylor model, of the larger order, defined at least where both are;
where `a` allows a value `y` and `b` a value `z`, the result allows `f y z`. -/
def Sound₂ (a b : TM K) (o : Res (TM K)) (f : K → K → K) : Prop :=
  ∃ r, o = .ok r ∧ r.WF ∧ r.order = max a.order b.order ∧ (∀ x, a.InDom x → b.InDom x → r.InDom x) ∧
    ∀ x, a.InDom x → b.InDom x → ∀ y z, a.Allows x y → b.Allows x z → r.Allows x (f y z)

end TM
end Audi
