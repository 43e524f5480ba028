import Verif.Spec.TaylorModel

/-!
# Specification: a Taylor model that is changed step by step

The calls that change a Taylor model, with exceptions caught after each call.
-/

namespace Audi.TM

/-- The calls that change a Taylor model. -/
inductive Change (K : Type)
  | tpol (p : GDual K)
  | rem (I : Itv K)
  | exp (e : VMap K)
  | dom (d : VMap (Itv K))
  | extend (vs : List String) (e : VMap K) (d : VMap (Itv K))

variable {K : Type}

/-- The call is one of the four setters. -/
def Change.IsSetter : Change K → Prop
  | extend _ _ _ => False
  | _ => True

/-- The call checks the Taylor model. -/
def Change.Checks : Change K → Prop
  | rem _ => False
  | _ => True

/-- What has been written last, with the starting value. -/
def lastTpol (p : GDual K) : List (Change K) → GDual K
  | [] => p
  | .tpol q :: cs => lastTpol q cs
  | _ :: cs => lastTpol p cs

def lastRem (I : Itv K) : List (Change K) → Itv K
  | [] => I
  | .rem J :: cs => lastRem J cs
  | _ :: cs => lastRem I cs

def lastExp (e : VMap K) : List (Change K) → VMap K
  | [] => e
  | .exp e' :: cs => lastExp e' cs
  | _ :: cs => lastExp e cs

def lastDom (d : VMap (Itv K)) : List (Change K) → VMap (Itv K)
  | [] => d
  | .dom d' :: cs => lastDom d' cs
  | _ :: cs => lastDom d cs

variable [Field K] [LinearOrder K]

/-- A call: the Taylor model after it, and whether it threw. -/
def Change.call (tm : TM K) : Change K → TM K × Res Unit
  | tpol p => tm.setTpol p
  | rem I => (tm.setRem I, .ok ())
  | exp e => tm.setExp e
  | dom d => tm.setDom d
  | extend vs e d => tm.extendSymbolSet vs e d

/-- The Taylor model after some calls; exceptions are caught and ignored. -/
def calls (tm : TM K) (cs : List (Change K)) : TM K := cs.foldl (fun t c => (c.call t).1) tm

/-- No call of the list throws. -/
def AllOk (tm : TM K) : List (Change K) → Prop
  | [] => True
  | c :: cs => (c.call tm).2 = .ok () ∧ AllOk (c.call tm).1 cs

/-- What the class promises about a Taylor model between two calls: order and number of variables are those of the polynomial, expansion point and domain have the same keys, one for each
variable of the polynomial (as far as their number goes), and the point lies in the domain. -/
structure Checked (tm : TM K) : Prop where
  order : tm.order = tm.tpol.order
  ndim : tm.ndim = tm.tpol.p.syms.length
  keys : ∀ v, v ∈ tm.exp.map Prod.fst ↔ v ∈ tm.dom.map Prod.fst
  inside : ∀ e ∈ tm.dom, ∃ x, tm.exp.lookup e.1 = some x ∧ Spec.InItv e.2 x
  size : tm.dom.length = tm.tpol.p.syms.length

end Audi.TM
