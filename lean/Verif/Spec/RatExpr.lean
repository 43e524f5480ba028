import Verif.Model.GDual

/-! Expressions with the four operators, calculus and substitution, evaluated on gduals. -/

namespace Audi

/-- Expressions: variables, the four operators between gduals and with a number on either side, opposites, `partial`, `integrate`, `subs` with a number and with a gdual. -/
inductive RatExpr (C : Type)
  | var (s : String)
  | const (c : C)
  | add (e1 e2 : RatExpr C)
  | sub (e1 e2 : RatExpr C)
  | mul (e1 e2 : RatExpr C)
  | div (e1 e2 : RatExpr C)
  | addR (e : RatExpr C) (c : C)
  | addL (c : C) (e : RatExpr C)
  | subR (e : RatExpr C) (c : C)
  | subL (c : C) (e : RatExpr C)
  | mulR (e : RatExpr C) (c : C)
  | mulL (c : C) (e : RatExpr C)
  | divR (e : RatExpr C) (c : C)
  | divL (c : C) (e : RatExpr C)
  | neg (e : RatExpr C)
  | diff (e : RatExpr C) (s : String)
  | integ (e : RatExpr C) (s : String)
  | subsV (e : RatExpr C) (s : String) (c : C)
  | subsG (e : RatExpr C) (s : String) (e' : RatExpr C)

namespace RatExpr

/-- The value for given gduals. -/
def eval {C : Type} [Cf C] (σ : String → GDual C) : RatExpr C → Res (GDual C)
  | var s => .ok (σ s)
  | const c => .ok (GDual.ofCf c)
  | add e1 e2 => do .ok ((← e1.eval σ).add (← e2.eval σ))
  | sub e1 e2 => do .ok ((← e1.eval σ).sub (← e2.eval σ))
  | mul e1 e2 => do .ok ((← e1.eval σ).mul (← e2.eval σ))
  | div e1 e2 => do (← e1.eval σ).div (← e2.eval σ)
  | addR e c => do .ok ((← e.eval σ).addGS c)
  | addL c e => do .ok (GDual.addSG c (← e.eval σ))
  | subR e c => do .ok ((← e.eval σ).subGS c)
  | subL c e => do .ok (GDual.subSG c (← e.eval σ))
  | mulR e c => do .ok ((← e.eval σ).mulGS c)
  | mulL c e => do .ok (GDual.mulSG c (← e.eval σ))
  | divR e c => do (← e.eval σ).divGS c
  | divL c e => do GDual.divSG c (← e.eval σ)
  | neg e => do .ok (← e.eval σ).neg
  | diff e s => do (← e.eval σ).partial' s
  | integ e s => do (← e.eval σ).integrate s
  | subsV e s c => do .ok ((← e.eval σ).subsVal s c)
  | subsG e s e' => do .ok ((← e.eval σ).subs s (← e'.eval σ))

/-- The same expression with the numbers in another type. -/
def map {C D : Type} (f : C → D) : RatExpr C → RatExpr D
  | var s => var s
  | const c => const (f c)
  | add e1 e2 => add (e1.map f) (e2.map f)
  | sub e1 e2 => sub (e1.map f) (e2.map f)
  | mul e1 e2 => mul (e1.map f) (e2.map f)
  | div e1 e2 => div (e1.map f) (e2.map f)
  | addR e c => addR (e.map f) (f c)
  | addL c e => addL (f c) (e.map f)
  | subR e c => subR (e.map f) (f c)
  | subL c e => subL (f c) (e.map f)
  | mulR e c => mulR (e.map f) (f c)
  | mulL c e => mulL (f c) (e.map f)
  | divR e c => divR (e.map f) (f c)
  | divL c e => divL (f c) (e.map f)
  | neg e => neg (e.map f)
  | diff e s => diff (e.map f) s
  | integ e s => integ (e.map f) s
  | subsV e s c => subsV (e.map f) s (f c)
  | subsG e s e' => subsG (e.map f) s (e'.map f)

end RatExpr

end Audi
