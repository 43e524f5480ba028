import Verif.Spec.LibVars
import Verif.Proofs.LibExpr

/-! The symbols of the values of expressions with all the functions. -/

namespace Audi

open MvPolynomial Spec GDual Filter Topology

theorem LExpr.vars_of_not_full {C : Type} (e : LExpr C) (hb : e.BaseFree) (hf : ¬ e.full = true) : e.vars = [] := by
  induction e with
  | var s => exact absurd rfl hf
  | const c => rfl
  | bin op e1 e2 ih1 ih2 =>
    simp only [LExpr.full, Bool.or_eq_true, not_or] at hf
    simp only [LExpr.vars, ih1 hb.1 hf.1, ih2 hb.2 hf.2, List.append_nil]
  | left op c e ih => exact ih hb hf
  | right op e c ih => exact ih hb hf
  | fn f e ih =>
    refine ih hb.2 fun h => hf ?_
    cases f with
    | base f => cases f <;> first | exact h | exact absurd rfl (hb.1 _)
    | _ => exact h
  | pow e1 e2 ih1 ih2 =>
    simp only [LExpr.full, Bool.or_eq_true, not_or] at hf
    simp only [LExpr.vars, ih1 hb.1 hf.1, ih2 hb.2 hf.2, List.append_nil]

/-- The meaning depends on the variables of the expression only. -/
theorem LExpr.sem_congr {C : Type} [CfFun C] {ι : Type} [Lanes C ι ℝ] (i : ι) {x y : String → ℝ} (e : LExpr C) (h : ∀ s ∈ e.vars, x s = y s) :
    e.sem i x = e.sem i y := by
  induction e with
  | var s => exact h s (List.mem_singleton_self s)
  | const c => rfl
  | bin op e1 e2 ih1 ih2 =>
    unfold LExpr.sem
    rw [ih1 fun s hs => h s (List.mem_append_left _ hs), ih2 fun s hs => h s (List.mem_append_right _ hs)]
  | left op c e ih => unfold LExpr.sem; rw [ih h]
  | right op e c ih => unfold LExpr.sem; rw [ih h]
  | fn f e ih => unfold LExpr.sem; rw [ih h]
  | pow e1 e2 ih1 ih2 =>
    unfold LExpr.sem
    rw [ih1 fun s hs => h s (List.mem_append_left _ hs), ih2 fun s hs => h s (List.mem_append_right _ hs)]

theorem LExpr.legal_of_succ {C : Type} {m : ℕ} (e : LExpr C) (h : e.Legal (m + 1)) : e.Legal m := by
  induction e with
  | var s => exact h
  | const c => trivial
  | bin op e1 e2 ih1 ih2 => exact ⟨ih1 h.1, ih2 h.2⟩
  | left op c e ih => exact ih h
  | right op e c ih => exact ih h
  | fn f e ih => exact ⟨ih h.1, LFn.maxOrder_mono h.2 (Nat.le_succ m)⟩
  | pow e1 e2 ih1 ih2 => exact ⟨ih1 h.1, ih2 h.2⟩

variable {C : Type} [CfFun C] [AbsFn C] {ι : Type} [Lanes C ι ℝ] [LanesFun C ι] {m : ℕ} {p : ι → String → ℝ}

/-- The symbols of the value of an expression. -/
theorem LExpr.run_syms {v : String → C} (hm : m < UINT_MAX - 10) (hp : ∀ (i : ι) (s : String), p i ("d" ++ s) = Lanes.lane i (v s)) :
    ∀ e : LExpr C, (e.NoAbs ∨ AbsLaw C ι) → e.Legal m → (∀ i : ι, e.Dom i (fun s => Lanes.lane i (v s))) → ∀ r, e.run v m = .ok r →
      (∀ u ∈ r.p.syms, u ∈ e.vars.map fun s => "d" ++ s) ∧ (1 ≤ m → e.BaseFree → ∀ s ∈ e.vars, "d" ++ s ∈ r.p.syms) := by
  have hpv : ∀ i : ι, (fun s => p i ("d" ++ s)) = fun s => Lanes.lane i (v s) := fun i => _root_.funext (hp i)
  intro e
  induction e with
  | var s =>
    intro _ _ _ r hr
    have hs : r.p.syms = ["d" ++ s] := syms_mk3 hr
    rw [hs]
    exact ⟨fun u hu => hu, fun _ _ t ht => by rw [List.mem_singleton.1 ht]; exact List.mem_singleton_self _⟩
  | const c =>
    intro _ _ _ r hr
    injection hr with hr
    subst hr
    exact ⟨fun u hu => hu, fun _ _ t ht => absurd ht List.not_mem_nil⟩
  | bin op e1 e2 ih1 ih2 =>
    intro hA hl hd r hr
    obtain ⟨r1, h1, -, s1, -⟩ := LExpr.run_good hm hp e1 (hA.imp (·.1) id) hl.1 fun i => (hd i).1
    obtain ⟨r2, h2, -, s2, -⟩ := LExpr.run_good hm hp e2 (hA.imp (·.2) id) hl.2 fun i => (hd i).2.1
    have i1 := ih1 (hA.imp (·.1) id) hl.1 (fun i => (hd i).1) r1 h1
    have i2 := ih2 (hA.imp (·.2) id) hl.2 (fun i => (hd i).2.1) r2 h2
    change (do op.run (← e1.run v m) (← e2.run v m)) = _ at hr
    rw [bind2_ok h1 h2] at hr
    have hsym := op.run_syms s2.sorted s1.sorted hr
    rw [hsym]
    refine ⟨fun u hu => ?_, fun hm1 hb s hs => ?_⟩
    · rw [LExpr.vars, List.map_append]
      exact (mem_mergeSyms.1 hu).elim (fun h => List.mem_append_left _ (i1.1 u h)) fun h => List.mem_append_right _ (i2.1 u h)
    · exact mem_mergeSyms.2 ((List.mem_append.1 hs).imp (i1.2 hm1 hb.1 s) (i2.2 hm1 hb.2 s))
  | left op c e ih =>
    intro hA hl hd r hr
    obtain ⟨r1, h1, -, s1, -⟩ := LExpr.run_good hm hp e hA hl fun i => (hd i).1
    change (e.run v m >>= fun d => op.runL c d) = _ at hr
    rw [bind_ok h1] at hr
    rw [op.runL_syms s1.sorted hr]
    exact ih hA hl (fun i => (hd i).1) r1 h1
  | right op e c ih =>
    intro hA hl hd r hr
    obtain ⟨r1, h1, -, s1, -⟩ := LExpr.run_good hm hp e hA hl fun i => (hd i).1
    change (e.run v m >>= fun d => op.runR d c) = _ at hr
    rw [bind_ok h1] at hr
    rw [op.runR_syms s1.sorted hr]
    exact ih hA hl (fun i => (hd i).1) r1 h1
  | fn f e ih =>
    intro hA hl hd r hr
    obtain ⟨r1, h1, g1, s1, f1⟩ := LExpr.run_good hm hp e (hA.imp (·.1) id) hl.1 fun i => (hd i).1
    have i1 := ih (hA.imp (·.1) id) hl.1 (fun i => (hd i).1) r1 h1
    change (e.run v m >>= fun d => f.run d) = _ at hr
    rw [bind_ok h1] at hr
    have hdom : ∀ i : ι, f.Dom (coeff 0 (r1.toMv i : MvPolynomial String ℝ)) := fun i => by
      rw [← (g1.taylor i).val, hpv]; exact (hd i).2
    obtain ⟨r', e1, -, e3, e4⟩ := LFn.lift (ι := ι) f (hA.imp (·.2) id) g1.valid s1.sorted s1.names (LFn.maxOrder_mono hl.2 g1.le) hdom
    obtain rfl : r = r' := by rw [hr] at e1; injection e1
    refine ⟨fun u hu => i1.1 u (e3.sub u hu), fun hm1 hb s hs => ?_⟩
    by_cases hf : e.full = true
    · rw [(e4 hb.1).2 (by rw [(f1 hf).1]; exact hm1)]
      exact i1.2 hm1 hb.2 s hs
    · change s ∈ e.vars at hs
      rw [e.vars_of_not_full hb.2 hf] at hs
      exact absurd hs List.not_mem_nil
  | pow e1 e2 ih1 ih2 =>
    intro hA hl hd r hr
    obtain ⟨r1, h1, -, s1, -⟩ := LExpr.run_good hm hp e1 (hA.imp (·.1) id) hl.1 fun i => (hd i).1
    obtain ⟨r2, h2, -, s2, -⟩ := LExpr.run_good hm hp e2 (hA.imp (·.2) id) hl.2 fun i => (hd i).2.1
    have i1 := ih1 (hA.imp (·.1) id) hl.1 (fun i => (hd i).1) r1 h1
    have i2 := ih2 (hA.imp (·.2) id) hl.2 (fun i => (hd i).2.1) r2 h2
    change (do GDual.powG (← e1.run v m) (← e2.run v m)) = _ at hr
    rw [bind2_ok h1 h2] at hr
    rw [powG_syms s2.sorted s1.sorted hr]
    refine ⟨fun u hu => ?_, fun hm1 hb s hs => ?_⟩
    · rw [LExpr.vars, List.map_append]
      exact (mem_mergeSyms.1 hu).elim (fun h => List.mem_append_right _ (i2.1 u h)) fun h => List.mem_append_left _ (i1.1 u h)
    · exact mem_mergeSyms.2 ((List.mem_append.1 hs).symm.imp (i2.2 hm1 hb.2 s) (i1.2 hm1 hb.1 s))

end Audi
