import Verif.Props.C82_Terms
import Verif.Props.C92_AllFunctions
import Verif.Proofs.LibSyms

/-! # C82: the number of terms with all the functions -/

namespace Audi

open MvPolynomial Spec GDual

variable {C : Type} [CfFun C] [AbsFn C] {ι : Type} [Lanes C ι ℝ] [LanesFun C ι]

/-- The value of an expression on variables of order `m`, at all orders. -/
theorem LExpr.run_nt {v : String → C} {m : ℕ} (hm : m < UINT_MAX - 10) (e : LExpr C) (hA : e.NoAbs ∨ AbsLaw C ι) (hl : e.Legal 0) (hd : ∀ i : ι, e.Dom i fun s => Lanes.lane i (v s)) :
    ∃ r, e.run v m = .ok r ∧ r.Valid ∧ r.getOrder ≤ m ∧ SymsOk r ∧ ∀ i : ι, coeff 0 (r.toMv i : MvPolynomial String ℝ) = e.sem i fun s => Lanes.lane i (v s) := by
  have hc : ∀ (i : ι) s, coeff 0 ((varStore v m s).toMv i : MvPolynomial String ℝ) = Lanes.lane i (v s) := fun i s => (varStore_coeff le_rfl hm i s).2
  obtain ⟨r, r', hr, -, h⟩ := LExpr.natural' (ι := ι) (q := fun _ s => X s) le_rfl (varStore_same hm) (varStore_same hm) (fun _ s => coeff_zero_X s)
    (fun i s => by rw [aeval_X_id]; exact EqUpTo.refl _) e (varStore_syms (v := v) hm) (varStore_syms hm) hA fun i => by simpa only [hc] using hd i
  exact ⟨r, (e.run_eq_eval hm hl).trans hr, h.valid, h.le, h.syms, fun i => by simpa only [hc] using h.val i⟩

/-- The symbols of the value of an expression, at all orders. -/
theorem LExpr.run_subset {v : String → C} {m : ℕ} (hm : m < UINT_MAX - 10) : ∀ e : LExpr C, (e.NoAbs ∨ AbsLaw C ι) → e.Legal 0 → (∀ i : ι, e.Dom i fun s => Lanes.lane i (v s)) →
    ∀ r, e.run v m = .ok r → ∀ u ∈ r.p.syms, u ∈ e.vars.map fun s => "d" ++ s := by
  intro e
  induction e with
  | var s =>
    intro _ _ _ r hr
    rw [syms_mk3 hr]
    exact fun u hu => hu
  | const c =>
    intro _ _ _ r hr
    injection hr with hr
    subst hr
    exact fun u hu => hu
  | bin op e1 e2 ih1 ih2 =>
    intro hA hl hd r hr u hu
    obtain ⟨r1, h1, -, -, s1, -⟩ := e1.run_nt hm (hA.imp (·.1) id) hl.1 fun i => (hd i).1
    obtain ⟨r2, h2, -, -, s2, -⟩ := e2.run_nt hm (hA.imp (·.2) id) hl.2 fun i => (hd i).2.1
    change (do op.run (← e1.run v m) (← e2.run v m)) = _ at hr
    rw [bind2_ok h1 h2] at hr
    rw [op.run_syms s2.sorted s1.sorted hr] at hu
    rw [LExpr.vars, List.map_append]
    exact (mem_mergeSyms.1 hu).elim (fun h => List.mem_append_left _ (ih1 (hA.imp (·.1) id) hl.1 (fun i => (hd i).1) r1 h1 u h))
      fun h => List.mem_append_right _ (ih2 (hA.imp (·.2) id) hl.2 (fun i => (hd i).2.1) r2 h2 u h)
  | left op c e ih =>
    intro hA hl hd r hr
    obtain ⟨r1, h1, -, -, s1, -⟩ := e.run_nt hm hA hl fun i => (hd i).1
    change (e.run v m >>= fun d => op.runL c d) = _ at hr
    rw [bind_ok h1] at hr
    rw [op.runL_syms s1.sorted hr]
    exact ih hA hl (fun i => (hd i).1) r1 h1
  | right op e c ih =>
    intro hA hl hd r hr
    obtain ⟨r1, h1, -, -, s1, -⟩ := e.run_nt hm hA hl fun i => (hd i).1
    change (e.run v m >>= fun d => op.runR d c) = _ at hr
    rw [bind_ok h1] at hr
    rw [op.runR_syms s1.sorted hr]
    exact ih hA hl (fun i => (hd i).1) r1 h1
  | fn f e ih =>
    intro hA hl hd r hr u hu
    obtain ⟨r1, h1, v1, -, s1, c1⟩ := e.run_nt hm (hA.imp (·.1) id) hl.1 fun i => (hd i).1
    change (e.run v m >>= fun d => f.run d) = _ at hr
    rw [bind_ok h1] at hr
    refine ih (hA.imp (·.1) id) hl.1 (fun i => (hd i).1) r1 h1 u ?_
    have lib : f.MaxOrder r1.order → u ∈ r1.p.syms := fun ho => by
      obtain ⟨r', e1, -, e3, -⟩ := LFn.lift (ι := ι) f (hA.imp (·.2) id) v1 s1.sorted s1.names ho fun i => by rw [c1]; exact (hd i).2
      obtain rfl : r = r' := by rw [hr] at e1; injection e1
      exact e3.sub u hu
    cases f with
    | base f => exact (fn_syms f s1.sorted rfl hr).2.sub u hu
    | _ => exact lib trivial
  | pow e1 e2 ih1 ih2 =>
    intro hA hl hd r hr u hu
    obtain ⟨r1, h1, -, -, s1, -⟩ := e1.run_nt hm (hA.imp (·.1) id) hl.1 fun i => (hd i).1
    obtain ⟨r2, h2, -, -, s2, -⟩ := e2.run_nt hm (hA.imp (·.2) id) hl.2 fun i => (hd i).2.1
    change (do GDual.powG (← e1.run v m) (← e2.run v m)) = _ at hr
    rw [bind2_ok h1 h2] at hr
    rw [powG_syms s2.sorted s1.sorted hr] at hu
    rw [LExpr.vars, List.map_append]
    exact (mem_mergeSyms.1 hu).elim (fun h => List.mem_append_right _ (ih2 (hA.imp (·.2) id) hl.2 (fun i => (hd i).2.1) r2 h2 u h))
      fun h => List.mem_append_left _ (ih1 (hA.imp (·.1) id) hl.1 (fun i => (hd i).1) r1 h1 u h)

/-- **C78 with all the functions.** At all orders, also of `atan`, `asin` and `acos`: `get_symbol_set` of the value of an expression is a sorted list of variables of the expression. In particular the symbols that
functions_from_d.hpp goes through bring in no others. -/
theorem C78_all_subset {v : String → C} {m : ℕ} (hm : m < UINT_MAX - 10) (e : LExpr C) (hA : e.NoAbs ∨ AbsLaw C ι) (hl : e.Legal 0) (hd : ∀ i : ι, e.Dom i fun s => Lanes.lane i (v s)) :
    ∃ r, e.run v m = .ok r ∧ r.symbolSet.Pairwise (· < ·) ∧ ∀ s ∈ r.symbolSet, s ∈ e.vars := by
  obtain ⟨r, hr, -, -, hS, -⟩ := e.run_nt (ι := ι) hm hA hl hd
  have h1 : SubSyms (e.vars.map fun s => "d" ++ s) r := ⟨hS.sorted, e.run_subset (ι := ι) hm hA hl hd r hr⟩
  have h2 := symbolSet_of h1
  refine ⟨r, hr, h2.1, fun s hs => ?_⟩
  obtain ⟨t, ht, hst⟩ := List.mem_map.1 (h1.sub _ ((h2.2 s).1 hs))
  rwa [← d_append_injective hst]

/-- **C82 with all the functions.** As `C82_expression`, for the expressions of Spec/LibExpr.lean: with `abs` (where the law `AbsLaw` holds: for real coefficients), the results of `sin_and_cos`
and `sinh_and_cosh`, `erf`, the functions of functions_from_d.hpp, and the functions of the Python module. All orders; `Legal 0` only asks that the names of the variables are accepted. -/
theorem C82_all {v : String → C} {m : ℕ} (hm : m < UINT_MAX - 10) (e : LExpr C) (hA : e.NoAbs ∨ AbsLaw C ι) (hl : e.Legal 0)
    (hd : ∀ i : ι, e.Dom i fun s => Lanes.lane i (v s)) (xs : List String) (hxs : ∀ s ∈ e.vars, s ∈ xs) :
    ∃ r, e.run v m = .ok r ∧ r.p.terms.length ≤ (xs.length + m).choose m := by
  obtain ⟨r, hr, hv, ho, hS, -⟩ := e.run_nt (ι := ι) hm hA hl hd
  refine ⟨r, hr, (terms_le hv).trans ?_⟩
  have h3 : r.symbolSetSize ≤ xs.length := by
    have h4 : r.p.syms.Nodup := hS.sorted.imp fun h => ne_of_lt h
    have h5 := (h4.subperm (l₂ := xs.map fun s => "d" ++ s) fun u hu => by
      obtain ⟨s, hs, rfl⟩ := List.mem_map.1 (e.run_subset (ι := ι) hm hA hl hd r hr u hu)
      exact List.mem_map.2 ⟨s, hxs s hs, rfl⟩).length_le
    rwa [List.length_map] at h5
  calc (r.symbolSetSize + r.getOrder).choose r.getOrder = (r.symbolSetSize + r.getOrder).choose r.symbolSetSize :=
        Nat.choose_symm_of_eq_add (Nat.add_comm _ _)
    _ ≤ (r.symbolSetSize + m).choose r.symbolSetSize := Nat.choose_le_choose _ (by omega)
    _ = (r.symbolSetSize + m).choose m := (Nat.choose_symm_of_eq_add (Nat.add_comm _ _)).symm
    _ ≤ _ := Nat.choose_le_choose _ (by omega)

/-- `erf(x) * abs(asin(y))` has at most `binomial(2 + 50, 50)` terms at order 50. -/
example : ∃ r, (LExpr.bin .mul (.fn .erf (.var "x")) (.fn .abs (.fn (.base .asin) (.var "y"))) : LExpr ℝ).run (fun _ => 1 / 2) 50 = .ok r ∧ r.p.terms.length ≤ (2 + 50).choose 50 := by
  refine C82_all (ι := Unit) (v := fun _ => (1 / 2 : ℝ)) (m := 50) (by decide) (.bin .mul (.fn .erf (.var "x")) (.fn .abs (.fn (.base .asin) (.var "y")))) (.inr absLaw_real)
    ⟨⟨⟨'x', by decide, by decide⟩, trivial⟩, ⟨⟨'y', by decide, by decide⟩, Nat.zero_le _⟩, trivial⟩
    (fun _ => ⟨⟨trivial, trivial⟩, ⟨⟨trivial, ?_⟩, ?_⟩, trivial⟩) ["x", "y"] (by simp [LExpr.vars])
  · change |(1 / 2 : ℝ)| < 1
    rw [abs_lt]
    norm_num
  · change Real.arcsin (1 / 2 : ℝ) ≠ 0
    exact (Real.arcsin_pos.2 (by norm_num)).ne'

/-- The hypotheses of `C78_all_subset` are met. -/
example : ∃ r, (LExpr.fn .abs (.fn (.base .asin) (.var "y")) : LExpr ℝ).run (fun _ => 1 / 2) 50 = .ok r ∧ r.symbolSet.Pairwise (· < ·) ∧ ∀ s ∈ r.symbolSet, s ∈ ["y"] := by
  refine C78_all_subset (ι := Unit) (v := fun _ => (1 / 2 : ℝ)) (m := 50) (by decide) (.fn .abs (.fn (.base .asin) (.var "y"))) (.inr absLaw_real)
    ⟨⟨⟨'y', by decide, by decide⟩, Nat.zero_le _⟩, trivial⟩ fun _ => ⟨⟨trivial, ?_⟩, ?_⟩
  · change |(1 / 2 : ℝ)| < 1
    rw [abs_lt]
    norm_num
  · change Real.arcsin (1 / 2 : ℝ) ≠ 0
    exact (Real.arcsin_pos.2 (by norm_num)).ne'

end Audi
