import Verif.Proofs.ExprSyms
import Verif.Proofs.Expr
import Verif.Proofs.Complex
import Verif.Props.ExamplesReal

/-!
# C78: the symbol set of a result

`get_symbol_set` of a result is the union of the symbol sets of the operands in alphabetical order: no variable is lost on the way (it would silently be
dropped from `get_derivative`, `evaluate` and the order of the exponents) and none is invented.
-/

namespace Audi

open MvPolynomial Spec GDual

variable {C : Type} [CfFun C] {a b d r : GDual C}

/-- **C78.** Operators: the symbols of the result, of every operator with gdual or scalar operands, are the union of those of the operands,
in alphabetical order. -/
theorem C78_operators (op : Op) (ha : a.p.syms.Pairwise (· < ·)) (hb : b.p.syms.Pairwise (· < ·)) :
    (op.run a b = .ok r → r.p.syms.Pairwise (· < ·) ∧ ∀ s, s ∈ r.p.syms ↔ s ∈ a.p.syms ∨ s ∈ b.p.syms) ∧
    (∀ c, op.runL c a = .ok r → r.p.syms = a.p.syms) ∧ (∀ c, op.runR a c = .ok r → r.p.syms = a.p.syms) ∧
    (a.powG b = .ok r → r.p.syms.Pairwise (· < ·) ∧ ∀ s, s ∈ r.p.syms ↔ s ∈ a.p.syms ∨ s ∈ b.p.syms) := by
  refine ⟨fun h => ?_, fun c h => op.runL_syms ha h, fun c h => op.runR_syms ha h, fun h => ?_⟩
  · rw [op.run_syms hb ha h]
    exact ⟨sorted_mergeSyms ha, fun s => mem_mergeSyms⟩
  · rw [powG_syms hb ha h]
    exact ⟨sorted_mergeSyms hb, fun s => mem_mergeSyms.trans or_comm⟩

/-- **C78 (partial).** Functions keep the symbols. Exceptions: `atanh`, `atan`, `asin` and `acos` of a gdual of order 0, and the power of a number to a gdual
whose polynomial has degree 0 (`Fn.KeepsSyms`); in these cases too no symbol is added. -/
theorem C78_functions_partial (f : Fn) (hd : d.p.syms.Pairwise (· < ·)) (h : f.run d = .ok r) :
    (f.KeepsSyms d → r.p.syms = d.p.syms) ∧ r.p.syms.Pairwise (· < ·) ∧ ∀ s ∈ r.p.syms, s ∈ d.p.syms :=
  have := fn_syms f hd rfl h
  ⟨this.1, this.2.sorted, this.2.sub⟩

/-- **C78 (partial).** Expressions: at every order and every point, whenever the evaluation of an expression succeeds, `get_symbol_set` is a sorted list of
variables of the expression. -/
theorem C78_expression_subset_partial {v : String → C} {m : ℕ} {e : Expr C} (h : e.run v m = .ok r) :
    r.symbolSet.Pairwise (· < ·) ∧ ∀ s ∈ r.symbolSet, s ∈ e.vars := by
  have h1 := e.run_subSyms h
  have h2 := symbolSet_of h1
  refine ⟨h2.1, fun s hs => ?_⟩
  obtain ⟨t, ht, hst⟩ := List.mem_map.1 (h1.sub _ ((h2.2 s).1 hs))
  have h3 := congrArg String.toList hst
  rw [String.toList_append, String.toList_append] at h3
  rwa [← String.toList_injective (List.append_cancel_left h3)]

theorem mem_symbolSet {v : String → C} {m : ℕ} {e : Expr C} (h : e.run v m = .ok r) (hh : ∀ s ∈ e.vars, "d" ++ s ∈ r.p.syms) :
    r.symbolSet.Pairwise (· < ·) ∧ ∀ s, s ∈ r.symbolSet ↔ s ∈ e.vars :=
  ⟨(C78_expression_subset_partial h).1, fun s => ⟨(C78_expression_subset_partial h).2 s,
    fun hs => ((symbolSet_of (e.run_subSyms h)).2 s).2 (hh s hs)⟩⟩

/-- **C78 (partial).** Expressions without powers of a number to a gdual, at order 1 or more and at a point of the domain: `get_symbol_set` of the value
is the list of all variables of the expression, in alphabetical order. Restriction (`Legal`): the order is at most 30 if `atan`, `asin` or `acos` occurs. -/
theorem C78_expression_partial {ι : Type} [Lanes C ι ℝ] [LanesFun C ι] {v : String → C} {m : ℕ} (hm : m < UINT_MAX - 10) (h1 : 1 ≤ m) (e : Expr C)
    (hl : e.Legal m) (hb : e.BaseFree) (hd : ∀ i : ι, e.Dom i fun s => Lanes.lane i (v s)) :
    ∃ r, e.run v m = .ok r ∧ r.symbolSet.Pairwise (· < ·) ∧ ∀ s, s ∈ r.symbolSet ↔ s ∈ e.vars := by
  classical
  let p : ι → String → ℝ := fun i => Function.extend (fun s => "d" ++ s) (fun s => Lanes.lane i (v s)) 0
  have hp : ∀ (i : ι) (s : String), p i ("d" ++ s) = Lanes.lane i (v s) := fun i s =>
    Function.Injective.extend_apply (fun s t h => by
      have := congrArg String.toList h
      simp only [String.toList_append] at this
      exact String.toList_injective (List.append_cancel_left this)) _ _ s
  obtain ⟨r, hr, -, -⟩ := Expr.run_good hm hp e hl hd
  refine ⟨r, hr, mem_symbolSet hr (Expr.run_syms h1 (P := fun e => e.Legal m ∧ ∀ i : ι, e.Dom i fun s => Lanes.lane i (v s))
    (fun e r hP hr hf => ?_) (fun _ _ _ h => ⟨⟨h.1.1, fun i => (h.2 i).1⟩, ⟨h.1.2, fun i => (h.2 i).2.1⟩⟩)
    (fun _ _ _ h => ⟨h.1, fun i => (h.2 i).1⟩) (fun _ _ _ h => ⟨h.1, fun i => (h.2 i).1⟩) (fun _ _ h => ⟨h.1.1, fun i => (h.2 i).1⟩)
    (fun _ _ h => ⟨⟨h.1.1, fun i => (h.2 i).1⟩, ⟨h.1.2, fun i => (h.2 i).2.1⟩⟩) e ⟨hl, hd⟩ hb hr)⟩
  obtain ⟨r', hr', -, ho⟩ := Expr.run_good hm hp e hP.1 hP.2
  rw [hr] at hr'; injection hr' with hr'
  rw [hr']; exact ho hf

/-- **C78 (partial).** The same with complex coefficients. -/
theorem C78_expression_complex_partial {v : String → ℂ} {m : ℕ} (hm : m < UINT_MAX - 10) (h1 : 1 ≤ m) (e : Expr ℂ)
    (hl : e.Legal m) (hb : e.BaseFree) (hd : e.CDom v) :
    ∃ r, e.run v m = .ok r ∧ r.symbolSet.Pairwise (· < ·) ∧ ∀ s, s ∈ r.symbolSet ↔ s ∈ e.vars := by
  classical
  let p : Unit → String → ℂ := fun _ => Function.extend (fun s => "d" ++ s) v 0
  have hp : ∀ (i : Unit) (s : String), p i ("d" ++ s) = v s := fun i s =>
    Function.Injective.extend_apply (fun s t h => by
      have := congrArg String.toList h
      simp only [String.toList_append] at this
      exact String.toList_injective (List.append_cancel_left this)) _ _ s
  obtain ⟨r, hr, -, -⟩ := Expr.run_good_c hm hp e hl hd
  refine ⟨r, hr, mem_symbolSet hr (Expr.run_syms h1 (P := fun e => e.Legal m ∧ e.CDom v)
    (fun e r hP hr hf => ?_) (fun _ _ _ h => ⟨⟨h.1.1, h.2.1⟩, ⟨h.1.2, h.2.2.1⟩⟩)
    (fun _ _ _ h => ⟨h.1, h.2.1⟩) (fun _ _ _ h => ⟨h.1, h.2.1⟩) (fun _ _ h => ⟨h.1.1, h.2.1⟩)
    (fun _ _ h => ⟨⟨h.1.1, h.2.1⟩, ⟨h.1.2, h.2.2.1⟩⟩) e ⟨hl, hd⟩ hb hr)⟩
  obtain ⟨r', hr', -, ho⟩ := Expr.run_good_c hm hp e hP.1 hP.2
  rw [hr] at hr'; injection hr' with hr'
  rw [hr']; exact ho hf

/-- The expression `(y + exp(x)) * y` at order 2: the symbols are `x` and `y`. -/
example : ∃ e : Expr ℝ, e = .bin .mul (.bin .add (.var "y") (.fn .exp (.var "x"))) (.var "y") ∧ e.Legal 2 ∧ e.BaseFree ∧
    (∀ i : Unit, e.Dom i fun _ => Lanes.lane i (1 : ℝ)) ∧ ∃ r, e.run (fun _ => 1) 2 = .ok r ∧ r.symbolSet = ["x", "y"] := by
  have hl : (Expr.bin .mul (.bin .add (.var "y") (.fn .exp (.var "x"))) (.var "y") : Expr ℝ).Legal 2 := by simp [Expr.Legal, Fn.MaxOrder]
  have hd : ∀ i : Unit, (Expr.bin .mul (.bin .add (.var "y") (.fn .exp (.var "x"))) (.var "y") : Expr ℝ).Dom i fun s => Lanes.lane i (1 : ℝ) :=
    fun i => by simp [Expr.Dom, Fn.Dom, Op.Dom]
  obtain ⟨r, hr, h1, h2⟩ := C78_expression_partial (v := fun _ => 1) (m := 2) (by decide) (by decide) _ hl (by simp [Expr.BaseFree]) hd
  refine ⟨_, rfl, hl, by simp [Expr.BaseFree], hd, r, hr, List.Perm.eq_of_pairwise (le := (· < ·)) (fun u w _ _ h3 h4 => absurd h4 (lt_asymm h3)) h1 (by decide)
    ((List.perm_ext_iff_of_nodup (h1.imp fun h => h.ne) (by decide)).2 fun s => ?_)⟩
  rw [h2]
  simp only [Expr.vars, List.mem_append, List.mem_cons, List.not_mem_nil, or_false]
  tauto

/-- **C78 (counterexample).** At order 0 the inverse tangent loses the variable: `evaluate` of the argument needs its value, `evaluate` of the result accepts
the empty dictionary. -/
theorem C78_order_zero_counterexample : ∃ d r : GDual ℝ, GDual.mk3 1 "x" 0 = .ok d ∧ d.symbolSet = ["x"] ∧ d.evaluate [] = .error .invalidArgument ∧
    d.atan = .ok r ∧ r.symbolSet = [] ∧ ∃ c, r.evaluate [] = .ok c := by
  obtain ⟨d, hd⟩ : ∃ d, GDual.mk3 (1 : ℝ) "x" 0 = .ok d := ⟨_, mk3_ok.mpr ⟨by decide, by decide, rfl⟩⟩
  have hs : d.p.syms = ["dx"] := syms_mk3 hd
  have hv := valid_mk3 (ι := Unit) (K := ℝ) hd
  obtain ⟨r, -, -, hr, -⟩ := atanWith_rep (ι := Unit) binomialU32 hv
  have hr0 : r.p.syms = [] := syms_atanWith_zero (order_mk3 hd) hr
  refine ⟨d, r, hd, ?_, ?_, hr, ?_, ?_⟩
  · unfold GDual.symbolSet; rw [hs]; decide
  · unfold GDual.evaluate Poly.evaluate; rw [hs]; rfl
  · unfold GDual.symbolSet; rw [hr0]; rfl
  · unfold GDual.evaluate Poly.evaluate; rw [hr0]; exact ⟨_, rfl⟩

/-- **C78 (counterexample).** The power of a number to the difference `x - x` has lost the variable of its exponent, at every order. -/
theorem C78_pow_counterexample (m : ℕ) (hm : m < UINT_MAX - 10) : ∃ d r : GDual ℝ, GDual.mk3 1 "x" m = .ok d ∧
    (d.sub d).symbolSet = ["x"] ∧ powBase 2 (d.sub d) = .ok r ∧ r.symbolSet = [] := by
  obtain ⟨d, hd⟩ : ∃ d, GDual.mk3 (1 : ℝ) "x" m = .ok d := ⟨_, mk3_ok.mpr ⟨hm, by decide, rfl⟩⟩
  have hs : d.p.syms = ["dx"] := syms_mk3 hd
  have hv := valid_mk3 (ι := Unit) (K := ℝ) hd
  have hss : (d.sub d).p.syms = ["dx"] := by rw [syms_sub', hs]; decide
  have hvs : (d.sub d).Valid := Valid.sub (ι := Unit) (K := ℝ) hv hv
  have ht : (d.sub d).p.terms = [] := (terms_nil_iff (ι := Unit) (K := ℝ) hvs).2 fun i => by rw [toMv_sub hv hv, sub_self]
  have h0 : (d.sub d).degree = 0 := by unfold GDual.degree Poly.degree; rw [ht]; rfl
  obtain ⟨r, hr, -⟩ := Fn.lift (ι := Unit) (.powBase 2) hvs trivial fun _ => (by norm_num : (0 : ℚ) < 2)
  refine ⟨d, r, hd, ?_, hr, ?_⟩
  · unfold GDual.symbolSet; rw [hss]; decide
  · unfold GDual.symbolSet
    rw [(powBase_syms (S := ["dx"]) (List.pairwise_singleton _ _) hss hr).2 h0]
    rfl

end Audi
