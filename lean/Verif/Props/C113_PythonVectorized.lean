import Verif.Spec.PyVecProg
import Verif.Props.C34_Vectorized
import Verif.Props.C107_PythonFunctions

/-!
# C113: functions written in Python, called with `gdual_vdouble`

One call with a `gdual_vdouble` gives, in each component, the derivatives at that component.
-/

namespace Audi

open Spec GDual

namespace PyExpr

variable {n : ℕ} [NeZero n]

/-- The arguments of the function: variables `gdual_vdouble(v s, s, m)` for those in `G`, numbers for the others. -/
def ArgsW (G : String → Bool) (v : String → VecN n ℝ) (m : ℕ) (σ : String → PyW n) : Prop :=
  ∀ s, if G s then ∃ d, GDual.mk3 (v s) s m = .ok d ∧ σ s = .gv d else ∃ x, v s = VecN.ofScalar x ∧ σ s = .base (.num x)

/-- The values of the arguments in component `i`. -/
noncomputable def at' (v : String → VecN n ℝ) (i : Fin n) : String → ℝ := fun s => Lanes.lane i (v s)

variable {G : String → Bool} {v : String → VecN n ℝ} {m : ℕ}

/-- The outcome of the translation of a Python expression: a number, or an expression of gduals. -/
inductive PartW (G : String → Bool) (v : String → VecN n ℝ) (m : ℕ) (σ : String → PyW n) (e : PyExpr) : Prop
  | num (y : ℝ) (hu : e.Uses G = false) (hs : ∀ i x, e.sem (mixed G (at' v i) x) = y) (he : e.evalW σ = .ok (.base (.num y)))
  | gv (t : Expr (VecN n ℝ)) (hu : e.Uses G = true) (hs : ∀ i x, e.sem (mixed G (at' v i) x) = t.sem i x) (hl : t.Legal m) (hd : ∀ i, t.Dom i (at' v i))
      (hf : t.full = e.Full G) (he : e.evalW σ = PyW.lift (t.run v m))

omit [NeZero n] in
theorem name_of_mk3W {x : VecN n ℝ} {s : String} {d : GDual (VecN n ℝ)} (h : GDual.mk3 x s m = .ok d) : ∃ c, s.toList.head? = some c ∧ c ≠ 'd' := by
  unfold GDual.mk3 at h
  obtain ⟨_, -, h⟩ := bind_ok_iff.mp h
  obtain ⟨_, h1, -⟩ := bind_ok_iff.mp h
  unfold checkVarName at h1
  obtain ⟨c, h2, h3⟩ := bind_ok_iff.mp h1
  refine ⟨c, ?_, ?_⟩
  · unfold nameAt0 at h2
    split at h2 <;> simp_all
  · rintro rfl
    simp at h3

theorem lane_scalar (x : ℝ) (i : Fin n) : (Lanes.lane i (VecN.ofScalar x : VecN n ℝ) : ℝ) = x := VecN.lane_ofScalar x i

/-- Every Python expression is, for given kinds of its arguments, a number or an expression of gduals. -/
theorem partW {σ : String → PyW n} (hσ : ArgsW G v m σ) (hm : m < UINT_MAX - 10) (e : PyExpr) (hl : e.Legal G m) (hd : ∀ i, e.Dom G (at' v i)) : PartW G v m σ e := by
  have i0 : Fin n := ⟨0, Nat.pos_of_ne_zero (NeZero.ne n)⟩
  have hrun : ∀ t : Expr (VecN n ℝ), t.Legal m → (∀ i, t.Dom i (at' v i)) → ∃ d, t.run v m = .ok d := fun t h1 h2 => by
    obtain ⟨r, hr, -⟩ := C21_ad_partial (ι := Fin n) hm t h1 h2
    exact ⟨r, hr⟩
  have self : ∀ {e : PyExpr} {y : ℝ}, (∀ i x, e.sem (mixed G (at' v i) x) = y) → ∀ i, e.sem (at' v i) = y := fun h i => by
    have := h i (at' v i); rwa [mixed_self] at this
  have selfT : ∀ {e : PyExpr} {t : Expr (VecN n ℝ)}, (∀ i x, e.sem (mixed G (at' v i) x) = t.sem i x) → ∀ i, e.sem (at' v i) = t.sem i (at' v i) := fun h i => by
    have := h i (at' v i); rwa [mixed_self] at this
  induction e with
  | var s =>
    have h := hσ s
    cases hg : G s with
    | false =>
      rw [hg, if_neg Bool.false_ne_true] at h
      obtain ⟨x, h1, h2⟩ := h
      exact .num x hg (fun i y => by simp [sem, mixed, hg, at', h1, lane_scalar]) (by simp [evalW, h2])
    | true =>
      rw [hg, if_pos rfl] at h
      obtain ⟨d, hd, h⟩ := h
      exact .gv (.var s) hg (fun i x => by simp [sem, mixed, hg, Expr.sem]) (name_of_mk3W hd) (fun _ => trivial) (by simp [Expr.full, Full, hg])
        (by simp [evalW, h, Expr.run, hd, PyW.lift])
  | const c => exact .num c rfl (fun _ _ => rfl) rfl
  | bin op e1 e2 ih1 ih2 =>
    rcases ih1 hl.1 fun i => (hd i).1 with ⟨y1, hu1, hs1, he1⟩ | ⟨t1, hu1, hs1, hl1, hd1, hf1, he1⟩ <;>
      rcases ih2 hl.2 fun i => (hd i).2.1 with ⟨y2, hu2, hs2, he2⟩ | ⟨t2, hu2, hs2, hl2, hd2, hf2, he2⟩
    · refine .num (op.real y1 y2) (by simp [Uses, hu1, hu2]) (fun i x => by simp only [sem, hs1, hs2]) ?_
      simp only [evalW, he1, he2]
      have h3 := (hd i0).2.2
      rw [self hs2] at h3
      cases op <;> simp_all [PyW.bin, PyW.method, PyV.method, PyV.numOp, Op.real, Op.Dom, bind, Except.bind, Except.map]
    · obtain ⟨d2, hr2⟩ := hrun t2 hl2 hd2
      have h3 : ∀ i, op.Dom (t2.sem i (at' v i)) := fun i => by rw [← selfT hs2]; exact (hd i).2.2
      refine .gv (.left op (VecN.ofScalar y1) t2) (by simp [Uses, hu2]) (fun i x => by simp only [sem, hs1, hs2, Expr.sem, lane_scalar]) hl2 (fun i => ⟨hd2 i, h3 i⟩) ?_ ?_
      · have : e1.Full G = false := full_le hu1
        simp [Expr.full, Full, hf2, this]
      · simp only [evalW, he1, he2, hr2, Expr.run, PyW.lift, PyW.bin, PyW.method, PyW.rmethod, bind, Except.bind]
    · obtain ⟨d1, hr1⟩ := hrun t1 hl1 hd1
      have h3 : op.Dom y2 := by rw [← self hs2 i0]; exact (hd i0).2.2
      refine .gv (.right op t1 (VecN.ofScalar y2)) (by simp [Uses, hu1]) (fun i x => by simp only [sem, hs1, hs2, Expr.sem, lane_scalar]) hl1
        (fun i => ⟨hd1 i, by rw [lane_scalar]; exact h3⟩) ?_ ?_
      · have : e2.Full G = false := full_le hu2
        simp [Expr.full, Full, hf1, this]
      · simp only [evalW, he1, he2, hr1, Expr.run, PyW.lift, PyW.bin, PyW.method, bind, Except.bind]
    · obtain ⟨d1, hr1⟩ := hrun t1 hl1 hd1
      obtain ⟨d2, hr2⟩ := hrun t2 hl2 hd2
      have h3 : ∀ i, op.Dom (t2.sem i (at' v i)) := fun i => by rw [← selfT hs2]; exact (hd i).2.2
      refine .gv (.bin op t1 t2) (by simp [Uses, hu1]) (fun i x => by simp only [sem, hs1, hs2, Expr.sem]) ⟨hl1, hl2⟩ (fun i => ⟨hd1 i, hd2 i, h3 i⟩) ?_ ?_
      · simp [Expr.full, Full, hf1, hf2]
      · simp only [evalW, he1, he2, hr1, hr2, Expr.run, PyW.lift, PyW.bin, PyW.method, bind, Except.bind]
  | fn f e ih =>
    rcases ih hl.1 fun i => (hd i).1 with ⟨y, hu, hs, he⟩ | ⟨t, hu, hs, ht, hd1, hf, he⟩
    · have h3 := (hd i0).2
      rw [hu, if_neg Bool.false_ne_true, self hs] at h3
      refine .num (f.real y) hu (fun i x => by simp only [sem, hs]) ?_
      simp only [evalW, he, bind, Except.bind, PyW.fn, PyV.fn, hl.2.1, if_true]
      rw [if_pos h3]; rfl
    · have h3 : ∀ i, f.Dom (t.sem i (at' v i)) := fun i => by
        have := (hd i).2
        rw [hu, if_pos rfl, selfT hs] at this
        exact this
      refine .gv (.fn f t) hu (fun i x => by simp only [sem, hs]; rfl) ⟨ht, hl.2.2 hu⟩ (fun i => ⟨hd1 i, h3 i⟩) ?_ ?_
      · have := hl.2.1
        cases f <;> simp_all [Expr.full, Full, Fn.InModule]
      · obtain ⟨d, hr⟩ := hrun t ht hd1
        simp only [evalW, he, hr, Expr.run, PyW.lift, PyW.fn, bind, Except.bind, hl.2.1, if_true]
  | pow e1 e2 ih1 ih2 =>
    have hp := fun i => (hd i).2.2
    rcases ih1 hl.1 fun i => (hd i).1 with ⟨y1, hu1, hs1, he1⟩ | ⟨t1, hu1, hs1, hl1, hd1, hf1, he1⟩ <;>
      rcases ih2 hl.2 fun i => (hd i).2.1 with ⟨y2, hu2, hs2, he2⟩ | ⟨t2, hu2, hs2, hl2, hd2, hf2, he2⟩ <;> rw [hu1, hu2] at hp
    · have h3 := hp i0
      rw [self hs1, self hs2] at h3
      refine .num (y1 ^ y2) (by simp [Uses, hu1, hu2]) (fun i x => by simp only [sem, hs1, hs2]) ?_
      simp only [evalW, he1, he2, bind, Except.bind, PyW.pow, PyV.pow, PyV.powMethod, numPow_ok h3, Except.map]
    · obtain ⟨q, hq, h0⟩ := hp i0
      rw [self hs1] at hq
      obtain ⟨d2, hr2⟩ := hrun t2 hl2 hd2
      refine .gv (.fn (.powBase q) t2) (by simp [Uses, hu2]) (fun i x => ?_) ⟨hl2, trivial⟩ (fun i => ⟨hd2 i, h0⟩) ?_ ?_
      · simp only [sem, hs1, hs2, hq]; rfl
      · simp [Expr.full, Full, hu1]
      · simp only [evalW, he1, he2, hr2, hq, toRat_cast, Expr.run, PyW.lift, PyW.pow, bind, Except.bind, Fn.run]
    · obtain ⟨q, hq, h0, h1, -⟩ := hp i0
      rw [self hs2] at hq
      obtain ⟨d1, hr1⟩ := hrun t1 hl1 hd1
      have h4 : ∀ i, Fn.Dom (.powQ q) (t1.sem i (at' v i)) := fun i => by
        obtain ⟨q', hq', h5, h6, h7⟩ := hp i
        rw [self hs2, hq] at hq'
        have : q' = q := (Rat.cast_injective hq').symm
        subst this
        rw [selfT hs1] at h7
        exact ⟨h5, h6, h7⟩
      refine .gv (.fn (.powQ q) t1) (by simp [Uses, hu1]) (fun i x => ?_) ⟨hl1, trivial⟩ (fun i => ⟨hd1 i, h4 i⟩) ?_ ?_
      · simp only [sem, hs1, hs2, hq]; rfl
      · simp [Expr.full, Full, hu1, hf1, full_le hu2]
      · simp only [evalW, he1, he2, hr1, hq, toRat_cast, Expr.run, PyW.lift, PyW.pow, bind, Except.bind, Fn.run]
    · obtain ⟨d1, hr1⟩ := hrun t1 hl1 hd1
      obtain ⟨d2, hr2⟩ := hrun t2 hl2 hd2
      have h3 : ∀ i, 0 < t1.sem i (at' v i) := fun i => by rw [← selfT hs1]; exact hp i
      refine .gv (.pow t1 t2) (by simp [Uses, hu1]) (fun i x => by simp only [sem, hs1, hs2]; rfl) ⟨hl1, hl2⟩ (fun i => ⟨hd1 i, hd2 i, h3 i⟩) ?_ ?_
      · simp [Expr.full, Full, hf1, hf2, hu1]
      · simp only [evalW, he1, he2, hr1, hr2, Expr.run, PyW.lift, PyW.pow, bind, Except.bind]

end PyExpr

open PyExpr

/-- **C113 (derivatives, partial).** Let the arguments in `G` be variables `gdual_vdouble(v s, s, m)` and the other ones numbers, in any combination. If the function uses one of the gduals, it
returns a `gdual_vdouble`; component `i` of its derivatives are the derivatives of the real function, with respect to the variables in `G`, at component `i` of the arguments. A function that uses
numbers only returns the number.

Restrictions: as in C107. -/
theorem C113_derivatives_partial {n : ℕ} [NeZero n] {G : String → Bool} {v : String → VecN n ℝ} {m : ℕ} {σ : String → PyW n} (hσ : ArgsW G v m σ) (hm : m < UINT_MAX - 10) (e : PyExpr)
    (hl : e.Legal G m) (hd : ∀ i, e.Dom G (at' v i)) :
    (e.Uses G = false → ∃ y, e.evalW σ = .ok (.base (.num y)) ∧ ∀ i, e.sem (at' v i) = y) ∧
    (e.Uses G = true → ∃ r, e.evalW σ = .ok (.gv r) ∧ r.Valid ∧ r.getOrder ≤ m ∧ (e.Full G = true → r.getOrder = m) ∧
      (∀ l : List String, l.length ≤ r.getOrder → (∀ s ∈ l, "d" ++ s ∈ r.p.syms) →
        ∃ c, r.getDerivative (r.p.syms.map fun u => (l.map fun s => "d" ++ s).count u) = .ok c ∧
          ∀ i : Fin n, (Lanes.lane i c : ℝ) = pds l (fun x => e.sem (mixed G (at' v i) x)) (at' v i)) ∧
      (∀ l : List String, l.length ≤ r.getOrder → ∀ dict : List (String × ℕ), (dict.map (·.1)).Nodup → (∀ p ∈ dict, 0 < p.2) →
        (∀ u, (dict.lookup u).getD 0 = (l.map fun s => "d" ++ s).count u) →
        ∃ c, r.getDerivativeDict dict = .ok c ∧ ∀ i : Fin n, (Lanes.lane i c : ℝ) = pds l (fun x => e.sem (mixed G (at' v i) x)) (at' v i))) := by
  rcases partW hσ hm e hl hd with ⟨y, h, hs, he⟩ | ⟨t, h, hs, hl', hd', hf, he⟩
  · refine ⟨fun _ => ⟨y, he, fun i => ?_⟩, fun hu => by rw [hu] at h; cases h⟩
    have := hs i (at' v i); rwa [mixed_self] at this
  · refine ⟨(fun hu => by rw [hu] at h; cases h), fun _ => ?_⟩
    obtain ⟨r, hr, h1, h2, h3, h4, h5⟩ := C21_ad_partial (ι := Fin n) hm t hl' hd'
    have hsem : ∀ i, (fun x => e.sem (mixed G (at' v i) x)) = t.sem i := fun i => funext (hs i)
    simp only [hsem]
    exact ⟨r, by rw [he, hr]; rfl, h1, h2, fun h => h3 (by rw [hf, h]), h4, h5⟩

theorem lexLt_true : ∀ {a b : List ℝ}, a ≠ [] → a.length = b.length → (∀ (i : ℕ) x y, a[i]? = some x → b[i]? = some y → x < y) → Vec.lexLt a b = true
  | [], _, h, _, _ => absurd rfl h
  | x :: _, y :: _, _, _, h => by
    rw [Vec.lexLt, if_pos (h 0 x y rfl rfl)]

theorem lexLt_false : ∀ {a b : List ℝ}, a.length = b.length → (∀ (i : ℕ) x y, a[i]? = some x → b[i]? = some y → ¬ x < y) → Vec.lexLt a b = false
  | [], [], _, _ => rfl
  | x :: xs, y :: ys, hl, h => by
    rw [Vec.lexLt, if_neg (h 0 x y rfl rfl)]
    split_ifs
    · rfl
    · exact lexLt_false (by simpa using hl) fun i u w h1 h2 => h (i + 1) u w (by simpa using h1) (by simpa using h2)

/-- The comparison of two vectors if its outcome is the same in all components. -/
theorem vec_lt_uniform {n : ℕ} [NeZero n] {a b : VecN n ℝ} :
    ((∀ i : Fin n, VecN.laneOf i a < VecN.laneOf i b) → Vec.lt a.1 b.1 = true) ∧ ((∀ i : Fin n, ¬ VecN.laneOf i a < VecN.laneOf i b) → Vec.lt a.1 b.1 = false) := by
  have i0 : Fin n := ⟨0, Nat.pos_of_ne_zero (NeZero.ne n)⟩
  by_cases hs : a.1.size = b.1.size
  · have key : ∀ (i : ℕ) x y, a.1.c[i]? = some x → b.1.c[i]? = some y → ∃ j : Fin n, VecN.laneOf j a = x ∧ VecN.laneOf j b = y := fun i x y hx hy => by
      have hi : i < a.1.c.length := (List.getElem?_eq_some_iff.mp hx).1
      by_cases h1 : a.1.c.length = 1
      · have h2 : b.1.c.length = 1 := hs.symm.trans h1
        have : i = 0 := by omega
        subst this
        refine ⟨i0, ?_, ?_⟩
        · unfold VecN.laneOf comp; rw [if_pos h1, hx]; rfl
        · unfold VecN.laneOf comp; rw [if_pos h2, hy]; rfl
      · have h2 : ¬ b.1.c.length = 1 := fun h => h1 (hs.trans h)
        have h3 : a.1.c.length = n := a.2.resolve_left h1
        refine ⟨⟨i, by omega⟩, ?_, ?_⟩
        · unfold VecN.laneOf comp; rw [if_neg h1]; simp only; rw [hx]; rfl
        · unfold VecN.laneOf comp; rw [if_neg h2]; simp only; rw [hy]; rfl
    have hne : a.1.c ≠ [] := fun h => by
      have hn := NeZero.ne n
      have h2 := a.2
      rw [Vec.size, h] at h2
      rcases h2 with h2 | h2
      · cases h2
      · exact hn h2.symm
    unfold Vec.lt
    rw [if_pos hs]
    constructor
    · intro h
      refine lexLt_true hne hs fun i x y hx hy => ?_
      obtain ⟨j, rfl, rfl⟩ := key i x y hx hy
      exact h j
    · intro h
      refine lexLt_false hs fun i x y hx hy => ?_
      obtain ⟨j, rfl, rfl⟩ := key i x y hx hy
      exact h j
  · have h1 : a.1.size = 1 ∨ b.1.size = 1 := by
      rcases a.2 with h | h
      · exact Or.inl h
      · rcases b.2 with h' | h'
        · exact Or.inr h'
        · exact absurd (h.trans h'.symm) hs
    rcases h1 with h1 | h1
    · obtain ⟨x, hx⟩ := List.length_eq_one_iff.mp h1
      have e : ∀ i : Fin n, VecN.laneOf i a = x := fun i => by unfold VecN.laneOf comp; rw [hx]; rfl
      have e2 : Vec.lt a.1 b.1 = b.1.c.all fun y => decide (x < y) := by
        unfold Vec.lt
        rw [if_neg hs, hx]
      rw [e2]
      constructor
      · intro h
        rw [VecN.all_iff]
        intro i
        rw [← e i]; exact decide_eq_true (h i)
      · intro h
        rw [Bool.eq_false_iff]
        intro h2
        rw [VecN.all_iff] at h2
        have := of_decide_eq_true (h2 i0)
        rw [← e i0] at this
        exact h i0 this
    · obtain ⟨y, hy⟩ := List.length_eq_one_iff.mp h1
      have e : ∀ i : Fin n, VecN.laneOf i b = y := fun i => by unfold VecN.laneOf comp; rw [hy]; rfl
      have e2 : Vec.lt a.1 b.1 = a.1.c.all fun x => decide (x < y) := by
        unfold Vec.lt
        rw [if_neg hs, hy]
        rcases hc : a.1.c with _ | ⟨u, _ | ⟨w, l⟩⟩
        · rfl
        · exfalso
          apply hs
          rw [Vec.size, Vec.size, hc, hy]; rfl
        · rfl
      rw [e2]
      constructor
      · intro h
        rw [VecN.all_iff]
        intro i
        rw [← e i]; exact decide_eq_true (h i)
      · intro h
        rw [Bool.eq_false_iff]
        intro h2
        rw [VecN.all_iff] at h2
        have := of_decide_eq_true (h2 i0)
        rw [← e i0] at this
        exact h i0 this

theorem value_of_derivativesW {n : ℕ} [NeZero n] {r : GDual (VecN n ℝ)} {c : VecN n ℝ} (hr : r.Valid)
    (h : r.getDerivative (r.p.syms.map fun u => (([] : List String).map fun s => "d" ++ s).count u) = .ok c) : ∃ y, r.constantCf = .ok y ∧ ∀ i : Fin n, VecN.laneOf i y = VecN.laneOf i c := by
  obtain ⟨y, hy, h0, -⟩ := C19_constant_cf (ι := Fin n) (K := ℝ) hr
  obtain ⟨c', hc', h1⟩ := getDerivative_count (ι := Fin n) (K := ℝ) (l := []) hr (by simp) (Nat.zero_le _)
  have h2 : c' = c := by
    have h3 : r.getDerivative (r.p.syms.map fun u => (([] : List String).map fun s => "d" ++ s).count u) = .ok c' := hc'
    rw [h] at h3; injection h3 with h3; exact h3.symm
  subst h2
  refine ⟨y, hy, fun i => ?_⟩
  have a := h0 i
  have b := h1 i
  have e : (MvPolynomial.eval (fun _ => 0) (r.toMv i) : ℝ) = MvPolynomial.coeff 0 (r.toMv i) := by
    rw [MvPolynomial.eval_zero', MvPolynomial.constantCoeff_eq]
  exact a.trans (e.trans b.symm)

/-- **C113 (comparisons, partial).** If both sides of a comparison use gduals and it has the same outcome in all components, this is the outcome for the `gdual_vdouble`.

Missing: components with different outcomes, see `C113_branch_counterexample`; comparisons with numbers raise a `TypeError` (`C113_mixed_counterexample`). -/
theorem C113_compare_partial {n : ℕ} [NeZero n] {G : String → Bool} {v : String → VecN n ℝ} {m : ℕ} {σ : String → PyW n} (hσ : ArgsW G v m σ) (hm : m < UINT_MAX - 10) (e1 e2 : PyExpr)
    (hl1 : e1.Legal G m) (hl2 : e2.Legal G m) (hd1 : ∀ i, e1.Dom G (at' v i)) (hd2 : ∀ i, e2.Dom G (at' v i)) (hu1 : e1.Uses G = true) (hu2 : e2.Uses G = true) :
    ∃ a b, e1.evalW σ = .ok a ∧ e2.evalW σ = .ok b ∧
      ∀ t : Bool, ((∀ i, decide (e1.sem (at' v i) < e2.sem (at' v i)) = t) → PyW.lt a b = .ok t) ∧
        ((∀ i, decide (e1.sem (at' v i) > e2.sem (at' v i)) = t) → PyW.gt a b = .ok t) := by
  have key : ∀ e : PyExpr, e.Legal G m → (∀ i, e.Dom G (at' v i)) → e.Uses G = true →
      ∃ r y, e.evalW σ = .ok (.gv r) ∧ r.constantCf = .ok y ∧ ∀ i, VecN.laneOf i y = e.sem (at' v i) := fun e hl hd hu => by
    obtain ⟨r, hr, hv, -, -, h4, -⟩ := (C113_derivatives_partial hσ hm e hl hd).2 hu
    obtain ⟨c, hc, h⟩ := h4 [] (Nat.zero_le _) (by simp)
    obtain ⟨y, hy, h2⟩ := value_of_derivativesW hv hc
    refine ⟨r, y, hr, hy, fun i => ?_⟩
    rw [h2 i]
    have := h i
    simp only [pds, mixed_self] at this
    exact this
  obtain ⟨r1, y1, hr1, hy1, hv1⟩ := key e1 hl1 hd1 hu1
  obtain ⟨r2, y2, hr2, hy2, hv2⟩ := key e2 hl2 hd2 hu2
  have hlt : PyW.lt (.gv r1) (.gv r2) = .ok (Vec.lt y1.1 y2.1) := by
    show (r1.lt r2).mapError _ = _
    unfold GDual.lt
    rw [hy1, hy2]; rfl
  have hgt : PyW.gt (.gv r1) (.gv r2) = .ok (Vec.lt y2.1 y1.1) := by
    show (r1.gt r2).mapError _ = _
    unfold GDual.gt
    rw [hy1, hy2, C36_lt_gt]; rfl
  refine ⟨_, _, hr1, hr2, fun t => ⟨fun h => ?_, fun h => ?_⟩⟩
  · rw [hlt]
    cases t with
    | true => rw [vec_lt_uniform.1 fun i => by rw [hv1, hv2]; exact of_decide_eq_true (h i)]
    | false => rw [vec_lt_uniform.2 fun i => by rw [hv1, hv2]; exact of_decide_eq_false (h i)]
  · rw [hgt]
    cases t with
    | true => rw [vec_lt_uniform.1 fun i => by rw [hv1, hv2]; exact of_decide_eq_true (h i)]
    | false => rw [vec_lt_uniform.2 fun i => by rw [hv1, hv2]; exact of_decide_eq_false (h i)]

/-- **C113 (counterexample).** The operators and comparisons of a `gdual_vdouble` with a `gdual_double` raise a `TypeError`, also those of a `gdual_vdouble` with a number if they compare; so a
function that mixes them fails. -/
theorem C113_mixed_counterexample {n : ℕ} [NeZero n] (op : Op) (a : GDual (VecN n ℝ)) (b : GDual ℝ) (x : ℝ) :
    PyW.bin op (.gv a) (.base (.gd b)) = .error .typeError ∧ PyW.bin op (.base (.gd b)) (.gv a) = .error .typeError ∧
    PyW.pow (.gv a) (.base (.gd b)) = .error .typeError ∧ PyW.pow (.base (.gd b)) (.gv a) = .error .typeError ∧
    PyW.lt (.gv a) (.base (.num x)) = .error .typeError ∧ PyW.gt (.gv a) (.base (.num x)) = .error .typeError ∧
    PyW.lt (.base (.num x)) (.gv a) = .error .typeError ∧ PyW.gt (.base (.num x)) (.gv a) = .error .typeError :=
  ⟨rfl, rfl, rfl, rfl, rfl, rfl, rfl, rfl⟩

/-- `[x, y]`. -/
def cf2 (x y : ℝ) : VecN 2 ℝ := ⟨⟨[x, y]⟩, Or.inr rfl⟩

/-- The constant `gdual_vdouble([x, y])`. -/
noncomputable def vec2 (x y : ℝ) : GDual (VecN 2 ℝ) := .ofCf (cf2 x y)

/-- **C113 (counterexample).** `<` compares the constant coefficients of a `gdual_vdouble` lexicographically: with `a = gdual_vdouble([0, 5])` and `b = gdual_vdouble([1, 2])`, `a < b` holds although
`5 < 2` does not. So `b if a < b else a`, which is the maximum for numbers, gives `[1, 2]` and not `[1, 5]`. -/
theorem C113_branch_counterexample : PyW.lt (.gv (vec2 0 5)) (.gv (vec2 1 2)) = .ok true ∧ PyW.gt (.gv (vec2 0 5)) (.gv (vec2 1 2)) = .ok false ∧
    (∃ y, (vec2 0 5).constantCf = .ok y ∧ VecN.laneOf 1 y = 5) ∧ (∃ y, (vec2 1 2).constantCf = .ok y ∧ VecN.laneOf 1 y = 2) := by
  have h : ∀ x y : ℝ, (x ≠ 0 ∨ y ≠ 0) → (vec2 x y).constantCf = .ok (cf2 x y) := fun x y hxy => by
    have hz : Cf.isZero (cf2 x y) = false := by
      rw [Bool.eq_false_iff]
      intro h
      have h1 := (Lanes.isZero_iff (ι := Fin 2) (K := ℝ) _).mp h
      have h2 : x = 0 := h1 0
      have h3 : y = 0 := h1 1
      rcases hxy with h | h
      · exact h h2
      · exact h h3
    simp [vec2, GDual.ofCf, GDual.constantCf, GDual.findCf, Poly.const, Poly.insertTerm, hz, GDual.symbolSetSize, Poly.find?, expSum]
  have h1 := h 0 5 (by norm_num)
  have h2 := h 1 2 (by norm_num)
  refine ⟨?_, ?_, ⟨_, h1, rfl⟩, _, h2, rfl⟩
  · show ((vec2 0 5).lt (vec2 1 2)).mapError _ = _
    unfold GDual.lt
    rw [h1, h2]
    change Except.ok (Vec.lt (⟨[0, 5]⟩ : Vec ℝ) ⟨[1, 2]⟩) = _
    simp [Vec.lt, Vec.size, Vec.lexLt]
  · show ((vec2 0 5).gt (vec2 1 2)).mapError _ = _
    unfold GDual.gt
    rw [h1, h2]
    change Except.ok (Vec.gt (⟨[0, 5]⟩ : Vec ℝ) ⟨[1, 2]⟩) = _
    simp [Vec.gt, Vec.size, Vec.lexLt]

/-- `x * n + sin(x)` with `x = gdual_vdouble([3, 4], "x", 5)` and the number `n = 2`. -/
example (d : GDual (VecN 2 ℝ)) (hd : GDual.mk3 (cf2 3 4) "x" 5 = .ok d) :
    ∃ r, (PyExpr.bin .add (.bin .mul (.var "x") (.var "n")) (.fn .sin (.var "x"))).evalW (fun s => if s = "x" then .gv d else .base (.num 2)) = .ok (.gv r) ∧ r.getOrder = 5 := by
  have hσ : ArgsW (fun s => s = "x") (fun s => if s = "x" then (cf2 3 4) else VecN.ofScalar 2) 5 (fun s => if s = "x" then .gv d else .base (.num 2)) := fun s => by
    by_cases h : s = "x"
    · subst h; simpa using hd
    · simp only [h, decide_false, Bool.false_eq_true, if_false]
      exact ⟨2, rfl, rfl⟩
  obtain ⟨r, hr, -, -, h, -⟩ := (C113_derivatives_partial hσ (by decide) (PyExpr.bin .add (.bin .mul (.var "x") (.var "n")) (.fn .sin (.var "x")))
    (by simp [Legal, Fn.InModule, Fn.MaxOrder]) (fun i => by simp [Dom, Uses, Op.Dom, Fn.Dom])).2 (by simp [Uses])
  exact ⟨r, hr, h (by simp [Full])⟩

/-- `x < x + 1`, in all components. -/
example (d : GDual (VecN 2 ℝ)) (hd : GDual.mk3 (cf2 3 4) "x" 5 = .ok d) :
    ∃ a b, (PyExpr.var "x").evalW (fun s => if s = "x" then .gv d else .base (.num 2)) = .ok a ∧
      (PyExpr.bin .add (.var "x") (.const 1)).evalW (fun s => if s = "x" then .gv d else .base (.num 2)) = .ok b ∧ PyW.lt a b = .ok true := by
  have hσ : ArgsW (fun s => s = "x") (fun s => if s = "x" then (cf2 3 4) else VecN.ofScalar 2) 5 (fun s => if s = "x" then .gv d else .base (.num 2)) := fun s => by
    by_cases h : s = "x"
    · subst h; simpa using hd
    · simp only [h, decide_false, Bool.false_eq_true, if_false]
      exact ⟨2, rfl, rfl⟩
  obtain ⟨a, b, h1, h2, h3⟩ := C113_compare_partial hσ (by decide) (.var "x") (.bin .add (.var "x") (.const 1)) trivial ⟨trivial, trivial⟩ (fun _ => trivial)
    (fun _ => ⟨trivial, trivial, by simp [Op.Dom]⟩) (by simp [Uses]) (by simp [Uses])
  exact ⟨a, b, h1, h2, (h3 true).1 fun i => by simp [sem, Op.real]⟩

end Audi
