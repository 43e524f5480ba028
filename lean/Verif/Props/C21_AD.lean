import Verif.Proofs.Expr
import Verif.Props.C06_Coefficients

/-!
# C21: end-to-end automatic differentiation

For every expression tree (`Expr`, Spec/Expr.lean) evaluated on gduals at a point of its domain, the derivatives read with
`get_derivative` are the partial derivatives (`pds`, Mathlib's `deriv` in one variable at a time, Spec/Taylor.lean) of the real function which
the expression denotes (`Expr.sem`).
-/

namespace Audi

open MvPolynomial Spec GDual Filter Topology

variable {C : Type} [CfFun C] {ι : Type} [Lanes C ι ℝ]

theorem d_append_injective : Function.Injective fun s : String => "d" ++ s := fun s t h => by
  have := congrArg String.toList h
  simp only [String.toList_append] at this
  exact String.toList_injective (List.append_cancel_left this)

/-- Renaming the variables of a function. -/
theorem pds_rename {𝕜 : Type} [NontriviallyNormedField 𝕜] (l : List String) (G : (String → 𝕜) → 𝕜) (a : String → 𝕜) :
    pds (l.map fun s => "d" ++ s) (fun x => G fun s => x ("d" ++ s)) a = pds l G fun s => a ("d" ++ s) := by
  induction l generalizing G with
  | nil => rfl
  | cons s l ih =>
    have : pd ("d" ++ s) (fun x => G fun s => x ("d" ++ s)) = fun x => pd s G fun s => x ("d" ++ s) := by
      funext x
      have h : ∀ t, (fun u => Function.update x ("d" ++ s) t ("d" ++ u)) = Function.update (fun u => x ("d" ++ u)) s t := fun t => by
        funext u
        by_cases hu : u = s
        · subst hu; simp
        · rw [Function.update_of_ne hu, Function.update_of_ne fun h => hu (d_append_injective h)]
      simp only [pd, h]
    rw [List.map_cons, pds, this, ih, pds]

theorem length_countExp {σ : Type*} (l : List σ) : (countExp l).degree = l.length := by
  unfold countExp
  rw [map_list_sum, List.map_map]
  simp [Function.comp_def]

section
variable {C : Type} [Cf C] {K : Type} [Field K] {ι : Type} [Lanes C ι K] {r : GDual C} {l : List String}

/-- Reading derivatives with a list of names. -/
theorem getDerivative_count (hr : r.Valid) (hmem : ∀ u ∈ l, u ∈ r.p.syms) (hl : l.length ≤ r.getOrder) :
    ∃ c, r.getDerivative (r.p.syms.map fun u => l.count u) = .ok c ∧
      ∀ i : ι, (Lanes.lane i c : K) = coeff 0 (l.foldl (fun Q s => pderiv s Q) (r.toMv i)) := by
  have hexp : toExp r.p.syms (r.p.syms.map fun u => l.count u) = countExp l := by
    ext u
    rw [toExp_map hr.wf.ndsyms, countExp_apply]
    split_ifs with h
    · rfl
    · exact (List.count_eq_zero.mpr fun hu => h (hmem u hu)).symm
  have hsum : (r.p.syms.map fun u => l.count u).sum ≤ r.getOrder := by
    rw [← degree_toExp (ss := r.p.syms) (by simp), hexp, length_countExp]; exact hl
  obtain ⟨c, hc, -⟩ := (C07_get_derivative (ι := ι) (K := K) hr _).1 ⟨hsum, by simp [symbolSetSize]⟩
  refine ⟨c, hc, fun i => ?_⟩
  rw [(getDerivative_spec hr hc i).2.2, coeff_zero_foldl_pderiv, hexp]

theorem lookup_of_mem {dict : List (String × ℕ)} (hk : (dict.map (·.1)).Nodup) {q : String × ℕ} (hq : q ∈ dict) :
    dict.lookup q.1 = some q.2 := by
  induction dict with
  | nil => simp at hq
  | cons x dict ih =>
    simp only [List.map_cons, List.nodup_cons] at hk
    obtain ⟨a, b⟩ := x
    rw [List.lookup_cons]
    rcases List.mem_cons.mp hq with rfl | hq'
    · simp
    · have : (q.1 == a) = false := by
        rw [beq_eq_false_iff_ne]
        rintro rfl
        exact hk.1 (List.mem_map.mpr ⟨q, hq', rfl⟩)
      rw [this]
      exact ih hk.2 hq'

theorem mem_of_lookup {dict : List (String × ℕ)} {s : String} {k : ℕ} (h : dict.lookup s = some k) : (s, k) ∈ dict := by
  induction dict with
  | nil => simp at h
  | cons x dict ih =>
    obtain ⟨a, b⟩ := x
    rw [List.lookup_cons] at h
    by_cases hs : s = a
    · subst hs; simp at h; simp [h]
    · have : (s == a) = false := by simpa using hs
      rw [this] at h
      exact List.mem_cons_of_mem _ (ih h)

/-- Reading derivatives with a dictionary. -/
theorem getDerivativeDict_count (hr : r.Valid) (hl : l.length ≤ r.getOrder) {dict : List (String × ℕ)} (hk : (dict.map (·.1)).Nodup)
    (hpos : ∀ p ∈ dict, 0 < p.2) (hcount : ∀ u, (dict.lookup u).getD 0 = l.count u) :
    ∃ c, r.getDerivativeDict dict = .ok c ∧
      ∀ i : ι, (Lanes.lane i c : K) = coeff 0 (l.foldl (fun Q s => pderiv s Q) (r.toMv i)) := by
  by_cases hall : ∀ p ∈ dict, p.1 ∈ r.p.syms
  · have hmem : ∀ u ∈ l, u ∈ r.p.syms := fun u hu => by
      have h1 : 0 < l.count u := List.count_pos_iff.mpr hu
      rw [← hcount] at h1
      cases hlk : dict.lookup u with
      | none => rw [hlk] at h1; simp at h1
      | some k => exact hall _ (mem_of_lookup hlk)
    obtain ⟨c, hc, hlane⟩ := getDerivative_count (ι := ι) (K := K) hr hmem hl
    refine ⟨c, ?_, hlane⟩
    rw [C08_dict_form hr hk hall, ← hc]
    congr 1
    exact List.map_congr_left fun u _ => hcount u
  · push Not at hall
    obtain ⟨q, hq, hns⟩ := hall
    obtain ⟨c, hc, h0⟩ := C08_unknown_symbol_partial (ι := ι) (K := K) (d := r) ⟨q, hq, hns⟩
    refine ⟨c, hc, fun i => ?_⟩
    rw [h0, coeff_zero_foldl_pderiv]
    by_contra hne
    obtain ⟨t, -, ht⟩ := Poly.exists_mem_of_coeff_ne (left_ne_zero_of_mul (Ne.symm hne))
    have h1 := DFunLike.congr_fun ht q.1
    rw [toExp_apply hr.wf.ndsyms, expOf_of_notMem hns, countExp_apply, ← hcount, lookup_of_mem hk hq] at h1
    exact (hpos q hq).ne h1

end

variable [LanesFun C ι]

/-- **C21 (partial).** Let `e` be an expression tree built from named variables, constants, the four operations (with gdual or scalar operands), the
elementary functions and powers, and let the point `v` be in its domain, in each lane. Then the evaluation of `e` on the gduals
`gdual(v s, s, m)` succeeds, and for every list `l` of variables (the order of the list is the order of the differentiations), the derivative read
from the result, by the vector and by the dictionary form of `get_derivative`, is the iterated partial derivative of the function.

The order of the result is `m` if a variable occurs in `e` (outside of the exponents of numeric bases); otherwise the result may be a constant of a lower order,
from which fewer derivatives can be read. Restriction (`Legal`): the order is at most 30 if `atan`, `asin` or `acos` occurs; without it, the claim is
false (`C21_counterexample`). -/
theorem C21_ad_partial {v : String → C} {m : ℕ} (hm : m < UINT_MAX - 10) (e : Expr C) (hl : e.Legal m)
    (hd : ∀ i : ι, e.Dom i fun s => Lanes.lane i (v s)) :
    ∃ r, e.run v m = .ok r ∧ r.Valid ∧ r.getOrder ≤ m ∧ (e.full = true → r.getOrder = m) ∧
      (∀ l : List String, l.length ≤ r.getOrder → (∀ s ∈ l, "d" ++ s ∈ r.p.syms) →
        ∃ c, r.getDerivative (r.p.syms.map fun u => (l.map fun s => "d" ++ s).count u) = .ok c ∧
          ∀ i : ι, (Lanes.lane i c : ℝ) = pds l (e.sem i) fun s => Lanes.lane i (v s)) ∧
      (∀ l : List String, l.length ≤ r.getOrder → ∀ dict : List (String × ℕ), (dict.map (·.1)).Nodup →
        (∀ p ∈ dict, 0 < p.2) → (∀ u, (dict.lookup u).getD 0 = (l.map fun s => "d" ++ s).count u) →
        ∃ c, r.getDerivativeDict dict = .ok c ∧
          ∀ i : ι, (Lanes.lane i c : ℝ) = pds l (e.sem i) fun s => Lanes.lane i (v s)) := by
  classical
  let p : ι → String → ℝ := fun i => Function.extend (fun s => "d" ++ s) (fun s => Lanes.lane i (v s)) 0
  have hp : ∀ (i : ι) (s : String), p i ("d" ++ s) = Lanes.lane i (v s) := fun i s => d_append_injective.extend_apply _ _ s
  obtain ⟨r, hr, hg, hf⟩ := Expr.run_good hm hp e hl hd
  have key : ∀ l : List String, l.length ≤ r.getOrder → ∀ i : ι,
      coeff 0 ((l.map fun s => "d" ++ s).foldl (fun Q s => pderiv s Q) (r.toMv i : MvPolynomial String ℝ)) =
        pds l (e.sem i) fun s => Lanes.lane i (v s) := fun l hle i => by
    rw [← (hg.taylor i).pds_eq _ (by rw [List.length_map]; exact hle.trans hg.le), pds_rename]
    congr 1
    exact funext (hp i)
  have vec : ∀ l : List String, l.length ≤ r.getOrder → (∀ s ∈ l, "d" ++ s ∈ r.p.syms) →
      ∃ c, r.getDerivative (r.p.syms.map fun u => (l.map fun s => "d" ++ s).count u) = .ok c ∧
        ∀ i : ι, (Lanes.lane i c : ℝ) = pds l (e.sem i) fun s => Lanes.lane i (v s) := fun l hle hmem => by
    obtain ⟨c, hc, hlane⟩ := getDerivative_count (ι := ι) (K := ℝ) hg.valid (l := l.map fun s => "d" ++ s)
      (by simpa using hmem) (by simpa using hle)
    exact ⟨c, hc, fun i => by rw [hlane, key l hle]⟩
  refine ⟨r, hr, hg.valid, hg.le, hf, vec, fun l hle dict hk hpos hcount => ?_⟩
  obtain ⟨c, hc, hlane⟩ := getDerivativeDict_count (ι := ι) (K := ℝ) hg.valid (l := l.map fun s => "d" ++ s) (by simpa using hle) hk hpos hcount
  exact ⟨c, hc, fun i => by rw [hlane, key l hle]⟩

/-- The expression `log(x * y) + sqrt(x) / (2 - sin(y))` at `x = 1, y = 2`. -/
example : ∃ e : Expr ℝ, e = .bin .add (.fn .log (.bin .mul (.var "x") (.var "y")))
      (.bin .div (.fn .sqrt (.var "x")) (.left .sub 2 (.fn .sin (.var "y")))) ∧
    e.Legal 50 ∧ e.full = true ∧ ∀ i : Unit, e.Dom i fun s => Lanes.lane i (if s = "x" then 1 else 2 : ℝ) := by
  refine ⟨_, rfl, ?_, rfl, fun i => ?_⟩
  · simp [Expr.Legal, Fn.MaxOrder]
  · have h := Real.sin_le_one 2
    simp only [Expr.Dom, Expr.sem, Fn.Dom, Fn.real, Op.Dom, Op.real, Lanes.lane]
    have hyx : "y" ≠ "x" := by decide
    simp only [if_neg hyx, if_true]
    norm_num
    intro h2
    linarith

/-- **C21 (counterexample).** The derivative of order 31 of `atan(x)` at `x = 1` read with `get_derivative` is wrong, whatever the order
of the expansion. -/
theorem C21_counterexample (n : ℕ) (h31 : 31 ≤ n) (hn : n < 4294967285) :
    ∃ (r : GDual ℝ) (c : ℝ), (Expr.fn .atan (.var "x") : Expr ℝ).run (fun _ => 1) n = .ok r ∧
    r.getDerivativeDict [("dx", 31)] = .ok c ∧
    c ≠ pds (List.replicate 31 "x") ((Expr.fn .atan (.var "x") : Expr ℝ).sem ()) fun _ => 1 := by
  obtain ⟨d, r, s, hd, hv, ho, ht, hr, hs, hne⟩ := atan31 n h31 hn
  obtain ⟨r', -, -, hr', hor, hvr, -, -⟩ := atanWith_rep (ι := Unit) binomialU32 hv
  obtain rfl : r = r' := by
    have : atan d = .ok r' := hr'
    rw [hr] at this; injection this
  have hcnt : ∀ u, (List.lookup u [("dx", 31)]).getD 0 = (List.replicate 31 "dx").count u := fun u => by
    rw [List.count_replicate, List.lookup_cons]
    by_cases hu : u = "dx"
    · subst hu; simp
    · have h1 : (u == "dx") = false := by simpa using hu
      have h2 : ("dx" == u) = false := by simpa using Ne.symm hu
      simp [h1, h2]
  obtain ⟨c, hc, hlane⟩ := getDerivativeDict_count (ι := Unit) (K := ℝ) (r := r) hvr (l := List.replicate 31 "dx")
    (by rw [List.length_replicate]; exact h31.trans (hor.trans ho).ge) (dict := [("dx", 31)]) (by simp) (by simp) hcnt
  refine ⟨r, c, ?_, hc, fun h => hne ?_⟩
  · change (GDual.mk3 1 "x" n >>= fun d => atan d) = _
    rw [bind_ok hd, hr]
  · have hT := hs.taylor () (fun x => x "dx") (fun _ => 1) (by
      rw [ht]
      have := IsTaylor.coord (a := fun _ : String => (1 : ℝ)) (m := d.order) "dx"
      exact this)
    have h1 := hT.pds_eq (List.replicate 31 "dx") (by rw [List.length_replicate]; exact h31.trans ho.ge)
    have h2 := pds_rename (List.replicate 31 "x") (fun x => Real.arctan (x "x")) fun _ => 1
    rw [List.map_replicate, show "d" ++ "x" = "dx" from by decide] at h2
    have h3 : c = pds (List.replicate 31 "dx") (fun x => Real.arctan (x "dx")) fun _ => 1 := h.trans h2.symm
    have h4 : countExp (List.replicate 31 "dx") = Finsupp.single "dx" 31 := by
      unfold countExp
      rw [List.map_replicate, List.sum_replicate]
      simp
    have h5 : (multiFact (Finsupp.single "dx" 31 : String →₀ ℕ) : ℝ) ≠ 0 := by
      have : multiFact (Finsupp.single "dx" 31 : String →₀ ℕ) ≠ 0 := by
        unfold multiFact
        rw [Finsupp.prod_single_index (by simp)]
        exact Nat.factorial_ne_zero _
      exact_mod_cast this
    have h6 := hlane ()
    rw [coeff_zero_foldl_pderiv, h4] at h6 h1
    exact mul_right_cancel₀ h5 (h6.symm.trans (h3.trans h1))

end Audi
