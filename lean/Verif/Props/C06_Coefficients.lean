import Verif.Props.C02_Ring
import Verif.Proofs.Fact

/-! # C06, C07, C08: coefficients and derivatives -/

namespace Audi

open MvPolynomial Spec GDual

variable {C : Type} [Cf C] {ι : Type} {K : Type} [Field K] [Lanes C ι K] {d : GDual C}

/-- **C06.** `find_cf(e)` returns the coefficient of the monomial `e` (0 if absent) when the total degree is within the
order and there is one exponent per symbol; in all other cases it throws `std::invalid_argument`. -/
theorem C06_find_cf (hd : d.Valid) (e : List ℕ) :
    (e.sum ≤ d.getOrder ∧ e.length = d.symbolSetSize →
      ∃ c, d.findCf e = .ok c ∧ ∀ i : ι, (Lanes.lane i c : K) = coeff (toExp d.p.syms e) (d.toMv i)) ∧
    (¬(e.sum ≤ d.getOrder ∧ e.length = d.symbolSetSize) → d.findCf e = .error .invalidArgument) := by
  refine ⟨fun h => ?_, fun h => ?_⟩
  · obtain ⟨c, hc⟩ := findCf_isOk h.1 h.2
    exact ⟨c, hc, lane_findCf hd hc⟩
  · unfold findCf
    split_ifs with h1 h2
    · rfl
    · rfl
    · exact absurd ⟨not_lt.mp h1, not_not.mp h2⟩ h

example : Ex.xy.findCf [1, 0] = .ok 5 ∧ Ex.xy.findCf [2, 0] = .ok 0 ∧ Ex.xy.findCf [2, 2] = .error .invalidArgument ∧
    Ex.xy.findCf [1] = .error .invalidArgument := by decide +kernel

/-- Apply `partial` for each name of a list, in that order. -/
def iterPartial : List String → GDual C → Res (GDual C)
  | [], d => .ok d
  | s :: l, d => d.partial' s >>= iterPartial l

theorem iterPartial_spec {l : List String} {d r : GDual C} (hd : d.Valid) (h : iterPartial l d = .ok r) :
    r.Valid ∧ ∀ i : ι, (r.toMv i : MvPolynomial String K) =
      (l.map fun s => "d" ++ s).foldl (fun Q s => pderiv s Q) (d.toMv i) := by
  induction l generalizing d with
  | nil => injection h with h; subst h; exact ⟨hd, fun _ => rfl⟩
  | cons s l ih =>
    obtain ⟨d1, h1, h2⟩ := bind_ok_iff.mp h
    obtain ⟨h3, h4⟩ := ih (hd.partial' h1) h2
    refine ⟨h3, fun i => ?_⟩
    rw [h4 i, toMv_partial hd h1]
    rfl

theorem getDerivative_spec (hd : d.Valid) {e : List ℕ} {c : C} (h : d.getDerivative e = .ok c) (i : ι) :
    e.sum ≤ d.getOrder ∧ e.length = d.symbolSetSize ∧
    (Lanes.lane i c : K) = coeff (toExp d.p.syms e) (d.toMv i) * (multiFact (toExp d.p.syms e) : K) := by
  unfold getDerivative at h
  obtain ⟨c', h1, h2⟩ := bind_ok_iff.mp h
  injection h2 with h2
  have h3 := findCf_ok h1
  refine ⟨h3.1, h3.2, ?_⟩
  rw [← h2, Lanes.lane_mul, Lanes.lane_ofRat, lane_findCf hd h1, multiFact_toExp hd.wf.ndsyms h3.2]
  congr 1
  rw [Nat.cast_list_prod, List.map_map]
  have : ((e.map fun k => (Nat.factorial k : ℚ)).prod : ℚ) = (((e.map Nat.factorial).prod : ℕ) : ℚ) := by
    rw [Nat.cast_list_prod, List.map_map]; rfl
  rw [this, Rat.cast_natCast, Nat.cast_list_prod, List.map_map]

/-- **C07.** `get_derivative(e)` succeeds exactly under the conditions of `find_cf` and is the coefficient times the product of the
factorials of the exponents. -/
theorem C07_get_derivative (hd : d.Valid) (e : List ℕ) :
    (e.sum ≤ d.getOrder ∧ e.length = d.symbolSetSize →
      ∃ c, d.getDerivative e = .ok c ∧ ∀ i : ι, (Lanes.lane i c : K) =
        coeff (toExp d.p.syms e) (d.toMv i) * (((e.map Nat.factorial).prod : ℕ) : K)) ∧
    (¬(e.sum ≤ d.getOrder ∧ e.length = d.symbolSetSize) → d.getDerivative e = .error .invalidArgument) := by
  refine ⟨fun h => ?_, fun h => ?_⟩
  · obtain ⟨c, hc⟩ := findCf_isOk h.1 h.2
    have : d.getDerivative e = .ok (Cf.mul c (Cf.ofRat (e.map fun k => (Nat.factorial k : ℚ)).prod)) := by
      unfold getDerivative; rw [hc]; rfl
    refine ⟨_, this, fun i => ?_⟩
    rw [(getDerivative_spec hd this i).2.2, multiFact_toExp hd.wf.ndsyms h.2]
  · unfold getDerivative
    rw [(C06_find_cf (ι := ι) (K := K) hd e).2 h]
    rfl

/-- **C07.** Applying `partial` once for each element of a list of names, in any order, and reading the constant
coefficient gives `get_derivative(e)`, where `e` counts the names. -/
theorem C07_iterated_derivatives (hd : d.Valid) {l : List String} {r : GDual C} (hr : iterPartial l d = .ok r)
    (hmem : ∀ s ∈ l, "d" ++ s ∈ d.p.syms) (hl : l.length ≤ d.getOrder) :
    ∃ c c', d.getDerivative (d.p.syms.map fun u => (l.map fun s => "d" ++ s).count u) = .ok c ∧
      r.constantCf = .ok c' ∧ ∀ i : ι, (Lanes.lane i c : K) = Lanes.lane i c' := by
  obtain ⟨hv, hm⟩ := iterPartial_spec (ι := ι) (K := K) hd hr
  have hexp : toExp d.p.syms (d.p.syms.map fun u => (l.map fun s => "d" ++ s).count u) =
      countExp (l.map fun s => "d" ++ s) := by
    ext u
    rw [toExp_map hd.wf.ndsyms, countExp_apply]
    split_ifs with h
    · rfl
    · refine (List.count_eq_zero.mpr fun hu => ?_).symm
      obtain ⟨s, hs, rfl⟩ := List.mem_map.mp hu
      exact h (hmem s hs)
  have hsum : (d.p.syms.map fun u => (l.map fun s => "d" ++ s).count u).sum ≤ d.getOrder := by
    rw [← degree_toExp (ss := d.p.syms) (by simp), hexp]
    have : (countExp (l.map fun s => "d" ++ s)).degree = l.length := by
      unfold countExp
      rw [map_list_sum, List.map_map]
      simp [Function.comp_def]
    rw [this]; exact hl
  obtain ⟨c, hc, hlane⟩ := (C07_get_derivative (ι := ι) (K := K) hd _).1 ⟨hsum, by simp [symbolSetSize]⟩
  obtain ⟨c', hc'⟩ := constantCf_isOk r
  refine ⟨c, c', hc, hc', fun i => ?_⟩
  rw [(getDerivative_spec hd hc i).2.2, lane_constantCf hv hc', hm i, coeff_zero_foldl_pderiv, hexp]

/-- `∂³(x y)²/∂x∂y∂y` two ways. -/
example : (Ex.xy.mul Ex.xy).getDerivative [1, 2] = .ok 8 ∧
    (iterPartial ["y", "x", "y"] (Ex.xy.mul Ex.xy) >>= fun r => r.constantCf) = .ok 8 := by decide +kernel

/-! ### C08 -/

theorem dictCoeff_isSome {ss : List String} {dict : List (String × ℕ)} {e : List ℕ} :
    (dictCoeff ss dict e).isSome = true ↔ ∀ p ∈ dict, p.1 ∈ ss := by
  induction dict generalizing e with
  | nil => simp [dictCoeff]
  | cons p dict ih =>
    obtain ⟨s, k⟩ := p
    unfold dictCoeff
    split_ifs with h
    · simp [ih, h]
    · simp [h]

theorem dictCoeff_spec {ss : List String} (hn : ss.Nodup) {dict : List (String × ℕ)}
    (hk : (dict.map (·.1)).Nodup) {e r : List ℕ} (he : e.length = ss.length) (h : dictCoeff ss dict e = some r) :
    r.length = ss.length ∧ ∀ s ∈ ss, expOf ss r s = (dict.lookup s).getD (expOf ss e s) := by
  induction dict generalizing e with
  | nil => simp only [dictCoeff, Option.some.injEq] at h; subst h; exact ⟨he, fun s _ => rfl⟩
  | cons p dict ih =>
    obtain ⟨t, k⟩ := p
    unfold dictCoeff at h
    split_ifs at h with ht
    simp only [List.map_cons, List.nodup_cons] at hk
    obtain ⟨h1, h2⟩ := ih hk.2 (by rw [length_setExp]; exact he) h
    refine ⟨h1, fun s hs => ?_⟩
    rw [h2 s hs, expOf_setExp hn he, List.lookup_cons]
    by_cases hst : s = t
    · subst hst
      have : dict.lookup s = none := by
        rw [List.lookup_eq_none_iff]
        intro p hp
        rw [bne_iff_ne]
        rintro rfl
        exact hk.1 (List.mem_map_of_mem hp)
      simp [this, ht]
    · have : (s == t) = false := by simpa using hst
      simp [this, hst]

theorem eq_map_expOf {ss : List String} (hn : ss.Nodup) {r : List ℕ} (hr : r.length = ss.length) :
    r = ss.map (expOf ss r) :=
  toExp_inj hn hr (by simp) (by
    ext s
    rw [toExp_map hn, toExp_apply hn]
    split_ifs with h
    · rfl
    · exact expOf_of_notMem h)

theorem expOf_replicate (ss : List String) (n : ℕ) (s : String) : expOf ss (List.replicate n 0) s = 0 := by
  induction ss generalizing n with
  | nil => simp [expOf]
  | cons t ss ih => cases n <;> simp [List.replicate_succ, expOf, ih]

/-- **C08.** With all names in the symbol set, the dictionary form is the vector form with the missing symbols set to 0.
(`dict` lists the entries of the `unordered_map`, whose keys are distinct, in any order.) -/
theorem C08_dict_form (hd : d.Valid) {dict : List (String × ℕ)} (hk : (dict.map (·.1)).Nodup)
    (hmem : ∀ p ∈ dict, p.1 ∈ d.p.syms) :
    d.getDerivativeDict dict = d.getDerivative (d.p.syms.map fun s => (dict.lookup s).getD 0) := by
  unfold getDerivativeDict
  have h := dictCoeff_isSome (e := List.replicate d.symbolSetSize 0) |>.mpr hmem
  obtain ⟨r, hr⟩ := Option.isSome_iff_exists.mp h
  rw [hr]
  obtain ⟨h1, h2⟩ := dictCoeff_spec hd.wf.ndsyms hk (by simp [symbolSetSize]) hr
  simp only
  congr 1
  rw [eq_map_expOf hd.wf.ndsyms h1]
  refine List.map_congr_left fun s hs => ?_
  rw [h2 s hs, expOf_replicate]

theorem lookup_perm {l l' : List (String × ℕ)} (hp : l.Perm l') (hk : (l.map (·.1)).Nodup) (s : String) :
    l.lookup s = l'.lookup s := by
  induction hp with
  | nil => rfl
  | cons x _ ih =>
    simp only [List.map_cons, List.nodup_cons] at hk
    rw [List.lookup_cons, List.lookup_cons, ih hk.2]
  | swap x y l =>
    obtain ⟨a, x⟩ := x
    obtain ⟨b, y⟩ := y
    simp only [List.map_cons, List.nodup_cons, List.mem_cons, not_or] at hk
    simp only [List.lookup_cons]
    by_cases h1 : s = a
    · by_cases h2 : s = b
      · exact absurd (h2.symm.trans h1) hk.1.1
      · have e1 : (s == b) = false := by simpa using h2
        have e2 : (s == a) = true := by simpa using h1
        rw [e1, e2]
    · have e2 : (s == a) = false := by simpa using h1
      rw [e2]
  | trans h1 _ ih1 ih2 => exact (ih1 hk).trans (ih2 ((h1.map _).nodup_iff.mp hk))

/-- **C08.** The result does not depend on the iteration order of the `unordered_map`. -/
theorem C08_iteration_order (hd : d.Valid) {dict dict' : List (String × ℕ)} (hk : (dict.map (·.1)).Nodup)
    (hp : dict.Perm dict') : d.getDerivativeDict dict = d.getDerivativeDict dict' := by
  have hk' := (hp.map (·.1)).nodup_iff.mp hk
  by_cases hmem : ∀ p ∈ dict, p.1 ∈ d.p.syms
  · have hmem' : ∀ p ∈ dict', p.1 ∈ d.p.syms := fun p h => hmem p (hp.symm.subset h)
    rw [C08_dict_form hd hk hmem, C08_dict_form hd hk' hmem']
    congr 1
    exact List.map_congr_left fun s _ => by rw [lookup_perm hp hk]
  · have hmem' : ¬ ∀ p ∈ dict', p.1 ∈ d.p.syms := fun h => hmem fun p hp' => h p (hp.subset hp')
    unfold getDerivativeDict
    have h1 : dictCoeff d.p.syms dict (List.replicate d.symbolSetSize 0) = none := by
      rw [← Option.not_isSome_iff_eq_none, dictCoeff_isSome]; exact hmem
    have h2 : dictCoeff d.p.syms dict' (List.replicate d.symbolSetSize 0) = none := by
      rw [← Option.not_isSome_iff_eq_none, dictCoeff_isSome]; exact hmem'
    rw [h1, h2]

/-- **C08 (partial).** The documentation (gdual.hpp:679) promises `std::invalid_argument` for a name outside the symbol set.
What the code does, for every gdual and dictionary with such a name, is to return 0. -/
theorem C08_unknown_symbol_partial {dict : List (String × ℕ)} (h : ∃ p ∈ dict, p.1 ∉ d.p.syms) :
    ∃ c : C, d.getDerivativeDict dict = .ok c ∧ ∀ i : ι, (Lanes.lane i c : K) = 0 := by
  unfold getDerivativeDict
  have h1 : dictCoeff d.p.syms dict (List.replicate d.symbolSetSize 0) = none := by
    rw [← Option.not_isSome_iff_eq_none, dictCoeff_isSome]
    push Not
    exact h
  rw [h1]
  exact ⟨_, rfl, fun i => by simp [Lanes.lane_ofRat]⟩

/-- **C08, the documented throw does not happen.** -/
theorem C08_no_throw_counterexample : Ex.x.getDerivativeDict [("dq", 1)] ≠ .error .invalidArgument := by
  decide +kernel

/-- **C08, counterexample.** An unknown symbol with exponent 0 makes the result 0, although the value (the derivative of order 0) is not 0. -/
theorem C08_unknown_zero_counterexample : Ex.x.getDerivativeDict [("dq", 0)] = .ok 0 ∧ Ex.x.getDerivativeDict [] ≠ .ok 0 := by
  decide +kernel

example : (Ex.xy.mul Ex.xy).getDerivativeDict [("dy", 2), ("dx", 1)] = .ok 8 ∧
    (Ex.xy.mul Ex.xy).getDerivativeDict [("dx", 1), ("dy", 2)] = .ok 8 ∧
    (Ex.xy.mul Ex.xy).getDerivativeDict [("dy", 2)] = .ok 8 := by decide +kernel

end Audi
