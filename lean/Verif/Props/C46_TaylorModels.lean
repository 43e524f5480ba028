import Verif.Props.ExamplesTM
import Verif.Proofs.TMProduct
import Verif.Proofs.TMExtend

/-! # C46, C47, C56, C57, C58: Taylor models as a data structure -/

namespace Audi

open TM MvPolynomial

section
variable {K : Type} [Field K] [LinearOrder K] [IsStrictOrderedRing K]

/-! ### C46: bounds -/

/-- **C46, map traversed in the order of insertion, order up to 62.** `get_bounds` returns an interval that contains the value of the
polynomial at every point of the domain, whatever the order of the entries in the two maps of the Taylor model.
Missing: other iteration orders of the map that `get_bounds` builds (`C46_iteration_order_counterexample`), orders above 62
(`C45_overflow_counterexample`). -/
theorem C46_bounds_partial {tm : TM K} (h : tm.WF) (h62 : tm.order ≤ 62) {ord : List String → List String}
    (ho : ord (tm.tpol.p.syms.map varName) = tm.tpol.p.syms.map varName) :
    ∃ B, tm.bounds ord = .ok B ∧ ∀ x, tm.InDom x → Spec.InItv B (tm.polyAt x) := by
  obtain ⟨B, h1, -, h2⟩ := bounds_encloses h h62 ho
  exact ⟨B, h1, h2⟩

/-- **C46, one variable, order up to 62.** With one variable, the bounds are correct for every iteration order. -/
theorem C46_one_variable_partial {tm : TM K} (h : tm.WF) (h62 : tm.order ≤ 62) (h1 : tm.ndim ≤ 1) {ord : List String → List String}
    (ho : ∀ l, (ord l).Perm l) : ∃ B, tm.bounds ord = .ok B ∧ ∀ x, tm.InDom x → Spec.InItv B (tm.polyAt x) := by
  refine C46_bounds_partial h h62 ?_
  have hl : (tm.tpol.p.syms.map varName).length ≤ 1 := by
    rw [List.length_map, ← h.ndim]
    exact h1
  rcases hv : tm.tpol.p.syms.map varName with _ | ⟨v, _ | ⟨w, l⟩⟩
  · exact List.perm_nil.1 (ho [])
  · exact List.perm_singleton.1 (ho [v])
  · rw [hv] at hl
    simp at hl

example : Ex.tx.WF ∧ Ex.tx.order ≤ 62 ∧ Ex.tx.ndim ≤ 1 ∧ ∀ l : List String, (l.reverse).Perm l :=
  ⟨Ex.tx_wf, by decide, by decide, fun l => l.reverse_perm⟩
example : Ex.tx.bounds id = .ok ⟨1, 3⟩ := by decide +kernel

/-- The polynomial `dx + dy² - dx dy` over `x ∈ [1, 2]`, `y ∈ [-1, 3]`, expanded at the points 1 and 0. -/
def orderTM : TM ℚ :=
  ⟨⟨⟨["dx", "dy"], [([1, 0], 1), ([0, 2], 1), ([1, 1], -1)]⟩, 2⟩, 2, 2, ⟨0, 0⟩, [("x", 1), ("y", 0)], [("x", ⟨1, 2⟩), ("y", ⟨-1, 3⟩)]⟩

/-- **C46.** The bounds depend on the iteration order of the map: traversed backwards, they do not contain the value of the polynomial at a
point of the domain. -/
theorem C46_iteration_order_counterexample :
    orderTM.WF ∧ (∀ l : List String, (l.reverse).Perm l) ∧ ∃ B x, orderTM.bounds List.reverse = .ok B ∧ orderTM.InDom x ∧ ¬ Spec.InItv B (orderTM.polyAt x) := by
  have hw : orderTM.WF := wf_of_check (by decide +kernel)
  refine ⟨hw, fun l => l.reverse_perm, ⟨-1, 3⟩, fun v => if v = "x" then 1 else 3, ?_, ?_, ?_⟩
  · decide +kernel
  · decide +kernel
  · rw [polyAt_eq_table hw.valid]
    decide +kernel

/-! ### C47: construction -/

omit [IsStrictOrderedRing K] in
/-- **C47.** The constructor succeeds iff the maps have the same keys, every expansion point lies in its interval, and there are as many
entries as variables; otherwise it throws `invalid_argument`. -/
theorem C47_constructor (p : GDual K) (rem : Itv K) (exp : VMap K) (dom : VMap (Itv K)) :
    ((∃ r, make p rem exp dom = .ok r) ↔ (∀ v, v ∈ exp.map Prod.fst ↔ v ∈ dom.map Prod.fst) ∧
        (∀ e ∈ dom, ∃ x, exp.lookup e.1 = some x ∧ e.2.lo ≤ x ∧ x ≤ e.2.hi) ∧ dom.length = p.p.syms.length) ∧
      ((∃ r, make p rem exp dom = .ok r) ∨ make p rem exp dom = .error .invalidArgument) := by
  unfold make
  by_cases hc : checkInput p.symbolSetSize exp dom = .ok ()
  · refine ⟨iff_of_true ⟨_, by rw [bind_ok hc]⟩ (checkInput_ok.1 hc), .inl ⟨_, by rw [bind_ok hc]⟩⟩
  · have he := checkInput_error hc
    refine ⟨iff_of_false ?_ (fun h => hc (checkInput_ok.2 h)), .inr (by rw [bind_error he])⟩
    rintro ⟨r, hr⟩
    rw [bind_error he] at hr
    simp at hr

omit [IsStrictOrderedRing K] in
/-- **C47.** A Taylor model is well formed when its parts are: the constructor accepts every valid polynomial in differentials with one
expansion point and one interval for each variable. -/
theorem C47_constructor_accepts {p : GDual K} (hp : p.Valid) (hn : ∀ s ∈ p.p.syms, ∃ v, s = "d" ++ v) {rem : Itv K} (hr : rem.lo ≤ rem.hi)
    {exp : VMap K} {dom : VMap (Itv K)} (he : (exp.map Prod.fst).Perm (p.p.syms.map varName))
    (hd : (dom.map Prod.fst).Perm (p.p.syms.map varName)) (hi : ∀ e ∈ dom, ∃ x, (e.1, x) ∈ exp ∧ Spec.InItv e.2 x) :
    ∃ r, make p rem exp dom = .ok r ∧ r.WF := ⟨_, (make_wf ⟨hp, hn, he, hd, hi, hr⟩).1, (make_wf ⟨hp, hn, he, hd, hi, hr⟩).2⟩

example : Ex.tx.tpol.Valid ∧ (∀ s ∈ Ex.tx.tpol.p.syms, ∃ v, s = "d" ++ v) ∧ (Ex.tx.exp.map Prod.fst).Perm (Ex.tx.tpol.p.syms.map varName) :=
  ⟨Ex.tx_wf.valid, Ex.tx_wf.names, Ex.tx_wf.expKeys⟩

omit [Field K] [IsStrictOrderedRing K] in
theorem make_checked {p : GDual K} {rem : Itv K} {exp : VMap K} {dom : VMap (Itv K)} {r : TM K} (h : make p rem exp dom = .ok r) :
    checkInput r.ndim r.exp r.dom = .ok () ∧ r.ndim = r.tpol.p.syms.length ∧ r.order = r.tpol.order := by
  unfold make at h
  obtain ⟨u, h1, h2⟩ := bind_ok_iff.1 h
  injection h2 with h2
  subst h2
  exact ⟨h1, rfl, rfl⟩

omit [IsStrictOrderedRing K] in
theorem ofConst_checked (c : K) : checkInput (ofConst c).ndim (ofConst c).exp (ofConst c).dom = .ok () ∧
    (ofConst c).ndim = (ofConst c).tpol.p.syms.length ∧ (ofConst c).order = (ofConst c).tpol.order :=
  ⟨checkInput_ok.2 ⟨fun v => Iff.rfl, fun e he => absurd he (by simp [ofConst]), rfl⟩, rfl, rfl⟩

omit [IsStrictOrderedRing K] in
/-- **C47.** The result of every arithmetic operation on any Taylor models satisfies the checks of the constructor (for powers, see
`C47_power_counterexample`). -/
theorem C47_results (ord : List String → List String) (a b r : TM K) (s : K) (J : Itv K)
    (h : r ∈ [a.add b, addST s a, a.addTS s, addIT J a, a.addTI J, a.sub b, subST s a, a.subTS s, subIT J a, a.subTI J, a.neg,
      mul ord a b, mulST s a, a.mulTS s, mulIT ord J a, mulTI ord a J, divST ord s a, div ord a b, a.divTS s, divIT ord J a, divTI ord a J].filterMap
        Except.toOption) :
    checkInput r.ndim r.exp r.dom = .ok () ∧ r.ndim = r.tpol.p.syms.length ∧ r.order = r.tpol.order := by
  have hmul : ∀ {a b r : TM K}, mul ord a b = .ok r →
      checkInput r.ndim r.exp r.dom = .ok () ∧ r.ndim = r.tpol.p.syms.length ∧ r.order = r.tpol.order := by
    intro a b r h
    unfold mul at h
    obtain ⟨z, -, h⟩ := bind_ok_iff.1 h
    split_ifs at h
    · injection h with h
      subst h
      exact ofConst_checked 0
    · simp only [bind_ok_iff] at h
      obtain ⟨_, _, _, _, _, _, _, _, _, _, _, _, _, _, _, _, _, _, _, _, h⟩ := h
      exact make_checked h
  have hadd : ∀ {a b r : TM K}, a.add b = .ok r →
      checkInput r.ndim r.exp r.dom = .ok () ∧ r.ndim = r.tpol.p.syms.length ∧ r.order = r.tpol.order := by
    intro a b r h
    unfold add at h
    simp only [bind_ok_iff] at h
    obtain ⟨_, _, _, _, _, _, _, _, h⟩ := h
    exact make_checked h
  have hsub : ∀ {a b r : TM K}, a.sub b = .ok r →
      checkInput r.ndim r.exp r.dom = .ok () ∧ r.ndim = r.tpol.p.syms.length ∧ r.order = r.tpol.order := by
    intro a b r h
    unfold sub at h
    simp only [bind_ok_iff] at h
    obtain ⟨_, _, _, _, _, _, _, _, h⟩ := h
    exact make_checked h
  have hmulIT : ∀ {r : TM K}, mulIT ord J a = .ok r →
      checkInput r.ndim r.exp r.dom = .ok () ∧ r.ndim = r.tpol.p.syms.length ∧ r.order = r.tpol.order := by
    intro r h
    obtain ⟨_, _, h⟩ := bind_ok_iff.1 h
    exact hmul h
  have hmulTI : ∀ {r : TM K}, mulTI ord a J = .ok r →
      checkInput r.ndim r.exp r.dom = .ok () ∧ r.ndim = r.tpol.p.syms.length ∧ r.order = r.tpol.order := by
    intro r h
    unfold mulTI at h
    simp only [bind_ok_iff] at h
    obtain ⟨_, _, _, _, h⟩ := h
    exact hmul h
  have hdivST : ∀ {s : K} {a r : TM K}, divST ord s a = .ok r →
      checkInput r.ndim r.exp r.dom = .ok () ∧ r.ndim = r.tpol.p.syms.length ∧ r.order = r.tpol.order := by
    intro s a r h
    unfold divST at h
    obtain ⟨b, _, h⟩ := bind_ok_iff.1 h
    split_ifs at h
    simp only [bind_ok_iff] at h
    obtain ⟨_, _, _, _, _, _, _, _, _, _, _, _, h⟩ := h
    exact make_checked h
  have hdiv : ∀ {r : TM K}, div ord a b = .ok r →
      checkInput r.ndim r.exp r.dom = .ok () ∧ r.ndim = r.tpol.p.syms.length ∧ r.order = r.tpol.order := by
    intro r h
    obtain ⟨_, _, h⟩ := bind_ok_iff.1 h
    exact hmul h
  have hdivTS : ∀ {r : TM K}, a.divTS s = .ok r →
      checkInput r.ndim r.exp r.dom = .ok () ∧ r.ndim = r.tpol.p.syms.length ∧ r.order = r.tpol.order := by
    intro r h
    unfold divTS at h
    simp only [bind_ok_iff] at h
    obtain ⟨_, _, _, _, h⟩ := h
    exact make_checked h
  rw [List.mem_filterMap] at h
  obtain ⟨o, ho, hr⟩ := h
  have ho' : o = .ok r := by
    cases o with
    | error e => simp [Except.toOption] at hr
    | ok v => simp [Except.toOption] at hr; rw [hr]
  subst ho'
  simp only [List.mem_cons, List.not_mem_nil, or_false] at ho
  rcases ho with ho | ho | ho | ho | ho | ho | ho | ho | ho | ho | ho | ho | ho | ho | ho | ho | ho | ho | ho | ho | ho <;>
    first
    | exact hadd ho.symm
    | exact hsub ho.symm
    | exact hmul ho.symm
    | exact hmulIT ho.symm
    | exact hmulTI ho.symm
    | exact hdivST ho.symm
    | exact hdiv ho.symm
    | exact hdivTS ho.symm
    | exact make_checked ho.symm

end

example : ∃ r, Ex.tx.add Ex.ty = .ok r := by
  obtain ⟨r, h, -⟩ := add_sound Ex.tx_wf Ex.ty_wf Ex.txy_compatible
  exact ⟨r, h⟩

/-- **C47.** The keys of the maps are not compared with the names of the variables: the constructor accepts maps for the variable `y` with
a polynomial in `x`, and `get_bounds` of the Taylor model then throws. -/
theorem C47_names_counterexample :
    ∃ r : TM ℚ, make ⟨⟨["dx"], [([1], 1)]⟩, 1⟩ ⟨0, 0⟩ [("y", 0)] [("y", ⟨0, 1⟩)] = .ok r ∧ r.bounds id = .error .outOfRange ∧ ¬ r.WF := by
  refine ⟨⟨⟨⟨["dx"], [([1], 1)]⟩, 1⟩, 1, 1, ⟨0, 0⟩, [("y", 0)], [("y", ⟨0, 1⟩)]⟩, by decide +kernel, by decide +kernel, fun h => ?_⟩
  have := h.expKeys.mem_iff (a := "y")
  revert this
  decide +kernel

/-- **C47.** The power with exponent 0 of a Taylor model with variables does not satisfy the checks of the constructor: it has a domain but no
variables. -/
theorem C47_power_counterexample :
    ∃ r : TM ℚ, powInt id Ex.tx 0 = .ok r ∧ checkInput r.ndim r.exp r.dom = .error .invalidArgument :=
  ⟨_, rfl, by decide +kernel⟩

/-- **C47.** A setter that throws has changed the object: it does not satisfy the checks any more. -/
theorem C47_setter_counterexample :
    ∃ r : TM ℚ, Ex.tx.setExp [("x", 7)] = (r, .error .invalidArgument) ∧ r ≠ Ex.tx ∧ checkInput r.ndim r.exp r.dom = .error .invalidArgument :=
  ⟨{ Ex.tx with exp := [("x", 7)] }, by decide +kernel, by decide +kernel, by decide +kernel⟩

section
variable {K : Type} [Field K] [LinearOrder K] [IsStrictOrderedRing K]

/-! ### C56: comparison -/

/-- **C56.** Equality of Taylor models is reflexive. -/
theorem C56_refl {a : TM K} (h : a.WF) : a.eq a = true := by
  unfold TM.eq GDual.eq
  rw [(Poly.eq_iff (ι := Unit) (K := K) h.valid.wf h.valid.wf).2 fun _ => rfl, itvEqual_self, mapEqual_iff.2, mapItvEqual_iff.2]
  · rfl
  · exact ⟨rfl, fun e he => ⟨e.2, VMap.lookup_of_mem h.nodupDom he, itvEqual_self _⟩⟩
  · exact ⟨rfl, fun e he => ⟨e.2, VMap.lookup_of_mem h.nodupExp he, rfl⟩⟩

omit [IsStrictOrderedRing K] in
/-- **C56.** Equality of Taylor models is symmetric, also of those which are not well formed but have valid polynomials and distinct keys. -/
theorem C56_symm {a b : TM K} (ha : a.tpol.Valid) (hb : b.tpol.Valid) (h1 : (a.exp.map Prod.fst).Nodup)
    (h2 : (b.exp.map Prod.fst).Nodup) (h3 : (a.dom.map Prod.fst).Nodup) (h4 : (b.dom.map Prod.fst).Nodup) (h : a.eq b = true) :
    b.eq a = true := by
  unfold TM.eq at h ⊢
  simp only [Bool.and_eq_true] at h ⊢
  obtain ⟨⟨⟨e1, e2⟩, e3⟩, e4⟩ := h
  refine ⟨⟨⟨?_, by rw [itvEqual_symm]; exact e2⟩, mapEqual_symm_of h1 h2 e3⟩, mapItvEqual_symm_of h3 h4 e4⟩
  exact (Poly.eq_iff (ι := Unit) (K := K) hb.wf ha.wf).2 fun i => ((Poly.eq_iff (ι := Unit) (K := K) ha.wf hb.wf).1 e1 i).symm

omit [IsStrictOrderedRing K] in
/-- **C56.** `!=` is the negation of `==`. -/
theorem C56_ne (a b : TM K) : a.ne b = !(a.eq b) := by
  unfold TM.ne TM.eq GDual.ne
  simp

omit [IsStrictOrderedRing K] in
/-- **C56.** What equality means: same polynomial and same expansion point, exactly; remainder and domain up to less than ten times the
distance of 1 to the next floating point number. -/
theorem C56_meaning {a b : TM K} (ha : a.WF) (hb : b.WF) : a.eq b = true ↔
    (a.tpol.toMv () : MvPolynomial String K) = b.tpol.toMv () ∧
    (|a.rem.lo - b.rem.lo| < ((10 / 2 ^ 52 : ℚ) : K) ∧ |a.rem.hi - b.rem.hi| < ((10 / 2 ^ 52 : ℚ) : K)) ∧
    (∀ v, a.exp.lookup v = b.exp.lookup v) ∧
    (∀ v, (a.dom.lookup v).isSome = (b.dom.lookup v).isSome) ∧
    ∀ v I J, a.dom.lookup v = some I → b.dom.lookup v = some J →
      |I.lo - J.lo| < ((10 / 2 ^ 52 : ℚ) : K) ∧ |I.hi - J.hi| < ((10 / 2 ^ 52 : ℚ) : K) := by
  have hitv : ∀ I J : Itv K, itvEqual none I J = true ↔ |I.lo - J.lo| < ((10 / 2 ^ 52 : ℚ) : K) ∧ |I.hi - J.hi| < ((10 / 2 ^ 52 : ℚ) : K) := by
    intro I J
    unfold itvEqual numEqual defaultTol
    rw [Bool.and_eq_true, decide_eq_true_eq, decide_eq_true_eq]
    rfl
  unfold TM.eq GDual.eq
  simp only [Bool.and_eq_true]
  rw [Poly.eq_iff (ι := Unit) (K := K) ha.valid.wf hb.valid.wf, hitv, mapEqual_iff, mapItvEqual_iff, and_assoc, and_assoc]
  refine and_congr ⟨fun h => h (), fun h _ => h⟩ (and_congr_right fun _ => and_congr ?_ ?_)
  · constructor
    · rintro ⟨h1, h2⟩ v
      cases hv : a.exp.lookup v with
      | some x =>
        obtain ⟨y, hy, hxy⟩ := h2 _ (VMap.mem_of_lookup hv)
        simp only at hxy hy
        rw [hy, hxy]
      | none =>
        cases hw : b.exp.lookup v with
        | none => rfl
        | some y =>
          obtain ⟨x, hx, -⟩ := keys_symm ha.nodupExp h1 (fun e he => by obtain ⟨y, hy, -⟩ := h2 e he; exact ⟨y, hy⟩) _ (VMap.mem_of_lookup hw)
          simp only at hx
          rw [hv] at hx
          simp at hx
    · intro h
      refine ⟨?_, fun e he => ⟨e.2, by rw [← h, VMap.lookup_of_mem ha.nodupExp he], rfl⟩⟩
      have : (a.exp.map Prod.fst).Perm (b.exp.map Prod.fst) := by
        refine (List.perm_ext_iff_of_nodup ha.nodupExp hb.nodupExp).2 fun v => ?_
        rw [← not_iff_not, ← VMap.lookup_eq_none, ← VMap.lookup_eq_none, h v]
      simpa using this.length_eq
  · constructor
    · rintro ⟨h1, h2⟩
      refine ⟨fun v => ?_, fun v I J hI hJ => ?_⟩
      · cases hv : a.dom.lookup v with
        | some x =>
          obtain ⟨y, hy, hxy⟩ := h2 _ (VMap.mem_of_lookup hv)
          simp only at hy
          rw [hy]
          rfl
        | none =>
          cases hw : b.dom.lookup v with
          | none => rfl
          | some y =>
            obtain ⟨x, hx, -⟩ := keys_symm ha.nodupDom h1 (fun e he => by obtain ⟨y, hy, -⟩ := h2 e he; exact ⟨y, hy⟩) _ (VMap.mem_of_lookup hw)
            simp only at hx
            rw [hv] at hx
            simp at hx
      · obtain ⟨y, hy, hxy⟩ := h2 _ (VMap.mem_of_lookup hI)
        simp only at hy hxy
        rw [hJ] at hy
        obtain rfl := Option.some.inj hy
        exact (hitv _ _).1 hxy
    · rintro ⟨h1, h2⟩
      constructor
      · have : (a.dom.map Prod.fst).Perm (b.dom.map Prod.fst) := by
          refine (List.perm_ext_iff_of_nodup ha.nodupDom hb.nodupDom).2 fun v => ?_
          rw [← not_iff_not, ← VMap.lookup_eq_none, ← VMap.lookup_eq_none, ← Option.isNone_iff_eq_none, ← Option.isNone_iff_eq_none,
            ← Option.not_isSome, ← Option.not_isSome, h1 v]
        simpa using this.length_eq
      · intro e he
        have hI := VMap.lookup_of_mem ha.nodupDom (k := e.1) (x := e.2) he
        obtain ⟨J, hJ⟩ := Option.isSome_iff_exists.1 (show (b.dom.lookup e.1).isSome = true by rw [← h1, hI]; rfl)
        exact ⟨J, hJ, (hitv _ _).2 (h2 _ _ _ hI hJ)⟩

example : Ex.tx.WF ∧ Ex.ty.WF ∧ Ex.tx.eq Ex.ty = false := ⟨Ex.tx_wf, Ex.ty_wf, by decide +kernel⟩

/-- **C56.** Comparison of maps of intervals with a positive tolerance is reflexive. -/
theorem C56_map_refl {a : VMap (Itv K)} (h : (a.map Prod.fst).Nodup) {t : ℚ} (ht : (0 : K) < (t : K)) : mapItvEqual (some t) a a = true := by
  refine mapItvEqual_iff.2 ⟨rfl, fun e he => ⟨e.2, VMap.lookup_of_mem h he, ?_⟩⟩
  unfold itvEqual numEqual
  simp [ht]

omit [IsStrictOrderedRing K] in
/-- **C56.** Comparison of maps is symmetric, for every tolerance. -/
theorem C56_map_symm {a b : VMap (Itv K)} (ha : (a.map Prod.fst).Nodup) (hb : (b.map Prod.fst).Nodup) (tol : Option ℚ) :
    mapItvEqual tol a b = mapItvEqual tol b a := by
  rw [Bool.eq_iff_iff]
  exact ⟨mapItvEqual_symm_of ha hb, mapItvEqual_symm_of hb ha⟩

omit [IsStrictOrderedRing K] in
/-- **C56.** Comparison of maps of numbers is symmetric, for every tolerance. -/
theorem C56_map_num_symm {a b : VMap K} (ha : (a.map Prod.fst).Nodup) (hb : (b.map Prod.fst).Nodup) (tol : Option ℚ) :
    mapEqual tol a b = mapEqual tol b a := by
  rw [Bool.eq_iff_iff]
  exact ⟨mapEqual_symm_of ha hb, mapEqual_symm_of hb ha⟩

example : ((([("x", ⟨1, 2⟩)] : VMap (Itv ℚ))).map Prod.fst).Nodup := by decide

end

/-- **C56.** With tolerance 0 the comparisons are not reflexive: an interval is not equal to itself. -/
theorem C56_zero_tolerance_counterexample : itvEqual (some 0) (⟨1, 2⟩ : Itv ℚ) ⟨1, 2⟩ = false := by decide +kernel

/-- **C56.** Equality of Taylor models is not transitive. -/
theorem C56_not_transitive : ∃ a b c : TM ℚ, a.WF ∧ b.WF ∧ c.WF ∧ a.eq b = true ∧ b.eq c = true ∧ a.eq c = false :=
  ⟨Ex.tx, { Ex.tx with rem := ⟨0, 1 + 8 / 2 ^ 52⟩ }, { Ex.tx with rem := ⟨0, 1 + 16 / 2 ^ 52⟩ },
    Ex.tx_wf, wf_of_check (by decide +kernel), wf_of_check (by decide +kernel), by decide +kernel, by decide +kernel, by decide +kernel⟩

section
variable {K : Type} [Field K] [LinearOrder K] [IsStrictOrderedRing K]

/-! ### C57: merging -/

omit [IsStrictOrderedRing K] in
/-- **C57.** Merging expansion points: succeeds iff the values of common variables differ by less than the tolerance, otherwise throws
`runtime_error`; the result is the union, with the value of the first map for the common variables. -/
theorem C57_common_exp (a b : VMap K) :
    ((∀ k x y, a.lookup k = some x → b.lookup k = some y → |x - y| < ((10 / 2 ^ 52 : ℚ) : K)) →
      ∃ m, commonExp a b = .ok m ∧ ∀ k, m.lookup k = (a.lookup k).or (b.lookup k)) ∧
    ((¬ ∀ k x y, a.lookup k = some x → b.lookup k = some y → |x - y| < ((10 / 2 ^ 52 : ℚ) : K)) → commonExp a b = .error .runtimeError) := by
  have hs : ∀ x y : K, numEqual none x y = true ↔ |x - y| < ((10 / 2 ^ 52 : ℚ) : K) := fun x y => by
    unfold numEqual defaultTol
    rw [decide_eq_true_eq]
    rfl
  constructor
  · intro h
    exact ⟨_, commonMap_ok fun k x y h1 h2 => (hs x y).2 (h k x y h1 h2), lookup_unionMap a b⟩
  · intro h
    push Not at h
    obtain ⟨k, x, y, h1, h2, h3⟩ := h
    refine commonMap_error ⟨k, x, y, h1, h2, ?_⟩
    rw [Bool.eq_false_iff, Ne, hs]
    exact not_lt.2 h3

omit [IsStrictOrderedRing K] in
/-- **C57.** Merging domains. -/
theorem C57_common_domain (a b : VMap (Itv K)) :
    ((∀ k I J, a.lookup k = some I → b.lookup k = some J →
        |I.lo - J.lo| < ((10 / 2 ^ 52 : ℚ) : K) ∧ |I.hi - J.hi| < ((10 / 2 ^ 52 : ℚ) : K)) →
      ∃ m, commonDom a b = .ok m ∧ ∀ k, m.lookup k = (a.lookup k).or (b.lookup k)) ∧
    ((¬ ∀ k I J, a.lookup k = some I → b.lookup k = some J →
        |I.lo - J.lo| < ((10 / 2 ^ 52 : ℚ) : K) ∧ |I.hi - J.hi| < ((10 / 2 ^ 52 : ℚ) : K)) → commonDom a b = .error .runtimeError) := by
  have hs : ∀ I J : Itv K, itvEqual none I J = true ↔ |I.lo - J.lo| < ((10 / 2 ^ 52 : ℚ) : K) ∧ |I.hi - J.hi| < ((10 / 2 ^ 52 : ℚ) : K) := by
    intro I J
    unfold itvEqual numEqual defaultTol
    rw [Bool.and_eq_true, decide_eq_true_eq, decide_eq_true_eq]
    rfl
  constructor
  · intro h
    exact ⟨_, commonMap_ok fun k x y h1 h2 => (hs x y).2 (h k x y h1 h2), lookup_unionMap a b⟩
  · intro h
    simp only [not_forall] at h
    obtain ⟨k, x, y, h1, h2, h3⟩ := h
    refine commonMap_error ⟨k, x, y, h1, h2, ?_⟩
    rw [Bool.eq_false_iff, Ne, hs]
    exact h3

omit [Field K] [LinearOrder K] [IsStrictOrderedRing K] in
/-- **C57.** `trim_map` keeps exactly the entries of the given symbols, and throws `logic_error` iff one of them is missing. -/
theorem C57_trim (a : VMap K) {vars : List String} (hv : vars.Nodup) :
    ((∀ v ∈ vars, v ∈ a.map Prod.fst) → ∃ m, trimMap vars a = .ok m ∧ m.map Prod.fst = vars ∧ ∀ v ∈ vars, m.lookup v = a.lookup v) ∧
    ((¬ ∀ v ∈ vars, v ∈ a.map Prod.fst) → trimMap vars a = logicError) :=
  ⟨fun h => ⟨_, trimMap_ok hv h, VMap.keys_pick h, fun _ h' => VMap.lookup_pick h'⟩, fun h => trimMap_error h⟩

example : trimMap ["x"] [("y", (3 : ℚ)), ("x", 2)] = .ok [("x", 2)] := by decide +kernel
example : commonExp [("x", (2 : ℚ))] [("y", 5)] = .ok [("x", 2), ("y", 5)] := by decide +kernel
example : commonExp [("x", (2 : ℚ))] [("x", 5)] = .error .runtimeError := by decide +kernel

/-! ### C58: extension -/

omit [IsStrictOrderedRing K] in
/-- **C58.** Extending a Taylor model by variables with an expansion point inside their interval succeeds. The result is well formed, has exactly the
additional variables, its polynomial has the same values and the remainder is the same, so the same functions are enclosed; its domain is the
old one restricted by the new intervals. -/
theorem C58_extend {tm : TM K} (ht : tm.WF) {vs : List String} {e : VMap K} {d : VMap (Itv K)}
    (h : ∀ v ∈ vs, ∃ x I, e.lookup v = some x ∧ d.lookup v = some I ∧ Spec.InItv I x) :
    ∃ r, tm.extendSymbolSet vs e d = (r, .ok ()) ∧ r.WF ∧ r.order = tm.order ∧
      (∀ v, v ∈ r.tpol.p.syms.map varName ↔ v ∈ tm.tpol.p.syms.map varName ∨ v ∈ vs) ∧
      (∀ x y, r.Allows x y ↔ tm.Allows x y) ∧ (∀ x, r.InDom x → tm.InDom x) ∧
      ∀ x, tm.InDom x → (∀ v ∈ vs, ∀ I, d.lookup v = some I → Spec.InItv I (x v)) → r.InDom x := by
  obtain ⟨r, h1, h2, h3, h4, h5, h6, h7, h8⟩ := extend_ok ht (vs := vs) (e := e) (d := d) (fun v hv => by
    obtain ⟨x, I, a1, a2, a3⟩ := h v hv
    exact ⟨x, I, a1, a2, fun _ => a3⟩)
  refine ⟨r, h1, h2, h3, fun v => ?_, fun x y => ?_, fun x hx => ?_, fun x hx hd => ?_⟩
  · rw [List.mem_map, List.mem_map]
    constructor
    · rintro ⟨s, hs, rfl⟩
      rcases (h5 s).1 hs with hs | ⟨w, hw, rfl⟩
      · exact .inl ⟨s, hs, rfl⟩
      · right
        rwa [varName_d]
    · rintro (⟨s, hs, rfl⟩ | hv)
      · exact ⟨s, (h5 s).2 (.inl hs), rfl⟩
      · exact ⟨"d" ++ v, (h5 _).2 (.inr ⟨v, hv, rfl⟩), varName_d v⟩
  · unfold Allows
    rw [h4, h6]
  · rintro ⟨v, I⟩ hI
    have hl := VMap.lookup_of_mem ht.nodupDom hI
    refine hx (v, I) (VMap.mem_of_lookup ?_)
    rw [h8, hl]
    rfl
  · rintro ⟨v, I⟩ hI
    have hl := VMap.lookup_of_mem h2.nodupDom hI
    rw [h8] at hl
    cases ho : tm.dom.lookup v with
    | some J =>
      rw [ho] at hl
      obtain rfl : J = I := Option.some.inj hl
      exact hx _ (VMap.mem_of_lookup ho)
    | none =>
      rw [ho] at hl
      by_cases hv : v ∈ vs
      · rw [if_pos hv] at hl
        exact hd v hv I hl
      · rw [if_neg hv] at hl
        simp at hl

example : ∃ r, Ex.tx.extendSymbolSet ["y"] [("y", 5)] [("y", ⟨4, 6⟩)] = (r, .ok ()) ∧ r.WF := by
  obtain ⟨r, h1, h2, -⟩ := C58_extend Ex.tx_wf (vs := ["y"]) (e := [("y", 5)]) (d := [("y", ⟨4, 6⟩)]) (by
    intro v hv
    obtain rfl : v = "y" := by simpa using hv
    exact ⟨5, ⟨4, 6⟩, by decide, by decide, by decide +kernel⟩)
  exact ⟨r, h1, h2⟩

omit [Field K] [IsStrictOrderedRing K] in
/-- **C58.** It throws when a variable has no expansion point or no interval. -/
theorem C58_missing (tm : TM K) {vs : List String} {e : VMap K} {d : VMap (Itv K)} (h : ∃ v ∈ vs, e.lookup v = none ∨ d.lookup v = none) :
    (tm.extendSymbolSet vs e d).2 = logicError := by
  unfold extendSymbolSet
  simp only
  rw [extendLoop_fails]
  · simp
  · obtain ⟨v, hv, hn⟩ := h
    intro hc
    obtain ⟨x, I, h1, h2⟩ := hc v hv
    rcases hn with hn | hn
    · rw [h1] at hn; simp at hn
    · rw [h2] at hn; simp at hn

end

/-- **C58.** When it throws, the object has been changed: the maps have entries for variables which the polynomial does not have. -/
theorem C58_throw_counterexample :
    ∃ r : TM ℚ, Ex.tx.extendSymbolSet ["y", "z"] [("y", 5)] [("y", ⟨4, 6⟩)] = (r, logicError) ∧ r ≠ Ex.tx ∧
      checkInput r.ndim r.exp r.dom = .error .invalidArgument :=
  ⟨{ Ex.tx with exp := [("x", 2), ("y", 5)], dom := [("x", ⟨1, 3⟩), ("y", ⟨4, 6⟩)] }, by decide +kernel, by decide +kernel, by decide +kernel⟩

end Audi
