import Verif.Props.C02_Ring
import Mathlib.Algebra.MvPolynomial.Variables
import Mathlib.Algebra.MvPolynomial.Monad

/-! # C09, C10, C11, C12: partial, integrate, subs -/

namespace Audi

open MvPolynomial Spec GDual

variable {C : Type} [Cf C] {ι : Type} {K : Type} [Field K] [Lanes C ι K] {a b d g : GDual C} {s t : String}

/-- A name accepted by `partial` and `integrate`: not empty, not starting with `d`. -/
def GoodName (s : String) : Prop := ∃ c, s.toList.head? = some c ∧ c ≠ 'd'

theorem partial_isOk (hs : GoodName s) (d : GDual C) : ∃ r, d.partial' s = .ok r :=
  ⟨_, partial_ok.mpr ⟨hs, rfl⟩⟩

theorem integrate_isOk (hs : GoodName s) (d : GDual C) : ∃ r, d.integrate s = .ok r :=
  ⟨_, integrate_ok.mpr ⟨hs, rfl⟩⟩

/-! ### C09 -/

/-- **C09.** For an accepted name, `partial` succeeds, keeps the order and is the formal partial derivative:
the coefficient of `e` is `(e_s + 1)` times the coefficient of `e` with the exponent of `s` increased by one. -/
theorem C09_partial_derivative (hd : d.Valid) (hs : GoodName s) :
    ∃ r, d.partial' s = .ok r ∧ r.getOrder = d.getOrder ∧ r.p.syms = d.p.syms ∧ ∀ (i : ι) (e : String →₀ ℕ),
      (coeff e (r.toMv i) : K) =
        coeff (e + Finsupp.single ("d" ++ s) 1) (d.toMv i) * ((e ("d" ++ s) : K) + 1) := by
  obtain ⟨r, hr⟩ := partial_isOk hs d
  refine ⟨r, hr, ?_, ?_, fun i e => ?_⟩
  · obtain ⟨_, rfl⟩ := partial_ok.mp hr; rfl
  · obtain ⟨_, rfl⟩ := partial_ok.mp hr; rfl
  · rw [toMv_partial hd hr, coeff_pderiv]

/-- **C09.** Rejected names: `std::out_of_range` for the empty name, `std::invalid_argument` for a name starting with `d`. -/
theorem C09_bad_name (d : GDual C) :
    d.partial' "" = .error .outOfRange ∧ d.integrate "" = .error .outOfRange ∧
      ∀ s : String, s.toList.head? = some 'd' →
        d.partial' s = .error .invalidArgument ∧ d.integrate s = .error .invalidArgument := by
  have h0 : checkVarName "" = .error .outOfRange := by decide
  refine ⟨?_, ?_, fun s hs => ?_⟩
  · unfold partial'; rw [h0]; rfl
  · unfold GDual.integrate; rw [h0]; rfl
  · have h1 : checkVarName s = .error .invalidArgument := by
      unfold checkVarName
      rw [nameAt0_ok.mpr hs]
      rfl
    exact ⟨by unfold partial'; rw [h1]; rfl, by unfold GDual.integrate; rw [h1]; rfl⟩

include ι K in
/-- **C09.** Linearity, and commutation of mixed partial derivatives, under `==`. -/
theorem C09_linear_comm (ha : a.Valid) (hb : b.Valid) (hs : GoodName s) (ht : GoodName t) (k : C) :
    ∃ a' b' ab' ka' ats ast at' : GDual C, a.partial' s = .ok a' ∧ b.partial' s = .ok b' ∧
      (a.add b).partial' s = .ok ab' ∧ (mulSG k a).partial' s = .ok ka' ∧ a.partial' t = .ok at' ∧
      a'.partial' t = .ok ast ∧ at'.partial' s = .ok ats ∧
      GDual.eq ab' (a'.add b') = true ∧ GDual.eq ka' (mulSG k a') = true ∧ GDual.eq ast ats = true := by
  obtain ⟨a', h1⟩ := partial_isOk hs a
  obtain ⟨b', h2⟩ := partial_isOk hs b
  obtain ⟨ab', h3⟩ := partial_isOk hs (a.add b)
  obtain ⟨ka', h4⟩ := partial_isOk hs (mulSG k a)
  obtain ⟨at', h5⟩ := partial_isOk ht a
  obtain ⟨ast, h6⟩ := partial_isOk ht a'
  obtain ⟨ats, h7⟩ := partial_isOk hs at'
  have va := ha.partial' h1
  have vb := hb.partial' h2
  have vt := ha.partial' h5
  refine ⟨a', b', ab', ka', ats, ast, at', h1, h2, h3, h4, h5, h6, h7, ?_, ?_, ?_⟩
  · refine eq_of_toMv (ι := ι) (K := K) ((ha.add hb).partial' h3) (va.add vb) fun i => ?_
    rw [toMv_partial (ha.add hb) h3, toMv_add va vb, toMv_add ha hb, toMv_partial ha h1, toMv_partial hb h2, map_add]
  · refine eq_of_toMv (ι := ι) (K := K) ((Valid.mulSG k ha).partial' h4) (Valid.mulSG k va) fun i => ?_
    rw [toMv_partial (Valid.mulSG k ha) h4, toMv_mulSG k ha, toMv_mulSG k va, toMv_partial ha h1, pderiv_C_mul]
  · refine eq_of_toMv (ι := ι) (K := K) (va.partial' h6) (vt.partial' h7) fun i => ?_
    rw [toMv_partial va h6, toMv_partial vt h7, toMv_partial ha h1, toMv_partial ha h5]
    ext e
    simp only [coeff_pderiv]
    rw [add_right_comm]
    by_cases hst : "d" ++ s = "d" ++ t
    · rw [hst]
    · simp [hst, Ne.symm hst]
      ring

/-- **C09.** Leibniz rule, on every coefficient of degree below the order. -/
theorem C09_leibniz (ha : a.Valid) (hb : b.Valid) (hs : GoodName s) :
    ∃ a' b' ab' : GDual C, a.partial' s = .ok a' ∧ b.partial' s = .ok b' ∧ (a.mul b).partial' s = .ok ab' ∧
      ∀ (i : ι) (e : String →₀ ℕ), e.degree < max a.getOrder b.getOrder →
        (coeff e (ab'.toMv i) : K) = coeff e (((a'.mul b).add (a.mul b')).toMv i) := by
  obtain ⟨a', h1⟩ := partial_isOk hs a
  obtain ⟨b', h2⟩ := partial_isOk hs b
  obtain ⟨ab', h3⟩ := partial_isOk hs (a.mul b)
  refine ⟨a', b', ab', h1, h2, h3, fun i e he => ?_⟩
  have va := ha.partial' h1
  have vb := hb.partial' h2
  have oa : a'.order = a.order := by obtain ⟨_, rfl⟩ := partial_ok.mp h1; rfl
  have ob : b'.order = b.order := by obtain ⟨_, rfl⟩ := partial_ok.mp h2; rfl
  obtain ⟨m, hm⟩ : ∃ m, max a.order b.order = m + 1 :=
    ⟨max a.order b.order - 1, by have : e.degree < max a.order b.order := he; omega⟩
  have he' : e.degree ≤ m := by have : e.degree < max a.order b.order := he; omega
  have e1 := (toMv_mul ha hb i (K := K))
  rw [hm] at e1
  have e2 := (e1.pderiv ("d" ++ s)) e he'
  have e3 := toMv_mul va hb i (K := K) e (by rw [oa, hm]; omega)
  have e4 := toMv_mul ha vb i (K := K) e (by rw [ob, hm]; omega)
  rw [toMv_partial (ha.mul hb) h3, e2, toMv_add (va.mul hb) (ha.mul vb), coeff_add, e3, e4,
    toMv_partial ha h1, toMv_partial hb h2, ← coeff_add, pderiv_mul]

/-- **C09.** The partial derivative with respect to a symbol that is not in the symbol set is zero. -/
theorem C09_absent_symbol (hd : d.Valid) (hs : GoodName s) (hm : "d" ++ s ∉ d.p.syms) :
    ∃ r, d.partial' s = .ok r ∧ ∀ (i : ι) (e : String →₀ ℕ), (coeff e (r.toMv i) : K) = 0 := by
  obtain ⟨r, hr, _, _, hc⟩ := C09_partial_derivative (ι := ι) (K := K) hd hs
  refine ⟨r, hr, fun i e => ?_⟩
  rw [hc i e]
  by_contra h
  have hne : coeff (e + Finsupp.single ("d" ++ s) 1) (d.toMv i) ≠ (0 : K) := fun h0 => h (by rw [h0, zero_mul])
  obtain ⟨u, _, hu⟩ := Poly.exists_mem_of_coeff_ne hne
  have := DFunLike.congr_fun hu ("d" ++ s)
  rw [toExp_apply hd.wf.ndsyms, expOf_of_notMem hm] at this
  simp at this

theorem goodName_x : GoodName "x" := ⟨'x', by decide⟩
theorem goodName_y : GoodName "y" := ⟨'y', by decide⟩

/-- The statements apply to a two-variable polynomial: `∂((2+dx)²(5+dy))/∂x = 20 + 4dy + 10dx + 2 dx dy`. -/
example : ((Ex.x.mul Ex.xy).partial' "x" >>= fun r => r.findCf [1, 1]) = .ok 2 ∧
    ((Ex.x.mul Ex.xy).partial' "x" >>= fun r => r.findCf [0, 0]) = .ok 20 := by decide +kernel

/-! ### C10 -/

/-- **C10.** `integrate` succeeds for an accepted name (also absent from the symbol set), keeps the order, produces no
term independent of the variable, and `partial` gives back every coefficient of degree below the order and nothing else. -/
theorem C10_integrate [CharZero K] (hd : d.Valid) (hs : GoodName s) :
    ∃ r r', d.integrate s = .ok r ∧ r.partial' s = .ok r' ∧ r.getOrder = d.getOrder ∧
      "d" ++ s ∈ r.p.syms ∧
      (∀ (i : ι) (e : String →₀ ℕ), e ("d" ++ s) = 0 → (coeff e (r.toMv i) : K) = 0) ∧
      (∀ (i : ι) (e : String →₀ ℕ), e.degree < d.getOrder → (coeff e (r'.toMv i) : K) = coeff e (d.toMv i)) ∧
      (∀ (i : ι) (e : String →₀ ℕ), d.getOrder ≤ e.degree → (coeff e (r'.toMv i) : K) = 0) := by
  obtain ⟨r, hr⟩ := integrate_isOk hs d
  obtain ⟨r', hr'⟩ := partial_isOk hs r
  have vr := hd.integrate hr
  refine ⟨r, r', hr, hr', ?_, ?_, fun i e he => ?_, fun i e he => ?_, fun i e he => ?_⟩
  · obtain ⟨_, rfl⟩ := integrate_ok.mp hr; rfl
  · obtain ⟨_, rfl⟩ := integrate_ok.mp hr
    exact Poly.mem_addSymbols_syms _ _
  · rw [coeff_integrate hd hr, if_pos he]; split_ifs <;> rfl
  · rw [toMv_partial vr hr', coeff_pderiv, coeff_integrate hd hr, if_pos, if_neg]
    · have : (((e + Finsupp.single ("d" ++ s) 1 : String →₀ ℕ) ("d" ++ s) : ℕ) : K) = (e ("d" ++ s) : K) + 1 := by simp
      rw [this, add_tsub_cancel_right, div_mul_cancel₀]
      exact Nat.cast_add_one_ne_zero _
    · simp
    · rw [map_add, Finsupp.degree_single]; exact he
  · rw [toMv_partial vr hr', coeff_pderiv, coeff_integrate hd hr, if_neg, zero_mul]
    rw [map_add, Finsupp.degree_single]
    have : d.order ≤ e.degree := he
    omega

/-- Integration of `x y` with respect to `x`, and with respect to a new variable `w`. -/
example : (Ex.xy.integrate "x" >>= fun r => r.findCf [2, 1]) = .ok (1 / 2) ∧
    (Ex.xy.integrate "w" >>= fun r => r.findCf [1, 1, 1]) = .ok 1 ∧
    (Ex.xy.integrate "w" >>= fun r => .ok r.p.syms) = .ok ["dw", "dx", "dy"] := by decide +kernel

/-! ### C11 -/

/-- **C11.** Evaluating `d.subs(s, v)` at an assignment is evaluating `d` at the same assignment with `s` set to `v`;
symbol set and order do not change. -/
theorem C11_subs_value (hd : d.Valid) (s : String) (v : C) :
    (∀ (i : ι) (r : String → K),
      eval r ((d.subsVal s v).toMv i) = eval (Function.update r s (Lanes.lane i v)) (d.toMv i)) ∧
      (d.subsVal s v).p.syms = d.p.syms ∧ (d.subsVal s v).getOrder = d.getOrder := by
  refine ⟨fun i r => ?_, rfl, rfl⟩
  rw [toMv_subsVal hd, Poly.substMap]
  have : (eval r).comp (aeval (fun u => if u = s then MvPolynomial.C (Lanes.lane i v) else X u) :
      MvPolynomial String K →ₐ[K] MvPolynomial String K).toRingHom = eval (Function.update r s (Lanes.lane i v)) := by
    refine MvPolynomial.ringHom_ext (fun c => by simp [algebraMap_eq]) (fun u => ?_)
    simp only [RingHom.comp_apply, AlgHom.toRingHom_eq_coe, RingHom.coe_coe, aeval_X, eval_X]
    by_cases hu : u = s
    · subst hu; simp
    · simp [hu]
  exact RingHom.congr_fun this (d.toMv i)

example : ((Ex.x.mul Ex.xy).subsVal "dx" 1).findCf [0, 1] = .ok 9 ∧
    ((Ex.x.mul Ex.xy).subsVal "dx" 1).p.syms = ["dx", "dy"] := by decide +kernel

/-! ### C12 -/

/-- **C12.** `d.subs(s, g)` is the composition truncated at the order of `d`. -/
theorem C12_subs_gdual (hd : d.Valid) (hg : g.Valid) (s : String) (i : ι) (e : String →₀ ℕ) :
    (coeff e ((d.subs s g).toMv i) : K) =
      if e.degree ≤ d.getOrder then
        coeff e (aeval (fun u => if u = s then g.toMv i else X u) (d.toMv i) : MvPolynomial String K) else 0 :=
  coeff_subs hd hg s i e

/-- **C12.** The order is that of `d`; the symbol set is exactly the set of the variables that occur in the result. -/
theorem C12_subs_symbols (hd : d.Valid) (hg : g.Valid) (s u : String) :
    (d.subs s g).getOrder = d.getOrder ∧
      (u ∈ (d.subs s g).p.syms ↔ ∃ (i : ι) (e : String →₀ ℕ), e u ≠ 0 ∧ (coeff e ((d.subs s g).toMv i) : K) ≠ 0) := by
  have hv := Valid.subs (ι := ι) (K := K) hd hg s
  refine ⟨rfl, fun hu => ?_, ?_⟩
  · obtain ⟨hu, t, ht, hne⟩ := (Poly.mem_trimSyms _ _).mp hu
    set p := (d.p.subsPoly s g.p).truncate d.order with hp
    have hw : p.WF := (hd.wf.subsPoly hg.wf s).truncate d.order
    obtain ⟨i, hi⟩ := Poly.exists_lane_ne (ι := ι) (K := K) (hw.nz t ht)
    refine ⟨i, toExp p.syms t.1, by rw [toExp_apply hw.ndsyms]; exact hne, ?_⟩
    have h1 : (d.subs s g).toMv i = (p.toMv i : MvPolynomial String K) := (hw.trimSyms (ι := ι) (K := K)).2 i
    rw [h1, Poly.coeff_toMv_of_mem hw (e := t.1) (c := t.2) ht]
    exact hi
  · rintro ⟨i, e, he, hc⟩
    obtain ⟨t, _, hte⟩ := Poly.exists_mem_of_coeff_ne hc
    have := DFunLike.congr_fun hte u
    rw [toExp_apply hv.wf.ndsyms] at this
    exact mem_of_expOf_ne (this ▸ he)

theorem vars_toMv_subset (hd : d.Valid) (i : ι) {u : String} (hu : u ∈ (d.toMv i : MvPolynomial String K).vars) :
    u ∈ d.p.syms := by
  obtain ⟨e, he, hue⟩ := (mem_vars_iff_mem_support _).mp hu
  obtain ⟨t, _, hte⟩ := Poly.exists_mem_of_coeff_ne (mem_support_iff.mp he)
  have := DFunLike.congr_fun hte u
  rw [toExp_apply hd.wf.ndsyms] at this
  exact mem_of_expOf_ne (this ▸ Finsupp.mem_support_iff.mp hue)

include ι K in
/-- **C12.** The substituted symbol disappears from the symbol set unless `g` contains it. -/
theorem C12_symbol_removed (hd : d.Valid) (hg : g.Valid) (hs : s ∉ g.p.syms) : s ∉ (d.subs s g).p.syms := by
  intro h
  obtain ⟨i, e, he, hc⟩ := ((C12_subs_symbols (ι := ι) (K := K) hd hg s s).2).mp h
  rw [C12_subs_gdual hd hg] at hc
  split_ifs at hc with h1
  · have hv : s ∈ (bind₁ (fun u => if u = s then g.toMv i else X u) (d.toMv i) : MvPolynomial String K).vars :=
      (mem_vars_iff_mem_support _).mpr ⟨e, mem_support_iff.mpr hc, Finsupp.mem_support_iff.mpr he⟩
    obtain ⟨u, _, hu⟩ := mem_vars_bind₁ _ _ hv
    by_cases hus : u = s
    · rw [if_pos hus] at hu
      exact hs (vars_toMv_subset hg i hu)
    · rw [if_neg hus, vars_X, Finset.mem_singleton] at hu
      exact hus hu.symm
  · exact hc rfl

/-- Composition of `(2 + dx)²` with `dx := dy + dy²` at order 3: the coefficient of `dy³` is 2. -/
example : ((Ex.x.mul Ex.x).subs "dx" ⟨⟨["dy"], [([1], 1), ([2], 1)]⟩, 3⟩).findCf [3] = .ok 2 ∧
    ((Ex.x.mul Ex.x).subs "dx" ⟨⟨["dy"], [([1], 1), ([2], 1)]⟩, 3⟩).p.syms = ["dy"] := by decide +kernel

end Audi
