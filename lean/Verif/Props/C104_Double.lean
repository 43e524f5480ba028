import Verif.Proofs.Trapping
import Verif.Props.C103_Evaluate

/-! # C104: rounding errors of computations on `double` without overflow and underflow -/

set_option linter.unusedSectionVars false

namespace Audi
open GDual MvPolynomial Spec

theorem GDual.getDerivative_ok_mapG {C D : Type} [Cf C] [Cf D] {f : C → D} {d : GDual C} {l : List ℕ} {c : D} (h : (d.mapG f).getDerivative l = .ok c) : ∃ c', d.getDerivative l = .ok c' := by
  unfold getDerivative at *
  obtain ⟨x, hx, -⟩ := bind_ok_iff.mp h
  unfold findCf at hx
  split_ifs at hx with h1 h2
  obtain ⟨y, hy⟩ := findCf_isOk (d := d) (e := l) (not_lt.mp h1) (not_not.mp h2)
  exact ⟨_, bind_ok_iff.mpr ⟨y, hy, rfl⟩⟩

theorem AExpr.run_isOk {F : XFormat} {v : String → XF F} {m : ℕ} (hm : m < UINT_MAX - 10) {e : AExpr (XF F)} (hl : e.Legal fun c => c.v = .fin 0) : ∃ r, e.run v m = .ok r := by
  induction e with
  | var s => exact ⟨_, mk3_ok.mpr ⟨hm, hl, rfl⟩⟩
  | const c => exact ⟨_, rfl⟩
  | bin op e1 e2 h1 h2 =>
    obtain ⟨a, ha⟩ := h1 hl.1
    obtain ⟨b, hb⟩ := h2 hl.2
    exact ⟨_, bind_ok_iff.mpr ⟨a, ha, bind_ok_iff.mpr ⟨b, hb, rfl⟩⟩⟩
  | left op c e h1 =>
    obtain ⟨a, ha⟩ := h1 hl
    exact ⟨_, bind_ok_iff.mpr ⟨a, ha, rfl⟩⟩
  | right op e c h1 =>
    obtain ⟨a, ha⟩ := h1 hl
    exact ⟨_, bind_ok_iff.mpr ⟨a, ha, rfl⟩⟩
  | divc e c h1 =>
    obtain ⟨a, ha⟩ := h1 hl.1
    exact ⟨_, bind_ok_iff.mpr ⟨a, ha, if_pos rfl⟩⟩
  | neg e h1 =>
    obtain ⟨a, ha⟩ := h1 hl
    exact ⟨_, bind_ok_iff.mpr ⟨a, ha, rfl⟩⟩

theorem AExpr.legal_trap {v : String → XF .binary64} {m : ℕ} {e : AExpr (XF .binary64)} (hl : e.Legal fun c => c.v = .fin 0) (hq : e.NoTrap v m) :
    (e.map XF.trap).Legal (fun c => c.v = .fin 0) ∧ ((e.map XF.trap).map XF.toFl).Legal fun c => c.val = 0 := by
  unfold NoTrap at hq
  induction e with
  | var s => exact ⟨hl, hl⟩
  | const c => exact ⟨trivial, trivial⟩
  | bin op e1 e2 h1 h2 => exact ⟨⟨(h1 hl.1 hq.1).1, (h2 hl.2 hq.2.1).1⟩, ⟨(h1 hl.1 hq.1).2, (h2 hl.2 hq.2.1).2⟩⟩
  | left op c e h1 => exact h1 hl hq.2.1
  | right op e c h1 => exact h1 hl hq.2.1
  | divc e c h1 =>
    obtain ⟨h2, h3⟩ := h1 hl.1 hq.2.2.1
    obtain ⟨q, hc⟩ := not_nonFinite.mp hq.1
    have hv := XF.trap_fin hc
    have h0 : q ≠ 0 := by rintro rfl; exact hl.2 hv
    refine ⟨⟨h2, fun h => ?_⟩, ⟨h3, fun h => ?_⟩⟩
    · have h' : c.trap.v = .fin 0 := h
      rw [hc] at h'; cases h'; exact h0 rfl
    · have h4 := XF.real_fin hc
      rw [show c.trap.real = 0 from h] at h4
      exact h0 (by exact_mod_cast h4.symm)
  | neg e h1 => exact h1 hl hq

variable {v : String → XF .binary64} {m : ℕ} {e : AExpr (XF .binary64)}

/-- The three runs of an expression: on `double`, in the trapping format, with 53 digits. -/
theorem AExpr.three_runs (hm : m < UINT_MAX - 10) (hl : e.Legal fun c => c.v = .fin 0) (hv : ∀ s, (v s).Normal) (hq : e.NoTrap v m) :
    ∃ rt, (e.map XF.trap).run (fun s => (v s).trap) m = .ok rt ∧ Free NonFinite rt.p.terms ∧ e.run v m = .ok (rt.mapG XF.toDouble) ∧
      ((e.map XF.trap).map XF.toFl).run (fun s => (v s).trap.toFl) m = .ok (rt.mapG XF.toFl) := by
  obtain ⟨l1, l2⟩ := legal_trap hl hq
  obtain ⟨rt, hrt⟩ := run_isOk (v := fun s => (v s).trap) hm l1
  obtain ⟨hf, h1⟩ := homOn_toDouble.run hq hrt
  obtain ⟨-, h2⟩ := homOn_toFl.run hq hrt
  have hv' : ∀ s, ¬ NonFinite (v s).trap := fun s => not_nonFinite.mpr (XF.trap_normal.mpr (hv s))
  refine ⟨rt, hrt, hf, ?_, h2⟩
  have h3 : (fun s => (v s).trap.toDouble) = v := by funext s; exact XF.toDouble_trap (hv' s)
  have h4 : (e.map XF.trap).map XF.toDouble = e.map id := map_quiet (fun c hc => XF.toDouble_trap hc) hq
  have h5 : ∀ e : AExpr (XF .binary64), e.map id = e := fun e => by
    induction e <;> simp_all [AExpr.map]
  rw [h3, h4, h5] at h1
  exact h1

/-- **C104.** Let `e` be an expression of `+`, `-`, `*`, unary minus and division by numbers, evaluated on `double` gduals without overflow and underflow (`NoTrap`). All coefficients of the result are zero or normal
numbers, and every derivative whose last multiplication, with the factorials, does not overflow or underflow either (`ct`), differs from the exact derivative of the real function by at
most `(1 + 2^-53) ^ k - 1` times the same derivative of the expression with absolute values, `k` being the count of roundings `rounds` plus two. -/
theorem C104_derivatives (hm : m < UINT_MAX - 10) (hl : e.Legal fun c => c.v = .fin 0) (hv : ∀ s, (v s).Normal) (hq : e.NoTrap v m) :
    ∃ rt r, (e.map XF.trap).run (fun s => (v s).trap) m = .ok rt ∧ e.run v m = .ok r ∧ (∀ t ∈ r.p.terms, t.2.Normal) ∧ r.getOrder ≤ m ∧ ((e.map XF.real).toExpr.full = true → r.getOrder = m) ∧
      (∃ c, r.constantCf = .ok c ∧ |c.real - (e.map XF.real).toExpr.sem () fun s => (v s).real| ≤
        ((1 + (2 ^ 53)⁻¹) ^ e.rounds 0 - 1) * (e.map XF.real).abs.toExpr.sem () fun s => |(v s).real|) ∧
      (∀ l : List String, l.length ≤ r.getOrder → (∀ s ∈ l, "d" ++ s ∈ r.p.syms) →
        ∃ ct c, rt.getDerivative (r.p.syms.map fun u => (l.map fun s => "d" ++ s).count u) = .ok ct ∧
          r.getDerivative (r.p.syms.map fun u => (l.map fun s => "d" ++ s).count u) = .ok c ∧
          (¬ NonFinite ct → c.v = ct.v ∧ |c.real - pds l ((e.map XF.real).toExpr.sem ()) fun s => (v s).real| ≤
            ((1 + (2 ^ 53)⁻¹) ^ (e.rounds l.length + 2) - 1) * pds l ((e.map XF.real).abs.toExpr.sem ()) fun s => |(v s).real|)) := by
  obtain ⟨rt, hrt, hf, hr, hrf⟩ := AExpr.three_runs hm hl hv hq
  obtain ⟨l1, l2⟩ := AExpr.legal_trap hl hq
  obtain ⟨rf, hrf', -, ho, hfull, hc0, hd, -⟩ := C68_derivatives (R := R53) (v := fun s => (v s).trap.toFl) hm ((e.map XF.trap).map XF.toFl) l2
  obtain rfl : rt.mapG XF.toFl = rf := by rw [hrf] at hrf'; injection hrf'
  have hv' : ∀ s, ¬ NonFinite (v s).trap := fun s => not_nonFinite.mpr (XF.trap_normal.mpr (hv s))
  have e1 : ((e.map XF.trap).map XF.toFl).map Fl.val = e.map XF.real := by
    have h1 : ((e.map XF.trap).map XF.toFl).map Fl.val = (e.map XF.trap).map fun x => x.toFl.val := by
      clear hl hq hrt hrf hrf' hr l1 l2 hd hfull hc0
      induction e <;> simp_all [AExpr.map]
    rw [h1]
    exact AExpr.map_quiet (t := XF.trap) (g := fun x => x.toFl.val) (fun c hc => XF.toFl_trap hc) hq
  have e2 : (fun s => (v s).trap.toFl.val) = fun s => (v s).real := by funext s; exact XF.toFl_trap (hv' s)
  have e3 : (fun s => |(v s).trap.toFl.val|) = fun s => |(v s).real| := by funext s; rw [XF.toFl_trap (hv' s)]
  have e4 : ∀ j, ((e.map XF.trap).map XF.toFl).rounds j = e.rounds j := fun j => by rw [AExpr.rounds_map, AExpr.rounds_map]
  have e5 : R53.u = (2 ^ 53)⁻¹ := rfl
  simp only [e1, e2, e3, e4, e5] at hfull hc0 hd
  refine ⟨rt, rt.mapG XF.toDouble, hrt, hr, ?_, ho, hfull, ?_, fun l hle hmem => ?_⟩
  · intro t ht
    obtain ⟨x, hx, rfl⟩ := List.mem_map.mp ht
    obtain ⟨q, h1⟩ := not_nonFinite.mp (hf x hx)
    refine ⟨q, h1, ?_⟩
    have h2 := x.2.repr q h1
    change rndTrap q = _ at h2
    unfold rndTrap at h2
    split_ifs at h2 with h3 h4
    · exact Or.inl h3
    · exact Or.inr h4.1
  · obtain ⟨c, hc, hb⟩ := hc0
    have h1 : ∃ ct, rt.constantCf = .ok ct := findCf_isOk (by simp) (by simp [symbolSetSize])
    obtain ⟨ct, hct⟩ := h1
    refine ⟨ct.toDouble, homOn_toDouble.findCf hct, ?_⟩
    have h2 : (rt.mapG XF.toFl).constantCf = .ok ct.toFl := homOn_toFl.findCf hct
    rw [hc] at h2
    cases h2
    exact hb
  · obtain ⟨c, hc, hb⟩ := hd l hle hmem
    obtain ⟨ct, hct⟩ := getDerivative_ok_mapG hc
    have h3 : ∃ c', (rt.mapG XF.toDouble).getDerivative (rt.p.syms.map fun u => (l.map fun s => "d" ++ s).count u) = .ok c' := by
      unfold getDerivative at hct ⊢
      obtain ⟨x, hx, -⟩ := bind_ok_iff.mp hct
      exact ⟨_, bind_ok_iff.mpr ⟨_, homOn_toDouble.findCf hx, rfl⟩⟩
    obtain ⟨cd, hcd⟩ := h3
    refine ⟨ct, cd, hct, hcd, fun hfin => ?_⟩
    have h4 := homOn_toDouble.getDerivative hct hfin
    have h5 := homOn_toFl.getDerivative hct hfin
    change (rt.mapG XF.toDouble).getDerivative (rt.p.syms.map fun u => (l.map fun s => "d" ++ s).count u) = _ at h4
    change (rt.mapG XF.toFl).getDerivative (rt.p.syms.map fun u => (l.map fun s => "d" ++ s).count u) = _ at h5
    change (rt.mapG XF.toFl).getDerivative (rt.p.syms.map fun u => (l.map fun s => "d" ++ s).count u) = _ at hc
    rw [hcd] at h4
    rw [hc] at h5
    cases h4
    cases h5
    exact ⟨rfl, hb⟩

/-- **C104.** The same for `evaluate`: if its computation does not overflow or underflow either (`ct`), the value differs from the exact value `ca` of the exact Taylor polynomial `a` by at most `(1 + 2^-53) ^ N - 1` times
the value `cb` of the Taylor polynomial `b` of the expression with absolute values. -/
theorem C104_evaluate (hm : m < UINT_MAX - 10) (hl : e.Legal fun c => c.v = .fin 0) (hv : ∀ s, (v s).Normal) (hq : e.NoTrap v m) :
    ∃ rt r a b, (e.map XF.trap).run (fun s => (v s).trap) m = .ok rt ∧ e.run v m = .ok r ∧ (e.map XF.real).run (fun s => (v s).real) m = .ok a ∧
      (e.map XF.real).abs.run (fun s => |(v s).real|) m = .ok b ∧
      ∀ (dict : List (String × XF .binary64)) ct, (∀ x ∈ dict, x.2.Normal) → rt.evaluate (dict.map fun x => (x.1, x.2.trap)) = .ok ct → ¬ NonFinite ct →
        ∃ c ca cb, r.evaluate dict = .ok c ∧ c.v = ct.v ∧ a.evaluate (dict.map fun x => (x.1, x.2.real)) = .ok ca ∧ b.evaluate (dict.map fun x => (x.1, |x.2.real|)) = .ok cb ∧
          |c.real - ca| ≤ ((1 + (2 ^ 53)⁻¹) ^ (e.rounds r.getOrder + r.getOrder + (r.p.terms.length - 1)) - 1) * cb := by
  obtain ⟨rt, hrt, hf, hr, hrf⟩ := AExpr.three_runs hm hl hv hq
  obtain ⟨l1, l2⟩ := AExpr.legal_trap hl hq
  obtain ⟨rf, a, b, hrf', ha, hb, h⟩ := C103_expression (R := R53) (v := fun s => (v s).trap.toFl) hm ((e.map XF.trap).map XF.toFl) l2
  obtain rfl : rt.mapG XF.toFl = rf := by rw [hrf] at hrf'; injection hrf'
  have hv' : ∀ s, ¬ NonFinite (v s).trap := fun s => not_nonFinite.mpr (XF.trap_normal.mpr (hv s))
  have e1 : ((e.map XF.trap).map XF.toFl).map Fl.val = e.map XF.real := by
    have h1 : ((e.map XF.trap).map XF.toFl).map Fl.val = (e.map XF.trap).map fun x => x.toFl.val := by
      clear hl hq hrt hrf hrf' hr l1 l2 ha hb h
      induction e <;> simp_all [AExpr.map]
    rw [h1]
    exact AExpr.map_quiet (t := XF.trap) (g := fun x => x.toFl.val) (fun c hc => XF.toFl_trap hc) hq
  have e2 : (fun s => (v s).trap.toFl.val) = fun s => (v s).real := by funext s; exact XF.toFl_trap (hv' s)
  have e3 : (fun s => |(v s).trap.toFl.val|) = fun s => |(v s).real| := by funext s; rw [XF.toFl_trap (hv' s)]
  have e4 : ∀ j, ((e.map XF.trap).map XF.toFl).rounds j = e.rounds j := fun j => by rw [AExpr.rounds_map, AExpr.rounds_map]
  have e5 : R53.u = (2 ^ 53)⁻¹ := rfl
  simp only [e1, e2, e3, e4, e5] at ha hb h
  refine ⟨rt, rt.mapG XF.toDouble, a, b, hrt, hr, ha, hb, fun dict ct hdict hct hfin => ?_⟩
  have hd' : ∀ x ∈ dict, ¬ NonFinite x.2.trap := fun x hx => not_nonFinite.mpr (XF.trap_normal.mpr (hdict x hx))
  have h4 := homOn_toDouble.evaluate hct hfin
  have h5 := homOn_toFl.evaluate hct hfin
  obtain ⟨ca, cb, hca, hcb, hle⟩ := h _ _ h5
  have d1 : ((dict.map fun x => (x.1, x.2.trap)).map fun x => (x.1, x.2.toDouble)) = dict := by
    rw [List.map_map]
    refine (List.map_congr_left fun x hx => ?_).trans (List.map_id _)
    exact Prod.ext rfl (XF.toDouble_trap (hd' x hx))
  have d2 : (((dict.map fun x => (x.1, x.2.trap)).map fun x => (x.1, x.2.toFl)).map fun x => (x.1, x.2.val)) = dict.map fun x => (x.1, x.2.real) := by
    rw [List.map_map, List.map_map]
    refine List.map_congr_left fun x hx => ?_
    exact Prod.ext rfl (XF.toFl_trap (hd' x hx))
  have d3 : (((dict.map fun x => (x.1, x.2.trap)).map fun x => (x.1, x.2.toFl)).map fun x => (x.1, |x.2.val|)) = dict.map fun x => (x.1, |x.2.real|) := by
    rw [List.map_map, List.map_map]
    refine List.map_congr_left fun x hx => ?_
    exact Prod.ext rfl (congrArg abs (XF.toFl_trap (hd' x hx)))
  rw [d1] at h4
  rw [d2] at hca
  rw [d3] at hcb
  refine ⟨_, ca, cb, h4, rfl, hca, hcb, ?_⟩
  have hlen : (rt.mapG XF.toDouble).p.terms.length = (rt.mapG XF.toFl).p.terms.length := by simp [mapG, Poly.mapP, mapT]
  rw [hlen]
  exact hle

/-- Small integers are numbers of the trapping format. -/
theorem rndTrap_int {n : ℤ} (hn : |n| ≤ 2 ^ 53) : rndTrap n = .fin n := by
  by_cases h0 : n = 0
  · subst h0; rw [Int.cast_zero]; exact if_pos rfl
  · have h := nearest_of_digits (K := ℚ) (p := 53) (by norm_num) hn 0
    rw [zpow_zero, mul_one] at h
    have h1 : (1 : ℚ) ≤ |(n : ℚ)| := by
      rw [← Int.cast_abs]; exact_mod_cast Int.one_le_abs h0
    have h2 : |(n : ℚ)| ≤ 2 ^ 53 := by rw [← Int.cast_abs]; exact_mod_cast hn
    rw [rndTrap, if_neg (by exact_mod_cast h0), h, if_pos ⟨le_trans (zpow_le_one_of_nonpos₀ (by norm_num) (by norm_num)) h1, h2.trans_lt (pow_lt_pow_right₀ (by norm_num) (by norm_num))⟩]

theorem trap_one : (Cf.one : XF .binary64).trap = Cf.one := by
  apply XF.ext
  have h : (Cf.one : XF .binary64).trap.v = rndTrap 1 := by unfold XF.trap; rw [XF.one_v]; rfl
  rw [h]
  rfl

/-- `-(x * x)` at `x = 1` and order 2, on `double`: nothing overflows or underflows. -/
example : ∃ e : AExpr (XF .binary64), e = .neg (.bin .mul (.var "x") (.var "x")) ∧ (2 < UINT_MAX - 10) ∧ e.Legal (fun c => c.v = .fin 0) ∧
    (∀ s : String, ((fun _ => Cf.one : String → XF .binary64) s).Normal) ∧ e.NoTrap (fun _ => Cf.one) 2 := by
  have hs : ∃ c, "x".toList.head? = some c ∧ c ≠ 'd' := ⟨'x', by decide, by decide⟩
  refine ⟨_, rfl, by decide, ⟨hs, hs⟩, fun s => ⟨1, XF.one_v, Or.inr (by rw [abs_one]; exact zpow_le_one_of_nonpos₀ (by norm_num) (by norm_num))⟩, ?_⟩
  have one_fin : ¬ NonFinite (Cf.one : XF .trapping) := not_nonFinite.mpr ⟨1, XF.one_v⟩
  have two_v : (Cf.add Cf.one Cf.one : XF .trapping).v = .fin 2 := by
    rw [XF.add_fin XF.one_v XF.one_v]
    have := rndTrap_int (n := 2) (by norm_num)
    norm_num at this ⊢
    exact this
  have two_fin : ¬ NonFinite (Cf.add Cf.one Cf.one : XF .trapping) := not_nonFinite.mpr ⟨2, two_v⟩
  have two_nz : Cf.isZero (Cf.add Cf.one Cf.one : XF .trapping) = false := (XF.isZero_false _).mpr (by rw [two_v]; simp)
  have h1 : GDual.mk3 (Cf.one : XF .trapping) "x" 2 = .ok ⟨⟨["dx"], [([1], Cf.one), ([0], Cf.one)]⟩, 2⟩ := by
    refine mk3_ok.mpr ⟨by decide, hs, ?_⟩
    have m1 : mergeSyms ["dx"] [] = ["dx"] := rfl
    have m2 : mergeSyms [] ["dx"] = ["dx"] := rfl
    have m3 : reindex ["dx"] ["dx"] [1] = [1] := by decide
    have m4 : reindex [] ["dx"] [] = [0] := by decide
    simp [Poly.var, Poly.const, Poly.add, Poly.addSymbols, Poly.insertTerms, Poly.insertTerm, XF.isZero_one, m1, m2, m3, m4]
  have h2 : (⟨⟨["dx"], [([1], Cf.one), ([0], Cf.one)]⟩, 2⟩ : GDual (XF .trapping)).mul ⟨⟨["dx"], [([1], Cf.one), ([0], Cf.one)]⟩, 2⟩ =
      ⟨⟨["dx"], [([2], Cf.one), ([1], Cf.add Cf.one Cf.one), ([0], Cf.one)]⟩, 2⟩ := by
    have m1 : mergeSyms ["dx"] ["dx"] = ["dx"] := rfl
    have m3 : reindex ["dx"] ["dx"] [1] = [1] := by decide
    have m5 : reindex ["dx"] ["dx"] [0] = [0] := by decide
    simp [GDual.mul, Poly.truncMul, Poly.mulBy, Poly.addSymbols, Poly.insertTerms, Poly.insertTerm, XF.isZero_one, m1, m3, m5, XF.mul_one, Poly.keyDegree, two_nz]
  have hf : ∀ r, GDual.mk3 (Cf.one : XF .trapping) "x" 2 = .ok r → Free NonFinite r.p.terms := fun r hr => by
    rw [h1] at hr
    cases hr
    simp [Free, one_fin]
  unfold AExpr.NoTrap
  simp only [trap_one]
  refine ⟨⟨one_fin, hf⟩, ⟨one_fin, hf⟩, fun r hr => ?_⟩
  simp only [AExpr.map, AExpr.run, bind_ok_iff] at hr
  obtain ⟨a, ha, b, hb, hr⟩ := hr
  rw [h1] at ha hb
  cases ha
  cases hb
  cases hr
  change Free NonFinite (GDual.mul _ _).p.terms
  rw [h2]
  simp [Free, one_fin, two_fin]

/-- The rounding of `2 ^ -1200` is zero. -/
theorem rnd64_tiny : rnd64 (2 ^ (-600 : ℤ) * 2 ^ (-600 : ℤ)) = .fin 0 := by
  have h0 : (2 : ℚ) ^ (-600 : ℤ) * 2 ^ (-600 : ℤ) = 2 ^ (-1200 : ℤ) := by rw [← zpow_add₀ (by norm_num)]; norm_num
  have h1 : |(2 : ℚ) ^ (-1200 : ℤ)| < 2 ^ (-1022 : ℤ) := by
    rw [abs_of_pos (two_zpow_pos _)]
    exact zpow_lt_zpow_right₀ (by norm_num) (by norm_num)
  have h2 : (2 : ℚ) ^ (-1200 : ℤ) * 2 ^ 1074 = 2 ^ (-126 : ℤ) := by
    rw [← zpow_natCast, ← zpow_add₀ (by norm_num)]; norm_num
  have h3 : (2 : ℚ) ^ (-126 : ℤ) < 1 / 2 := by
    have : (2 : ℚ) ^ (-126 : ℤ) < 2 ^ (-1 : ℤ) := zpow_lt_zpow_right₀ (by norm_num) (by norm_num)
    rwa [zpow_neg_one, ← one_div] at this
  have h4 : ⌊(2 : ℚ) ^ (-126 : ℤ)⌋ = 0 := Int.floor_eq_zero_iff.mpr ⟨(two_zpow_pos _).le, h3.trans (by norm_num)⟩
  have h5 : round64 (2 ^ (-1200 : ℤ)) = 0 := by
    rw [round64, if_pos h1, h2]
    unfold nearestInt
    rw [h4, Int.cast_zero, sub_zero, if_pos h3]
    simp
  rw [h0, rnd64, h5]
  simp

/-- **C104** (why `NoTrap` is needed). All values are normal numbers, but the product of `x = 2^-600` with itself is zero: the bound, with one rounding, does not hold. -/
theorem C104_underflow : ∃ (v : String → XF .binary64) (e : AExpr (XF .binary64)) (r : GDual (XF .binary64)) (c : XF .binary64), (∀ s, (v s).Normal) ∧
    e = .bin .mul (.var "x") (.var "x") ∧ e.Legal (fun c => c.v = .fin 0) ∧ e.rounds 0 = 1 ∧ e.run v 0 = .ok r ∧ r.constantCf = .ok c ∧ c.v = .fin 0 ∧
    ¬ |c.real - (e.map XF.real).toExpr.sem () fun s => (v s).real| ≤ ((1 + (2 ^ 53)⁻¹) ^ e.rounds 0 - 1) * (e.map XF.real).abs.toExpr.sem () fun s => |(v s).real| := by
  have hs : ∃ c, "x".toList.head? = some c ∧ c ≠ 'd' := ⟨'x', by decide, by decide⟩
  have hn : |(2 : ℚ) ^ (-600 : ℤ)| = 2 ^ (-600 : ℤ) := abs_of_pos (two_zpow_pos _)
  have hlow : (2 : ℚ) ^ (-1022 : ℤ) ≤ |(2 : ℚ) ^ (-600 : ℤ)| := by rw [hn]; exact zpow_le_zpow_right₀ (by norm_num) (by norm_num)
  have hr : rnd64 (2 ^ (-600 : ℤ)) = .fin (2 ^ (-600 : ℤ)) := by
    have h1 := round64_digits (n := 1) (e := -600) (by norm_num) (by rw [Int.cast_one, one_mul]; exact hlow)
    rw [Int.cast_one, one_mul] at h1
    rw [rnd64, h1, hn, if_pos]
    calc (2 : ℚ) ^ (-600 : ℤ) ≤ 1 := zpow_le_one_of_nonpos₀ (by norm_num) (by norm_num)
      _ < 2 ^ 1024 := one_lt_pow₀ (by norm_num) (by norm_num)
  let x : XF .binary64 := ⟨.fin (2 ^ (-600 : ℤ)), fun q h => by cases h; exact hr⟩
  have hx : x.v = .fin (2 ^ (-600 : ℤ)) := rfl
  have hxz : Cf.isZero x = false := (XF.isZero_false _).mpr (by rw [hx, Ne, Xv.fin.injEq]; exact (two_zpow_pos _).ne')
  have hxx : Cf.isZero (Cf.mul x x) = true := (XF.isZero_iff _).mpr (by rw [XF.mul_fin hx hx]; exact rnd64_tiny)
  have h1 : GDual.mk3 x "x" 0 = .ok ⟨⟨["dx"], [([0], x)]⟩, 0⟩ := by
    refine mk3_ok.mpr ⟨by decide, hs, ?_⟩
    have m1 : mergeSyms ["dx"] [] = ["dx"] := rfl
    have m2 : mergeSyms [] ["dx"] = ["dx"] := rfl
    have m4 : reindex [] ["dx"] [] = [0] := by decide
    simp [Poly.const, Poly.add, Poly.addSymbols, Poly.insertTerms, Poly.insertTerm, hxz, m1, m2, m4]
  have h2 : (⟨⟨["dx"], [([0], x)]⟩, 0⟩ : GDual (XF .binary64)).mul ⟨⟨["dx"], [([0], x)]⟩, 0⟩ = ⟨⟨["dx"], []⟩, 0⟩ := by
    have m1 : mergeSyms ["dx"] ["dx"] = ["dx"] := rfl
    have m5 : reindex ["dx"] ["dx"] [0] = [0] := by decide
    simp [GDual.mul, Poly.truncMul, Poly.mulBy, Poly.addSymbols, Poly.insertTerms, Poly.insertTerm, m1, m5, Poly.keyDegree, hxx]
  refine ⟨fun _ => x, _, ⟨⟨["dx"], []⟩, 0⟩, Cf.zero, fun s => ⟨_, hx, Or.inr hlow⟩, rfl, ⟨hs, hs⟩, rfl, ?_, rfl, XF.zero_v, ?_⟩
  · simp only [AExpr.run, h1, bind_ok_iff]
    exact ⟨_, rfl, _, rfl, congrArg Except.ok h2⟩
  · have hxr : x.real = 2 ^ (-600 : ℤ) := by rw [XF.real_fin hx, Rat.cast_zpow, Rat.cast_ofNat]
    have hp : (0 : ℝ) < 2 ^ (-600 : ℤ) := two_zpow_pos _
    have hz : (Cf.zero : XF .binary64).real = 0 := by rw [XF.real_fin XF.zero_v]; simp
    rw [not_le, hz]
    change ((1 + (2 ^ 53)⁻¹) ^ 1 - 1) * (|x.real| * |x.real|) < |0 - x.real * x.real|
    rw [hxr, abs_of_pos hp, zero_sub, abs_neg, abs_of_pos (mul_pos hp hp)]
    have : (0 : ℝ) < 2 ^ (-600 : ℤ) * 2 ^ (-600 : ℤ) := mul_pos hp hp
    nlinarith

end Audi
