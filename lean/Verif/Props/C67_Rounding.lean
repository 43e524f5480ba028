import Verif.Proofs.RoundedExpr
import Verif.Proofs.Nearest
import Verif.Props.C21_AD
import Mathlib.Algebra.Order.Archimedean.Real.Basic

/-! # C67, C68: gduals with rounded coefficients -/

set_option linter.unusedSectionVars false

namespace Audi
open GDual MvPolynomial Spec

section
variable {K : Type} [Field K] [LinearOrder K] [IsStrictOrderedRing K] {R : Rounding K} {a b : GDual (Fl R)}

theorem Poly.rnd_cof {p : Poly (Fl R)} (h : p.WF) (E : String →₀ ℕ) : R.rnd (p.cof E) = p.cof E := by
  by_cases hE : p.cof E = 0
  · rw [hE, R.rnd_zero]
  · obtain ⟨t, ht, rfl⟩ := Poly.cof_ne_zero hE
    rw [Poly.cof_toExp h (h.len t ht), rnd_tc]

/-- **C67.** With rounded coefficients, each coefficient of a sum or difference is the exact sum or difference rounded once, and negation is exact; these hold for all
monomials, whatever the orders and variables of the operands. -/
theorem C67_add_sub_neg (ha : a.Valid) (hb : b.Valid) (E : String →₀ ℕ) :
    (a.add b).coeffOf E = R.rnd (a.coeffOf E + b.coeffOf E) ∧ (a.sub b).coeffOf E = R.rnd (a.coeffOf E - b.coeffOf E) ∧
      a.neg.coeffOf E = -a.coeffOf E :=
  ⟨Poly.cof_add ha.wf hb.wf E, Poly.cof_sub ha.wf hb.wf E, Poly.cof_neg a.p E⟩

/-- **C67.** Each coefficient of a product, up to the order of the result, differs from the exact coefficient by at most `((1 + u) ^ N - 1)` times the sum of
the absolute values of the products that make it up, where `N` is the number of those products; the coefficients above the order are zero. In particular the constant coefficient is
the product of the constant coefficients with one relative error of at most `u`. -/
theorem C67_mul (ha : a.Valid) (hb : b.Valid) (E : String →₀ ℕ) :
    (E.degree ≤ max a.getOrder b.getOrder → |(a.mul b).coeffOf E - ∑ d ∈ Finset.antidiagonal E, a.coeffOf d.1 * b.coeffOf d.2| ≤
      ((1 + R.u) ^ (Finset.antidiagonal E).card - 1) * ∑ d ∈ Finset.antidiagonal E, |a.coeffOf d.1| * |b.coeffOf d.2|) ∧
    (max a.getOrder b.getOrder < E.degree → (a.mul b).coeffOf E = 0) := by
  refine ⟨fun hE => ?_, fun hE => ?_⟩
  · refine (Poly.near_truncMul (R := R) ha.wf hb.wf (n := max a.order b.order) hE (x := a.coeffOf) (X := fun E => |a.coeffOf E|) (y := b.coeffOf)
      (Y := fun E => |b.coeffOf E|) (k := 0) (l := 0) (N := (Finset.antidiagonal E).card) (fun d _ => Rounding.Near.refl R 0 _)
      (fun d _ => Rounding.Near.refl R 0 _) ?_ (Or.inl le_rfl)).1.trans (le_of_eq ?_)
    · exact Finset.card_pos.mpr ⟨(0, E), by simp⟩
    · simp only [Nat.zero_add]
  · by_contra hne
    obtain ⟨t, ht, hte⟩ := Poly.cof_ne_zero (p := (a.mul b).p) hne
    have hv := ha.mul hb
    have h1 := hv.deg t ht
    have h2 := degree_toExp (ss := (a.mul b).p.syms) (e := t.1) (hv.wf.len t ht)
    rw [hte] at h2
    have h3 : (a.mul b).order = max a.getOrder b.getOrder := rfl
    omega

/-- **C67.** Adding or multiplying with a number: the constant coefficient is `c + a₀` rounded once and the other coefficients are not changed; each coefficient is
multiplied with `c` with one relative error. -/
theorem C67_scalar (ha : a.Valid) (c : Fl R) (E : String →₀ ℕ) :
    (a.addSG c).coeffOf E = (if E = 0 then R.rnd (c.val + a.coeffOf 0) else a.coeffOf E) ∧
    |(a.mulSG c).coeffOf E - c.val * a.coeffOf E| ≤ R.u * |c.val * a.coeffOf E| := by
  have hc := Poly.cof_const c
  constructor
  · have h := Poly.cof_add (Poly.wf_const c) ha.wf E
    refine h.trans ?_
    rw [hc]
    split_ifs with h1 h2 h2
    · subst h1; rfl
    · exact absurd h1.symm h2
    · exact absurd h2.symm h1
    · rw [zero_add]
      exact Poly.rnd_cof ha.wf E
  · by_cases hE : E.degree ≤ a.order
    · have h := Poly.near_truncMul (R := R) (Poly.wf_const c) ha.wf (n := max a.order a.order) (by simpa using hE) (x := (Poly.const c).cof)
        (X := fun E => |(Poly.const c).cof E|) (y := a.coeffOf) (Y := fun E => |a.coeffOf E|) (k := 0) (l := 0) (N := 1)
        (fun d _ => Rounding.Near.refl R 0 _) (fun d _ => Rounding.Near.refl R 0 _) le_rfl (Or.inr (Or.inl (Poly.length_const c)))
      have key : ∀ (f g : (String →₀ ℕ) → K), (∀ d, d ≠ 0 → f d = 0) → ∑ d ∈ Finset.antidiagonal E, f d.1 * g d.2 = f 0 * g E := fun f g hf => by
        refine (Finset.sum_eq_single (0, E) (fun d hd hne => ?_) (fun hn => absurd (by simp) hn))
        rw [hf d.1, zero_mul]
        rintro h0
        have := Finset.mem_antidiagonal.mp hd
        rw [h0, zero_add] at this
        exact hne (Prod.ext h0 this)
      have h0 : ∀ d, d ≠ 0 → (Poly.const c).cof d = 0 := fun d hd => by rw [hc, if_neg (Ne.symm hd)]
      have h1 := h.1
      rw [key _ _ h0, key (fun E => |(Poly.const c).cof E|) (fun E => |a.coeffOf E|) (fun d hd => by simp only [h0 d hd, abs_zero]), hc, if_pos rfl, ← abs_mul] at h1
      refine (le_of_eq ?_).trans (h1.trans (le_of_eq (by ring)))
      rfl
    · have h1 : a.coeffOf E = 0 := by
        by_contra hne
        obtain ⟨t, ht, hte⟩ := Poly.cof_ne_zero (p := a.p) hne
        have h1 := ha.deg t ht
        have h2 := degree_toExp (ss := a.p.syms) (e := t.1) (ha.wf.len t ht)
        rw [hte] at h2
        omega
      have h2 : (a.mulSG c).coeffOf E = 0 := by
        by_contra hne
        obtain ⟨t, ht, hte⟩ := Poly.cof_ne_zero (p := (a.mulSG c).p) hne
        have hv := Valid.mulSG c ha
        have h1 := hv.deg t ht
        have h2 := degree_toExp (ss := (a.mulSG c).p.syms) (e := t.1) (hv.wf.len t ht)
        rw [hte] at h2
        have h3 : (a.mulSG c).order = max a.order a.order := rfl
        simp at h3
        omega
      simp [h1, h2]

end

/-- The format with 53 binary digits, ties to even (`double` without limits on the exponent), and two valid gduals with coefficients in it. -/
example : ∃ (R : Rounding ℝ) (a b : GDual (Fl R)), R.u = (2 ^ 53)⁻¹ ∧ a.Valid ∧ b.Valid ∧ a.coeffOf 0 = R.rnd (1 / 3) ∧ R.rnd (1 / 3) ≠ 0 := by
  let R : Rounding ℝ := Rounding.nearest 52
  refine ⟨R, ofCf (Fl.round R (1 / 3)), ofCf (Fl.round R 7), rfl, valid_ofCf _, valid_ofCf _, ?_, fun h => ?_⟩
  · change (Poly.const (Fl.round R (1 / 3))).cof 0 = _
    rw [Poly.cof_const, if_pos rfl]
    rfl
  · have := R.rnd_eq_zero h
    norm_num at this

/-! ### C68 -/

section
variable {R : Rounding ℝ}

theorem find?_tc (t : List (List ℕ × Fl R)) (e : List ℕ) :
    tc t e = match (t.find? fun x => x.1 = e).map (·.2) with
      | none => 0
      | some c => c.val := by
  induction t with
  | nil => rfl
  | cons x t ih =>
    rw [tc, List.find?_cons]
    by_cases h : x.1 = e
    · simp [h]
    · simp only [h, decide_false, if_neg (Ne.symm h)]
      exact ih

theorem findCf_fl {r : GDual (Fl R)} {e : List ℕ} {c : Fl R} (hr : r.Valid) (h : r.findCf e = .ok c) : c.val = r.p.cof (toExp r.p.syms e) := by
  have h1 := findCf_ok h
  rw [Poly.cof_toExp hr.wf h1.2, find?_tc]
  unfold findCf at h
  rw [if_neg (show ¬ expSum e > r.order from not_lt.mpr h1.1), if_neg (by simpa [symbolSetSize] using h1.2)] at h
  change c.val = match r.p.find? e with
    | none => 0
    | some c => c.val
  cases hf : r.p.find? e with
  | none =>
    rw [hf] at h; injection h with h; rw [← h]
    simp [Cf.zero, Cf.ofRat, Fl.round, R.rnd_zero]
  | some c' => rw [hf] at h; injection h with h; rw [← h]

namespace Close
variable {k : ℕ → ℕ} {r : GDual (Fl R)} {a b : GDual ℝ}

theorem constantCf (h : Close k r a b) {ca cb : ℝ} (ha : a.constantCf = .ok ca) (hb : b.constantCf = .ok cb) :
    ∃ c, r.constantCf = .ok c ∧ R.Near (k 0) c.val ca cb := by
  obtain ⟨c, hc⟩ := findCf_isOk (d := r) (e := List.replicate r.symbolSetSize 0) (by simp) (by simp [symbolSetSize])
  refine ⟨c, hc, ?_⟩
  have h1 := lane_findCf (ι := Unit) (K := ℝ) h.va ha ()
  have h2 := lane_findCf (ι := Unit) (K := ℝ) h.vb hb ()
  have h3 := findCf_fl h.vr hc
  simp only [symbolSetSize, toExp_replicate_zero] at h1 h2 h3
  have h4 := h.near 0
  rw [← h1, ← h2, ← h3] at h4
  rw [map_zero] at h4
  exact h4

theorem getDerivative (h : Close k r a b) {e : List ℕ} {ca cb : ℝ} (ha : a.getDerivative e = .ok ca) (hb : b.getDerivative e = .ok cb) :
    ∃ c, r.getDerivative e = .ok c ∧ R.Near (k e.sum + 2) c.val ca cb := by
  obtain ⟨h1, h2, h3⟩ := getDerivative_spec (ι := Unit) (K := ℝ) h.va ha ()
  obtain ⟨-, -, h4⟩ := getDerivative_spec (ι := Unit) (K := ℝ) h.vb hb ()
  have ho : e.sum ≤ r.getOrder := h1.trans h.oa.le
  have hl : e.length = r.symbolSetSize := by rw [h2, symbolSetSize, symbolSetSize, h.sa]
  obtain ⟨c, hc⟩ := findCf_isOk (d := r) ho hl
  have hr : r.getDerivative e = .ok (Cf.mul c (Cf.ofRat (e.map fun k => (Nat.factorial k : ℚ)).prod)) := by
    unfold GDual.getDerivative; rw [hc]; rfl
  refine ⟨_, hr, ?_⟩
  have h5 := h.near (toExp r.p.syms e)
  rw [degree_toExp hl, ← findCf_fl h.vr hc] at h5
  have hF : (((e.map fun k => (Nat.factorial k : ℚ)).prod : ℚ) : ℝ) = (multiFact (toExp r.p.syms e) : ℝ) := by
    rw [multiFact_toExp h.vr.wf.ndsyms hl, Nat.cast_list_prod, List.map_map, Rat.cast_list_prod, List.map_map]
    congr 1
  have h6 : R.Near 1 (R.rnd (multiFact (toExp r.p.syms e) : ℝ)) (multiFact (toExp r.p.syms e) : ℝ) (multiFact (toExp r.p.syms e) : ℝ) := by
    have := (Rounding.Near.refl R 0 (multiFact (toExp r.p.syms e) : ℝ)).rnd
    rwa [abs_of_nonneg (Nat.cast_nonneg _)] at this
  have h7 := (h5.mul h6).rnd
  rw [h.sa] at h3
  rw [h.sb] at h4
  rw [← h3, ← h4] at h7
  have h8 : (Cf.mul c (Cf.ofRat (e.map fun k => (Nat.factorial k : ℚ)).prod) : Fl R).val =
      R.rnd (c.val * R.rnd (multiFact (toExp r.p.syms e) : ℝ)) := by
    change R.rnd (c.val * R.rnd _) = _
    rw [hF]
  rw [h8]
  exact h7

end Close

namespace AExpr

theorem run_toExpr (e : AExpr ℝ) (v : String → ℝ) (m : ℕ) : e.run v m = e.toExpr.run v m := by
  induction e with
  | var s => rfl
  | const c => rfl
  | bin op e1 e2 h1 h2 =>
    rw [AExpr.run, toExpr, Expr.run, ← h1, ← h2]
    cases op <;> rfl
  | left op c e h =>
    rw [AExpr.run, toExpr, Expr.run, ← h]
    cases op <;> rfl
  | right op e c h =>
    rw [AExpr.run, toExpr, Expr.run, ← h]
    cases op <;> rfl
  | divc e c h =>
    rw [AExpr.run, toExpr, Expr.run, ← h]
    rfl
  | neg e h =>
    rw [AExpr.run, toExpr, Expr.run, ← h]
    rfl

theorem legal_toExpr {e : AExpr ℝ} (h : e.Legal fun c => c = 0) (m : ℕ) : e.toExpr.Legal m := by
  induction e with
  | var s => exact h
  | const c => trivial
  | bin op e1 e2 h1 h2 => exact ⟨h1 h.1, h2 h.2⟩
  | left op c e h1 => exact h1 h
  | right op e c h1 => exact h1 h
  | divc e c h1 => exact h1 h.1
  | neg e h1 => exact ⟨h1 h, trivial⟩

theorem dom_toExpr {e : AExpr ℝ} (h : e.Legal fun c => c = 0) (x : String → ℝ) : e.toExpr.Dom () x := by
  induction e with
  | var s => trivial
  | const c => trivial
  | bin op e1 e2 h1 h2 => exact ⟨h1 h.1, h2 h.2, by cases op <;> trivial⟩
  | left op c e h1 => exact ⟨h1 h, by cases op <;> trivial⟩
  | right op e c h1 => exact ⟨h1 h, by cases op <;> trivial⟩
  | divc e c h1 => exact ⟨h1 h.1, h.2⟩
  | neg e h1 => exact ⟨h1 h, trivial⟩

theorem legal_map {e : AExpr (Fl R)} (h : e.Legal fun c => c.val = 0) : (e.map Fl.val).Legal fun c => c = 0 := by
  induction e with
  | var s => exact h
  | const c => trivial
  | bin op e1 e2 h1 h2 => exact ⟨h1 h.1, h2 h.2⟩
  | left op c e h1 => exact h1 h
  | right op e c h1 => exact h1 h
  | divc e c h1 => exact ⟨h1 h.1, h.2⟩
  | neg e h1 => exact h1 h

theorem legal_abs {e : AExpr ℝ} (h : e.Legal fun c => c = 0) : e.abs.Legal fun c => c = 0 := by
  induction e with
  | var s => exact h
  | const c => trivial
  | bin op e1 e2 h1 h2 => exact ⟨h1 h.1, h2 h.2⟩
  | left op c e h1 => exact h1 h
  | right op e c h1 => exact h1 h
  | divc e c h1 => exact ⟨h1 h.1, by simpa using h.2⟩
  | neg e h1 => exact h1 h

end AExpr

/-- **C68.** Let `e` be an expression built from variables, numbers, `+`, `-`, `*`, unary minus and division by numbers, evaluated on the gduals `gdual(v s, s, m)` with
coefficients of a floating point format. Every derivative read from the result (and its constant coefficient) differs from the exact
derivative of the real function by at most `(1 + u) ^ k - 1` times the same derivative of the expression with absolute values (numbers and values of the variables replaced with their absolute values,
differences with sums), where `k` is the count of roundings `rounds` of the expression for the order of the derivative, plus two for the multiplication with the factorials. -/
theorem C68_derivatives {v : String → Fl R} {m : ℕ} (hm : m < UINT_MAX - 10) (e : AExpr (Fl R)) (hl : e.Legal fun c => c.val = 0) :
    ∃ r, e.run v m = .ok r ∧ r.Valid ∧ r.getOrder ≤ m ∧ ((e.map Fl.val).toExpr.full = true → r.getOrder = m) ∧
      (∃ c, r.constantCf = .ok c ∧ |c.val - (e.map Fl.val).toExpr.sem () fun s => (v s).val| ≤
        ((1 + R.u) ^ e.rounds 0 - 1) * (e.map Fl.val).abs.toExpr.sem () fun s => |(v s).val|) ∧
      (∀ l : List String, l.length ≤ r.getOrder → (∀ s ∈ l, "d" ++ s ∈ r.p.syms) →
        ∃ c, r.getDerivative (r.p.syms.map fun u => (l.map fun s => "d" ++ s).count u) = .ok c ∧
          |c.val - pds l ((e.map Fl.val).toExpr.sem ()) fun s => (v s).val| ≤
            ((1 + R.u) ^ (e.rounds l.length + 2) - 1) * pds l ((e.map Fl.val).abs.toExpr.sem ()) fun s => |(v s).val|) ∧
      (∀ l : List String, l.length ≤ r.getOrder → ∀ dict : List (String × ℕ), (dict.map (·.1)).Nodup →
        (∀ p ∈ dict, 0 < p.2) → (∀ u, (dict.lookup u).getD 0 = (l.map fun s => "d" ++ s).count u) →
        ∃ c, r.getDerivativeDict dict = .ok c ∧
          |c.val - pds l ((e.map Fl.val).toExpr.sem ()) fun s => (v s).val| ≤
            ((1 + R.u) ^ (e.rounds l.length + 2) - 1) * pds l ((e.map Fl.val).abs.toExpr.sem ()) fun s => |(v s).val|) := by
  obtain ⟨r, a, b, hr, ha, hb, hc⟩ := AExpr.run_close (v := v) hm e hl
  have hla := AExpr.legal_map hl
  have hlb := AExpr.legal_abs hla
  obtain ⟨a', ha', hva, hoa, hfa, hda, hdda⟩ := C21_ad_partial (C := ℝ) (ι := Unit) (v := fun s => (v s).val) hm (e.map Fl.val).toExpr
    (AExpr.legal_toExpr hla m) fun _ => AExpr.dom_toExpr hla _
  obtain ⟨b', hb', hvb, hob, hfb, hdb, hddb⟩ := C21_ad_partial (C := ℝ) (ι := Unit) (v := fun s => |(v s).val|) hm (e.map Fl.val).abs.toExpr
    (AExpr.legal_toExpr hlb m) fun _ => AExpr.dom_toExpr hlb _
  obtain rfl : a = a' := by rw [AExpr.run_toExpr] at ha; rw [ha] at ha'; injection ha'
  obtain rfl : b = b' := by rw [AExpr.run_toExpr] at hb; rw [hb] at hb'; injection hb'
  have hora : a.getOrder = r.getOrder := hc.oa
  have horb : b.getOrder = r.getOrder := hc.ob
  have vec : ∀ l : List String, l.length ≤ r.getOrder → (∀ s ∈ l, "d" ++ s ∈ r.p.syms) →
        ∃ c, r.getDerivative (r.p.syms.map fun u => (l.map fun s => "d" ++ s).count u) = .ok c ∧
          |c.val - pds l ((e.map Fl.val).toExpr.sem ()) fun s => (v s).val| ≤
            ((1 + R.u) ^ (e.rounds l.length + 2) - 1) * pds l ((e.map Fl.val).abs.toExpr.sem ()) fun s => |(v s).val| := fun l hle hmem => by
    obtain ⟨ca, hca, hca'⟩ := hda l (by rw [hora]; exact hle) (by rw [hc.sa]; exact hmem)
    obtain ⟨cb, hcb, hcb'⟩ := hdb l (by rw [horb]; exact hle) (by rw [hc.sb]; exact hmem)
    rw [hc.sa] at hca
    rw [hc.sb] at hcb
    obtain ⟨c, h1, h2⟩ := hc.getDerivative hca hcb
    refine ⟨c, h1, ?_⟩
    have h3 := hca' ()
    have h4 := hcb' ()
    have hs : (r.p.syms.map fun u => (l.map fun s => "d" ++ s).count u).sum = l.length := by
      have hexp : toExp r.p.syms (r.p.syms.map fun u => (l.map fun s => "d" ++ s).count u) = countExp (l.map fun s => "d" ++ s) := by
        ext u
        rw [toExp_map hc.vr.wf.ndsyms, countExp_apply]
        split_ifs with h
        · rfl
        · refine (List.count_eq_zero.mpr fun hu => h ?_).symm
          obtain ⟨s, hs, rfl⟩ := List.mem_map.mp hu
          exact hmem s hs
      rw [← degree_toExp (ss := r.p.syms) (by simp), hexp, length_countExp, List.length_map]
    rw [hs] at h2
    have h5 := h2.1
    change ca = _ at h3
    change cb = _ at h4
    rw [h3, h4] at h5
    exact h5
  refine ⟨r, hr, hc.vr, hora ▸ hoa, fun hf => hora ▸ hfa hf, ?_, vec, fun l hle dict hk hpos hcount => ?_⟩
  · obtain ⟨ca, hca⟩ := findCf_isOk (d := a) (e := List.replicate a.symbolSetSize 0) (by simp) (by simp [symbolSetSize])
    obtain ⟨cb, hcb⟩ := findCf_isOk (d := b) (e := List.replicate b.symbolSetSize 0) (by simp) (by simp [symbolSetSize])
    obtain ⟨c, h1, h2⟩ := hc.constantCf hca hcb
    refine ⟨c, h1, ?_⟩
    have key : ∀ {d : GDual ℝ} {x : String → ℝ} {f : (String → ℝ) → ℝ} {cd : ℝ}, d.Valid → d.findCf (List.replicate d.symbolSetSize 0) = .ok cd →
        (∀ l : List String, l.length ≤ d.getOrder → (∀ s ∈ l, "d" ++ s ∈ d.p.syms) →
          ∃ c, d.getDerivative (d.p.syms.map fun u => (l.map fun s => "d" ++ s).count u) = .ok c ∧
            ∀ i : Unit, (Lanes.lane i c : ℝ) = pds l f x) → cd = f x := by
      intro d x f cd hv hcd h
      obtain ⟨c', hc', hl'⟩ := h [] (Nat.zero_le _) (by simp)
      have h6 := (getDerivative_spec (ι := Unit) (K := ℝ) hv hc' ()).2.2
      have h7 := lane_findCf (ι := Unit) (K := ℝ) hv hcd ()
      have h8 : (d.p.syms.map fun u => (([] : List String).map fun s => "d" ++ s).count u) = List.replicate d.symbolSetSize 0 := by
        simp [symbolSetSize]
      rw [h8, toExp_replicate_zero, multiFact_zero, Nat.cast_one, mul_one] at h6
      rw [toExp_replicate_zero] at h7
      have h9 := hl' ()
      change cd = _ at h7
      rw [h7, ← h6]
      exact h9
    have h3 := key (x := fun s => (v s).val) (f := (e.map Fl.val).toExpr.sem ()) hva hca fun l h1 h2 => hda l h1 h2
    have h4 := key (x := fun s => |(v s).val|) (f := (e.map Fl.val).abs.toExpr.sem ()) hvb hcb fun l h1 h2 => hdb l h1 h2
    have h5 := h2.1
    rw [h3, h4] at h5
    exact h5
  · by_cases hall : ∀ p ∈ dict, p.1 ∈ r.p.syms
    · have hmem : ∀ s ∈ l, "d" ++ s ∈ r.p.syms := fun s hs => by
        have h1 : 0 < (l.map fun s => "d" ++ s).count ("d" ++ s) := List.count_pos_iff.mpr (List.mem_map.mpr ⟨s, hs, rfl⟩)
        rw [← hcount] at h1
        cases hlk : dict.lookup ("d" ++ s) with
        | none => rw [hlk] at h1; simp at h1
        | some k => exact hall _ (mem_of_lookup hlk)
      obtain ⟨c, h1, h2⟩ := vec l hle hmem
      refine ⟨c, ?_, h2⟩
      rw [C08_dict_form hc.vr hk hall, ← h1]
      congr 1
      exact List.map_congr_left fun u _ => hcount u
    · have hn : dictCoeff r.p.syms dict (List.replicate r.symbolSetSize 0) = none := by
        rw [← Option.not_isSome_iff_eq_none, dictCoeff_isSome]; exact hall
      push Not at hall
      obtain ⟨ca, hca, hca'⟩ := hdda l (by rw [hora]; exact hle) dict hk hpos hcount
      obtain ⟨cb, hcb, hcb'⟩ := hddb l (by rw [horb]; exact hle) dict hk hpos hcount
      obtain ⟨ca₁, hca₁, hca₁'⟩ := C08_unknown_symbol_partial (ι := Unit) (K := ℝ) (d := a) (by rw [hc.sa]; exact hall)
      obtain ⟨cb₁, hcb₁, hcb₁'⟩ := C08_unknown_symbol_partial (ι := Unit) (K := ℝ) (d := b) (by rw [hc.sb]; exact hall)
      rw [hca] at hca₁
      rw [hcb] at hcb₁
      injection hca₁ with hca₁
      injection hcb₁ with hcb₁
      subst hca₁ hcb₁
      refine ⟨Cf.ofRat 0, by unfold getDerivativeDict; rw [hn], ?_⟩
      have h1 : (0 : ℝ) = pds l ((e.map Fl.val).toExpr.sem ()) fun s => (v s).val := (hca₁' ()).symm.trans (hca' ())
      have h2 : (0 : ℝ) = pds l ((e.map Fl.val).abs.toExpr.sem ()) fun s => |(v s).val| := (hcb₁' ()).symm.trans (hcb' ())
      rw [← h1, ← h2]
      simp [Cf.ofRat, Fl.round, R.rnd_zero]

/-- `x * (y - 3) + x / 7` in the format with 53 binary digits: the derivative with respect to `x` and `y` goes through at most eight roundings. -/
example : ∃ (R : Rounding ℝ) (e : AExpr (Fl R)), R.u = (2 ^ 53)⁻¹ ∧
    e = .bin .add (.bin .mul (.var "x") (.right .sub (.var "y") (Fl.round R 3))) (.divc (.var "x") (Fl.round R 7)) ∧
    (e.Legal fun c => c.val = 0) ∧ (e.map Fl.val).toExpr.full = true ∧ e.rounds 2 + 2 = 8 := by
  refine ⟨Rounding.nearest 52, _, rfl, rfl, ?_, rfl, rfl⟩
  refine ⟨⟨⟨'x', by decide, by decide⟩, ⟨'y', by decide, by decide⟩⟩, ⟨'x', by decide, by decide⟩, fun h => ?_⟩
  have := (Rounding.nearest 52 : Rounding ℝ).rnd_eq_zero h
  norm_num at this

end

end Audi
