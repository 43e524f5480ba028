import Verif.Proofs.GDual

/-! Lemmas on the remaining gdual operations. -/

set_option linter.unusedSectionVars false

namespace Audi

open MvPolynomial Spec

theorem nameAt0_ok {s : String} {c : Char} : nameAt0 s = .ok c ↔ s.toList.head? = some c := by
  unfold nameAt0
  cases h : s.toList with
  | nil => simp
  | cons x l => simp

theorem checkVarName_ok {s : String} : checkVarName s = .ok () ↔ ∃ c, s.toList.head? = some c ∧ c ≠ 'd' := by
  unfold checkVarName nameAt0
  cases h : s.toList with
  | nil => simp [bind, Except.bind]
  | cons x l =>
    by_cases hx : x = 'd'
    · simp [bind, Except.bind, hx]
    · simp [bind, Except.bind, hx]

theorem checkVarNameHasD_ok {s : String} : checkVarNameHasD s = .ok () ↔ s.toList.head? = some 'd' := by
  unfold checkVarNameHasD nameAt0
  cases h : s.toList with
  | nil => simp [bind, Except.bind]
  | cons x l =>
    by_cases hx : x = 'd'
    · simp [bind, Except.bind, hx]
    · simp [bind, Except.bind, hx]

theorem checkVarNameHasD_d (s : String) : checkVarNameHasD ("d" ++ s) = .ok () := by
  rw [checkVarNameHasD_ok]
  simp

theorem bind_ok_iff {α β : Type} {x : Res α} {f : α → Res β} {r : β} :
    (x >>= f) = .ok r ↔ ∃ a, x = .ok a ∧ f a = .ok r := by
  cases x with
  | error e =>
    constructor
    · intro h; cases h
    · rintro ⟨a, h, _⟩; cases h
  | ok a =>
    constructor
    · intro h; exact ⟨a, rfl, h⟩
    · rintro ⟨a', h, h'⟩; injection h with h; subst h; exact h'

theorem forM_ok {l : List String} {f : String → Res Unit} : l.forM f = .ok () ↔ ∀ s ∈ l, f s = .ok () := by
  induction l with
  | nil => simp [List.forM, pure, Except.pure]
  | cons s l ih =>
    change (f s >>= fun _ => l.forM f) = _ ↔ _
    rw [bind_ok_iff]
    simp only [List.forall_mem_cons]
    constructor
    · rintro ⟨_, h1, h2⟩; exact ⟨h1, ih.mp h2⟩
    · rintro ⟨h1, h2⟩; exact ⟨(), h1, ih.mpr h2⟩

namespace GDual
variable {C : Type} [Cf C] {ι : Type} {K : Type} [Field K] [Lanes C ι K]
variable {a b d r : GDual C} {n : ℕ}

/-! Symbols -/

theorem extendSymbolSet_ok {names : List String} :
    d.extendSymbolSet names = .ok r ↔
      (∀ s ∈ names, s.toList.head? = some 'd') ∧ r = ⟨d.p.addSymbols (mergeSyms [] names), d.order⟩ := by
  unfold extendSymbolSet
  rw [bind_ok_iff]
  simp only [← checkVarNameHasD_ok]
  rw [← forM_ok]
  constructor
  · rintro ⟨_, h1, h2⟩; injection h2 with h2; exact ⟨h1, h2.symm⟩
  · rintro ⟨h1, h2⟩; exact ⟨(), h1, by rw [h2]⟩

theorem Valid.extendSymbolSet {names : List String} (hd : d.Valid) (h : d.extendSymbolSet names = .ok r) :
    r.Valid := by
  obtain ⟨_, rfl⟩ := extendSymbolSet_ok.mp h
  exact ⟨hd.wf.addSymbols _, Poly.deg_addSymbols hd.wf _ hd.deg⟩

theorem toMv_extendSymbolSet {names : List String} (hd : d.Valid) (h : d.extendSymbolSet names = .ok r) (i : ι) :
    r.toMv i = d.toMv i := by
  obtain ⟨_, rfl⟩ := extendSymbolSet_ok.mp h
  exact Poly.toMv_addSymbols hd.wf _ i

/-! Constructor -/

theorem checkOrder_ok {n : ℕ} : checkOrder n = .ok () ↔ n < UINT_MAX - 10 := by
  unfold checkOrder
  split_ifs with h
  · simp only [false_iff]; omega
  · simp only [true_iff]; omega

theorem mk3_ok {v : C} {s : String} :
    mk3 v s n = .ok r ↔ n < UINT_MAX - 10 ∧ (∃ c, s.toList.head? = some c ∧ c ≠ 'd') ∧
      r = ⟨(if n = 0 then ⟨["d" ++ s], []⟩ else Poly.var ("d" ++ s)).add (Poly.const v), n⟩ := by
  have he : extendSymbolSet (⟨Poly.zero, n⟩ : GDual C) ["d" ++ s] = .ok ⟨⟨["d" ++ s], []⟩, n⟩ :=
    extendSymbolSet_ok.mpr ⟨by simp, rfl⟩
  unfold mk3
  rw [bind_ok_iff]
  simp only [bind_ok_iff, ← checkOrder_ok, ← checkVarName_ok]
  by_cases hn : n = 0
  · simp only [if_pos hn, bind_ok_iff]
    constructor
    · rintro ⟨_, h1, _, h2, p, ⟨g, h3, h5⟩, h4⟩
      rw [he] at h3
      injection h3 with h3
      injection h5 with h5
      injection h4 with h4
      exact ⟨h1, h2, by rw [← h4, ← h5, ← h3]⟩
    · rintro ⟨h1, h2, h3⟩
      exact ⟨(), h1, (), h2, _, ⟨_, he, rfl⟩, by rw [h3]⟩
  · simp only [if_neg hn, bind_ok_iff]
    constructor
    · rintro ⟨_, h1, _, h2, p, h3, h4⟩
      injection h3 with h3
      injection h4 with h4
      exact ⟨h1, h2, by rw [← h4, ← h3]⟩
    · rintro ⟨h1, h2, h3⟩
      exact ⟨(), h1, (), h2, _, rfl, by rw [h3]⟩

include ι K in
theorem wf_mk3 (s : String) : (if n = 0 then ⟨["d" ++ s], []⟩ else Poly.var ("d" ++ s) : Poly C).WF := by
  split_ifs
  · exact Poly.wf_empty (by simp)
  · exact Poly.wf_var (ι := ι) (K := K) _

include ι K in
theorem valid_mk3 {v : C} {s : String} (h : mk3 v s n = .ok r) : r.Valid := by
  obtain ⟨_, _, rfl⟩ := mk3_ok.mp h
  have hw := wf_mk3 (C := C) (ι := ι) (K := K) (n := n) s
  refine ⟨hw.add (Poly.wf_const v), Poly.deg_add hw (Poly.wf_const v) ?_ (Poly.deg_const v _)⟩
  intro t ht
  split_ifs at ht with h0
  · simp at ht
  · simp only [Poly.var, List.mem_singleton] at ht
    subst ht
    simp only [List.sum_cons, List.sum_nil]; omega

theorem toMv_mk3 {v : C} {s : String} (h : mk3 v s n = .ok r) (i : ι) :
    r.toMv i = MvPolynomial.C (Lanes.lane i v) + (if n = 0 then 0 else X ("d" ++ s)) := by
  obtain ⟨_, _, rfl⟩ := mk3_ok.mp h
  have hw := wf_mk3 (C := C) (ι := ι) (K := K) (n := n) s
  rw [GDual.toMv, Poly.toMv_add hw (Poly.wf_const v), Poly.toMv_const, add_comm]
  congr 1
  split_ifs
  · rfl
  · exact Poly.toMv_var _ _

theorem syms_mk3 {v : C} {s : String} (h : mk3 v s n = .ok r) : r.p.syms = ["d" ++ s] := by
  obtain ⟨_, _, rfl⟩ := mk3_ok.mp h
  split_ifs <;> rfl

theorem order_mk3 {v : C} {s : String} (h : mk3 v s n = .ok r) : r.order = n := by
  obtain ⟨_, _, rfl⟩ := mk3_ok.mp h
  rfl

/-! Calculus -/

theorem partial_ok {s : String} : d.partial' s = .ok r ↔
    (∃ c, s.toList.head? = some c ∧ c ≠ 'd') ∧ r = ⟨d.p.diff ("d" ++ s), d.order⟩ := by
  unfold partial'
  rw [bind_ok_iff, ← checkVarName_ok]
  constructor
  · rintro ⟨_, h1, h2⟩; injection h2 with h2; exact ⟨h1, h2.symm⟩
  · rintro ⟨h1, h2⟩; exact ⟨(), h1, by rw [h2]⟩

theorem valid_diff (hd : d.Valid) (s : String) : (⟨d.p.diff s, d.order⟩ : GDual C).Valid :=
  ⟨hd.wf.diff s, Poly.deg_diff hd.wf s (hd.mono_deg (Nat.le_succ _)) |> fun h t ht => h t ht⟩

theorem Valid.partial' {s : String} (hd : d.Valid) (h : d.partial' s = .ok r) : r.Valid := by
  obtain ⟨_, rfl⟩ := partial_ok.mp h
  exact valid_diff hd _

theorem toMv_partial {s : String} (hd : d.Valid) (h : d.partial' s = .ok r) (i : ι) :
    r.toMv i = pderiv ("d" ++ s) (d.toMv i) := by
  obtain ⟨_, rfl⟩ := partial_ok.mp h
  exact Poly.toMv_diff hd.wf _ i

theorem integrate_ok {s : String} : d.integrate s = .ok r ↔
    (∃ c, s.toList.head? = some c ∧ c ≠ 'd') ∧ r = ⟨(d.p.integrate ("d" ++ s)).truncate d.order, d.order⟩ := by
  unfold integrate
  rw [bind_ok_iff, ← checkVarName_ok]
  constructor
  · rintro ⟨_, h1, h2⟩; injection h2 with h2; exact ⟨h1, h2.symm⟩
  · rintro ⟨h1, h2⟩; exact ⟨(), h1, by rw [h2]⟩

theorem Valid.integrate {s : String} (hd : d.Valid) (h : d.integrate s = .ok r) : r.Valid := by
  obtain ⟨_, rfl⟩ := integrate_ok.mp h
  exact ⟨(hd.wf.integrate _).truncate _, Poly.deg_truncate _ _⟩

theorem coeff_integrate [CharZero K] {s : String} (hd : d.Valid) (h : d.integrate s = .ok r) (i : ι)
    (m : String →₀ ℕ) :
    coeff m (r.toMv i) = if m.degree ≤ d.order then
      (if m ("d" ++ s) = 0 then 0
        else coeff (m - Finsupp.single ("d" ++ s) 1) (d.toMv i) / (m ("d" ++ s) : K)) else 0 := by
  obtain ⟨_, rfl⟩ := integrate_ok.mp h
  rw [GDual.toMv, Poly.coeff_truncate (hd.wf.integrate _), Poly.coeff_integrate hd.wf]
  rfl

/-! Substitution -/

theorem Valid.subsVal (hd : d.Valid) (s : String) (v : C) : (d.subsVal s v).Valid :=
  ⟨hd.wf.subsVal s v, Poly.deg_subsVal hd.wf s v hd.deg⟩

theorem toMv_subsVal (hd : d.Valid) (s : String) (v : C) (i : ι) :
    (d.subsVal s v).toMv i = Poly.substMap s (MvPolynomial.C (Lanes.lane i v)) (d.toMv i) :=
  Poly.toMv_subsVal hd.wf s v i

include ι K in
theorem Valid.subs {g : GDual C} (hd : d.Valid) (hg : g.Valid) (s : String) : (d.subs s g).Valid := by
  have h1 := (hd.wf.subsPoly hg.wf s).truncate d.order
  have h2 := h1.trimSyms (ι := ι) (K := K)
  refine ⟨h2.1, ?_⟩
  refine (Poly.deg_iff (ι := ι) (K := K) h2.1).mpr fun i => ?_
  have h3 : Poly.toMv i (d.subs s g).p = _ := h2.2 i
  change DegLE d.order (Poly.toMv i (d.subs s g).p)
  rw [h3]
  exact Poly.degLE_toMv h1 (Poly.deg_truncate _ _) i

theorem coeff_subs {g : GDual C} (hd : d.Valid) (hg : g.Valid) (s : String) (i : ι) (m : String →₀ ℕ) :
    coeff m ((d.subs s g).toMv i) =
      if m.degree ≤ d.order then coeff m (Poly.substMap s (g.toMv i) (d.toMv i)) else 0 := by
  have h1 := (hd.wf.subsPoly hg.wf s).truncate d.order
  have h2 : (d.subs s g).toMv i = _ := (h1.trimSyms (ι := ι) (K := K)).2 i
  rw [h2, Poly.coeff_truncate (hd.wf.subsPoly hg.wf s), Poly.toMv_subsPoly hd.wf hg.wf]
  rfl

/-! Filters -/

theorem Valid.trim {C : Type} [CfOrd C] {d r : GDual C} {eps : ℚ} (hd : d.Valid) (h : d.trim eps = .ok r) :
    r.Valid := by
  unfold GDual.trim at h
  split_ifs at h
  injection h with h
  subst h
  exact ⟨hd.wf.filter _, fun t ht => hd.deg t (List.mem_of_mem_filter ht)⟩

theorem Valid.extractTerms {k : ℕ} (hd : d.Valid) (h : d.extractTerms k = .ok r) : r.Valid := by
  unfold GDual.extractTerms at h
  split_ifs at h
  injection h with h
  subst h
  refine ⟨hd.wf.filter _, fun t ht => le_of_eq ?_⟩
  exact of_decide_eq_true (List.mem_filter.mp ht).2

theorem coeff_extractTerms {k : ℕ} (hd : d.Valid) (h : d.extractTerms k = .ok r) (i : ι) (m : String →₀ ℕ) :
    coeff m (r.toMv i) = if m.degree = k then coeff m (d.toMv i) else 0 := by
  unfold GDual.extractTerms at h
  split_ifs at h
  injection h with h
  subst h
  refine Poly.coeff_den_filter i d.p.syms d.p.terms _ (fun m => m.degree = k) (fun x hx => ?_) m
  rw [degree_toExp (hd.wf.len x hx)]
  exact decide_eq_true_iff

end GDual
end Audi
