import Verif.Proofs.Archive
import Verif.Proofs.XF
import Verif.Proofs.GDual

/-! # C105: archives and pickles -/

namespace Audi
open Archive

/-- **C105.** Every `double` which is a number (normal, subnormal or zero), written with 17 digits after the point, is read again as the same number, and the reader stops behind it. -/
theorem C105_double {x : XF .binary64} (hx : ¬ NonFinite x) (rest : List Char) :
    getDouble (putDouble x ++ ' ' :: rest) = some (x, ' ' :: rest) ∧ getDouble (putDouble x) = some (x, []) := by
  obtain ⟨q, hq⟩ : ∃ q, x.v = .fin q := by unfold NonFinite at hx; push Not at hx; exact hx
  refine ⟨getDouble_put hq rfl, ?_⟩
  have := getDouble_put hq (rest := []) trivial
  rwa [List.append_nil] at this

theorem readable_double {x : XF .binary64} (hx : ¬ NonFinite x) : Readable x := by
  obtain ⟨q, hq⟩ : ∃ q, x.v = .fin q := by unfold NonFinite at hx; push Not at hx; exact hx
  exact fun r hr => ⟨getDouble_put hq hr.stop, rfl⟩

theorem readable_vec {T : Type} [Archived T] {v : Vec T} (h : ∀ x ∈ v.c, Readable x) : Readable v := by
  intro r hr
  obtain ⟨h1, h2⟩ := getMany_put (get := Archived.get) (put := Archived.put) (l := v.c) (fun x hx r hr => h x hx r hr) hr
  refine ⟨?_, rfl⟩
  change (do
    let (n, cs) ← getNat (putNat v.c.length ++ (putNat 0 ++ v.c.flatMap Archived.put) ++ r)
    let (_, cs) ← getNat cs
    let (l, cs) ← getMany Archived.get n cs
    some ((⟨l⟩ : Vec T), cs)) = _
  rw [List.append_assoc, List.append_assoc, getNat_put _ (show Stop (putNat 0 ++ _) from rfl)]
  simp only [Option.bind_eq_bind, Option.bind_some, getNat_put _ h2.stop, h1]

section
variable {C : Type} [Archived C] {d : GDual C}

theorem load_dump (hl : ∀ t ∈ d.p.terms, t.1.length = d.p.syms.length) (hc : ∀ t ∈ d.p.terms, Readable t.2) {rest : List Char} (hr : Sep rest) :
    load (dump d ++ rest) = some d := by
  obtain ⟨h1, h2⟩ := getGDual_put hl hc hr
  unfold load dump
  rw [List.append_assoc, getHeader_put h2]
  simp only [Option.bind_eq_bind, Option.bind_some, h1]

end

/-- **C105** (partial: all coefficients are numbers). A gdual written to a text archive and read from it, or pickled, is the same: symbols, terms, coefficients and order, also if the archive goes on. -/
theorem C105_round_trip_partial {d : GDual (XF .binary64)} (hd : d.p.WF) (hc : ∀ t ∈ d.p.terms, ¬ NonFinite t.2) (rest : List Char) :
    load (dump d) = some d ∧ load (dump d ++ ' ' :: rest) = some d ∧ setstate (getstate d) = some d := by
  have hr := fun t ht => readable_double (hc t ht)
  have h1 : load (dump d) = some d := by
    have := load_dump hd.len hr (rest := []) trivial
    rwa [List.append_nil] at this
  exact ⟨h1, load_dump hd.len hr rfl, h1⟩

/-- **C105** (states of another form). `__setstate__` raises for tuples that do not have exactly one entry. -/
theorem C105_state {C : Type} [Archived C] (l : List (List Char)) (h : l.length ≠ 1) : setstate l = (none : Option (GDual C)) := by
  match l, h with
  | [], _ => rfl
  | [_], h => exact absurd rfl h
  | _ :: _ :: _, _ => rfl

/-- **C105** (partial: all coefficients are numbers). The same for gduals with vectorized coefficients of any size. -/
theorem C105_vectorized_partial {d : GDual (Vec (XF .binary64))} (hl : ∀ t ∈ d.p.terms, t.1.length = d.p.syms.length) (hc : ∀ t ∈ d.p.terms, ∀ x ∈ t.2.c, ¬ NonFinite x) :
    load (dump d) = some d ∧ setstate (getstate d) = some d := by
  have h1 : load (dump d) = some d := by
    have := load_dump hl (fun t ht => readable_vec fun x hx => readable_double (hc t ht x hx)) (rest := []) trivial
    rwa [List.append_nil] at this
  exact ⟨h1, h1⟩

/-- **C105** (partial: all coefficients are numbers). Several gduals written one after the other into one archive are read in the same order. -/
theorem C105_sequence_partial {l : List (GDual (XF .binary64))} (hl : ∀ d ∈ l, d.p.WF) (hc : ∀ d ∈ l, ∀ t ∈ d.p.terms, ¬ NonFinite t.2) :
    ((getHeader (header ++ l.flatMap putGDual)).bind fun cs => getMany getGDual l.length cs) = some (l, []) := by
  obtain ⟨h1, h2⟩ := getMany_put (get := getGDual) (put := putGDual) (l := l) (rest := [])
    (fun d hd r hr => getGDual_put (hl d hd).len (fun t ht => readable_double (hc d hd t ht)) hr) trivial
  rw [List.append_nil] at h1 h2
  rw [getHeader_put h2, Option.bind_some, h1]

theorem getDouble_nonFinite {x : XF .binary64} (hx : NonFinite x) (rest : List Char) : getDouble (putDouble x ++ rest) = none := by
  unfold putDouble doubleChars
  rcases (nonFinite_iff x).mp hx with h | ⟨s, h⟩
  · rw [h]; rfl
  · rw [h]; cases s <;> rfl

theorem getMany_fail {α : Type} {get : List Char → Option (α × List Char)} {put : α → List Char} {l : List α} {rest : List Char}
    (h : ∀ x ∈ l, (∀ r, Sep r → get (put x ++ r) = some (x, r)) ∨ ∀ r, get (put x ++ r) = none) (hs : ∀ x ∈ l, ∀ r, Sep r → Sep (put x ++ r)) (hr : Sep rest)
    (hb : ∃ x ∈ l, ∀ r, get (put x ++ r) = none) : getMany get l.length (l.flatMap put ++ rest) = none := by
  have hsep : ∀ l : List α, (∀ x ∈ l, ∀ r, Sep r → Sep (put x ++ r)) → Sep (l.flatMap put ++ rest) := fun l hl => by
    induction l with
    | nil => exact hr
    | cons x l ih =>
      rw [List.flatMap_cons, List.append_assoc]
      exact hl x (by simp) _ (ih fun y hy => hl y (List.mem_cons_of_mem _ hy))
  induction l with
  | nil => obtain ⟨x, hx, -⟩ := hb; simp at hx
  | cons x l ih =>
    rw [List.flatMap_cons, List.append_assoc, List.length_cons, getMany]
    rcases h x (by simp) with h1 | h1
    · by_cases hx : ∀ r, get (put x ++ r) = none
      · rw [hx]; rfl
      · rw [h1 _ (hsep l fun y hy => hs y (List.mem_cons_of_mem _ hy))]
        simp only [Option.bind_eq_bind, Option.bind_some]
        rw [ih (fun y hy => h y (List.mem_cons_of_mem _ hy)) (fun y hy => hs y (List.mem_cons_of_mem _ hy))]
        · rfl
        · obtain ⟨y, hy, h2⟩ := hb
          rcases List.mem_cons.mp hy with rfl | hy
          · exact absurd h2 hx
          · exact ⟨y, hy, h2⟩
    · rw [h1]; rfl

/-- **C105.** A gdual with a coefficient that is NaN or infinite is written without an error, but what is written cannot be read: reading throws. -/
theorem C105_nonfinite {d : GDual (XF .binary64)} (hd : d.p.WF) (hc : ∃ t ∈ d.p.terms, NonFinite t.2) : load (dump d) = (none : Option (GDual (XF .binary64))) ∧
    setstate (getstate d) = (none : Option (GDual (XF .binary64))) := by
  have hterm : ∀ t ∈ d.p.terms, NonFinite t.2 → ∀ r, getTerm d.p.syms.length (putTerm t ++ r) = none := fun t ht hn r => by
    obtain ⟨h3, h4⟩ := getMany_put (get := getNat) (put := putNat) (l := t.1) (rest := putDouble t.2 ++ r) (fun x _ r hr => ⟨getNat_put x hr.stop, rfl⟩) rfl
    unfold getTerm putTerm
    rw [List.append_assoc, ← hd.len t ht]
    change (do
      let (e, cs) ← getMany getNat t.1.length (t.1.flatMap putNat ++ (putDouble t.2 ++ r))
      let (c, cs) ← getDouble cs
      some ((e, c), cs)) = none
    rw [h3]
    simp only [Option.bind_eq_bind, Option.bind_some, getDouble_nonFinite hn, Option.bind_none]
  have hsep : ∀ t ∈ d.p.terms, ∀ r, Sep r → Sep (putTerm t ++ r) := fun t _ r hr => by
    unfold putTerm
    rw [List.append_assoc]
    exact (getMany_put (get := getNat) (put := putNat) (l := t.1) (rest := putDouble t.2 ++ r) (fun x _ r hr => ⟨getNat_put x hr.stop, rfl⟩) rfl).2
  have hmany := getMany_fail (get := getTerm d.p.syms.length) (put := putTerm) (l := d.p.terms) (rest := putNat d.order) (fun t ht => by
    by_cases hn : NonFinite t.2
    · exact Or.inr (hterm t ht hn)
    · exact Or.inl fun r hr => by rw [← hd.len t ht]; exact (getTerm_put (readable_double hn) hr).1) hsep (by rw [← List.append_nil (putNat _)]; exact sep_putNat _ _) (by
    obtain ⟨t, ht, hn⟩ := hc
    exact ⟨t, ht, hterm t ht hn⟩)
  have hlist : getList (getTerm d.p.syms.length) (putList putTerm d.p.terms ++ putNat d.order) = (none : Option (List (List ℕ × XF .binary64) × List Char)) := by
    unfold getList putList
    rw [List.append_assoc, getNat_put]
    · simp only [Option.bind_eq_bind, Option.bind_some, hmany]
    · have : ∀ l : List (List ℕ × XF .binary64), (∀ x ∈ l, ∀ r, Sep r → Sep (putTerm x ++ r)) → Sep (l.flatMap putTerm ++ putNat d.order) := fun l hl => by
        induction l with
        | nil => exact rfl
        | cons x l ih =>
          rw [List.flatMap_cons, List.append_assoc]
          exact hl x (by simp) _ (ih fun y hy => hl y (List.mem_cons_of_mem _ hy))
      exact (this _ hsep).stop
  have h1 : load (dump d) = (none : Option (GDual (XF .binary64))) := by
    obtain ⟨h3, h4⟩ := getList_put (get := getString) (put := putString) (l := d.p.syms) (rest := putList putTerm d.p.terms ++ putNat d.order) (fun s _ r _ => ⟨getString_put s r, rfl⟩) rfl
    unfold load dump putGDual putPoly
    rw [List.append_assoc, getHeader_put h4]
    simp only [Option.bind_eq_bind, Option.bind_some]
    unfold getGDual getPoly
    rw [h3]
    simp only [Option.bind_eq_bind, Option.bind_some, hlist, Option.bind_none]
  exact ⟨h1, h1⟩

/-- **C105** (against the code). The round trip fails for a valid gdual: the constant infinity. -/
theorem C105_counterexample : ∃ d : GDual (XF .binary64), d.Valid ∧ load (dump d) ≠ some d ∧ load (dump d) = (none : Option (GDual (XF .binary64))) := by
  have hz : Cf.isZero (XF.inf .binary64 false) = false := absorbing_nonFinite.nz _ (by intro q h; cases h)
  have hv : (GDual.ofCf (XF.inf .binary64 false)).Valid := ⟨Poly.wf_const _, by simp [GDual.ofCf, Poly.const, Poly.insertTerm, hz, Poly.keyDegree]⟩
  have h := (C105_nonfinite hv.wf ⟨([], XF.inf .binary64 false), by simp [GDual.ofCf, Poly.const, Poly.insertTerm, hz], by intro q h; cases h⟩).1
  exact ⟨_, hv, by rw [h]; simp, h⟩

/-- The variable `x` at 1, order 2. -/
example : ∃ d : GDual (XF .binary64), d.p.WF ∧ (∀ t ∈ d.p.terms, ¬ NonFinite t.2) ∧ d.p.terms.length = 2 := by
  refine ⟨⟨⟨["dx"], [([1], Cf.one), ([0], Cf.one)]⟩, 2⟩, ?_, ?_, rfl⟩
  · exact ⟨by simp, by simp, by simp, by simp [XF.isZero_one]⟩
  · simp only [List.mem_cons, List.not_mem_nil, or_false]
    rintro t (rfl | rfl) <;> exact fun h => h 1 XF.one_v

end Audi
