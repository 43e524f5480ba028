import Verif.Props.C46_TaylorModels
import Verif.Spec.Setters

/-! # C101: setters of Taylor models -/

namespace Audi
open TM

variable {K : Type} [Field K] [LinearOrder K]

theorem Change.book {tm : TM K} (c : Change K) (h : tm.order = tm.tpol.order ∧ tm.ndim = tm.tpol.p.syms.length) :
    (c.call tm).1.order = (c.call tm).1.tpol.order ∧ (c.call tm).1.ndim = (c.call tm).1.tpol.p.syms.length := by
  cases c with
  | tpol p => exact ⟨rfl, rfl⟩
  | rem I => exact h
  | exp e => exact h
  | dom d => exact h
  | extend vs e d =>
    unfold Change.call TM.extendSymbolSet
    simp only
    split
    · cases hg : tm.tpol.extendSymbolSet (vs.map fun v => "d" ++ v) with
      | error x => exact h
      | ok p =>
        obtain ⟨-, rfl⟩ := GDual.extendSymbolSet_ok.mp hg
        exact ⟨h.1, rfl⟩
    · exact h

theorem Change.check {tm : TM K} {c : Change K} (hc : c.Checks) (hok : (c.call tm).2 = .ok ()) (hn : (c.call tm).1.ndim = (c.call tm).1.tpol.p.syms.length) :
    checkInput (c.call tm).1.tpol.p.syms.length (c.call tm).1.exp (c.call tm).1.dom = .ok () := by
  cases c with
  | tpol p => exact hok
  | rem I => exact hc.elim
  | exp e => rw [← hn]; exact hok
  | dom d => rw [← hn]; exact hok
  | extend vs e d =>
    unfold Change.call TM.extendSymbolSet at *
    simp only at *
    split at hok
    · rename_i h1
      rw [if_pos h1] at hn ⊢
      cases hg : tm.tpol.extendSymbolSet (vs.map fun v => "d" ++ v) with
      | error x => rw [hg] at hok; simp at hok
      | ok p => rw [hg] at hok; exact hok
    · simp [logicError] at hok

/-- **C101** Order and number of variables are always those of the polynomial, whatever is called, whether calls throw or not. -/
theorem C101_bookkeeping {tm : TM K} (h : tm.order = tm.tpol.order ∧ tm.ndim = tm.tpol.p.syms.length) (cs : List (Change K)) :
    (tm.calls cs).order = (tm.calls cs).tpol.order ∧ (tm.calls cs).ndim = (tm.calls cs).tpol.p.syms.length := by
  induction cs generalizing tm with
  | nil => exact h
  | cons c cs ih => exact ih (Change.book c h)

/-- **C101** After any calls, even such that throw, a call that returns leaves a Taylor model that meets the checks (all but `set_rem`, which does not check anything). -/
theorem C101_checked {tm : TM K} (h : tm.order = tm.tpol.order ∧ tm.ndim = tm.tpol.p.syms.length) (cs : List (Change K)) {c : Change K} (hc : c.Checks)
    (hok : (c.call (tm.calls cs)).2 = .ok ()) : (tm.calls (cs ++ [c])).Checked := by
  have h1 := C101_bookkeeping h (cs ++ [c])
  have h2 : tm.calls (cs ++ [c]) = (c.call (tm.calls cs)).1 := by unfold calls; rw [List.foldl_append]; rfl
  rw [h2] at h1 ⊢
  obtain ⟨h3, h4, h5⟩ := checkInput_ok.mp (Change.check hc hok h1.2)
  exact ⟨h1.1, h1.2, h3, h4, h5⟩

/-- **C101** After any calls of setters, even such that throw, each part is the one that was set last: setters of different parts commute, and nothing else is changed. -/
theorem C101_last_write (tm : TM K) {cs : List (Change K)} (hs : ∀ c ∈ cs, c.IsSetter) :
    (tm.calls cs).tpol = lastTpol tm.tpol cs ∧ (tm.calls cs).rem = lastRem tm.rem cs ∧ (tm.calls cs).exp = lastExp tm.exp cs ∧ (tm.calls cs).dom = lastDom tm.dom cs := by
  induction cs generalizing tm with
  | nil => exact ⟨rfl, rfl, rfl, rfl⟩
  | cons c cs ih =>
    obtain ⟨h1, h2, h3, h4⟩ := ih (c.call tm).1 fun c' hc' => hs c' (List.mem_cons_of_mem _ hc')
    have h5 : tm.calls (c :: cs) = (c.call tm).1.calls cs := rfl
    rw [h5, h1, h2, h3, h4]
    have h6 := hs c (List.mem_cons_self ..)
    cases c with
    | extend vs e d => exact h6.elim
    | tpol p => exact ⟨rfl, rfl, rfl, rfl⟩
    | rem p => exact ⟨rfl, rfl, rfl, rfl⟩
    | exp p => exact ⟨rfl, rfl, rfl, rfl⟩
    | dom p => exact ⟨rfl, rfl, rfl, rfl⟩

/-- **C101** As long as no setter throws, the number of variables cannot change. -/
theorem C101_same_size {tm : TM K} (h : tm.Checked) {cs : List (Change K)} (hs : ∀ c ∈ cs, c.IsSetter) (hok : tm.AllOk cs) : (tm.calls cs).ndim = tm.ndim := by
  have hd : tm.dom.length = tm.ndim := h.size.trans h.ndim.symm
  clear h
  induction cs generalizing tm with
  | nil => rfl
  | cons c cs ih =>
    have h1 : (c.call tm).1.ndim = tm.ndim ∧ (c.call tm).1.dom.length = tm.ndim := by
      have h6 := hs c (List.mem_cons_self ..)
      cases c with
      | extend vs e d => exact h6.elim
      | tpol p =>
        have h2 := (checkInput_ok.mp hok.1).2.2
        exact ⟨h2.symm.trans hd, hd⟩
      | rem p => exact ⟨rfl, hd⟩
      | exp p => exact ⟨rfl, hd⟩
      | dom p => exact ⟨rfl, (checkInput_ok.mp hok.1).2.2⟩
    exact (ih (fun c' hc' => hs c' (List.mem_cons_of_mem _ hc')) hok.2 (h1.2.trans h1.1.symm)).trans h1.1

theorem WF.check {tm : TM K} (h : tm.WF) : checkInput tm.tpol.p.syms.length tm.exp tm.dom = .ok () := by
  have := (make_wf h.parts).1
  unfold make at this
  rw [bind_ok_iff] at this
  obtain ⟨_, h2, -⟩ := this
  exact h2

/-- **C101** A Taylor model is turned into any other, with any number of variables, by setters called in any order, if exceptions are ignored: it is enough that the parts set last are
those of the other one. The last call returns. -/
theorem C101_replace {tm t : TM K} (h : tm.order = tm.tpol.order ∧ tm.ndim = tm.tpol.p.syms.length) (ht : t.WF) {cs : List (Change K)} (hs : ∀ c ∈ cs, c.IsSetter)
    (h1 : lastTpol tm.tpol cs = t.tpol) (h2 : lastRem tm.rem cs = t.rem) (h3 : lastExp tm.exp cs = t.exp) (h4 : lastDom tm.dom cs = t.dom) :
    tm.calls cs = t ∧ ∀ cs' c, cs = cs' ++ [c] → (c.call (tm.calls cs')).2 = .ok () := by
  obtain ⟨g1, g2, g3, g4⟩ := C101_last_write tm hs
  obtain ⟨g5, g6⟩ := C101_bookkeeping h cs
  have he : tm.calls cs = t := by
    have g7 := ht.order
    have g8 := ht.ndim
    rw [h1] at g1; rw [h2] at g2; rw [h3] at g3; rw [h4] at g4
    rw [g1] at g5 g6
    generalize tm.calls cs = r at *
    obtain ⟨a1, a2, a3, a4, a5, a6⟩ := r
    obtain ⟨b1, b2, b3, b4, b5, b6⟩ := t
    simp only at *
    subst g1 g2 g3 g4 g5 g6 g7 g8
    rfl
  refine ⟨he, fun cs' c hc => ?_⟩
  have g9 := C101_bookkeeping h cs'
  have h5 : (c.call (tm.calls cs')).1 = t := by rw [← he, hc]; unfold calls; rw [List.foldl_append]; rfl
  have h6 := WF.check ht
  have h7 := hs c (by rw [hc]; simp)
  subst h5
  cases c with
  | extend vs e d => exact h7.elim
  | tpol p => exact h6
  | rem p => rfl
  | exp p => exact (congrArg (fun n => checkInput n _ _) g9.2).trans h6
  | dom p => exact (congrArg (fun n => checkInput n _ _) g9.2).trans h6

/-- **C101** The old value can be put back: when a setter has thrown, the Taylor model is restored by setting the part that it had before. -/
theorem C101_restore {tm : TM K} (h : tm.WF) :
    (∀ p, (tm.setTpol p).1.setTpol tm.tpol = (tm, .ok ())) ∧ (∀ e, (tm.setExp e).1.setExp tm.exp = (tm, .ok ())) ∧ (∀ d, (tm.setDom d).1.setDom tm.dom = (tm, .ok ())) := by
  have h1 := WF.check h
  have h2 := h.ndim
  have h3 := h.order
  obtain ⟨p0, o, n, r, e0, d0⟩ := tm
  simp only at h1 h2 h3
  subst h2 h3
  exact ⟨fun p => Prod.ext rfl h1, fun e => Prod.ext rfl h1, fun d => Prod.ext rfl h1⟩

/-- **C101** A smaller domain that contains the expansion point is accepted, and every function enclosed stays so. -/
theorem C101_restrict {tm : TM K} (h : tm.WF) {d : VMap (Itv K)} (hk : (d.map Prod.fst).Perm (tm.dom.map Prod.fst))
    (hi : ∀ e ∈ d, ∃ x, (e.1, x) ∈ tm.exp ∧ Spec.InItv e.2 x) (hsub : ∀ x : String → K, (∀ e ∈ d, Spec.InItv e.2 (x e.1)) → tm.InDom x) {F : (String → K) → K}
    (hF : tm.Encloses {x | tm.InDom x} F) : ∃ r, tm.setDom d = (r, .ok ()) ∧ r.WF ∧ r.Encloses {x | r.InDom x} F := by
  have hw : ({ tm with dom := d } : TM K).WF := ⟨h.valid, h.names, h.order, h.ndim, h.expKeys, hk.trans h.domKeys, hi, h.rem⟩
  refine ⟨{ tm with dom := d }, Prod.ext rfl ?_, hw, fun x hx => hF x (hsub x hx)⟩
  exact (congrArg (fun n => checkInput n tm.exp d) h.ndim).trans (WF.check hw)

/-- **C101** A larger remainder can be set without losing functions. -/
theorem C101_widen {tm : TM K} (h : tm.WF) {I : Itv K} (h1 : I.lo ≤ tm.rem.lo) (h2 : tm.rem.hi ≤ I.hi) {D : Set (String → K)} {F : (String → K) → K} (hF : tm.Encloses D F) :
    (tm.setRem I).WF ∧ (tm.setRem I).Encloses D F :=
  ⟨⟨h.valid, h.names, h.order, h.ndim, h.expKeys, h.domKeys, h.inside, h1.trans (h.rem.trans h2)⟩, fun x hx => ⟨h1.trans (hF x hx).1, (hF x hx).2.trans h2⟩⟩

/-- **C101** (the claim that setters leave a well formed Taylor model when they return is false) `set_tpol` accepts a polynomial in other variables, if there are as many of them; bounds of the
Taylor model throw afterwards. -/
theorem C101_names_counterexample : ∃ r : TM ℚ, Ex.tx.setTpol Ex.ty.tpol = (r, .ok ()) ∧ r.bounds id = .error .outOfRange ∧ ¬ r.WF := by
  refine ⟨{ Ex.tx with tpol := Ex.ty.tpol, order := 3 }, by decide +kernel, by decide +kernel, fun h => ?_⟩
  have := h.expKeys.mem_iff (a := "x")
  revert this
  decide +kernel

/-- **C101** (the claim that setters leave the Taylor model as it was when they throw is false) -/
theorem C101_throw_counterexample : ∃ r : TM ℚ, Ex.tx.setDom [("x", ⟨5, 6⟩)] = (r, .error .invalidArgument) ∧ r ≠ Ex.tx ∧ ¬ r.Checked :=
  ⟨{ Ex.tx with dom := [("x", ⟨5, 6⟩)] }, by decide +kernel, by decide +kernel, fun h => by
    obtain ⟨x, h1, h2⟩ := h.inside ("x", ⟨5, 6⟩) (by simp)
    have h3 : x = 2 := (Option.some.inj (h1.symm.trans (by decide +kernel : List.lookup "x" [("x", (2 : ℚ))] = some 2)))
    subst h3
    exact absurd h2.1 (by decide +kernel)⟩

theorem tx_checked : Ex.tx.Checked := ⟨rfl, rfl, fun _ => Iff.rfl, fun e he => by
  simp only [Ex.tx, List.mem_cons, List.not_mem_nil, or_false] at he
  subst he
  exact ⟨2, by decide +kernel, by decide +kernel⟩, rfl⟩

/-- Turning `x` into `y`: the first call returns, the second throws. -/
example : Ex.tx.calls [.rem Ex.ty.rem, .tpol Ex.ty.tpol, .exp Ex.ty.exp, .dom Ex.ty.dom] = Ex.ty ∧ (Change.call (Ex.tx.calls [.tpol Ex.ty.tpol]) (.exp Ex.ty.exp)).2 ≠ .ok () :=
  ⟨(C101_replace ⟨rfl, rfl⟩ Ex.ty_wf (by intro c hc; simp only [List.mem_cons, List.not_mem_nil, or_false] at hc; rcases hc with rfl | rfl | rfl | rfl <;> trivial) rfl rfl rfl rfl).1,
    by decide +kernel⟩

example : (Ex.tx.calls [.dom [("x", ⟨0, 9⟩)]]).Checked := C101_checked (cs := []) (c := .dom [("x", ⟨0, 9⟩)]) ⟨rfl, rfl⟩ trivial (by decide +kernel)

example : (Ex.tx.calls [.dom [("x", ⟨0, 9⟩)], .exp [("x", 7)]]).ndim = 1 :=
  C101_same_size tx_checked (by intro c hc; simp only [List.mem_cons, List.not_mem_nil, or_false] at hc; rcases hc with rfl | rfl <;> trivial)
    ⟨by decide +kernel, by decide +kernel, trivial⟩

example : ∃ r, Ex.tx.setDom [("x", ⟨2, 3⟩)] = (r, .ok ()) ∧ r.WF ∧ r.Encloses {x | r.InDom x} Ex.tx.polyAt := by
  refine C101_restrict Ex.tx_wf (d := [("x", ⟨2, 3⟩)]) (List.Perm.refl ["x"]) ?_ ?_ ?_
  · intro e he
    simp only [List.mem_cons, List.not_mem_nil, or_false] at he
    subst he
    exact ⟨2, by decide +kernel, by decide +kernel⟩
  · intro x hx e he
    have h1 := hx ("x", ⟨2, 3⟩) (by simp)
    simp only [Ex.tx, List.mem_cons, List.not_mem_nil, or_false] at he
    subst he
    exact ⟨le_trans (by decide +kernel) h1.1, h1.2⟩
  · intro x _
    unfold Allows
    rw [sub_self]
    exact ⟨le_refl _, zero_le_one⟩

end Audi
