import Verif.Props.C101_Setters
import Verif.Model.Python

/-! # C102: what Python variables refer to -/

namespace Audi
open PySt

variable {K : Type} [Field K] [LinearOrder K]

/-- The statement changes an object in place only if no variable refers to a member of it: no variable refers into the Taylor model that is changed, and a gdual whose symbol set is extended is not
the polynomial of a Taylor model. -/
def PyStmt.SafeIn (s : PySt K) : PyStmt K → Prop
  | change t _ _ => ∀ a, s.env t = some (.own a) → ∀ x r, s.env x = some r → r.Inside → r.addr ≠ a
  | extend x _ => ∀ r, s.env x = some r → ¬ r.Inside
  | _ => True

/-- All statements of the program are such, where they are executed. -/
def PySt.Safe (s : PySt K) : List (PyStmt K) → Prop
  | [] => True
  | p :: ps => p.SafeIn s ∧ (s.step true p).1.Safe ps

/-- References that lead to the same value, in the two ways to execute programs. -/
inductive RefRel (φ : ℕ → ℕ) (h1 h2 : List (PyObj K)) : PyRef → PyRef → Prop
  | own (a : ℕ) (ha : a < h1.length) : RefRel φ h1 h2 (.own a) (.own (φ a))
  | inside (r : PyRef) (b : ℕ) (hr : r.Inside) (hb : b < h2.length) (hn : ∀ a < h1.length, φ a ≠ b) (o : PyObj K) (h2b : h2[b]? = some o) (h1r : deref h1 r = some o) :
      RefRel φ h1 h2 r (.own b)

/-- States that agree. -/
structure StRel (φ : ℕ → ℕ) (s1 s2 : PySt K) : Prop where
  inj : ∀ a < s1.heap.length, ∀ b < s1.heap.length, φ a = φ b → a = b
  heap : ∀ a < s1.heap.length, φ a < s2.heap.length ∧ s2.heap[φ a]? = s1.heap[a]?
  env : ∀ x, (s1.env x = none ∧ s2.env x = none) ∨ ∃ r1 r2, s1.env x = some r1 ∧ s2.env x = some r2 ∧ RefRel φ s1.heap s2.heap r1 r2

omit [Field K] [LinearOrder K] in
theorem RefRel.deref {φ : ℕ → ℕ} {s1 s2 : PySt K} (h : StRel φ s1 s2) {r1 r2 : PyRef} (hr : RefRel φ s1.heap s2.heap r1 r2) : deref s2.heap r2 = deref s1.heap r1 := by
  cases hr with
  | own a ha => exact (h.heap a ha).2
  | inside _ b hr hb hn o h2b h1r => rw [h1r]; exact h2b

omit [Field K] [LinearOrder K] in
theorem StRel.value {φ : ℕ → ℕ} {s1 s2 : PySt K} (h : StRel φ s1 s2) (x : String) : s2.value x = s1.value x := by
  unfold PySt.value
  rcases h.env x with ⟨h1, h2⟩ | ⟨r1, r2, h1, h2, h3⟩
  · rw [h1, h2]; rfl
  · rw [h1, h2]; exact h3.deref h

omit [Field K] [LinearOrder K] in
theorem StRel.values {φ : ℕ → ℕ} {s1 s2 : PySt K} (h : StRel φ s1 s2) (ys : List String) : ys.mapM s2.value = ys.mapM s1.value := by
  rw [show s2.value = s1.value from _root_.funext h.value]

omit [Field K] [LinearOrder K] in
theorem deref_append {h : List (PyObj K)} {r : PyRef} {o : PyObj K} (hr : deref h r = some o) (l : List (PyObj K)) : deref (h ++ l) r = some o := by
  have key : ∀ {a : ℕ} {u : PyObj K}, h[a]? = some u → (h ++ l)[a]? = some u := fun {a u} hu => by
    rw [List.getElem?_append_left (List.getElem?_eq_some_iff.mp hu).1, hu]
  cases r with
  | own a => exact key hr
  | tpol a =>
    unfold deref at hr ⊢
    simp only at hr ⊢
    cases hu : h[a]? with
    | none => rw [hu] at hr; simp at hr
    | some u => rw [hu] at hr; rw [key hu]; exact hr
  | rem a =>
    unfold deref at hr ⊢
    simp only at hr ⊢
    cases hu : h[a]? with
    | none => rw [hu] at hr; simp at hr
    | some u => rw [hu] at hr; rw [key hu]; exact hr

omit [Field K] [LinearOrder K] in
theorem deref_set {h : List (PyObj K)} {r : PyRef} {a : ℕ} (hr : r.addr ≠ a) (o : PyObj K) : deref (h.set a o) r = deref h r := by
  cases r with
  | own b => exact List.getElem?_set_ne (fun e => hr e.symm)
  | tpol b => unfold deref; simp only; rw [List.getElem?_set_ne (show a ≠ b from fun e => hr e.symm)]
  | rem b => unfold deref; simp only; rw [List.getElem?_set_ne (show a ≠ b from fun e => hr e.symm)]

omit [Field K] [LinearOrder K] in
theorem StRel.alloc {φ : ℕ → ℕ} {s1 s2 : PySt K} (h : StRel φ s1 s2) (x : String) (o : PyObj K) :
    StRel (Function.update φ s1.heap.length s2.heap.length) (s1.alloc x o) (s2.alloc x o) := by
  have hlt : ∀ a < s1.heap.length, Function.update φ s1.heap.length s2.heap.length a = φ a := fun a ha => Function.update_of_ne (ne_of_lt ha) _ _
  refine ⟨fun a ha b hb hab => ?_, fun a ha => ?_, fun y => ?_⟩
  · simp only [PySt.alloc, List.length_append, List.length_singleton] at ha hb
    rcases Nat.lt_succ_iff_lt_or_eq.mp ha with ha | rfl <;> rcases Nat.lt_succ_iff_lt_or_eq.mp hb with hb | rfl
    · rw [hlt a ha, hlt b hb] at hab; exact h.inj a ha b hb hab
    · rw [hlt a ha, Function.update_self] at hab; exact absurd hab (ne_of_lt (h.heap a ha).1)
    · rw [hlt b hb, Function.update_self] at hab; exact absurd hab.symm (ne_of_lt (h.heap b hb).1)
    · rfl
  · simp only [PySt.alloc, List.length_append, List.length_singleton] at ha ⊢
    rcases Nat.lt_succ_iff_lt_or_eq.mp ha with ha | rfl
    · rw [hlt a ha, List.getElem?_append_left ha, List.getElem?_append_left (h.heap a ha).1]
      exact ⟨(h.heap a ha).1.trans (Nat.lt_succ_self _), (h.heap a ha).2⟩
    · rw [Function.update_self]
      refine ⟨Nat.lt_succ_self _, ?_⟩
      simp
  · by_cases hy : y = x
    · subst hy
      refine Or.inr ⟨_, _, Function.update_self .., Function.update_self .., ?_⟩
      have := RefRel.own (φ := Function.update φ s1.heap.length s2.heap.length) (h1 := (s1.alloc y o).heap) (h2 := (s2.alloc y o).heap) s1.heap.length (by simp [PySt.alloc])
      rwa [Function.update_self] at this
    · simp only [PySt.alloc, Function.update_of_ne hy]
      rcases h.env y with h1 | ⟨r1, r2, h1, h2, h3⟩
      · exact Or.inl h1
      · refine Or.inr ⟨r1, r2, h1, h2, ?_⟩
        cases h3 with
        | own a ha =>
          rw [← hlt a ha]
          exact .own a (by simp; omega)
        | inside _ b hr hb hn u h2b h1r =>
          refine .inside _ b hr (by simp; omega) (fun a ha => ?_) u (by rw [List.getElem?_append_left hb]; exact h2b) (deref_append h1r _)
          simp only [List.length_append, List.length_singleton] at ha
          rcases Nat.lt_succ_iff_lt_or_eq.mp ha with ha | rfl
          · rw [hlt a ha]; exact hn a ha
          · rw [Function.update_self]; exact ne_of_gt hb

omit [Field K] [LinearOrder K] in
theorem StRel.bindVar {φ : ℕ → ℕ} {s1 s2 : PySt K} (h : StRel φ s1 s2) (x : String) {r1 r2 : PyRef} (hr : RefRel φ s1.heap s2.heap r1 r2) :
    StRel φ (s1.bindVar x r1) (s2.bindVar x r2) := by
  refine ⟨h.inj, h.heap, fun y => ?_⟩
  by_cases hy : y = x
  · subst hy; exact Or.inr ⟨r1, r2, Function.update_self .., Function.update_self .., hr⟩
  · simp only [PySt.bindVar, Function.update_of_ne hy]; exact h.env y

omit [Field K] [LinearOrder K] in
/-- Reading a member: a reference in one state, a copy in the other. -/
theorem StRel.get {φ : ℕ → ℕ} {s1 s2 : PySt K} (h : StRel φ s1 s2) (x : String) {r : PyRef} (hr : r.Inside) {o : PyObj K} (ho : deref s1.heap r = some o) :
    StRel φ (s1.bindVar x r) (s2.alloc x o) := by
  refine ⟨h.inj, fun a ha => ?_, fun y => ?_⟩
  · simp only [PySt.alloc, List.length_append, List.length_singleton]
    rw [List.getElem?_append_left (h.heap a ha).1]
    exact ⟨(h.heap a ha).1.trans (Nat.lt_succ_self _), (h.heap a ha).2⟩
  · by_cases hy : y = x
    · subst hy
      refine Or.inr ⟨_, _, Function.update_self .., Function.update_self .., .inside r s2.heap.length hr (by simp [PySt.alloc]) (fun a ha => ne_of_lt (h.heap a ha).1) o (by simp [PySt.alloc]) ho⟩
    · simp only [PySt.alloc, PySt.bindVar, Function.update_of_ne hy]
      rcases h.env y with h1 | ⟨r1, r2, h1, h2, h3⟩
      · exact Or.inl h1
      · refine Or.inr ⟨r1, r2, h1, h2, ?_⟩
        cases h3 with
        | own a ha => exact .own a ha
        | inside _ b hr hb hn u h2b h1r => exact .inside _ b hr (by simp; omega) hn u (by rw [List.getElem?_append_left hb]; exact h2b) h1r

omit [Field K] [LinearOrder K] in
/-- Changing an object into which no variable refers. -/
theorem StRel.set {φ : ℕ → ℕ} {s1 s2 : PySt K} (h : StRel φ s1 s2) {a : ℕ} (ha : a < s1.heap.length) (o : PyObj K)
    (hs : ∀ x r, s1.env x = some r → r.Inside → r.addr ≠ a) : StRel φ ⟨s1.heap.set a o, s1.env⟩ ⟨s2.heap.set (φ a) o, s2.env⟩ := by
  refine ⟨fun b hb c hc => h.inj b (by simpa using hb) c (by simpa using hc), fun b hb => ?_, fun y => ?_⟩
  · simp only [List.length_set] at hb ⊢
    refine ⟨(h.heap b hb).1, ?_⟩
    by_cases hba : b = a
    · subst hba; rw [List.getElem?_set_self hb, List.getElem?_set_self (h.heap b hb).1]
    · rw [List.getElem?_set_ne (fun e => hba e.symm), List.getElem?_set_ne (fun e => hba (h.inj b hb a ha e.symm))]
      exact (h.heap b hb).2
  · rcases h.env y with h1 | ⟨r1, r2, h1, h2, h3⟩
    · exact Or.inl h1
    · refine Or.inr ⟨r1, r2, h1, h2, ?_⟩
      cases h3 with
      | own b hb => exact .own b (by simpa using hb)
      | inside _ b hr hb hn u h2b h1r =>
        refine .inside _ b hr (by simpa using hb) (fun c hc => hn c (by simpa using hc)) u ?_ ?_
        · rw [List.getElem?_set_ne (hn a ha)]; exact h2b
        · rw [deref_set (hs y _ h1 hr)]; exact h1r

omit [Field K] [LinearOrder K] in
theorem inside_not_tm {h : List (PyObj K)} {r : PyRef} (hr : r.Inside) {t : TM K} : deref h r ≠ some (.tm t) := by
  cases r with
  | own a => exact hr.elim
  | tpol a => unfold deref; simp only; split <;> simp
  | rem a => unfold deref; simp only; split <;> simp

/-- Shape of related variables. -/
theorem StRel.cases {φ : ℕ → ℕ} {s1 s2 : PySt K} (h : StRel φ s1 s2) (x : String) : (s1.env x = none ∧ s2.env x = none) ∨
    (∃ a, a < s1.heap.length ∧ s1.env x = some (.own a) ∧ s2.env x = some (.own (φ a)) ∧ s2.heap[φ a]? = s1.heap[a]?) ∨
    ∃ r b o, r.Inside ∧ s1.env x = some r ∧ s2.env x = some (.own b) ∧ s2.heap[b]? = some o ∧ ∀ t, o ≠ .tm t := by
  rcases h.env x with h1 | ⟨r1, r2, h1, h2, h3⟩
  · exact Or.inl h1
  · cases h3 with
    | own a ha => exact Or.inr (Or.inl ⟨a, ha, h1, h2, (h.heap a ha).2⟩)
    | inside _ b hr hb hn o h2b h1r => exact Or.inr (Or.inr ⟨r1, b, o, hr, h1, h2, h2b, fun t ht => inside_not_tm hr (ht ▸ h1r)⟩)

theorem StRel.step {φ : ℕ → ℕ} {s1 s2 : PySt K} (h : StRel φ s1 s2) {p : PyStmt K} (hs : p.SafeIn s1) :
    ∃ φ', StRel φ' (s1.step true p).1 (s2.step false p).1 ∧ (s2.step false p).2 = (s1.step true p).2 := by
  cases p with
  | call x f ys =>
    unfold PySt.step
    simp only
    rw [h.values ys]
    cases ys.mapM s1.value with
    | none => exact ⟨φ, h, rfl⟩
    | some os =>
      simp only
      cases f os with
      | error e => exact ⟨φ, h, rfl⟩
      | ok o => exact ⟨_, h.alloc x o, rfl⟩
  | assign x y =>
    unfold PySt.step
    simp only
    rcases h.env y with ⟨h1, h2⟩ | ⟨r1, r2, h1, h2, h3⟩
    · rw [h1, h2]; exact ⟨φ, h, rfl⟩
    · rw [h1, h2]; exact ⟨φ, h.bindVar x h3, rfl⟩
  | getTpol x t =>
    unfold PySt.step
    simp only
    rcases h.cases t with ⟨h1, h2⟩ | ⟨a, ha, h1, h2, h3⟩ | ⟨r, b, o, hr, h1, h2, h3, h4⟩
    · rw [h1, h2]; exact ⟨φ, h, rfl⟩
    · rw [h1, h2]
      simp only
      rw [h3]
      split
      · rename_i m hm
        exact ⟨φ, h.get x (r := .tpol a) trivial (by unfold deref; simp only; rw [hm]), rfl⟩
      · exact ⟨φ, h, rfl⟩
    · rw [h1, h2]
      simp only
      rw [h3]
      cases o with
      | tm t => exact absurd rfl (h4 t)
      | gd d => cases r <;> first | exact hr.elim | exact ⟨φ, h, rfl⟩
      | itv d => cases r <;> first | exact hr.elim | exact ⟨φ, h, rfl⟩
  | getRem x t =>
    unfold PySt.step
    simp only
    rcases h.cases t with ⟨h1, h2⟩ | ⟨a, ha, h1, h2, h3⟩ | ⟨r, b, o, hr, h1, h2, h3, h4⟩
    · rw [h1, h2]; exact ⟨φ, h, rfl⟩
    · rw [h1, h2]
      simp only
      rw [h3]
      split
      · rename_i m hm
        exact ⟨φ, h.get x (r := .rem a) trivial (by unfold deref; simp only; rw [hm]), rfl⟩
      · exact ⟨φ, h, rfl⟩
    · rw [h1, h2]
      simp only
      rw [h3]
      cases o with
      | tm t => exact absurd rfl (h4 t)
      | gd d => cases r <;> first | exact hr.elim | exact ⟨φ, h, rfl⟩
      | itv d => cases r <;> first | exact hr.elim | exact ⟨φ, h, rfl⟩
  | change t ys c =>
    unfold PySt.step
    simp only
    rw [h.values ys]
    rcases h.cases t with ⟨h1, h2⟩ | ⟨a, ha, h1, h2, h3⟩ | ⟨r, b, o, hr, h1, h2, h3, h4⟩
    · rw [h1, h2]; exact ⟨φ, h, rfl⟩
    · have h5 := hs a h1
      rw [h1, h2]
      simp only
      rw [h3]
      split
      · rename_i m os _ _
        cases c os with
        | none => exact ⟨φ, h, rfl⟩
        | some c => exact ⟨φ, h.set ha _ h5, rfl⟩
      · exact ⟨φ, h, rfl⟩
    · rw [h1, h2]
      simp only
      rw [h3]
      cases o with
      | tm t => exact absurd rfl (h4 t)
      | gd d => cases r <;> first | exact hr.elim | exact ⟨φ, h, rfl⟩
      | itv d => cases r <;> first | exact hr.elim | exact ⟨φ, h, rfl⟩
  | extend x ss =>
    unfold PySt.step
    simp only
    rcases h.cases x with ⟨h1, h2⟩ | ⟨a, ha, h1, h2, h3⟩ | ⟨r, b, o, hr, h1, h2, h3, h4⟩
    · rw [h1, h2]; exact ⟨φ, h, rfl⟩
    · rw [h1, h2]
      simp only
      rw [h3]
      split
      · rename_i d hd
        cases d.extendSymbolSet ss with
        | error e => exact ⟨φ, h, rfl⟩
        | ok d' =>
          refine ⟨φ, h.set ha _ fun y r hy hr he => ?_, rfl⟩
          rcases h.env y with ⟨h5, -⟩ | ⟨r1, r2, h5, -, h6⟩
          · rw [h5] at hy; cases hy
          · rw [h5] at hy
            cases hy
            cases h6 with
            | own b hb => exact hr
            | inside _ b hr hb hn o h2b h1r =>
              subst he
              cases r with
              | own a => exact hr
              | tpol a => unfold deref at h1r; simp only at h1r; rw [show s1.heap[a]? = some (.gd d) from hd] at h1r; simp at h1r
              | rem a => unfold deref at h1r; simp only at h1r; rw [show s1.heap[a]? = some (.gd d) from hd] at h1r; simp at h1r
      · exact ⟨φ, h, rfl⟩
    · exact absurd hr (hs r h1)

/-- **C102** (partial: as long as no variable refers to a member of a Taylor model when this is changed, and the symbol set of such a member is not extended.) A Python program does the same as if
`tpol` and `rem_bound` gave copies: the same exceptions, and the same values of all variables at the end. -/
theorem C102_copies_partial {s : PySt K} (hs : ∀ x r, s.env x = some r → ¬ r.Inside ∧ r.addr < s.heap.length) {ps : List (PyStmt K)} (h : s.Safe ps) :
    (s.exec true ps).2 = (s.exec false ps).2 ∧ ∀ x, (s.exec true ps).1.value x = (s.exec false ps).1.value x := by
  have h0 : StRel id s s := by
    refine ⟨fun _ _ _ _ h => h, fun a ha => ⟨ha, rfl⟩, fun x => ?_⟩
    cases hx : s.env x with
    | none => exact Or.inl ⟨rfl, rfl⟩
    | some r =>
      obtain ⟨h1, h2⟩ := hs x r hx
      cases r with
      | own a => exact Or.inr ⟨_, _, rfl, rfl, .own a h2⟩
      | tpol a => exact absurd trivial h1
      | rem a => exact absurd trivial h1
  suffices hh : ∀ (ps : List (PyStmt K)) (s1 s2 : PySt K) (φ : ℕ → ℕ), StRel φ s1 s2 → s1.Safe ps →
      (s1.exec true ps).2 = (s2.exec false ps).2 ∧ ∀ x, (s1.exec true ps).1.value x = (s2.exec false ps).1.value x from hh ps s s id h0 h
  intro ps
  induction ps with
  | nil => exact fun s1 s2 φ hr _ => ⟨rfl, fun x => (hr.value x).symm⟩
  | cons p ps ih =>
    intro s1 s2 φ hr hsafe
    obtain ⟨φ', h1, h2⟩ := hr.step hsafe.1
    obtain ⟨h3, h4⟩ := ih _ _ φ' h1 hsafe.2
    refine ⟨?_, h4⟩
    change (s1.step true p).2 :: _ = (s2.step false p).2 :: _
    rw [h2, h3]

/-- The variable that a statement binds. -/
def PyStmt.target : PyStmt K → Option String
  | call x _ _ => some x
  | assign x _ => some x
  | getTpol x _ => some x
  | getRem x _ => some x
  | change _ _ _ => none
  | extend _ _ => none

/-- The variable through which a statement changes an object. -/
def PyStmt.changes : PyStmt K → Option String
  | change t _ _ => some t
  | extend x _ => some x
  | _ => none

/-- **C102** A statement changes the value of no other variables than the one it binds and those that refer into the object it changes. -/
theorem C102_frame {s : PySt K} (p : PyStmt K) {x : String} {r : PyRef} {o : PyObj K} (hx : s.env x = some r) (ho : s.value x = some o) (h1 : p.target ≠ some x)
    (h2 : ∀ y r', p.changes = some y → s.env y = some r' → r.addr ≠ r'.addr) : (s.step true p).1.value x = some o := by
  have hd : deref s.heap r = some o := by unfold PySt.value at ho; rw [hx] at ho; exact ho
  have halloc : ∀ (y : String) (u : PyObj K), y ≠ x → (s.alloc y u).value x = some o := fun y u hy => by
    unfold PySt.value PySt.alloc
    simp only
    rw [Function.update_of_ne (Ne.symm hy), hx]
    exact deref_append hd _
  have hbind : ∀ (y : String) (u : PyRef), y ≠ x → (s.bindVar y u).value x = some o := fun y u hy => by
    unfold PySt.value PySt.bindVar
    simp only
    rw [Function.update_of_ne (Ne.symm hy), hx]
    exact hd
  have hset : ∀ (a : ℕ) (u : PyObj K), r.addr ≠ a → PySt.value ⟨s.heap.set a u, s.env⟩ x = some o := fun a u ha => by
    unfold PySt.value
    simp only
    rw [hx]
    exact (deref_set ha u).trans hd
  cases p with
  | call y f ys =>
    have hy : y ≠ x := fun e => h1 (congrArg some e)
    unfold PySt.step
    simp only
    split
    · exact ho
    · split
      · exact ho
      · exact halloc _ _ hy
  | assign y z =>
    have hy : y ≠ x := fun e => h1 (congrArg some e)
    unfold PySt.step
    simp only
    split
    · exact ho
    · exact hbind _ _ hy
  | getTpol y t =>
    have hy : y ≠ x := fun e => h1 (congrArg some e)
    unfold PySt.step
    simp only
    split
    · split
      · exact hbind _ _ hy
      · exact ho
    · exact ho
  | getRem y t =>
    have hy : y ≠ x := fun e => h1 (congrArg some e)
    unfold PySt.step
    simp only
    split
    · split
      · exact hbind _ _ hy
      · exact ho
    · exact ho
  | change t ys c =>
    unfold PySt.step
    simp only
    split
    · rename_i a ha
      split
      · split
        · exact hset a _ (h2 t _ rfl ha)
        · exact ho
      · exact ho
    · exact ho
  | extend y ss =>
    unfold PySt.step
    simp only
    split
    · rename_i a ha
      split
      · split
        · exact hset a _ (h2 y _ rfl ha)
        · exact ho
      · exact ho
    · rename_i a ha
      split
      · split
        · exact hset a _ (h2 y _ rfl ha)
        · exact ho
      · exact ho
    · exact ho

/-- A Taylor model `t` and a gdual `q`. -/
def pySt : PySt ℚ := ⟨[.tm Ex.tx, .gd Ex.ty.tpol], fun x => if x = "t" then some (.own 0) else if x = "q" then some (.own 1) else none⟩

/-- `t.tpol = q` -/
def setQ : PyStmt ℚ := .change "t" ["q"] fun os => match os with
  | [.gd d] => some (.tpol d)
  | _ => none

/-- **C102** (the claim that a polynomial read from a Taylor model stays what it was is false) `p = t.tpol; t.tpol = q`: now `p` is `q`. -/
theorem C102_read_counterexample : (pySt.step true (.getTpol "p" "t")).1.value "p" = some (.gd Ex.tx.tpol) ∧
    (pySt.exec true [.getTpol "p" "t", setQ]).1.value "p" = some (.gd Ex.ty.tpol) ∧ (pySt.exec false [.getTpol "p" "t", setQ]).1.value "p" = some (.gd Ex.tx.tpol) ∧
    Ex.tx.tpol ≠ Ex.ty.tpol :=
  ⟨rfl, rfl, rfl, by decide +kernel⟩

/-- **C102** (the claim that a Taylor model is only changed by its own methods is false) `p = t.tpol; p.extend_symbol_set(["dy"])`: the polynomial of `t` has two variables now, the domain one;
the number of variables is still 1, and the bounds of `t` throw. No exception has been thrown before. -/
theorem C102_extend_counterexample : ∃ r : TM ℚ, (pySt.exec true [.getTpol "p" "t", .extend "p" ["dy"]]).1.value "t" = some (.tm r) ∧
    (pySt.exec true [.getTpol "p" "t", .extend "p" ["dy"]]).2 = [.ok (), .ok ()] ∧ r.ndim ≠ r.tpol.symbolSetSize ∧ ¬ r.Checked ∧ r.bounds id = .error .outOfRange :=
  ⟨{ Ex.tx with tpol := ⟨Ex.tx.tpol.p.addSymbols ["dy"], 2⟩ }, rfl, rfl, by decide +kernel, fun h => absurd h.ndim (by decide +kernel), by decide +kernel⟩

/-- **C102** (changes) Changing a Taylor model through any variable raises exactly the exception of the C++ function, and every variable that refers to the same object sees its result, also if there is an
exception. -/
theorem C102_change {s : PySt K} {t : String} {a : ℕ} {m : TM K} (ht : s.env t = some (.own a)) (hm : s.heap[a]? = some (.tm m)) {ys : List String} {os : List (PyObj K)}
    (hy : ys.mapM s.value = some os) {c : List (PyObj K) → Option (TM.Change K)} {d : TM.Change K} (hc : c os = some d) :
    (s.step true (.change t ys c)).2 = (d.call m).2 ∧ ∀ x, s.env x = some (.own a) → (s.step true (.change t ys c)).1.value x = some (.tm (d.call m).1) := by
  have hlt : a < s.heap.length := (List.getElem?_eq_some_iff.mp hm).1
  have h : s.step true (.change t ys c) = (⟨s.heap.set a (.tm (d.call m).1), s.env⟩, (d.call m).2) := by
    simp only [PySt.step, ht, hm, hy, hc]
  rw [h]
  refine ⟨rfl, fun x hx => ?_⟩
  simp only [PySt.value, hx, Option.bind_some, deref, List.getElem?_set_self hlt]

/-- Reading the polynomial, computing with it, and changing the Taylor model once no variable refers to its polynomial any more. -/
example : pySt.Safe [.getTpol "p" "t", .call "p" (fun os => match os with
    | [.gd d] => .ok (.gd (d.mul d))
    | _ => .error .invalidArgument) ["p"], setQ] := by
  refine ⟨trivial, trivial, fun a ha x r hx hr => ?_, trivial⟩
  have h1 : x ≠ "p" → pySt.env x = some r := fun h => by
    have h2 : Function.update (Function.update pySt.env "p" (some (.tpol 0))) "p" (some (.own 2)) x = some r := hx
    rwa [Function.update_of_ne h, Function.update_of_ne h] at h2
  by_cases h : x = "p"
  · subst h
    have h2 : Function.update (Function.update pySt.env "p" (some (.tpol 0))) "p" (some (.own 2)) "p" = some r := hx
    rw [Function.update_self] at h2
    cases h2
    exact hr.elim
  · have h2 := h1 h
    unfold pySt at h2
    simp only at h2
    split at h2
    · cases h2; exact hr.elim
    · split at h2
      · cases h2; exact hr.elim
      · cases h2

example : ∀ x r, pySt.env x = some r → ¬ r.Inside ∧ r.addr < pySt.heap.length := by
  intro x r h
  unfold pySt at h
  simp only at h
  split at h
  · cases h; exact ⟨id, by decide⟩
  · split at h
    · cases h; exact ⟨id, by decide⟩
    · cases h

end Audi
