import Verif.Proofs.SymsMore
import Verif.Spec.Vars

/-! The symbols of the value of an expression. -/

namespace Audi

open GDual

variable {C : Type} [CfFun C] {a b d r : GDual C}

theorem Op.run_syms (op : Op) (hb : b.p.syms.Pairwise (· < ·)) (ha : a.p.syms.Pairwise (· < ·)) (h : op.run a b = .ok r) :
    r.p.syms = mergeSyms a.p.syms b.p.syms := by
  cases op with
  | div => exact HasSyms.div (sorted_mergeSyms ha) hb rfl h
  | _ => injection h with h; subst h; rfl

theorem Op.runL_syms (op : Op) {c : C} (hd : d.p.syms.Pairwise (· < ·)) (h : op.runL c d = .ok r) : r.p.syms = d.p.syms := by
  have hh : HasSyms d.p.syms d := rfl
  cases op with
  | add => injection h with h; subst h; exact hh.addSG hd c
  | sub => injection h with h; subst h; exact hh.subSG hd c
  | mul => injection h with h; subst h; exact hh.mulSG hd c
  | div => exact hh.divSG hd h

theorem Op.runR_syms (op : Op) {c : C} (hd : d.p.syms.Pairwise (· < ·)) (h : op.runR d c = .ok r) : r.p.syms = d.p.syms := by
  have hh : HasSyms d.p.syms d := rfl
  cases op with
  | add => injection h with h; subst h; exact hh.addSG hd c
  | sub => injection h with h; subst h; exact hh
  | mul => injection h with h; subst h; exact hh.mulGS hd c
  | div => exact hh.divGS hd h

theorem powG_syms (hb : b.p.syms.Pairwise (· < ·)) (ha : a.p.syms.Pairwise (· < ·)) (h : a.powG b = .ok r) :
    r.p.syms = mergeSyms b.p.syms a.p.syms := by
  unfold GDual.powG at h
  obtain ⟨l, h1, h2⟩ := bind_ok_iff.1 h
  have h3 : HasSyms a.p.syms l := HasSyms.log ha rfl h1
  refine HasSyms.exp (sorted_mergeSyms hb) ?_ h2
  change mergeSyms b.p.syms l.p.syms = _
  rw [h3]

/-- The symbols of the value of an expression are sorted and among its variables. -/
theorem Expr.run_subSyms {v : String → C} {m : ℕ} (e : Expr C) : ∀ {r : GDual C}, e.run v m = .ok r →
    SubSyms (e.vars.map fun s => "d" ++ s) r := by
  have mono : ∀ {l l' : List String} {r : GDual C}, (∀ s ∈ l, s ∈ l') → SubSyms (l.map fun s => "d" ++ s) r →
      SubSyms (l'.map fun s => "d" ++ s) r := fun hl hr => ⟨hr.sorted, fun u hu => by
    obtain ⟨s, hs, rfl⟩ := List.mem_map.1 (hr.sub u hu)
    exact List.mem_map.2 ⟨s, hl s hs, rfl⟩⟩
  induction e with
  | var s =>
    intro r h
    have h1 := syms_mk3 h
    exact ⟨by rw [h1]; exact List.pairwise_singleton _ _, fun u hu => by rw [h1] at hu; exact hu⟩
  | const c =>
    intro r h
    injection h with h
    subst h
    exact subSyms_ofCf c _
  | bin op e1 e2 ih1 ih2 =>
    intro r h
    obtain ⟨r1, h1, h⟩ := bind_ok_iff.1 h
    obtain ⟨r2, h2, h⟩ := bind_ok_iff.1 h
    have g1 := mono (l' := e1.vars ++ e2.vars) (fun s hs => List.mem_append_left _ hs) (ih1 h1)
    have g2 := mono (l' := e1.vars ++ e2.vars) (fun s hs => List.mem_append_right _ hs) (ih2 h2)
    have h3 := op.run_syms g2.sorted g1.sorted h
    have h4 := merge_sub g1 g2
    exact ⟨by rw [h3]; exact h4.1, by rw [h3]; exact h4.2⟩
  | left op c e ih =>
    intro r h
    obtain ⟨r1, h1, h⟩ := bind_ok_iff.1 h
    have h3 := op.runL_syms (ih h1).sorted h
    exact ⟨by rw [h3]; exact (ih h1).sorted, by rw [h3]; exact (ih h1).sub⟩
  | right op e c ih =>
    intro r h
    obtain ⟨r1, h1, h⟩ := bind_ok_iff.1 h
    have h3 := op.runR_syms (ih h1).sorted h
    exact ⟨by rw [h3]; exact (ih h1).sorted, by rw [h3]; exact (ih h1).sub⟩
  | fn f e ih =>
    intro r h
    obtain ⟨r1, h1, h⟩ := bind_ok_iff.1 h
    have h3 := (fn_syms f (ih h1).sorted rfl h).2
    exact ⟨h3.sorted, fun u hu => (ih h1).sub u (h3.sub u hu)⟩
  | pow e1 e2 ih1 ih2 =>
    intro r h
    obtain ⟨r1, h1, h⟩ := bind_ok_iff.1 h
    obtain ⟨r2, h2, h⟩ := bind_ok_iff.1 h
    have g1 := mono (l' := e1.vars ++ e2.vars) (fun s hs => List.mem_append_left _ hs) (ih1 h1)
    have g2 := mono (l' := e1.vars ++ e2.vars) (fun s hs => List.mem_append_right _ hs) (ih2 h2)
    have h3 := powG_syms g2.sorted g1.sorted h
    have h4 := merge_sub g2 g1
    exact ⟨by rw [h3]; exact h4.1, by rw [h3]; exact h4.2⟩

omit [CfFun C] in
theorem Expr.full_of_vars {e : Expr C} (hb : e.BaseFree) (hv : e.vars ≠ []) : e.full = true := by
  induction e with
  | var s => rfl
  | const c => exact absurd rfl hv
  | bin op e1 e2 ih1 ih2 =>
    simp only [Expr.full, Bool.or_eq_true]
    by_cases h1 : e1.vars = []
    · exact Or.inr (ih2 hb.2 fun h2 => hv (by simp [Expr.vars, h1, h2]))
    · exact Or.inl (ih1 hb.1 h1)
  | left op c e ih => exact ih hb hv
  | right op e c ih => exact ih hb hv
  | fn f e ih => cases f <;> first | exact ih hb hv | exact hb.elim
  | pow e1 e2 ih1 ih2 =>
    simp only [Expr.full, Bool.or_eq_true]
    by_cases h1 : e1.vars = []
    · exact Or.inr (ih2 hb.2 fun h2 => hv (by simp [Expr.vars, h1, h2]))
    · exact Or.inl (ih1 hb.1 h1)

/-- If every subexpression with a variable has a value of order `m ≥ 1`, no symbol is lost. `P` is a property of expressions which passes to
subexpressions. -/
theorem Expr.run_syms {v : String → C} {m : ℕ} (hm : 1 ≤ m) {P : Expr C → Prop}
    (hP : ∀ e r, P e → e.run v m = .ok r → e.full = true → r.order = m)
    (hbin : ∀ op e1 e2, P (.bin op e1 e2) → P e1 ∧ P e2) (hl : ∀ op c e, P (.left op c e) → P e) (hr : ∀ op e c, P (.right op e c) → P e)
    (hf : ∀ f e, P (.fn f e) → P e) (hpow : ∀ e1 e2, P (.pow e1 e2) → P e1 ∧ P e2) (e : Expr C) :
    ∀ {r : GDual C}, P e → e.BaseFree → e.run v m = .ok r → ∀ s ∈ e.vars, "d" ++ s ∈ r.p.syms := by
  induction e with
  | var s =>
    intro r _ _ h t ht
    rw [syms_mk3 h, List.mem_singleton.1 ht]
    exact List.mem_singleton_self _
  | const c => exact fun _ _ _ t ht => absurd ht List.not_mem_nil
  | bin op e1 e2 ih1 ih2 =>
    intro r p b h s hs
    obtain ⟨r1, h1, h⟩ := bind_ok_iff.1 h
    obtain ⟨r2, h2, h⟩ := bind_ok_iff.1 h
    rw [op.run_syms (e2.run_subSyms h2).sorted (e1.run_subSyms h1).sorted h, mem_mergeSyms]
    have hp := hbin _ _ _ p
    exact (List.mem_append.1 hs).imp (ih1 hp.1 b.1 h1 s) (ih2 hp.2 b.2 h2 s)
  | left op c e ih =>
    intro r p b h s hs
    obtain ⟨r1, h1, h⟩ := bind_ok_iff.1 h
    rw [op.runL_syms (e.run_subSyms h1).sorted h]
    exact ih (hl _ _ _ p) b h1 s hs
  | right op e c ih =>
    intro r p b h s hs
    obtain ⟨r1, h1, h⟩ := bind_ok_iff.1 h
    rw [op.runR_syms (e.run_subSyms h1).sorted h]
    exact ih (hr _ _ _ p) b h1 s hs
  | fn f e ih =>
    intro r p b h s hs
    obtain ⟨r1, h1, h⟩ := bind_ok_iff.1 h
    have hb : e.BaseFree := by cases f <;> first | exact b | exact b.elim
    have ho : r1.order = m := hP e r1 (hf _ _ p) h1 (Expr.full_of_vars hb (List.ne_nil_of_mem hs))
    have hk : f.KeepsSyms r1 := by cases f <;> first | exact b.elim | exact hm.trans ho.ge | trivial
    have h3 : r.p.syms = r1.p.syms := (fn_syms f (e.run_subSyms h1).sorted rfl h).1 hk
    rw [h3]
    exact ih (hf _ _ p) hb h1 s hs
  | pow e1 e2 ih1 ih2 =>
    intro r p b h s hs
    obtain ⟨r1, h1, h⟩ := bind_ok_iff.1 h
    obtain ⟨r2, h2, h⟩ := bind_ok_iff.1 h
    rw [powG_syms (e2.run_subSyms h2).sorted (e1.run_subSyms h1).sorted h, mem_mergeSyms]
    have hp := hpow _ _ p
    exact ((List.mem_append.1 hs).imp (ih1 hp.1 b.1 h1 s) (ih2 hp.2 b.2 h2 s)).symm

theorem d_append_lt {s t : String} : "d" ++ s < "d" ++ t ↔ s < t := by
  rw [String.lt_iff_toList_lt, String.lt_iff_toList_lt, String.toList_append, String.toList_append]
  simp

theorem drop_d (s : String) : String.ofList (("d" ++ s).toList.drop 1) = s := by
  rw [String.toList_append]
  simp

/-- From the symbols of the polynomial to those of the gdual. -/
theorem symbolSet_of {C : Type} [Cf C] {r : GDual C} {l : List String} (h : SubSyms (l.map fun s => "d" ++ s) r) :
    r.symbolSet.Pairwise (· < ·) ∧ ∀ s, s ∈ r.symbolSet ↔ "d" ++ s ∈ r.p.syms := by
  have hd : ∀ u ∈ r.p.syms, ∃ s, u = "d" ++ s := fun u hu => by
    obtain ⟨s, -, rfl⟩ := List.mem_map.1 (h.sub u hu)
    exact ⟨s, rfl⟩
  refine ⟨?_, fun s => ?_⟩
  · unfold GDual.symbolSet
    rw [List.pairwise_map]
    refine h.sorted.imp_of_mem fun {u w} hu hw huw => ?_
    obtain ⟨s, rfl⟩ := hd u hu
    obtain ⟨t, rfl⟩ := hd w hw
    rw [drop_d, drop_d]
    exact d_append_lt.1 huw
  · unfold GDual.symbolSet
    rw [List.mem_map]
    constructor
    · rintro ⟨u, hu, rfl⟩
      obtain ⟨s, rfl⟩ := hd u hu
      rwa [drop_d]
    · exact fun hs => ⟨_, hs, drop_d s⟩

end Audi
