import Verif.Proofs.TMBasic

/-! Concrete Taylor models over `ℚ` used by the examples and counterexamples beside the theorems. -/

namespace Audi.TM

/-- Decision procedure for `WF`. -/
def wfCheck (tm : TM ℚ) : Bool :=
  decide (tm.tpol.p.syms.Pairwise (· < ·)) && (tm.tpol.p.terms.all fun t => decide (t.1.length = tm.tpol.p.syms.length)) &&
  decide ((tm.tpol.p.terms.map (·.1)).Nodup) && (tm.tpol.p.terms.all fun t => !Cf.isZero t.2) &&
  (tm.tpol.p.terms.all fun t => decide (t.1.sum ≤ tm.tpol.order)) && (tm.tpol.p.syms.all fun s => decide (s = "d" ++ varName s)) &&
  decide (tm.order = tm.tpol.order) && decide (tm.ndim = tm.tpol.p.syms.length) &&
  decide ((tm.exp.map Prod.fst).Perm (tm.tpol.p.syms.map varName)) && decide ((tm.dom.map Prod.fst).Perm (tm.tpol.p.syms.map varName)) &&
  (tm.dom.all fun e => tm.exp.any fun f => decide (f.1 = e.1) && decide (e.2.lo ≤ f.2) && decide (f.2 ≤ e.2.hi)) &&
  decide (tm.rem.lo ≤ tm.rem.hi)

theorem wf_of_check {tm : TM ℚ} (h : tm.wfCheck = true) : tm.WF := by
  unfold wfCheck at h
  simp only [Bool.and_eq_true, List.all_eq_true, decide_eq_true_eq, Bool.not_eq_true', List.any_eq_true] at h
  obtain ⟨⟨⟨⟨⟨⟨⟨⟨⟨⟨⟨h1, h2⟩, h3⟩, h4⟩, h5⟩, h6⟩, h7⟩, h8⟩, h9⟩, h10⟩, h11⟩, h12⟩ := h
  refine ⟨⟨⟨h1, h2, h3, h4⟩, h5⟩, fun s hs => ⟨_, h6 s hs⟩, h7, h8, h9, h10, fun e he => ?_, h12⟩
  obtain ⟨f, hf, ⟨hf1, hf2⟩, hf3⟩ := h11 e he
  exact ⟨f.2, by rw [← hf1]; exact hf, hf2, hf3⟩

/-- The value of the polynomial, computed from the table. -/
def polyAtTable (tm : TM ℚ) (x : String → ℚ) : ℚ :=
  (tm.tpol.p.terms.map fun t => t.2 * (List.zipWith (fun (xi : ℚ) (k : ℕ) => xi ^ k) (tm.tpol.p.syms.map (displacement tm.exp x)) t.1).prod).sum

theorem polyAt_eq_table {tm : TM ℚ} (h : tm.tpol.Valid) (x : String → ℚ) : tm.polyAt x = tm.polyAtTable x := eval_toMv h _

instance (I : Itv ℚ) (x : ℚ) : Decidable (Spec.InItv I x) := by unfold Spec.InItv; infer_instance

instance (tm : TM ℚ) (x : String → ℚ) : Decidable (tm.InDom x) := by unfold InDom; infer_instance

theorem allows_iff_table {tm : TM ℚ} (h : tm.tpol.Valid) (x : String → ℚ) (y : ℚ) :
    tm.Allows x y ↔ Spec.InItv tm.rem (y - tm.polyAtTable x) := by
  unfold Allows
  rw [polyAt_eq_table h]

/-- Outcome of an operation compared with a concrete Taylor model. -/
instance : DecidableEq (TM ℚ) := fun a b =>
  decidable_of_iff (a.tpol = b.tpol ∧ a.order = b.order ∧ a.ndim = b.ndim ∧ a.rem = b.rem ∧ a.exp = b.exp ∧ a.dom = b.dom) (by
    cases a; cases b; simp)

end Audi.TM

namespace Audi.Ex

/-- `x` expanded at 2, over [1, 3], order 2, remainder [0, 1]. -/
def tx : TM ℚ := ⟨⟨⟨["dx"], [([1], 1), ([0], 2)]⟩, 2⟩, 2, 1, ⟨0, 1⟩, [("x", 2)], [("x", ⟨1, 3⟩)]⟩
/-- `y` expanded at 5, over [4, 6], order 3, remainder [-1, 1]. -/
def ty : TM ℚ := ⟨⟨⟨["dy"], [([1], 1), ([0], 5)]⟩, 3⟩, 3, 1, ⟨-1, 1⟩, [("y", 5)], [("y", ⟨4, 6⟩)]⟩

theorem tx_wf : tx.WF := TM.wf_of_check (by decide +kernel)
theorem ty_wf : ty.WF := TM.wf_of_check (by decide +kernel)
theorem txy_compatible : TM.Compatible tx ty := by
  constructor <;> decide

end Audi.Ex
