import Verif.Proofs.Syms
import Verif.Spec.Expr

/-! The symbols of the results of the remaining functions of gduals. -/

namespace Audi.GDual

section
variable {C : Type} [CfFun C] {S : List String} {d a b r : GDual C}

theorem HasSyms.div (hS : S.Pairwise (· < ·)) (hb : b.p.syms.Pairwise (· < ·))
    (h1 : mergeSyms a.p.syms b.p.syms = S) (h : a.div b = .ok r) : HasSyms S r := by
  unfold GDual.div at h
  obtain ⟨p0, -, h⟩ := bind_ok_iff.1 h
  split_ifs at h
  · obtain ⟨q, e1, e2⟩ := bind_ok_iff.1 h
    have hq : HasSyms b.p.syms q := HasSyms.divSeries hb rfl e1
    have : HasSyms S (a.mul q) := by
      change mergeSyms a.p.syms q.p.syms = S
      rw [hq, h1]
    exact this.divGS hS e2
  · injection h with h
    subst h
    exact h1

theorem HasSyms.rootSeries (hS : S.Pairwise (· < ·)) {alpha p0 root : C} (hd : HasSyms S d) (h : rootSeries d alpha p0 root = .ok r) :
    HasSyms S r := by
  unfold GDual.rootSeries at h
  obtain ⟨phat, h0, h⟩ := bind_ok_iff.1 h
  simp only at h
  injection h with h
  subst h
  have hp : HasSyms S phat := (hd.subGS p0).divGS hS h0
  refine HasSyms.mulGS hS ?_ _
  have : ∀ (l : List ℕ) (st : PowSt C), HasSyms S st.retval → HasSyms S st.phat → HasSyms S (l.foldl (rootStep alpha phat) st).retval := by
    intro l
    induction l with
    | nil => exact fun st h _ => h
    | cons i l ih =>
      intro st h1 h2
      have h3 := h2.mul_left hS (hp.sub hS)
      exact ih _ (h1.add_left hS ((h3.mulSG hS _).sub hS)) h3
  exact this _ _ (HasSyms.add_right hS (subSyms_ofRat 1 S) (hp.mulSG hS _)) hp

theorem HasSyms.sqrt (hS : S.Pairwise (· < ·)) (hd : HasSyms S d) (h : d.sqrt = .ok r) : HasSyms S r := by
  unfold GDual.sqrt at h
  obtain ⟨p0, -, h⟩ := bind_ok_iff.1 h
  obtain ⟨_, -, h⟩ := bind_ok_iff.1 h
  exact hd.rootSeries hS h

theorem HasSyms.cbrt (hS : S.Pairwise (· < ·)) (hd : HasSyms S d) (h : d.cbrt = .ok r) : HasSyms S r := by
  unfold GDual.cbrt at h
  obtain ⟨p0, -, h⟩ := bind_ok_iff.1 h
  exact hd.rootSeries hS h

theorem HasSyms.tanLoop (hS : S.Pairwise (· < ·)) {phat : GDual C} {step : GDual C → TanSt C → ℕ → TanSt C}
    (hstep : step = tanStep ∨ step = tanhStep) (hp : HasSyms S phat) (l : List ℕ) (st : TanSt C) (h1 : HasSyms S st.taylor)
    (h2 : HasSyms S st.phat) : HasSyms S (l.foldl (step (phat.mul phat)) st).taylor := by
  have hp2 := hp.mul_left hS (hp.sub hS)
  induction l generalizing st with
  | nil => exact h1
  | cons i l ih =>
    have h3 := h2.mul_left hS (hp2.sub hS)
    rcases hstep with rfl | rfl
    all_goals exact ih _ (h1.add_left hS ((h3.mulSG hS _).sub hS)) h3

theorem HasSyms.tan (hS : S.Pairwise (· < ·)) (hd : HasSyms S d) (h : d.tan = .ok r) : HasSyms S r := by
  unfold GDual.tan at h
  obtain ⟨p0, -, h⟩ := bind_ok_iff.1 h
  obtain ⟨_, -, h⟩ := bind_ok_iff.1 h
  have hp : HasSyms S (d.subGS p0) := hd.subGS p0
  have ht := hp.tanLoop hS (.inl rfl) (List.range' 2 ((d.order + 1) / 2 - 1)) ⟨d.subGS p0, d.subGS p0, 24, 16⟩ hp hp
  exact HasSyms.div_left hS (ht.addSG hS _) (((ht.mulSG hS _).subSG hS _).sub hS) h

theorem HasSyms.tanh (hS : S.Pairwise (· < ·)) (hd : HasSyms S d) (h : d.tanh = .ok r) : HasSyms S r := by
  unfold GDual.tanh at h
  obtain ⟨p0, -, h⟩ := bind_ok_iff.1 h
  have hp : HasSyms S (d.subGS p0) := hd.subGS p0
  have ht := hp.tanLoop hS (.inr rfl) (List.range' 2 ((d.order + 1) / 2 - 1)) ⟨d.subGS p0, d.subGS p0, 24, 16⟩ hp hp
  exact HasSyms.div_left hS (ht.addSG hS _) (((ht.mulSG hS _).addSG hS _).sub hS) h

theorem HasSyms.asinh (hS : S.Pairwise (· < ·)) (hd : HasSyms S d) (h : d.asinh = .ok r) : HasSyms S r := by
  unfold GDual.asinh at h
  obtain ⟨s, h1, h⟩ := bind_ok_iff.1 h
  have hs : HasSyms S s := HasSyms.sqrt hS ((hd.mul_left hS (hd.sub hS)).addSG hS _) h1
  exact (hd.add_left hS (hs.sub hS)).log hS h

theorem HasSyms.acosh (hS : S.Pairwise (· < ·)) (hd : HasSyms S d) (h : d.acosh = .ok r) : HasSyms S r := by
  unfold GDual.acosh at h
  obtain ⟨s, h1, h⟩ := bind_ok_iff.1 h
  have hs : HasSyms S s := HasSyms.sqrt hS ((hd.mul_left hS (hd.sub hS)).subGS _) h1
  exact (hd.add_left hS (hs.sub hS)).log hS h

theorem atanh_syms (hS : S.Pairwise (· < ·)) (hd : HasSyms S d) (h : d.atanh = .ok r) :
    (1 ≤ d.order → HasSyms S r) ∧ (d.order = 0 → r.p.syms = []) := by
  unfold GDual.atanh at h
  obtain ⟨p0, -, h⟩ := bind_ok_iff.1 h
  obtain ⟨_, -, h⟩ := bind_ok_iff.1 h
  injection h with h
  subst h
  have hp : HasSyms S (d.subGS p0) := hd.subGS p0
  refine ⟨fun h1 => HasSyms.addSG hS (HasSyms.mulSG hS ?_ _) _, fun h0 => ?_⟩
  · have : ∀ (l : List ℕ) (st : AtanhSt C), HasSyms S st.retval → HasSyms S st.powphat →
        HasSyms S (l.foldl (atanhStep p0 (d.subGS p0)) st).retval := by
      intro l
      induction l with
      | nil => exact fun st h _ => h
      | cons i l ih => exact fun st h1 h2 => ih _ (h1.add_left hS ((h2.mulSG hS _).sub hS)) (h2.mul_left hS (hp.sub hS))
    obtain ⟨n, hn⟩ := Nat.exists_eq_add_of_le' h1
    rw [hn, List.range'_succ, List.foldl_cons]
    exact this _ _ (HasSyms.add_right hS (subSyms_ofRat 0 S) (hp.mulSG hS _)) (hp.mul_left hS (hp.sub hS))
  · rw [h0]; rfl

theorem atanWith_syms (hS : S.Pairwise (· < ·)) {bin : ℕ → ℕ → ℕ} (hd : HasSyms S d) (h : atanWith bin d = .ok r) :
    (1 ≤ d.order → HasSyms S r) ∧ (d.order = 0 → r.p.syms = []) :=
  ⟨fun h1 => hd.atanWith hS h1 h, fun h0 => syms_atanWith_zero h0 h⟩

omit [CfFun C] in
theorem subSyms_of_order (hS : S.Pairwise (· < ·)) {n : ℕ} (h : (1 ≤ n → HasSyms S r) ∧ (n = 0 → r.p.syms = [])) : SubSyms S r := by
  rcases Nat.eq_zero_or_pos n with h0 | h0
  · refine ⟨?_, fun s hs => ?_⟩
    · rw [h.2 h0]; exact List.Pairwise.nil
    · rw [h.2 h0] at hs; exact absurd hs List.not_mem_nil
  · exact (h.1 h0).sub hS

theorem SubSyms.asinWith (hS : S.Pairwise (· < ·)) {bin : ℕ → ℕ → ℕ} (hd : HasSyms S d) (h : asinWith bin d = .ok r) : SubSyms S r := by
  unfold GDual.asinWith at h
  obtain ⟨s, h2, h⟩ := bind_ok_iff.1 h
  obtain ⟨q, h3, h⟩ := bind_ok_iff.1 h
  have hm : HasSyms S ((d.mul d).subSG (Cf.ofRat 1)) := HasSyms.subSG hS (hd.mul_left hS (hd.sub hS)) _
  have hq : HasSyms S q := hd.div_left hS ((hm.sub hS).sqrt h2) h3
  exact subSyms_of_order hS (atanWith_syms hS hq h)

theorem HasSyms.powInt (hS : S.Pairwise (· < ·)) {n : ℤ} (hd : HasSyms S d) (h : d.powInt n = .ok r) : HasSyms S r := by
  unfold GDual.powInt at h
  split_ifs at h
  · obtain ⟨q, h1, h2⟩ := bind_ok_iff.1 h
    exact foldlM_inv (P := fun s => HasSyms S s) (fun s i t hs ht => hs.div_left hS (hd.sub hS) ht) _ _ _ (hd.divSG hS h1) h2
  · injection h with h
    subst h
    exact hd.mulLoop hS _
  · injection h with h
    subst h
    exact HasSyms.addSG hS (hd.sub_left hS (hd.sub hS)) _

theorem powBase_syms (hS : S.Pairwise (· < ·)) {q : ℚ} (hd : HasSyms S d) (h : powBase q d = .ok r) :
    (d.degree ≠ 0 → HasSyms S r) ∧ (d.degree = 0 → r.p.syms = []) := by
  unfold GDual.powBase at h
  split_ifs at h with h0
  · refine ⟨fun h1 => absurd h0 h1, fun _ => ?_⟩
    obtain ⟨p0, -, h⟩ := bind_ok_iff.1 h
    obtain ⟨_, -, h⟩ := bind_ok_iff.1 h
    injection h with h
    subst h
    rfl
  · refine ⟨fun _ => ?_, fun h1 => absurd h1 h0⟩
    obtain ⟨_, -, h⟩ := bind_ok_iff.1 h
    exact (hd.mulSG hS _).exp hS h

/-- The condition under which the function keeps all the symbols. -/
def _root_.Audi.Fn.KeepsSyms (f : Fn) (d : GDual C) : Prop :=
  match f with
  | .atanh | .atan | .asin | .acos => 1 ≤ d.order
  | .powBase _ => d.degree ≠ 0
  | _ => True

theorem fn_syms (f : Fn) (hS : S.Pairwise (· < ·)) (hd : HasSyms S d) (h : f.run d = .ok r) :
    (f.KeepsSyms d → HasSyms S r) ∧ SubSyms S r := by
  have key : HasSyms S r → (f.KeepsSyms d → HasSyms S r) ∧ SubSyms S r := fun h => ⟨fun _ => h, h.sub hS⟩
  cases f
  case exp => exact key (hd.exp hS h)
  case log => exact key (hd.log hS h)
  case sqrt => exact key (hd.sqrt hS h)
  case cbrt => exact key (hd.cbrt hS h)
  case sin => exact key (hd.sin hS h)
  case cos => exact key (hd.cos hS h)
  case tan => exact key (hd.tan hS h)
  case sinh => exact key (hd.sinh hS h)
  case cosh => exact key (hd.cosh hS h)
  case tanh => exact key (hd.tanh hS h)
  case asinh => exact key (hd.asinh hS h)
  case acosh => exact key (hd.acosh hS h)
  case atanh =>
    have := atanh_syms hS hd h
    exact ⟨this.1, subSyms_of_order hS this⟩
  case atan =>
    have := atanWith_syms hS hd h
    exact ⟨this.1, subSyms_of_order hS this⟩
  case asin => exact ⟨fun h1 => hd.asinWith hS h1 h, SubSyms.asinWith hS hd h⟩
  case acos =>
    obtain ⟨s, h1, h2⟩ := bind_ok_iff.1 (show acosWith binomialU32 d = .ok r from h)
    injection h2 with h2
    subst h2
    have hs := SubSyms.asinWith hS hd h1
    exact ⟨fun h3 => (hd.asinWith hS h3 h1).subSG hS _, ⟨sorted_mergeSyms List.Pairwise.nil, fun u hu =>
      (mem_mergeSyms.1 hu).elim (fun hu => absurd hu List.not_mem_nil) (hs.sub u)⟩⟩
  case neg =>
    injection (show Except.ok d.neg = Except.ok r from h) with h
    subst h
    exact key hd
  case powQ α => exact key (hd.powQ hS h)
  case powInt z => exact key (hd.powInt hS h)
  case powBase q =>
    have := powBase_syms hS hd h
    refine ⟨this.1, ?_⟩
    by_cases h0 : d.degree = 0
    · refine ⟨?_, fun s hs => ?_⟩
      · rw [this.2 h0]; exact List.Pairwise.nil
      · rw [this.2 h0] at hs; exact absurd hs List.not_mem_nil
    · exact (this.1 h0).sub hS

end
end Audi.GDual
