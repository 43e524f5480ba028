import Verif.Proofs.TMOrder
import Verif.Props.C64_TaylorExpressions
import Verif.Props.C77_Approximation
import Verif.Props.C87_Refinement

/-! # C89: the remainders of expressions over small domains -/

namespace Audi

open TM MvPolynomial Spec GDual Filter Topology

section
variable {ord : List String → List String} {v : String → ℝ} {D R : String → Itv ℝ} {m : ℕ} {e : Expr ℝ} {r : TM ℝ}

theorem Itv.small_of_forall {a : Itv ℝ} {ε x : ℝ} (h : ∀ y, InItv a y → |y| ≤ ε) (hx : InItv a x) : Itv.Small ε a :=
  ⟨h _ ⟨le_rfl, hx.1.trans hx.2⟩, h _ ⟨hx.1.trans hx.2, le_rfl⟩⟩

theorem Itv.Small.mem {a : Itv ℝ} {ε x : ℝ} (h : Itv.Small ε a) (hx : InItv a x) : |x| ≤ ε :=
  abs_le.2 ⟨(abs_le.1 h.1).1.trans hx.1, hx.2.trans (abs_le.1 h.2).2⟩

/-- **C89 (partial).** When the evaluation of an expression at order `m` returns over the domains `D`, there is a constant `C` such that over all smaller domains
around the expansion point, within distance `h` of it, with remainders of the variables of size up to `ρ h^(m+1)`, it returns the same polynomial with a remainder of
size at most `C h^(m+1)`. Missing: orders above 31 (30 if atan, asin or acos occurs), products of models of order 0 only (`Proper`), remainders of the variables that
do not contain 0. -/
theorem C89_remainder_partial (hord : ∀ l, (ord l).Perm l) (hm : m ≤ 31) (hl : e.Legal m) (hp : e.Proper ord v D R m) (hr : e.runTM ord v D R m = .ok r) (ρ : ℝ) :
    ∃ C, 0 ≤ C ∧ ∀ (h : ℝ) (D' R' : String → Itv ℝ), 0 ≤ h →
      (∀ s, InItv (D' s) (v s)) → (∀ s x, InItv (D' s) x → InItv (D s) x ∧ |x - v s| ≤ h) →
      (∀ s, InItv (R' s) 0) → (∀ s x, InItv (R' s) x → InItv (R s) x ∧ |x| ≤ ρ * h ^ (m + 1)) →
      ∃ r', e.runTM ord v D' R' m = .ok r' ∧ r'.tpol = r.tpol ∧ ∀ y, InItv r'.rem y → |y| ≤ C * h ^ (m + 1) := by
  let ι := {i : ℝ × (String → Itv ℝ) × (String → Itv ℝ) // 0 ≤ i.1 ∧ i.1 ≤ 1 ∧ (∀ s, InItv (i.2.1 s) (v s)) ∧
    (∀ s x, InItv (i.2.1 s) x → InItv (D s) x ∧ |x - v s| ≤ i.1) ∧ (∀ s, InItv (i.2.2 s) 0) ∧
    ∀ s x, InItv (i.2.2 s) x → InItv (R s) x ∧ |x| ≤ ρ * i.1 ^ (m + 1)}
  have S : Shrink v D (fun i : ι => i.1.2.1) fun i => i.1.1 := by
    refine ⟨fun i s => ?_, fun i s => ?_, fun i s => ?_, fun i => i.2.1, fun i => i.2.2.1⟩
    · exact Itv.inside_of_forall ((i.2.2.2.1 s).1.trans (i.2.2.2.1 s).2) fun x hx => (i.2.2.2.2.1 s x hx).1
    · exact (i.2.2.2.2.1 s _ ⟨le_rfl, (i.2.2.2.1 s).1.trans (i.2.2.2.1 s).2⟩).2
    · exact (i.2.2.2.2.1 s _ ⟨(i.2.2.2.1 s).1.trans (i.2.2.2.1 s).2, le_rfl⟩).2
  obtain ⟨T, t1, t2⟩ := runTM_fam S hord hm (fun i s => i.2.2.2.1 s) (R := R) (R' := fun i => i.1.2.2)
    (fun i s => Itv.inside_of_forall ((i.2.2.2.2.2.1 s).1.trans (i.2.2.2.2.2.1 s).2) fun x hx => (i.2.2.2.2.2.2 s x hx).1)
    (fun i s => i.2.2.2.2.2.1 s)
    ⟨|ρ|, abs_nonneg _, fun i s => Itv.small_of_forall (fun y hy => ((i.2.2.2.2.2.2 s y hy).2).trans
      (mul_le_mul_of_nonneg_right (le_abs_self ρ) (pow_nonneg i.2.1 _))) (i.2.2.2.2.2.1 s)⟩ e hl hp r hr
  obtain ⟨C, c1, c2⟩ := t2.small
  refine ⟨max C r.rem.mag, c1.trans (le_max_left _ _), fun h D' R' h0 hv hD hz hR => ?_⟩
  rcases le_total h 1 with h1 | h1
  · let i : ι := ⟨(h, D', R'), h0, h1, hv, hD, hz, hR⟩
    exact ⟨T i, t1 i, (t2.finer i).tpol, fun y hy => ((c2 i).mem hy).trans (mul_le_mul_of_nonneg_right (le_max_left _ _) (pow_nonneg h0 _))⟩
  · obtain ⟨r', k1, k2⟩ := runTM_finer hord hm (fun s => Itv.inside_of_forall ((hv s).1.trans (hv s).2) fun x hx => (hD s x hx).1) hv
      (fun s => Itv.inside_of_forall ((hz s).1.trans (hz s).2) fun x hx => (hR s x hx).1) hz e hl hp r hr
    refine ⟨r', k1, k2.tpol, fun y hy => (k2.rem.small.mem hy).trans ?_⟩
    calc r.rem.mag ≤ max C r.rem.mag := le_max_right _ _
      _ ≤ max C r.rem.mag * h ^ (m + 1) := le_mul_of_one_le_right (c1.trans (le_max_left _ _)) (one_le_pow₀ h1)

/-- **C89 (partial).** The interval that a user takes for the range of the expression, bounds plus remainder, exceeds the values of the Taylor polynomial over the
domain by at most `C h²` when the domain lies within `h ≤ 1` of the expansion point and the variables have remainder {0}. Missing: as above. -/
theorem C89_enclosure_partial (hord : ∀ l, (ord l).Perm l) (h1 : 1 ≤ m) (hm : m ≤ 31) (hl : e.Legal m) (hp : e.Proper ord v D R m) (h0 : ∀ s, InItv (R s) 0)
    (hr : e.runTM ord v D R m = .ok r) (ho : ord (r.tpol.p.syms.map varName) = r.tpol.p.syms.map varName) :
    ∃ C, 0 ≤ C ∧ ∀ (h : ℝ) (D' : String → Itv ℝ), 0 ≤ h → h ≤ 1 →
      (∀ s, InItv (D' s) (v s)) → (∀ s x, InItv (D' s) x → InItv (D s) x ∧ |x - v s| ≤ h) →
      ∃ r' B, e.runTM ord v D' (fun _ => ⟨0, 0⟩) m = .ok r' ∧ r'.bounds ord = .ok B ∧
        (∃ x, r'.InDom x ∧ r'.polyAt x - C * h ^ 2 ≤ (B.add r'.rem).lo) ∧ ∃ x, r'.InDom x ∧ (B.add r'.rem).hi ≤ r'.polyAt x + C * h ^ 2 := by
  obtain ⟨-, hc⟩ := runTM_centred hord hm h0 e hl hp r hr
  obtain ⟨C, c1, c2⟩ := C89_remainder_partial hord hm hl hp hr 0
  obtain ⟨Q, q1, q2⟩ := C87_quadratic_partial hc.wf.valid hc.wf.names (hc.good.le.trans (by omega)) ho zero_le_one
  refine ⟨4 * Q + C, by positivity, fun h D' h2 h3 hv hD => ?_⟩
  obtain ⟨r', k1, k2, k3⟩ := c2 h D' (fun _ => ⟨0, 0⟩) h2 hv hD (fun _ => ⟨le_rfl, le_rfl⟩) fun s x hx => by
    obtain rfl : x = 0 := le_antisymm hx.2 hx.1
    exact ⟨h0 s, by simp⟩
  obtain ⟨r'', e1, e2⟩ := runTM_finer hord hm (fun s => Itv.inside_of_forall ((hv s).1.trans (hv s).2) fun x hx => (hD s x hx).1) hv
      (R' := fun _ => ⟨0, 0⟩) (fun s => ⟨(h0 s).1, le_rfl, (h0 s).2⟩) (fun _ => ⟨le_rfl, le_rfl⟩) e hl hp r hr
  rw [k1] at e1
  injection e1 with e1
  subst e1
  obtain ⟨F, hF⟩ := e2.small
  have hw : r'.rem.lo ≤ r'.rem.hi := hF.zero.1.trans hF.zero.2
  obtain ⟨B, b1, -, ⟨x, x1, x2⟩, ⟨y, y1, y2⟩⟩ := q2 r' (2 * h) hF.wf k2 fun p hp q hq hpq => by
    have ed := hF.dom p hp
    have ee := hF.exp q hq
    have a1 := (hD p.1 _ ⟨le_rfl, (hv p.1).1.trans (hv p.1).2⟩).2
    have a2 := (hD p.1 _ ⟨(hv p.1).1.trans (hv p.1).2, le_rfl⟩).2
    rw [ed, ee, ← hpq]
    refine ⟨a1.trans h3, a2.trans h3, ?_⟩
    have := (abs_le.1 a1).1
    have := (abs_le.1 a2).2
    linarith
  have hpow : C * h ^ (m + 1) ≤ C * h ^ 2 := mul_le_mul_of_nonneg_left (pow_le_pow_of_le_one h2 h3 (by omega)) c1
  refine ⟨r', B, k1, b1, ⟨x, x1, ?_⟩, y, y1, ?_⟩
  · have h5 := (abs_le.1 (k3 _ ⟨le_rfl, hw⟩)).1
    change _ ≤ B.lo + r'.rem.lo
    linarith
  · have h5 := (abs_le.1 (k3 _ ⟨hw, le_rfl⟩)).2
    change B.hi + r'.rem.hi ≤ _
    linarith

/-- The value of the polynomial of a model around `v`. -/
theorem TM.Centred.polyAt_eq {F : (String → ℝ) → ℝ} (hc : Centred m v D F r) (x : String → ℝ) :
    r.polyAt x = eval (fun s => x (varName s) - v (varName s)) (r.tpol.toMv ()) := by
  unfold polyAt
  refine eval₂Hom_congr' rfl (fun s hs _ => ?_) rfl
  have hs' := mem_supported.1 (toMv_mem_supported r.tpol () (S := {s | s ∈ r.tpol.p.syms}) fun s hs => hs) hs
  obtain ⟨_, y, _, h2, _⟩ := hc.wf.lookup (List.mem_map_of_mem (f := varName) hs')
  have h3 : y = v (varName s) := hc.exp _ (VMap.mem_of_lookup h2)
  rw [displacement, h2, h3]
  rfl

/-- The expression and the polynomial near the expansion point. -/
theorem near_polynomial (hord : ∀ l, (ord l).Perm l) (hm : m ≤ 31) (hl : e.Legal (m + 1)) (hp : e.Proper ord v D R m) (h0 : ∀ s, InItv (R s) 0)
    (hr : e.runTM ord v D R m = .ok r) : ∃ K, 0 ≤ K ∧ ∃ δ > 0, ∀ h, 0 < h → h < δ → ∀ x : String → ℝ, (∀ s, |x s - v s| ≤ h) →
      |e.sem () x - eval (fun s => x (varName s) - v (varName s)) (r.tpol.toMv ())| ≤ K * h ^ (m + 1) := by
  classical
  obtain ⟨hd, hc⟩ := runTM_centred hord hm h0 e (e.legal_of_succ hl) hp r hr
  have hU : m + 1 < UINT_MAX - 10 := by
    have : (32 : ℕ) < UINT_MAX - 10 := by decide
    omega
  obtain ⟨g, -, hg, -⟩ := Expr.run_good (ι := Unit) (C := ℝ) (m := m + 1) (p := fun _ => pt v) (v := v) hU (fun _ s => congrArg v (varName_d s)) e hl fun _ => hd
  let S : Finset String := (e.vars.map fun s => "d" ++ s).toFinset ∪ r.tpol.p.syms.toFinset
  obtain ⟨K, hK⟩ := (hc.good.taylor ()).big_o (hg.taylor ()) S
  obtain ⟨δ, hδ, hK⟩ := mem_nhdsGT_iff_exists_Ioo_subset.1 hK
  refine ⟨|K|, abs_nonneg _, δ, hδ, fun h h1 h2 x hx => ?_⟩
  let y : String → ℝ := fun s => if s ∈ S then x (varName s) else pt v s
  have hy : ∀ s ∈ S, y s = x (varName s) := fun s hs => if_pos hs
  have h3 := hK ⟨h1, h2⟩ y ⟨fun s hs => if_neg hs, fun s => by
    by_cases hs : s ∈ S
    · rw [hy s hs]
      exact hx _
    · rw [show y s = pt v s from if_neg hs, sub_self, norm_zero]
      exact h1.le⟩
  have e1 : (e.sem () fun s => y ("d" ++ s)) = e.sem () x := e.sem_congr () fun s hs => by
    rw [hy _ (Finset.mem_union_left _ (List.mem_toFinset.2 (List.mem_map_of_mem (f := fun s => "d" ++ s) hs))), varName_d]
  have e2 : eval (fun s => y s - pt v s) (r.tpol.toMv () : MvPolynomial String ℝ) = eval (fun s => x (varName s) - v (varName s)) (r.tpol.toMv ()) :=
    eval₂Hom_congr' rfl (fun s hs _ => by
      have hs' := mem_supported.1 (toMv_mem_supported r.tpol () (S := {s | s ∈ r.tpol.p.syms}) fun s hs => hs) hs
      rw [hy s (Finset.mem_union_right _ (List.mem_toFinset.2 hs'))]) rfl
  rw [e1, e2, Real.norm_eq_abs] at h3
  exact h3.trans (mul_le_mul_of_nonneg_right (le_abs_self K) (pow_nonneg h1.le _))

/-- **C89 (partial).** The same interval and the range of the expression itself: near the expansion point, over boxes within `h` of it, the interval contains all values
of the expression up to `C h^(m+1)`, and exceeds values that the expression takes over the box by at most `C h²`, at both ends. Missing: as above, with the
limit for atan, asin and acos at order `m + 1`. (That the values lie in the interval exactly is C66.) -/
theorem C89_range_partial (hord : ∀ l, (ord l).Perm l) (h1 : 1 ≤ m) (hm : m ≤ 31) (hl : e.Legal (m + 1)) (hp : e.Proper ord v D R m) (h0 : ∀ s, InItv (R s) 0)
    (hr : e.runTM ord v D R m = .ok r) (ho : ord (r.tpol.p.syms.map varName) = r.tpol.p.syms.map varName) :
    ∃ C, 0 ≤ C ∧ ∃ δ > 0, ∀ (h : ℝ) (D' : String → Itv ℝ), 0 < h → h < δ →
      (∀ s, InItv (D' s) (v s)) → (∀ s x, InItv (D' s) x → InItv (D s) x ∧ |x - v s| ≤ h) →
      ∃ r' B, e.runTM ord v D' (fun _ => ⟨0, 0⟩) m = .ok r' ∧ r'.bounds ord = .ok B ∧
        (∀ x, (∀ s, InItv (D' s) (x s)) → (B.add r'.rem).lo - C * h ^ (m + 1) ≤ e.sem () x ∧ e.sem () x ≤ (B.add r'.rem).hi + C * h ^ (m + 1)) ∧
        (∃ x, (∀ s, InItv (D' s) (x s)) ∧ e.sem () x - C * h ^ 2 ≤ (B.add r'.rem).lo) ∧
        ∃ x, (∀ s, InItv (D' s) (x s)) ∧ (B.add r'.rem).hi ≤ e.sem () x + C * h ^ 2 := by
  classical
  obtain ⟨-, hc⟩ := runTM_centred hord hm h0 e (e.legal_of_succ hl) hp r hr
  obtain ⟨Q, q1, q2⟩ := C89_enclosure_partial hord h1 hm (e.legal_of_succ hl) hp h0 hr ho
  obtain ⟨A, a1, a2⟩ := C89_remainder_partial hord hm (e.legal_of_succ hl) hp hr 0
  obtain ⟨K, k1, δ, hδ, k2⟩ := near_polynomial hord hm hl hp h0 hr
  refine ⟨Q + K + A, by positivity, min δ 1, lt_min hδ one_pos, fun h D' h2 h3 hv hD => ?_⟩
  have hδ' := h3.trans_le (min_le_left _ _)
  have hone := (h3.trans_le (min_le_right _ _)).le
  obtain ⟨r', B, e1, b1, ⟨x, x1, x2⟩, ⟨y, y1, y2⟩⟩ := q2 h D' h2.le hone hv hD
  obtain ⟨r'', e2, -, rem⟩ := a2 h D' (fun _ => ⟨0, 0⟩) h2.le hv hD (fun _ => ⟨le_rfl, le_rfl⟩) fun s x hx => by
    obtain rfl : x = 0 := le_antisymm hx.2 hx.1
    exact ⟨h0 s, by simp⟩
  rw [e1] at e2
  injection e2 with e2
  subst e2
  have hI : ∀ s, Itv.Inside (D' s) (D s) := fun s => Itv.inside_of_forall ((hv s).1.trans (hv s).2) fun x hx => (hD s x hx).1
  obtain ⟨r'', e2, fin⟩ := runTM_finer hord hm hI hv (R' := fun _ => ⟨0, 0⟩) (fun s => ⟨(h0 s).1, le_rfl, (h0 s).2⟩) (fun _ => ⟨le_rfl, le_rfl⟩) e
    (e.legal_of_succ hl) hp r hr
  rw [e1] at e2
  injection e2 with e2
  subst e2
  obtain ⟨F, hF⟩ := fin.small
  have hpoly : ∀ x, (∀ s, InItv (D' s) (x s)) → |e.sem () x - r'.polyAt x| ≤ K * h ^ (m + 1) := fun x hx => by
    rw [hF.polyAt_eq, fin.tpol]
    exact k2 h h2 hδ' x fun s => (hD s _ (hx s)).2
  have hw : r'.rem.lo ≤ r'.rem.hi := hF.zero.1.trans hF.zero.2
  have r1 := (abs_le.1 (rem _ ⟨le_rfl, hw⟩))
  have r2 := (abs_le.1 (rem _ ⟨hw, le_rfl⟩))
  have hpow : h ^ (m + 1) ≤ h ^ 2 := pow_le_pow_of_le_one h2.le hone (by omega)
  have p0 : 0 ≤ h ^ (m + 1) := by positivity
  -- points of the domain of the model, completed by the expansion point
  have key : ∀ x, r'.InDom x → ∃ x', (∀ s, InItv (D' s) (x' s)) ∧ r'.polyAt x' = r'.polyAt x := fun x hx => by
    refine ⟨fun s => if s ∈ r'.dom.map Prod.fst then x s else v s, fun s => ?_, ?_⟩
    · dsimp only
      split_ifs with hs
      · obtain ⟨q, hq, rfl⟩ := List.mem_map.1 hs
        have := hx q hq
        rwa [hF.dom q hq] at this
      · exact hv s
    · rw [hF.polyAt_eq, hF.polyAt_eq]
      refine eval₂Hom_congr' rfl (fun s hs _ => ?_) rfl
      have hs' := mem_supported.1 (toMv_mem_supported r'.tpol () (S := {s | s ∈ r'.tpol.p.syms}) fun s hs => hs) hs
      obtain ⟨I, _, h4, _, _⟩ := hF.wf.lookup (List.mem_map_of_mem (f := varName) hs')
      rw [if_pos (List.mem_map_of_mem (f := Prod.fst) (VMap.mem_of_lookup h4))]
  refine ⟨r', B, e1, b1, fun x hx => ?_, ?_, ?_⟩
  · have h4 := abs_le.1 (hpoly x hx)
    have h5 : InItv B (r'.polyAt x) := by
      obtain ⟨B', c1, -, c3⟩ := getBounds_encloses' hF.wf.valid hF.wf.names (exponents_le hF.wf (hF.order_le.trans (by omega))) (covers_of_wf hF.wf)
        (ord := ord) (by rw [fin.tpol]; exact ho)
      have : B' = B := by
        have b1' : TM.getBounds ord r'.tpol r'.exp r'.dom = .ok B := b1
        rw [c1] at b1'
        injection b1'
      subst this
      exact c3 x ((inDom_iff hF.wf x).1 fun q hq => by rw [hF.dom q hq]; exact hx _)
    have h6 := h5.1
    have h7 := h5.2
    change B.lo + r'.rem.lo - _ ≤ _ ∧ _ ≤ B.hi + r'.rem.hi + _
    have e3 : (Q + K + A) * h ^ (m + 1) = Q * h ^ (m + 1) + K * h ^ (m + 1) + A * h ^ (m + 1) := by ring
    have e4 : 0 ≤ Q * h ^ (m + 1) := by positivity
    rw [e3]
    constructor <;> linarith
  · obtain ⟨x', i1, i2⟩ := key x x1
    refine ⟨x', i1, ?_⟩
    have h4 := (abs_le.1 (hpoly x' i1)).2
    have e3 : (Q + K + A) * h ^ 2 = Q * h ^ 2 + K * h ^ 2 + A * h ^ 2 := by ring
    have e4 : K * h ^ (m + 1) ≤ K * h ^ 2 := mul_le_mul_of_nonneg_left hpow k1
    have e5 : 0 ≤ A * h ^ 2 := by positivity
    rw [i2] at h4
    rw [e3]
    linarith
  · obtain ⟨x', i1, i2⟩ := key y y1
    refine ⟨x', i1, ?_⟩
    have h4 := (abs_le.1 (hpoly x' i1)).1
    have e3 : (Q + K + A) * h ^ 2 = Q * h ^ 2 + K * h ^ 2 + A * h ^ 2 := by ring
    have e4 : K * h ^ (m + 1) ≤ K * h ^ 2 := mul_le_mul_of_nonneg_left hpow k1
    have e5 : 0 ≤ A * h ^ 2 := by positivity
    rw [i2] at h4
    rw [e3]
    linarith

/-- All hypotheses hold for `(x · sin x) / 2 + exp y` at order 2 around 0 in [-1, 1]; the domains are [-h, h] for `h ≤ 1`. -/
example : ∃ r C, Ex.mixed.runTM id (fun _ => 0) (fun _ => ⟨-1, 1⟩) (fun _ => ⟨0, 0⟩) 2 = .ok r ∧ ∀ h, 0 ≤ h → h ≤ 1 →
    ∃ r', Ex.mixed.runTM id (fun _ => 0) (fun _ => ⟨-h, h⟩) (fun _ => ⟨0, 0⟩) 2 = .ok r' ∧ r'.tpol = r.tpol ∧ ∀ y, InItv r'.rem y → |y| ≤ C * h ^ 3 := by
  obtain ⟨h1, h2, r, h3⟩ := Ex.mixed_hyps (v := fun _ => 0) (D := fun _ => ⟨-1, 1⟩) (R := fun _ => ⟨0, 0⟩) (m := 2)
    (fun _ => ⟨by norm_num, by norm_num⟩) (fun _ => ⟨by norm_num, by norm_num⟩) (by norm_num) (by norm_num)
  obtain ⟨C, -, c⟩ := C89_remainder_partial (fun _ => .refl _) (by norm_num) h1 h2 h3 0
  refine ⟨r, C, h3, fun h a b => c h _ _ a (fun _ => ⟨by simpa using a, a⟩) (fun _ x hx => ?_) (fun _ => ⟨le_rfl, le_rfl⟩) fun _ x hx => ?_⟩
  · have h4 := hx.1
    have h5 := hx.2
    dsimp only at h4 h5
    exact ⟨⟨by dsimp only; linarith, by dsimp only; linarith⟩, by rw [sub_zero]; exact abs_le.2 ⟨h4, h5⟩⟩
  · obtain rfl : x = 0 := le_antisymm hx.2 hx.1
    exact ⟨⟨le_rfl, le_rfl⟩, by simp⟩

example : ∃ r C, Ex.mixed.runTM id (fun _ => 0) (fun _ => ⟨-1, 1⟩) (fun _ => ⟨0, 0⟩) 2 = .ok r ∧ ∀ h, 0 ≤ h → h ≤ 1 →
    ∃ r' B, Ex.mixed.runTM id (fun _ => 0) (fun _ => ⟨-h, h⟩) (fun _ => ⟨0, 0⟩) 2 = .ok r' ∧ r'.bounds id = .ok B ∧
      (∃ x, r'.InDom x ∧ r'.polyAt x - C * h ^ 2 ≤ (B.add r'.rem).lo) ∧ ∃ x, r'.InDom x ∧ (B.add r'.rem).hi ≤ r'.polyAt x + C * h ^ 2 := by
  obtain ⟨h1, h2, r, h3⟩ := Ex.mixed_hyps (v := fun _ => 0) (D := fun _ => ⟨-1, 1⟩) (R := fun _ => ⟨0, 0⟩) (m := 2)
    (fun _ => ⟨by norm_num, by norm_num⟩) (fun _ => ⟨by norm_num, by norm_num⟩) (by norm_num) (by norm_num)
  obtain ⟨C, -, c⟩ := C89_enclosure_partial (fun _ => .refl _) (by norm_num) (by norm_num) h1 h2 (fun _ => ⟨le_rfl, le_rfl⟩) h3 rfl
  refine ⟨r, C, h3, fun h a b => c h _ a b (fun _ => ⟨by simpa using a, a⟩) fun _ x hx => ?_⟩
  have h4 := hx.1
  have h5 := hx.2
  dsimp only at h4 h5
  exact ⟨⟨by dsimp only; linarith, by dsimp only; linarith⟩, by rw [sub_zero]; exact abs_le.2 ⟨h4, h5⟩⟩

/-- And for the last theorem. -/
example : ∃ r C, Ex.mixed.runTM id (fun _ => 0) (fun _ => ⟨-1, 1⟩) (fun _ => ⟨0, 0⟩) 2 = .ok r ∧ ∃ δ > 0, ∀ h, 0 < h → h < δ → h < 1 →
    ∃ r' B, Ex.mixed.runTM id (fun _ => 0) (fun _ => ⟨-h, h⟩) (fun _ => ⟨0, 0⟩) 2 = .ok r' ∧ r'.bounds id = .ok B ∧
      ∀ x y : ℝ, |x| ≤ h → |y| ≤ h → x * Real.sin x / 2 + Real.exp y ≤ (B.add r'.rem).hi + C * h ^ 3 := by
  obtain ⟨h1, h2, r, h3⟩ := Ex.mixed_hyps (v := fun _ => 0) (D := fun _ => ⟨-1, 1⟩) (R := fun _ => ⟨0, 0⟩) (m := 2)
    (fun _ => ⟨by norm_num, by norm_num⟩) (fun _ => ⟨by norm_num, by norm_num⟩) (by norm_num) (by norm_num)
  obtain ⟨h1', -⟩ := Ex.mixed_hyps (v := fun _ => 0) (D := fun _ => ⟨-1, 1⟩) (R := fun _ => ⟨0, 0⟩) (m := 3)
    (fun _ => ⟨by norm_num, by norm_num⟩) (fun _ => ⟨by norm_num, by norm_num⟩) (by norm_num) (by norm_num)
  obtain ⟨C, -, δ, hδ, c⟩ := C89_range_partial (fun _ => .refl _) (by norm_num) (by norm_num) h1' h2 (fun _ => ⟨le_rfl, le_rfl⟩) h3 rfl
  refine ⟨r, C, h3, δ, hδ, fun h a b b' => ?_⟩
  obtain ⟨r', B, e1, e2, e3, -⟩ := c h (fun _ => ⟨-h, h⟩) a b (fun _ => ⟨by simpa using a.le, a.le⟩) fun _ x hx => by
    have h4 := hx.1
    have h5 := hx.2
    dsimp only at h4 h5
    exact ⟨⟨by dsimp only; linarith, by dsimp only; linarith⟩, by rw [sub_zero]; exact abs_le.2 ⟨h4, h5⟩⟩
  refine ⟨r', B, e1, e2, fun x y hx hy => ?_⟩
  have := (e3 (fun s => if s = "x" then x else y) fun s => by
    split_ifs
    · exact abs_le.1 hx
    · exact abs_le.1 hy).2
  have hlane : (Lanes.lane () (2 : ℝ) : ℝ) = 2 := rfl
  simpa [Ex.mixed, Expr.sem, Op.real, Fn.real, hlane] using this

end
end Audi
