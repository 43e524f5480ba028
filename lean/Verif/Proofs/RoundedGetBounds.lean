import Verif.Proofs.RoundedBounds
import Verif.Proofs.BoundsWidth
import Verif.Proofs.Rounding

/-!
# Proofs: `get_bounds` with rounding
-/

namespace Audi
namespace TM

open MvPolynomial Spec Rounding Bounding

variable {R : Rounding ℝ}

/-- The expansion point, read as numbers. -/
def exactExp (exp : VMap (Fl R)) : VMap ℝ := exp.map fun e => (e.1, e.2.val)

/-- The domain, read as numbers. -/
def exactDom (dom : VMap (Itv (Fl R))) : VMap (Itv ℝ) := dom.map fun e => (e.1, ⟨e.2.lo.val, e.2.hi.val⟩)

theorem lookup_map {α β : Type} (φ : α → β) (m : VMap α) (k : String) : List.lookup k (m.map fun e => (e.1, φ e.2)) = (List.lookup k m).map φ := by
  induction m with
  | nil => rfl
  | cons e m ih =>
    rw [List.map_cons, List.lookup_cons, List.lookup_cons]
    cases k == e.1
    · exact ih
    · rfl

theorem findCf_exact (d : GDual (Fl R)) (e : List ℕ) : d.exact.findCf e = (d.findCf e).map Fl.val := by
  have h : d.exact.p.find? e = (d.p.find? e).map Fl.val := by
    unfold Poly.find? GDual.exact Poly.exact
    simp only
    rw [List.find?_map]
    simp [Function.comp_def]
  have hz : (Cf.zero : ℝ) = (Cf.zero : Fl R).val := by simp [Cf.zero, Cf.ofRat, Fl.round, R.rnd_zero]
  unfold GDual.findCf
  rw [h, show d.exact.order = d.order from rfl, show d.exact.symbolSetSize = d.symbolSetSize from rfl]
  split_ifs
  · rfl
  · rfl
  · cases d.p.find? e with
    | none => exact congrArg Except.ok hz
    | some c => rfl

theorem getPoly_exact (d : GDual (Fl R)) : getPoly d.exact = (getPoly d).map fun r => (r.1.map Fl.val, r.2) := by
  have hdeg : d.exact.degree = d.degree := by
    unfold GDual.degree GDual.exact Poly.exact Poly.degree
    rw [List.map_map]
    rfl
  have hb : ∀ x : Fl R, Cf.beq x.val Cf.zero = Cf.beq x Cf.zero := fun x => by simp [Cf.beq, Cf.zero, Cf.ofRat, Fl.round, R.rnd_zero]
  unfold getPoly
  rw [hdeg, show d.exact.symbolSetSize = d.symbolSetSize from rfl]
  have := foldlM_natural (fun r : List (Fl R) × List (List ℕ) => (r.1.map Fl.val, r.2))
    (f := fun (acc : List (Fl R) × List (List ℕ)) (exps : List ℕ) => do
      let cf ← d.findCf exps
      .ok (if !Cf.beq cf Cf.zero then (acc.1 ++ [cf], acc.2 ++ [exps]) else acc))
    (g := fun (acc : List ℝ × List (List ℕ)) (exps : List ℕ) => do
      let cf ← d.exact.findCf exps
      .ok (if !Cf.beq cf Cf.zero then (acc.1 ++ [cf], acc.2 ++ [exps]) else acc))
    (fun s e => by
      rw [findCf_exact]
      cases d.findCf e with
      | error e => rfl
      | ok c =>
        simp only [bind, Except.bind, Except.map, hb]
        split_ifs <;> simp) (polyCombs d.symbolSetSize d.degree) ([], [])
  simp only [List.map_nil] at this
  rw [this]
  cases (polyCombs d.symbolSetSize d.degree).foldlM (fun (acc : List (Fl R) × List (List ℕ)) (exps : List ℕ) => do
      let cf ← d.findCf exps
      .ok (if !Cf.beq cf Cf.zero then (acc.1 ++ [cf], acc.2 ++ [exps]) else acc)) ([], []) <;> rfl

theorem shiftedDomain_of_le {K : Type} [LinearOrder K] [Sub K] [Zero K] {vars : List String} {exp : VMap K} {dom : VMap (Itv K)}
    (h : ∀ v ∈ vars, ∃ I x, dom.lookup v = some I ∧ exp.lookup v = some x ∧ I.lo - x ≤ I.hi - x) :
    shiftedDomain vars exp dom = .ok (vars.map fun v => (v, shiftItv exp dom v)) := by
  unfold shiftedDomain
  refine mapM_ok fun v hv => ?_
  obtain ⟨I, x, h1, h2, h3⟩ := h v hv
  have e1 : dom.at' v = .ok I := by unfold VMap.at'; rw [h1]
  have e2 : exp.at' v = .ok x := by unfold VMap.at'; rw [h2]
  rw [bind_ok e1, bind_ok e2, bind_ok (make_ok h3)]
  simp [shiftItv, h1, h2]

/-- The magnitude of a variable: twice the distance of the lower end of its interval from the expansion point, plus the distance of the upper end. -/
def magnitude (exp : VMap ℝ) (dom : VMap (Itv ℝ)) (s : String) : ℝ := 2 * |(shiftItv exp dom (varName s)).lo| + |(shiftItv exp dom (varName s)).hi|

/-- The smallest and the largest entries of two matrices whose entries are close are close. -/
theorem minmax_near {m n : ℕ} (hm : 0 < m) (hn : 0 < n) {f : ℕ → ℕ → Fl R} {g : ℕ → ℕ → ℝ} {E : ℝ} (h : ∀ i, i < m → ∀ j, j < n → |(f i j).val - g i j| ≤ E) :
    ∃ I J, minmax (Mat.ofFn m n f).flatten = .ok I ∧ minmax (Mat.ofFn m n g).flatten = .ok J ∧ |I.lo.val - J.lo| ≤ E ∧ |I.hi.val - J.hi| ≤ E := by
  have nF : (Mat.ofFn m n f).flatten ≠ [] := List.ne_nil_of_mem (mem_flatten_ofFn.2 ⟨0, hm, 0, hn, rfl⟩)
  have nG : (Mat.ofFn m n g).flatten ≠ [] := List.ne_nil_of_mem (mem_flatten_ofFn.2 ⟨0, hm, 0, hn, rfl⟩)
  obtain ⟨I, hI, bI⟩ := minmax_ok nF
  obtain ⟨J, hJ, bJ⟩ := minmax_ok nG
  obtain ⟨mI1, mI2⟩ := minmax_mem hI
  obtain ⟨mJ1, mJ2⟩ := minmax_mem hJ
  have bF : ∀ i, i < m → ∀ j, j < n → I.lo.val ≤ (f i j).val ∧ (f i j).val ≤ I.hi.val := fun i hi j hj => bI _ (mem_flatten_ofFn.2 ⟨i, hi, j, hj, rfl⟩)
  have bG : ∀ i, i < m → ∀ j, j < n → J.lo ≤ g i j ∧ g i j ≤ J.hi := fun i hi j hj => bJ _ (mem_flatten_ofFn.2 ⟨i, hi, j, hj, rfl⟩)
  refine ⟨I, J, hI, hJ, ?_, ?_⟩
  · obtain ⟨i, hi, j, hj, e1⟩ := mem_flatten_ofFn.1 mI1
    obtain ⟨i', hi', j', hj', e2⟩ := mem_flatten_ofFn.1 mJ1
    have a1 := abs_le.1 (h i hi j hj)
    have a2 := abs_le.1 (h i' hi' j' hj')
    have a3 := (bG i hi j hj).1
    have a4 := (bF i' hi' j' hj').1
    rw [← e1] at a4 ⊢
    rw [← e2] at a3 ⊢
    exact abs_le.2 ⟨by linarith, by linarith⟩
  · obtain ⟨i, hi, j, hj, e1⟩ := mem_flatten_ofFn.1 mI2
    obtain ⟨i', hi', j', hj', e2⟩ := mem_flatten_ofFn.1 mJ2
    have a1 := abs_le.1 (h i hi j hj)
    have a2 := abs_le.1 (h i' hi' j' hj')
    have a3 := (bG i hi j hj).2
    have a4 := (bF i' hi' j' hj').2
    rw [← e1] at a4 ⊢
    rw [← e2] at a3 ⊢
    exact abs_le.2 ⟨by linarith, by linarith⟩

/-- The bounds with rounding are close to the exact bounds. -/
theorem getBounds_rounded [FlPow R] (hu : R.u ≤ 1 / 2) (hmono : Monotone R.rnd) {ord : List String → List String} {p : GDual (Fl R)} {exp : VMap (Fl R)}
    {dom : VMap (Itv (Fl R))} (hp : p.exact.Valid) (hn : ∀ s ∈ p.p.syms, ∃ v, s = "d" ++ v) {N : ℕ} (hN : ∀ t ∈ p.p.terms, ∀ k ∈ t.1, k ≤ N) (h62 : N ≤ 62)
    (hm : ∀ v ∈ p.p.syms.map varName, ∃ I x, dom.lookup v = some I ∧ exp.lookup v = some x ∧ I.lo ≤ I.hi)
    (ho : ord (p.p.syms.map varName) = p.p.syms.map varName) :
    ∃ I J, getBounds ord p exp dom = .ok I ∧ getBounds ord p.exact (exactExp exp) (exactDom dom) = .ok J ∧
      |I.lo.val - J.lo| ≤ ((1 + R.u) ^ (p.p.syms.length * (13 * N + 2 * FlPow.acc R + 17)) - 1) * absVal (magnitude (exactExp exp) (exactDom dom)) (p.exact.toMv ()) ∧
      |I.hi.val - J.hi| ≤ ((1 + R.u) ^ (p.p.syms.length * (13 * N + 2 * FlPow.acc R + 17)) - 1) * absVal (magnitude (exactExp exp) (exactDom dom)) (p.exact.toMv ()) := by
  set k := p.p.syms.length * (13 * N + 2 * FlPow.acc R + 17) with hk
  set μ := magnitude (exactExp exp) (exactDom dom) with hμ
  have hμ0 : ∀ s, 0 ≤ μ s := fun s => by rw [hμ]; unfold magnitude; positivity
  have hA0 : 0 ≤ absVal μ (p.exact.toMv ()) := (abs_nonneg _).trans (abs_eval_le (δ := fun _ => 0) fun s _ => by rw [abs_zero]; exact hμ0 s)
  have hE0 : 0 ≤ ((1 + R.u) ^ k - 1) * absVal μ (p.exact.toMv ()) := mul_nonneg (by linarith [R.one_le_pow k]) hA0
  have hzero : ∀ {cX : List ℝ}, getPoly p.exact = .ok (cX, []) → ∃ I J, getBounds ord p exp dom = .ok I ∧
      getBounds ord p.exact (exactExp exp) (exactDom dom) = .ok J ∧ |I.lo.val - J.lo| ≤ ((1 + R.u) ^ k - 1) * absVal μ (p.exact.toMv ()) ∧
      |I.hi.val - J.hi| ≤ ((1 + R.u) ^ k - 1) * absVal μ (p.exact.toMv ()) := by
    intro cX h1
    have h2 := h1
    rw [getPoly_exact] at h2
    cases hF : getPoly p with
    | error e => rw [hF] at h2; cases h2
    | ok r =>
      obtain ⟨c, exps⟩ := r
      rw [hF] at h2
      simp only [Except.map, Except.ok.injEq, Prod.mk.injEq] at h2
      obtain ⟨-, rfl⟩ := h2
      have n1 : getNdim c ([] : List (List ℕ)) = .ok 0 := by cases c <;> rfl
      have n2 : getNdim cX ([] : List (List ℕ)) = .ok 0 := by cases cX <;> rfl
      obtain ⟨a, ha⟩ := GDual.constantCf_isOk p
      have ha' : p.exact.constantCf = .ok a.val := by
        have := findCf_exact p (List.replicate p.symbolSetSize 0)
        unfold GDual.constantCf at ha ⊢
        rw [ha] at this
        exact this
      refine ⟨⟨a, a⟩, ⟨a.val, a.val⟩, ?_, ?_, ?_, ?_⟩
      · unfold getBounds
        rw [bind_ok hF]
        simp only
        rw [bind_ok n1, if_neg (by omega), bind_ok ha]
      · unfold getBounds
        rw [bind_ok h1]
        simp only
        rw [bind_ok n2, if_neg (by omega), bind_ok ha']
      · simpa using hE0
      · simpa using hE0
  by_cases hs : p.symbolSetSize = 0
  · exact hzero (getPoly_no_symbols (d := p.exact) hs)
  · obtain ⟨cX, exps, h1, h2, h3, h4⟩ := getPoly_spec (ι := Unit) (K := ℝ) hp (Nat.one_le_iff_ne_zero.2 hs)
    by_cases he : exps = []
    · subst he
      exact hzero h1
    · have h1' := h1
      rw [getPoly_exact] at h1'
      cases hF : getPoly p with
      | error e => rw [hF] at h1'; cases h1'
      | ok r =>
        obtain ⟨c, exps'⟩ := r
        rw [hF] at h1'
        simp only [Except.map, Except.ok.injEq, Prod.mk.injEq] at h1'
        obtain ⟨rfl, rfl⟩ := h1'
        have hl : c.length = exps'.length := by simpa using h2
        have hexps : ∀ e ∈ exps', ∃ a, (e, a) ∈ p.exact.p.terms := by
          intro e hee
          have hz : exps' = (exps'.zip (c.map Fl.val)).map Prod.fst := (List.map_fst_zip (by rw [h2])).symm
          rw [hz] at hee
          obtain ⟨⟨e', a⟩, hx, rfl⟩ := List.mem_map.1 hee
          exact ⟨a, h3.mem_iff.1 hx⟩
        have hw : ∀ e ∈ exps', e.length = p.p.syms.length := fun e hee => by
          obtain ⟨a, ha⟩ := hexps e hee
          exact hp.wf.len _ ha
        have hNe : ∀ e ∈ exps', ∀ k ∈ e, k ≤ N := fun e hee k hk => by
          obtain ⟨a, ha⟩ := hexps e hee
          obtain ⟨t, ht, hte⟩ := List.mem_map.1 (show (e, a) ∈ p.p.terms.map fun t => (t.1, t.2.val) from ha)
          have : t.1 = e := (Prod.mk.inj hte).1
          exact hN t ht k (this ▸ hk)
        have h62e : ∀ e ∈ exps', ∀ k ∈ e, k ≤ 62 := fun e hee k hk => (hNe e hee k hk).trans h62
        have hvnd : (p.p.syms.map varName).Nodup := nodup_varNames hp.wf.ndsyms hn
        set vars := p.p.syms.map varName with hvars
        have hlook : ∀ v ∈ vars, ∃ I x, dom.lookup v = some I ∧ exp.lookup v = some x ∧ I.lo ≤ I.hi ∧
            (exactDom dom).lookup v = some ⟨I.lo.val, I.hi.val⟩ ∧ (exactExp exp).lookup v = some x.val := by
          intro v hv
          obtain ⟨I, x, a1, a2, a3⟩ := hm v hv
          refine ⟨I, x, a1, a2, a3, ?_, ?_⟩
          · unfold exactDom
            rw [lookup_map (fun I : Itv (Fl R) => (⟨I.lo.val, I.hi.val⟩ : Itv ℝ)), a1]
            rfl
          · unfold exactExp
            rw [lookup_map Fl.val, a2]
            rfl
        have sF : shiftedDomain vars exp dom = .ok (vars.map fun v => (v, shiftItv exp dom v)) := by
          refine shiftedDomain_of_le fun v hv => ?_
          obtain ⟨I, x, a1, a2, a3, -⟩ := hlook v hv
          exact ⟨I, x, a1, a2, hmono (sub_le_sub_right (show I.lo.val ≤ I.hi.val from a3) x.val)⟩
        have sX : shiftedDomain vars (exactExp exp) (exactDom dom) = .ok (vars.map fun v => (v, shiftItv (exactExp exp) (exactDom dom) v)) := by
          refine shiftedDomain_of_le fun v hv => ?_
          obtain ⟨I, x, -, -, a3, a4, a5⟩ := hlook v hv
          exact ⟨_, _, a4, a5, sub_le_sub_right (show I.lo.val ≤ I.hi.val from a3) x.val⟩
        have hkeys : ∀ {α : Type} (f : String → α), (vars.map fun v => (v, f v)).map Prod.fst = vars := fun f => by
          rw [List.map_map]; simp [Function.comp_def]
        have iF := iterate_faithful (ord := ord) (m := vars.map fun v => (v, shiftItv exp dom v)) (by rw [hkeys]; exact hvnd) (by rw [hkeys]; exact ho)
        have iX := iterate_faithful (ord := ord) (m := vars.map fun v => (v, shiftItv (exactExp exp) (exactDom dom) v)) (by rw [hkeys]; exact hvnd)
          (by rw [hkeys]; exact ho)
        set dM : List (String × Itv ℝ) := vars.map fun v => (v, ⟨|(shiftItv (exactExp exp) (exactDom dom) v).lo|,
          2 * |(shiftItv (exactExp exp) (exactDom dom) v).lo| + |(shiftItv (exactExp exp) (exactDom dom) v).hi|⟩) with hdM
        have hpos : 1 ≤ p.p.syms.length := Nat.one_le_iff_ne_zero.2 hs
        obtain ⟨m, q, m0, q0, A, B, C, e1, e2, e3, f, g, e, rfl, rfl, rfl, hnear⟩ := patch_rounded hu hpos hl he hw (h4.imp fun h => ne_of_lt h) h62e hNe
          (dF := vars.map fun v => (v, shiftItv exp dom v)) (dX := vars.map fun v => (v, shiftItv (exactExp exp) (exactDom dom) v)) (dM := dM)
          (by simp [hvars]) (by simp [hvars]) (by simp [hdM, hvars]) (fun d d1 d2 d3 => by
            have hd : d < vars.length := by simpa using d1
            obtain ⟨I, x, a1, a2, -, a4, a5⟩ := hlook vars[d] (List.getElem_mem hd)
            simp only [hdM, List.getElem_map]
            refine ⟨?_, ?_, rfl, rfl⟩
            · simp only [shiftItv, a1, a2, a4, a5, Option.getD_some]
              exact (Rel.refl R _).rnd
            · simp only [shiftItv, a1, a2, a4, a5, Option.getD_some]
              exact (Rel.refl R _).rnd)
        obtain ⟨patch, b1, b2, -⟩ := patch_abs hpos (coeffs := c.map fun x => |x.val|) (by simpa using hl) he hw (h4.imp fun h => ne_of_lt h) h62e (domain := dM)
          (by simp [hdM, hvars])
        rw [e3] at b1
        obtain rfl := Except.ok.inj b1
        have hbox : List.Forall₂ (fun (I : Itv ℝ) r => |I.lo| ≤ r ∧ |I.hi| ≤ r) (dM.map Prod.snd) (p.p.syms.map μ) := by
          rw [hdM, hvars, List.map_map, List.map_map, List.forall₂_map_left_iff, List.forall₂_map_right_iff, List.forall₂_same]
          intro s _
          simp only [Function.comp_apply, hμ, magnitude, abs_abs]
          refine ⟨?_, (abs_of_nonneg (by positivity)).le⟩
          have := abs_nonneg (shiftItv (exactExp exp) (exactDom dom) (varName s)).lo
          have := abs_nonneg (shiftItv (exactExp exp) (exactDom dom) (varName s)).hi
          linarith
        have habs : Spec.polyVal ((c.map fun x => |x.val|).map fun c => |c|) exps' (p.p.syms.map μ) = absVal μ (p.exact.toMv ()) := by
          rw [absVal_eq hp, ← (h3.map _).sum_eq]
          unfold Spec.polyVal
          congr 1
          rw [List.zip, List.map_zipWith, List.zipWith_comm]
          simp only [List.zipWith_map_right, abs_abs]
          rfl
        have hclose : ∀ i, i < m → ∀ j, j < q → |(f i j).val - g i j| ≤ ((1 + R.u) ^ k - 1) * absVal μ (p.exact.toMv ()) := by
          intro i hi j hj
          refine (hnear i hi j hj).1.trans (mul_le_mul_of_nonneg_left ?_ (by linarith [R.one_le_pow k]))
          rw [← habs]
          exact (le_abs_self _).trans (b2 _ hbox _ (mem_flatten_ofFn.2 ⟨i, hi, j, hj, rfl⟩))
        obtain ⟨I, J, hI, hJ, c1, c2⟩ := minmax_near m0 q0 hclose
        refine ⟨I, J, ?_, ?_, c1, c2⟩
        · unfold getBounds
          rw [bind_ok hF]
          simp only
          rw [bind_ok (getNdim_ok hl he hw), if_pos hpos, symbolSet_eq, bind_ok sF, iF, bind_ok e1]
          exact hI
        · unfold getBounds
          rw [bind_ok h1]
          simp only
          rw [bind_ok (getNdim_ok h2 he hw), if_pos hpos, symbolSet_eq]
          rw [show p.exact.p.syms.map varName = vars from rfl, bind_ok sX, iX, bind_ok e2]
          exact hJ

end TM
end Audi
