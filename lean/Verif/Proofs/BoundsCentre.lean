import Verif.Proofs.BoundsWidth

/-!
# Proofs: the bounds of a Taylor polynomial lie around its constant term
-/

namespace Audi

open MvPolynomial Spec

variable {K : Type} [Field K] [LinearOrder K] [IsStrictOrderedRing K]

namespace Bounding

theorem monoCoef_zero (a b : K) {n j : ℕ} (hj : j ≤ n) : monoCoef a b n j 0 = 1 := by
  refine monoCoef_mem a b (fun x => x = 1) (fun x y t hx hy _ _ => ?_) (fun j hj => ?_) (Nat.zero_le n) j hj
  · rw [hx, hy]; ring
  · obtain rfl : j = 0 := by omega
    simp

omit [LinearOrder K] [IsStrictOrderedRing K] in
theorem prod_one {β : List (ℕ → K)} {e : List ℕ} (h1 : β.length = e.length) (h0 : ∀ k ∈ e, k = 0) (h : ∀ d, d < e.length → wt β d 0 = 1) :
    (List.zipWith (fun (φ : ℕ → K) k => φ k) β e).prod = 1 := by
  induction e generalizing β with
  | nil => simp
  | cons k e ih =>
    cases β with
    | nil => simp at h1
    | cons φ β =>
      simp only [List.zipWith_cons_cons, List.prod_cons]
      rw [ih (by simpa using h1) (fun k hk => h0 k (by simp [hk])) fun d hd => by
        have := h (d + 1) (by simpa using hd)
        simpa [wt] using this, h0 k (by simp), mul_one]
      have := h 0 (by simp)
      simpa [wt] using this

/-- The entries of the patch lie around the constant term. -/
theorem patch_centre {coeffs : List K} {exps : List (List ℕ)} {n : ℕ} (hn : 1 ≤ n) (hl : coeffs.length = exps.length) (hne : exps ≠ [])
    (hw : ∀ e ∈ exps, e.length = n) (hnd : exps.Nodup) (hdeg : ∀ e ∈ exps, ∀ k ∈ e, k ≤ 62)
    {domain : List (String × Itv K)} (hdom : domain.length = n) :
    ∃ patch, bernsteinPatch coeffs exps domain = .ok patch ∧
      ∀ r : List K, List.Forall₂ (fun (I : Itv K) r => |I.lo| ≤ r ∧ |I.hi| ≤ r) (domain.map Prod.snd) r →
        ∀ v ∈ patch.flatten, |v - (List.zipWith (fun (c : K) (e : List ℕ) => if ∀ k ∈ e, k = 0 then c else 0) coeffs exps).sum| ≤
          (List.zipWith (fun (c : K) (e : List ℕ) => if ∀ k ∈ e, k = 0 then 0 else
            |c| * (List.zipWith (fun (xi : K) (k : ℕ) => xi ^ k) r e).prod) coeffs exps).sum := by
  obtain ⟨patch, h1, h2⟩ := patch_entries hn hl hne hw hnd hdeg hdom
  have hbl : (domain.map Prod.snd).length = n := by simpa using hdom
  refine ⟨patch, h1, fun r hr v hv => ?_⟩
  have hrl : r.length = n := by rw [← hr.length_eq, hbl]
  obtain ⟨β, b1, b2, rfl⟩ := h2 v hv
  have hprod : ∀ e ∈ exps, |(List.zipWith (fun (φ : ℕ → K) k => φ k) β e).prod| ≤ (List.zipWith (fun (xi : K) (k : ℕ) => xi ^ k) r e).prod := by
    intro e he
    refine prod_abs_le (b1.trans (hw e he).symm) (hrl.trans (hw e he).symm) fun d hd => ?_
    rw [hw e he] at hd
    obtain ⟨m, j, c1, c2, c3⟩ := b2 e he d hd
    have hd1 : d < (domain.map Prod.snd).length := hbl ▸ hd
    have hd2 : d < r.length := hrl ▸ hd
    have := (List.forall₂_iff_get.1 hr).2 d hd1 hd2
    rw [c3, getD_getElem hd1, getD_getElem hd2]
    exact monoCoef_abs this.1 this.2 c2 c1
  have hone : ∀ e ∈ exps, (∀ k ∈ e, k = 0) → (List.zipWith (fun (φ : ℕ → K) k => φ k) β e).prod = 1 := by
    intro e he h0
    refine prod_one (b1.trans (hw e he).symm) h0 fun d hd => ?_
    have hd' := hd
    rw [hw e he] at hd
    obtain ⟨m, j, c1, c2, c3⟩ := b2 e he d hd
    have : e.getD d 0 = 0 := by
      rw [List.getD_eq_getElem _ _ hd']
      exact h0 _ (List.getElem_mem hd')
    rw [this] at c3
    rw [c3]
    exact monoCoef_zero _ _ c1
  clear h1 h2 b2 hne hw hnd hdeg hv
  induction exps generalizing coeffs with
  | nil => simp
  | cons e exps ih =>
    cases coeffs with
    | nil => simp
    | cons c coeffs =>
      simp only [List.zipWith_cons_cons, List.sum_cons]
      have := ih (coeffs := coeffs) (by simpa using hl) (fun e he => hprod e (by simp [he])) fun e he => hone e (by simp [he])
      rw [add_sub_add_comm]
      refine (abs_add_le _ _).trans (add_le_add ?_ this)
      split_ifs with h
      · rw [hone e (by simp) h, mul_one, sub_self, abs_zero]
      · rw [sub_zero, abs_mul]
        exact mul_le_mul_of_nonneg_left (hprod e (by simp)) (abs_nonneg _)

end Bounding

namespace TM

omit [IsStrictOrderedRing K] in
/-- A sum over the monomials is a sum over the list of terms. -/
theorem sum_support {p : GDual K} (hp : p.Valid) (g : (String →₀ ℕ) → K → K) :
    ∑ m ∈ (p.toMv () : MvPolynomial String K).support, g m (coeff m (p.toMv ())) = (p.p.terms.map fun t => g (toExp p.p.syms t.1) t.2).sum := by
  have hnd : (p.p.terms.map fun t => toExp p.p.syms t.1).Nodup := by
    refine List.Nodup.map_on (fun a ha b hb hab => ?_) (List.Nodup.of_map _ hp.wf.nodup)
    exact List.inj_on_of_nodup_map hp.wf.nodup ha hb (toExp_inj hp.wf.ndsyms (hp.wf.len a ha) (hp.wf.len b hb) hab)
  have hsup : (p.toMv () : MvPolynomial String K).support = (p.p.terms.map fun t => toExp p.p.syms t.1).toFinset := by
    ext m
    rw [mem_support_iff, List.mem_toFinset]
    constructor
    · intro h
      obtain ⟨t, h1, h2⟩ := Poly.exists_mem_of_coeff_ne (K := K) (i := ()) h
      exact List.mem_map.2 ⟨t, h1, h2⟩
    · intro h
      obtain ⟨t, h1, rfl⟩ := List.mem_map.1 h
      rw [show coeff (toExp p.p.syms t.1) (p.toMv ()) = t.2 from Poly.coeff_toMv_of_mem (K := K) hp.wf (e := t.1) (c := t.2) h1 ()]
      intro h0
      have := hp.wf.nz t h1
      simp [Cf.isZero, h0] at this
  rw [hsup, List.sum_toFinset _ hnd, List.map_map]
  refine congrArg List.sum (List.map_congr_left fun t ht => ?_)
  have h1 := Poly.coeff_toMv_of_mem (K := K) hp.wf (e := t.1) (c := t.2) ht ()
  have h2 : coeff (toExp p.p.syms t.1) (p.toMv ()) = t.2 := h1
  rw [Function.comp_apply, h2]

omit [IsStrictOrderedRing K] in
theorem absVal_sub_const (R : String → K) (f : MvPolynomial String K) :
    absVal R (f - C (coeff 0 f)) = ∑ m ∈ f.support, if m = 0 then 0 else |coeff m f| * m.prod fun s k => R s ^ k := by
  have hc : ∀ m, m ≠ 0 → coeff m (f - C (coeff 0 f)) = coeff m f := fun m hm => by
    rw [coeff_sub, coeff_C, if_neg (Ne.symm hm), sub_zero]
  have hsup : (f - C (coeff 0 f)).support = f.support.filter (· ≠ 0) := by
    ext m
    rw [mem_support_iff, Finset.mem_filter, mem_support_iff]
    by_cases hm : m = 0
    · subst hm
      simp
    · rw [hc m hm]
      simp [hm]
  unfold absVal
  rw [hsup, Finset.sum_filter]
  refine Finset.sum_congr rfl fun m _ => ?_
  by_cases hm : m = 0
  · rw [if_neg (not_not.2 hm), if_pos hm]
  · rw [if_pos hm, if_neg hm, hc m hm]

theorem toExp_eq_zero_iff {syms : List String} (hnd : syms.Nodup) {e : List ℕ} (hl : e.length = syms.length) : toExp syms e = 0 ↔ ∀ k ∈ e, k = 0 := by
  constructor
  · intro h
    rw [← toExp_replicate_zero syms syms.length] at h
    rw [toExp_inj hnd hl (by simp) h]
    exact fun k hk => List.eq_of_mem_replicate hk
  · intro h
    rw [List.eq_replicate_of_mem h, toExp_replicate_zero]

/-- Both ends of the bounds differ from the constant term by at most the sum of the absolute values of the other terms. -/
theorem getBounds_centre {ord : List String → List String} {p : GDual K} {exp : VMap K} {dom : VMap (Itv K)} (hp : p.Valid)
    (hn : ∀ s ∈ p.p.syms, ∃ v, s = "d" ++ v) (hdeg : ∀ t ∈ p.p.terms, ∀ k ∈ t.1, k ≤ 62)
    (hm : ∀ v ∈ p.p.syms.map varName, ∃ I x, dom.lookup v = some I ∧ exp.lookup v = some x ∧ I.lo ≤ I.hi)
    (ho : ord (p.p.syms.map varName) = p.p.syms.map varName) {B : Itv K} (hB : getBounds ord p exp dom = .ok B) {R : String → K}
    (hR : ∀ s ∈ p.p.syms, ∀ I x, dom.lookup (varName s) = some I → exp.lookup (varName s) = some x → |I.lo - x| ≤ R s ∧ |I.hi - x| ≤ R s) :
    |B.lo - coeff 0 (p.toMv ())| ≤ absVal R (p.toMv () - C (coeff 0 (p.toMv ()))) ∧
      |B.hi - coeff 0 (p.toMv ())| ≤ absVal R (p.toMv () - C (coeff 0 (p.toMv ()))) := by
  have hR0 : ∀ s ∈ p.p.syms, 0 ≤ R s := fun s hs => by
    obtain ⟨I, x, h1, h2, -⟩ := hm (varName s) (List.mem_map_of_mem hs)
    exact (abs_nonneg _).trans (hR s hs I x h1 h2).1
  have hnn : 0 ≤ absVal R (p.toMv () - C (coeff 0 (p.toMv ()))) := by
    rw [absVal_sub_const]
    refine Finset.sum_nonneg fun m hmm => ?_
    split_ifs
    · exact le_rfl
    · refine mul_nonneg (abs_nonneg _) (Finset.prod_nonneg fun s hs => pow_nonneg (hR0 s ?_) _)
      exact mem_supported.1 (toMv_mem_supported p () (S := {t | t ∈ p.p.syms}) fun s hs => hs) ((mem_vars_iff_mem_support s).2 ⟨m, hmm, hs⟩)
  have hzero : ∀ {coeffs : List K} {exps : List (List ℕ)}, Bounding.getPoly p = .ok (coeffs, exps) → exps = [] →
      |B.lo - coeff 0 (p.toMv ())| ≤ absVal R (p.toMv () - C (coeff 0 (p.toMv ()))) ∧
        |B.hi - coeff 0 (p.toMv ())| ≤ absVal R (p.toMv () - C (coeff 0 (p.toMv ()))) := by
    intro coeffs exps h1 h2
    subst h2
    have hnd : Bounding.getNdim coeffs ([] : List (List ℕ)) = .ok 0 := by cases coeffs <;> rfl
    obtain ⟨c, hc1⟩ := GDual.constantCf_isOk p
    have hc2 : c = coeff 0 (p.toMv ()) := GDual.lane_constantCf (ι := Unit) (K := K) hp hc1 ()
    unfold getBounds at hB
    rw [bind_ok h1, bind_ok hnd, if_neg (by omega), bind_ok hc1] at hB
    obtain rfl := Except.ok.inj hB
    rw [← hc2, sub_self, abs_zero]
    rw [← hc2] at hnn
    exact ⟨hnn, hnn⟩
  by_cases hs : p.symbolSetSize = 0
  · exact hzero (Bounding.getPoly_no_symbols hs) rfl
  · obtain ⟨coeffs, exps, h1, h2, h3, h4⟩ := Bounding.getPoly_spec (ι := Unit) (K := K) hp (Nat.one_le_iff_ne_zero.2 hs)
    by_cases he : exps = []
    · exact hzero h1 he
    · have hexps : ∀ e ∈ exps, ∃ c, (e, c) ∈ p.p.terms := by
        intro e hee
        have hm : exps = (exps.zip coeffs).map Prod.fst := (List.map_fst_zip (by rw [h2])).symm
        rw [hm] at hee
        obtain ⟨⟨e', c⟩, hx, rfl⟩ := List.mem_map.1 hee
        exact ⟨c, h3.mem_iff.1 hx⟩
      have hw : ∀ e ∈ exps, e.length = p.p.syms.length := fun e hee => by
        obtain ⟨c, hc⟩ := hexps e hee
        exact hp.wf.len _ hc
      have hd62 : ∀ e ∈ exps, ∀ k ∈ e, k ≤ 62 := fun e hee k hk => by
        obtain ⟨c, hc⟩ := hexps e hee
        exact hdeg _ hc k hk
      set vars := p.p.syms.map varName with hvars
      have hvnd : vars.Nodup := nodup_varNames hp.wf.ndsyms hn
      set sh : VMap (Itv K) := vars.map fun v => (v, shiftItv exp dom v) with hsh
      have hkeys : sh.map Prod.fst = vars := by rw [hsh, List.map_map]; simp [Function.comp_def]
      have hit : iterate ord sh = sh := iterate_faithful (by rw [hkeys]; exact hvnd) (by rw [hkeys]; exact ho)
      obtain ⟨patch, e1, e2⟩ := Bounding.patch_centre (Nat.one_le_iff_ne_zero.2 hs) h2 he hw (h4.imp fun h => ne_of_lt h) hd62
        (domain := sh) (by simp [hsh, hvars, GDual.symbolSetSize])
      unfold getBounds at hB
      rw [bind_ok h1] at hB
      simp only at hB
      rw [bind_ok (Bounding.getNdim_ok h2 he hw), if_pos (show 1 ≤ p.p.syms.length from Nat.one_le_iff_ne_zero.2 hs), symbolSet_eq,
        bind_ok (shiftedDomain_ok hm), hit, bind_ok e1] at hB
      have hmem := minmax_mem hB
      have hbox : List.Forall₂ (fun (I : Itv K) r => |I.lo| ≤ r ∧ |I.hi| ≤ r) (sh.map Prod.snd) (p.p.syms.map R) := by
        rw [hsh, hvars, List.map_map, List.map_map, List.forall₂_map_left_iff, List.forall₂_map_right_iff, List.forall₂_same]
        intro s hsm
        obtain ⟨I, x0, a1, a2, -⟩ := hm (varName s) (List.mem_map_of_mem hsm)
        have := hR s hsm I x0 a1 a2
        simpa only [Function.comp_apply, shiftItv, a1, a2, Option.getD_some] using this
      have hzip : ∀ g : K → List ℕ → K, (List.zipWith g coeffs exps).sum = (p.p.terms.map fun t => g t.2 t.1).sum := fun g => by
        rw [← (h3.map _).sum_eq, List.zip, List.map_zipWith, List.zipWith_comm]
      have hz : ∀ t ∈ p.p.terms, (toExp p.p.syms t.1 = 0 ↔ ∀ k ∈ t.1, k = 0) := fun t ht => toExp_eq_zero_iff hp.wf.ndsyms (hp.wf.len t ht)
      have hcen : (List.zipWith (fun (c : K) (e : List ℕ) => if ∀ k ∈ e, k = 0 then c else 0) coeffs exps).sum = coeff 0 (p.toMv ()) := by
        rw [hzip, ← List.map_congr_left (f := fun t : List ℕ × K => if toExp p.p.syms t.1 = 0 then t.2 else 0) fun t ht => by simp only [hz t ht],
          ← sum_support hp (fun m c => if m = 0 then c else 0), Finset.sum_ite_eq' (p.toMv () : MvPolynomial String K).support 0
            fun m => coeff m (p.toMv () : MvPolynomial String K)]
        split_ifs with h
        · rfl
        · exact (notMem_support_iff.1 h).symm
      have habs : (List.zipWith (fun (c : K) (e : List ℕ) => if ∀ k ∈ e, k = 0 then 0 else
            |c| * (List.zipWith (fun (xi : K) (k : ℕ) => xi ^ k) (p.p.syms.map R) e).prod) coeffs exps).sum =
          absVal R (p.toMv () - C (coeff 0 (p.toMv ()))) := by
        rw [hzip, absVal_sub_const, sum_support hp (fun m c => if m = 0 then 0 else |c| * m.prod fun s k => R s ^ k)]
        refine congrArg List.sum (List.map_congr_left fun t ht => ?_)
        have h3 := eval_monomial_toExp R p.p.syms t.1 (hp.wf.len t ht) (1 : K)
        rw [eval_monomial, one_mul, one_mul] at h3
        simp only [hz t ht, h3]
      rw [← habs, ← hcen]
      exact ⟨e2 _ hbox _ hmem.1, e2 _ hbox _ hmem.2⟩

end TM
end Audi
