import Verif.Proofs.RoundedEval

/-! Rounding errors of derivatives, integrals and substitutions of polynomials. -/

set_option linter.unusedSectionVars false

namespace Audi

open MvPolynomial Spec

variable {K : Type} [Field K] [LinearOrder K] [IsStrictOrderedRing K] {R : Rounding K}

namespace Poly
variable {p : Poly (Fl R)}

/-- The coefficients of a table that is built from a list of terms. -/
theorem cof_build {ss : List String} (hs : ss.Pairwise (· < ·)) {new : List (List ℕ × Fl R)} (hl : ∀ x ∈ new, x.1.length = ss.length) (E : String →₀ ℕ) :
    (⟨ss, insertTerms [] new⟩ : Poly (Fl R)).cof E =
      ((new.filter fun x => toExp ss x.1 = E).map (·.2)).foldl (fun acc x => R.rnd (acc + x.val)) 0 := by
  have hw : (⟨ss, insertTerms [] new⟩ : Poly (Fl R)).WF := wf_insertTerms hs (by simp) hl (by simp) (by simp)
  by_cases hE : ∃ e : List ℕ, e.length = ss.length ∧ toExp ss e = E
  · obtain ⟨e, he, rfl⟩ := hE
    rw [cof_toExp hw (e := e) he, tc_insertTerms (by simp)]
    have : (new.filter fun x => toExp ss x.1 = toExp ss e) = new.filter fun x => x.1 = e := by
      refine List.filter_congr fun x hx => ?_
      have : toExp ss x.1 = toExp ss e ↔ x.1 = e := ⟨fun h => toExp_inj hw.ndsyms (hl x hx) he h, fun h => by rw [h]⟩
      simp [this]
    rw [this]
    rfl
  · have h1 : (⟨ss, insertTerms [] new⟩ : Poly (Fl R)).cof E = 0 := by
      by_contra hne
      obtain ⟨t, ht, hte⟩ := cof_ne_zero hne
      exact hE ⟨t.1, hw.len t ht, hte⟩
    rw [h1, List.filter_eq_nil_iff.mpr (fun x hx => by simpa using fun h => hE ⟨x.1, hl x hx, h⟩)]
    rfl

theorem filter_toExp (hp : p.WF) {t : List ℕ × Fl R} (ht : t ∈ p.terms) :
    (p.terms.filter fun x => toExp p.syms x.1 = toExp p.syms t.1) = [t] := by
  rw [← filter_key hp.nodup ht]
  refine List.filter_congr fun x hx => ?_
  have : toExp p.syms x.1 = toExp p.syms t.1 ↔ x.1 = t.1 := ⟨fun h => toExp_inj hp.ndsyms (hp.len x hx) (hp.len t ht) h, fun h => by rw [h]⟩
  simp [this]

theorem cof_term (hp : p.WF) {t : List ℕ × Fl R} (ht : t ∈ p.terms) : p.cof (toExp p.syms t.1) = t.2.val := by
  rw [cof_toExp hp (hp.len t ht), tc_of_mem hp.nodup ht]

theorem cof_diff (hp : p.WF) (s : String) (E : String →₀ ℕ) :
    (p.diff s).cof E = R.rnd (p.cof (E + Finsupp.single s 1) * R.rnd ((E s : K) + 1)) := by
  unfold diff
  rw [cof_build hp.sorted (diff_len hp s)]
  have hfil : ((p.terms.filterMap fun t =>
      let k := expOf p.syms t.1 s
      if k = 0 then none else some (setExp p.syms t.1 s (k - 1), Cf.mul t.2 (Cf.ofRat k))).filter fun x => toExp p.syms x.1 = E) =
      (p.terms.filter fun t => toExp p.syms t.1 = E + Finsupp.single s 1).map fun t =>
        (setExp p.syms t.1 s (expOf p.syms t.1 s - 1), Cf.mul t.2 (Cf.ofRat (expOf p.syms t.1 s))) := by
    have hl := hp.len
    have hs := hp.ndsyms
    generalize p.syms = ss at *
    generalize p.terms = L at *
    induction L with
    | nil => rfl
    | cons x L ih =>
      simp only [List.forall_mem_cons] at hl
      have ih := ih hl.2
      simp only at ih
      by_cases h0 : expOf ss x.1 s = 0
      · rw [List.filterMap_cons_none (by simp [h0]), List.filter_cons_of_neg, ih]
        simp only [decide_eq_true_eq]
        intro h1
        have := DFunLike.congr_fun h1 s
        rw [toExp_apply hs, h0] at this
        simp at this
      · have hm := mem_of_expOf_ne h0
        rw [List.filterMap_cons_some (b := (setExp ss x.1 s (expOf ss x.1 s - 1), Cf.mul x.2 (Cf.ofRat (expOf ss x.1 s)))) (by simp [h0])]
        have hiff : toExp ss (setExp ss x.1 s (expOf ss x.1 s - 1)) = E ↔ toExp ss x.1 = E + Finsupp.single s 1 := by
          rw [toExp_setExp_pred hs hl.1 hm]
          have hle : Finsupp.single s 1 ≤ toExp ss x.1 := by
            rw [Finsupp.single_le_iff, toExp_apply hs]
            exact Nat.one_le_iff_ne_zero.mpr h0
          constructor
          · rintro rfl; rw [tsub_add_cancel_of_le hle]
          · intro h; rw [h]; simp
        by_cases h1 : toExp ss x.1 = E + Finsupp.single s 1
        · rw [List.filter_cons_of_pos (by simpa using hiff.mpr h1), List.filter_cons_of_pos (by simpa using h1), List.map_cons, ih]
        · rw [List.filter_cons_of_neg (by simpa using fun h => h1 (hiff.mp h)), List.filter_cons_of_neg (by simpa using h1), ih]
  rw [hfil]
  by_cases hE : ∃ t ∈ p.terms, toExp p.syms t.1 = E + Finsupp.single s 1
  · obtain ⟨t, ht, hte⟩ := hE
    rw [← hte, filter_toExp hp ht, cof_term hp ht]
    have hk : expOf p.syms t.1 s = E s + 1 := by rw [← toExp_apply hp.ndsyms, hte]; simp
    simp only [List.map_cons, List.map_nil, List.foldl_cons, List.foldl_nil, zero_add, hk]
    rw [(Cf.mul t.2 (Cf.ofRat ((E s + 1 : ℕ) : ℚ))).repr]
    change R.rnd (t.2.val * R.rnd (((E s + 1 : ℕ) : ℚ) : K)) = _
    push_cast
    rfl
  · have h0 : p.cof (E + Finsupp.single s 1) = 0 := by
      by_contra hne
      exact hE (cof_ne_zero hne)
    rw [h0, zero_mul, R.rnd_zero, List.filter_eq_nil_iff.mpr (fun x hx => by simpa using fun h => hE ⟨x, hx, h⟩)]
    rfl

theorem cof_integrate (hp : p.WF) (s : String) (E : String →₀ ℕ) :
    (p.integrate s).cof E = if E s = 0 then 0 else R.rnd (p.cof (E - Finsupp.single s 1) / R.rnd (E s : K)) := by
  have hp' := hp.addSymbols [s]
  have hm := mem_addSymbols_syms p s
  rw [← cof_addSymbols hp [s]]
  unfold integrate
  simp only
  generalize p.addSymbols [s] = q at *
  rw [cof_build hp'.sorted (by
    intro x hx
    obtain ⟨t, ht, rfl⟩ := List.mem_map.mp hx
    simp only [length_setExp]
    exact hp'.len t ht)]
  have hiff : ∀ t ∈ q.terms, (toExp q.syms (setExp q.syms t.1 s (expOf q.syms t.1 s + 1)) = E ↔ E s ≠ 0 ∧ toExp q.syms t.1 = E - Finsupp.single s 1) := fun t ht => by
    rw [toExp_setExp_succ hp'.ndsyms (hp'.len t ht) hm]
    constructor
    · rintro rfl; simp
    · rintro ⟨h1, h2⟩
      rw [h2, tsub_add_cancel_of_le (by rw [Finsupp.single_le_iff]; exact Nat.one_le_iff_ne_zero.mpr h1)]
  rw [List.filter_map]
  split_ifs with h0
  · rw [List.filter_eq_nil_iff.mpr (fun t ht => by simpa using fun h => ((hiff t ht).mp h).1 h0)]
    rfl
  · have h1 : q.terms.filter ((fun x : List ℕ × Fl R => decide (toExp q.syms x.1 = E)) ∘ fun t =>
        (setExp q.syms t.1 s (expOf q.syms t.1 s + 1), Cf.div t.2 (Cf.ofRat ((expOf q.syms t.1 s : ℚ) + 1)))) =
        q.terms.filter fun t => toExp q.syms t.1 = E - Finsupp.single s 1 := by
      refine List.filter_congr fun t ht => ?_
      simp only [Function.comp, decide_eq_decide]
      rw [hiff t ht]
      exact ⟨fun h => h.2, fun h => ⟨h0, h⟩⟩
    rw [h1]
    by_cases hE : ∃ t ∈ q.terms, toExp q.syms t.1 = E - Finsupp.single s 1
    · obtain ⟨t, ht, hte⟩ := hE
      rw [← hte, filter_toExp hp' ht, cof_term hp' ht]
      have hk : expOf q.syms t.1 s + 1 = E s := by
        rw [← toExp_apply hp'.ndsyms, hte]
        simp
        omega
      simp only [List.map_cons, List.map_nil, List.foldl_cons, List.foldl_nil, zero_add]
      rw [Fl.repr]
      change R.rnd (t.2.val / R.rnd (((expOf q.syms t.1 s : ℚ) + 1 : ℚ) : K)) = _
      rw [← hk]
      push_cast
      rfl
    · have h2 : q.cof (E - Finsupp.single s 1) = 0 := by
        by_contra hne
        exact hE (cof_ne_zero hne)
      rw [h2, zero_div, R.rnd_zero, List.filter_eq_nil_iff.mpr (fun x hx => by simpa using fun h => hE ⟨x, hx, h⟩)]
      rfl

theorem cof_truncate (hp : p.WF) (n : ℕ) (E : String →₀ ℕ) : (p.truncate n).cof E = if E.degree ≤ n then p.cof E else 0 := by
  have h : (p.truncate n).exact = p.exact.truncate n := by
    simp only [truncate, exact, List.filter_map]
    rfl
  rw [cof, h, coeff_truncate hp.exact]
  rfl

/-- The coefficients of `subs` with a number. -/
theorem near_subsVal (hp : p.WF) (s : String) (v : Fl R) {n k₀ : ℕ} (hn : ∀ t ∈ p.terms, keyDegree t.1 ≤ n) {x X : (String →₀ ℕ) → K}
    (h : ∀ E, R.Near k₀ (p.cof E) (x E) (X E)) (E : String →₀ ℕ) :
    (E s ≠ 0 → (p.subsVal s v).cof E = 0) ∧
    (E s = 0 → R.Near (k₀ + (n - E.degree) + (n - E.degree)) ((p.subsVal s v).cof E)
      (∑ k ∈ Finset.range (n - E.degree + 1), x (E + Finsupp.single s k) * v.val ^ k)
      (∑ k ∈ Finset.range (n - E.degree + 1), X (E + Finsupp.single s k) * |v.val| ^ k)) := by
  classical
  have hs := hp.ndsyms
  unfold subsVal
  rw [cof_build hp.sorted (by
    intro x hx
    obtain ⟨t, ht, rfl⟩ := List.mem_map.mp hx
    simp only [length_setExp]
    exact hp.len t ht), List.filter_map]
  set L := p.terms.filter ((fun x : List ℕ × Fl R => decide (toExp p.syms x.1 = E)) ∘ fun t =>
    (setExp p.syms t.1 s 0, Cf.mul t.2 (Cf.npow v (expOf p.syms t.1 s)))) with hL
  have memL : ∀ t, t ∈ L ↔ t ∈ p.terms ∧ (toExp p.syms t.1).erase s = E := fun t => by
    rw [hL, List.mem_filter]
    refine and_congr_right fun ht => ?_
    simp only [Function.comp, decide_eq_true_eq]
    rw [toExp_setExp_zero hs (hp.len t ht)]
  rw [List.map_map]
  constructor
  · intro h0
    have : L = [] := List.eq_nil_iff_forall_not_mem.mpr fun t ht => by
      have := ((memL t).mp ht).2
      rw [← this] at h0
      simp at h0
    rw [this]
    rfl
  intro h0
  set m := n - E.degree with hm
  have hsplit : ∀ t ∈ L, toExp p.syms t.1 = E + Finsupp.single s (expOf p.syms t.1 s) := fun t ht => by
    obtain ⟨h1, h2⟩ := (memL t).mp ht
    rw [← h2, ← toExp_apply hs, add_comm, Finsupp.single_add_erase]
  have hle : ∀ t ∈ L, expOf p.syms t.1 s ∈ Finset.range (m + 1) := fun t ht => by
    have h1 := hn t ((memL t).mp ht).1
    have h2 := degree_toExp (ss := p.syms) (e := t.1) (hp.len t ((memL t).mp ht).1)
    rw [hsplit t ht, map_add, Finsupp.degree_single] at h2
    rw [Finset.mem_range]
    unfold keyDegree at h1
    omega
  set val : List ℕ × Fl R → Fl R := fun t => Cf.mul t.2 (Cf.npow v (expOf p.syms t.1 s)) with hval
  have hinj : ∀ t ∈ L, ∀ t' ∈ L, expOf p.syms t.1 s = expOf p.syms t'.1 s → t = t' := fun t ht t' ht' he => by
    have h1 := hsplit t ht
    rw [he, ← hsplit t' ht'] at h1
    have := toExp_inj hs (hp.len t ((memL t).mp ht).1) (hp.len t' ((memL t').mp ht').1) h1
    exact key_inj hp.nodup ((memL t).mp ht).1 ((memL t').mp ht').1 this
  have hndL : L.Nodup := (List.Nodup.of_map _ hp.nodup).filter _
  have hnd : (L.map fun t => expOf p.syms t.1 s).Nodup := List.Nodup.map_on (fun t ht t' ht' he => hinj t ht t' ht' he) hndL
  have hlen : L.length ≤ m + 1 := by
    have h1 := List.toFinset_card_of_nodup hnd
    rw [List.length_map] at h1
    rw [← h1, ← Finset.card_range (m + 1)]
    refine Finset.card_le_card fun k hk => ?_
    obtain ⟨t, ht, rfl⟩ := List.mem_map.mp (List.mem_toFinset.mp hk)
    exact hle t ht
  set f : ℕ → K := fun k => ((L.filter fun t => expOf p.syms t.1 s = k).map fun t => (val t).val).sum with hf
  have hft : ∀ t ∈ L, f (expOf p.syms t.1 s) = (val t).val := fun t ht => by
    have h1 : (L.filter fun t' => expOf p.syms t'.1 s = expOf p.syms t.1 s) = L.filter fun t' => t' = t := by
      refine List.filter_congr fun t' ht' => ?_
      have : expOf p.syms t'.1 s = expOf p.syms t.1 s ↔ t' = t := ⟨fun he => hinj t' ht' t ht he, fun he => by rw [he]⟩
      simp [this]
    rw [hf]
    simp only
    rw [h1]
    have h2 : (L.filter fun t' => t' = t) = [t] := by
      clear_value L
      clear hL memL hsplit hle hinj hnd hlen h1 hf f
      induction L with
      | nil => simp at ht
      | cons y L ih =>
        rw [List.nodup_cons] at hndL
        by_cases hy : y = t
        · subst hy
          rw [List.filter_cons_of_pos (by simp), List.filter_eq_nil_iff.mpr (fun z hz => by simpa using fun hzt : z = y => hndL.1 (hzt ▸ hz))]
        · rw [List.filter_cons_of_neg (by simpa using hy)]
          exact ih hndL.2 (by simpa [Ne.symm hy] using ht)
    rw [h2]
    simp
  have hf0 : ∀ k, (∀ t ∈ L, expOf p.syms t.1 s ≠ k) → f k = 0 := fun k hk => by
    rw [hf]
    simp only
    rw [List.filter_eq_nil_iff.mpr (fun t ht => by simpa using hk t ht)]
    rfl
  have hnear : ∀ k ∈ Finset.range (m + 1), R.Near (k₀ + m) (f k) (x (E + Finsupp.single s k) * v.val ^ k) (X (E + Finsupp.single s k) * |v.val| ^ k) := fun k hk => by
    have hkm := Finset.mem_range.mp hk
    have h1 := h (E + Finsupp.single s k)
    rw [← abs_pow]
    by_cases hE : ∃ t ∈ L, expOf p.syms t.1 s = k
    · obtain ⟨t, ht, rfl⟩ := hE
      rw [hft t ht]
      have hc := cof_term hp ((memL t).mp ht).1
      rw [hsplit t ht] at hc
      rw [hc] at h1
      have hv : (val t).val = R.rnd (t.2.val * (Cf.npow v (expOf p.syms t.1 s)).val) := rfl
      rw [hv]
      rcases Rounding.Fac.npow v (expOf p.syms t.1 s) with ⟨a0, a1, a2⟩ | ⟨a0, a1⟩
      · rw [a1, a2, mul_one, mul_one, abs_one, mul_one, t.2.repr]
        exact h1.mono (by omega)
      · exact ((h1.mul a1).rnd).mono (by omega)
    · push Not at hE
      rw [hf0 k hE]
      have hc0 : p.cof (E + Finsupp.single s k) = 0 := by
        by_contra hne
        obtain ⟨t, ht, hte⟩ := cof_ne_zero hne
        refine hE t ((memL t).mpr ⟨ht, ?_⟩) ?_
        · rw [hte]
          ext u
          by_cases hu : u = s
          · subst hu; simp [h0]
          · simp [Finsupp.erase_ne hu, Finsupp.single_eq_of_ne hu]
        · rw [← toExp_apply hs, hte]
          simp [h0]
      rw [hc0] at h1
      have h3 := h1.mul (Rounding.Near.refl R 0 (v.val ^ k))
      rw [zero_mul] at h3
      exact h3.mono (by omega)
  have hsum : ∀ g : K → K, g 0 = 0 → (L.map fun t => g (val t).val).sum = ∑ k ∈ Finset.range (m + 1), g (f k) := fun g hg => by
    rw [← Finset.sum_subset (s₁ := (L.map fun t => expOf p.syms t.1 s).toFinset) (by
        intro k hk
        obtain ⟨t, ht, rfl⟩ := List.mem_map.mp (List.mem_toFinset.mp hk)
        exact hle t ht)
      fun k _ hk => by
        rw [hf0 k (fun t ht hte => hk (List.mem_toFinset.mpr (List.mem_map.mpr ⟨t, ht, hte⟩))), hg],
      List.sum_toFinset _ hnd, List.map_map]
    congr 1
    refine List.map_congr_left fun t ht => ?_
    simp only [Function.comp]
    rw [hft t ht]
  have h4 := Rounding.Near.sum (Finset.range (m + 1)) hnear
  have h5 := R.rsum_zero_err (L.map val)
  rw [List.map_map, List.map_map, List.length_map] at h5
  have e1' : (L.map (Fl.val ∘ val)).sum = ∑ k ∈ Finset.range (m + 1), f k := hsum id rfl
  have e2' : (L.map ((fun x : Fl R => |x.val|) ∘ val)).sum = ∑ k ∈ Finset.range (m + 1), |f k| := hsum (fun x => |x|) abs_zero
  rw [e1', e2'] at h5
  refine ⟨?_, h4.2⟩
  set T := ∑ k ∈ Finset.range (m + 1), X (E + Finsupp.single s k) * |v.val| ^ k
  have h6 : ∑ k ∈ Finset.range (m + 1), |f k| ≤ (1 + R.u) ^ (k₀ + m) * T := by
    rw [Finset.mul_sum]
    exact Finset.sum_le_sum fun k hk => (hnear k hk).abs_le
  have h6' : 0 ≤ ∑ k ∈ Finset.range (m + 1), |f k| := Finset.sum_nonneg fun k _ => abs_nonneg _
  have hpw : (1 + R.u) ^ (L.length - 1) ≤ (1 + R.u) ^ m := R.pow_mono (by omega)
  have h7 : ((1 + R.u) ^ (L.length - 1) - 1) * ∑ k ∈ Finset.range (m + 1), |f k| ≤ ((1 + R.u) ^ m - 1) * ((1 + R.u) ^ (k₀ + m) * T) :=
    mul_le_mul (by linarith) h6 h6' (by linarith [R.one_le_pow m])
  have h8 := h4.1
  have h9 : ((1 + R.u) ^ (k₀ + m + m) - 1) * T =
      ((1 + R.u) ^ m - 1) * ((1 + R.u) ^ (k₀ + m) * T) + ((1 + R.u) ^ (k₀ + m) - 1) * T := by rw [pow_add]; ring
  rw [h9]
  refine le_trans ?_ (add_le_add (h5.trans h7) h8)
  refine le_trans (le_of_eq ?_) (abs_add_le _ _)
  congr 1
  have : (Prod.snd ∘ fun t : List ℕ × Fl R => (setExp p.syms t.1 s 0, Cf.mul t.2 (Cf.npow v (expOf p.syms t.1 s)))) = val := rfl
  rw [this]
  ring

end Poly
end Audi
