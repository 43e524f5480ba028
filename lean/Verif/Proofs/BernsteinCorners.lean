import Verif.Proofs.Bernstein

/-!
# Proofs: the entries of the Bernstein patch at the corners
-/

namespace Audi.Bounding

open Finset

variable {K : Type} [Field K] [LinearOrder K] [IsStrictOrderedRing K]

/-- The weight that selects one index. -/
def delta (k i : ℕ) : K := if i = k then 1 else 0

omit [LinearOrder K] [IsStrictOrderedRing K] in
theorem wsum_delta {md ks : List ℕ} (hmd : md ≠ []) (h : Below md ks) (f : ℕ → ℕ → K) :
    wsum (dims md (ks.map delta)) f = f (ks.headD 0) (enc md.tail ks.tail) := by
  have hW : ∀ {ns js : List ℕ}, Below ns js → ∀ b, b < (ns.map (· + 1)).prod →
      W (dims ns (js.map (delta (K := K)))) b = if b = enc ns js then 1 else 0 := by
    intro ns js hb b hlt
    obtain ⟨bs, hbs, rfl⟩ := enc_surj ns hlt
    rw [W_enc hbs (by rw [List.length_map]; exact hb.length_eq.symm)]
    by_cases he : bs = js
    · subst he
      rw [if_pos rfl]
      clear hb hlt hbs
      induction bs with
      | nil => simp
      | cons b bs ih => simp [delta, ih]
    · rw [if_neg fun hh => he (enc_inj hbs hb hh)]
      have hl : bs.length = js.length := hbs.length_eq.symm.trans hb.length_eq
      clear hbs hb hlt
      induction bs generalizing js with
      | nil =>
        rw [List.length_nil] at hl
        exact absurd (List.length_eq_zero_iff.1 hl.symm).symm he
      | cons b bs ih =>
        cases js with
        | nil => simp at hl
        | cons j js =>
          simp only [List.map_cons, List.zipWith_cons_cons, List.prod_cons]
          by_cases hbj : b = j
          · subst hbj
            rw [ih (fun hh => he (by rw [hh])) (by simpa using hl), mul_zero]
          · simp [delta, hbj]
  cases md with
  | nil => exact absurd rfl hmd
  | cons m0 ms =>
    cases h with
    | @cons _ k _ ks h1 h2 =>
      have htot : tot (dims ms (ks.map (delta (K := K)))) = (ms.map (· + 1)).prod := tot_dims (by simpa using h2.length_eq.symm)
      have hexp : wsum (dims (m0 :: ms) ((k :: ks).map delta)) f =
          ∑ i ∈ range (m0 + 1), ∑ j ∈ range (ms.map (· + 1)).prod, f i j * (delta k i * W (dims ms (ks.map delta)) j) := by
        rw [← htot]
        simp [dims, wsum]
      rw [hexp, sum_eq_single k, sum_eq_single (enc ms ks)]
      · rw [hW h2 _ (enc_lt h2)]
        simp [delta]
      · intro j hj hne
        rw [hW h2 _ (mem_range.1 hj), if_neg hne, mul_zero, mul_zero]
      · intro hh
        exact absurd (mem_range.2 (enc_lt h2)) hh
      · intro i _ hi
        refine sum_eq_zero fun j _ => ?_
        simp [delta, hi]
      · intro hh
        exact absurd (mem_range.2 (Nat.lt_succ_of_le h1)) hh

omit [LinearOrder K] [IsStrictOrderedRing K] in
theorem bern_zero (m i : ℕ) : bern m i (0 : K) = delta 0 i := by
  unfold bern delta
  rcases Nat.eq_zero_or_pos i with rfl | h
  · simp
  · rw [zero_pow (by omega), if_neg (by omega)]; ring

omit [LinearOrder K] [IsStrictOrderedRing K] in
theorem bern_one (m i : ℕ) : bern m i (1 : K) = delta m i := by
  unfold bern delta
  rcases lt_trichotomy i m with h | rfl | h
  · rw [sub_self, zero_pow (by omega), if_neg (by omega)]; ring
  · simp
  · rw [Nat.choose_eq_zero_of_lt h, if_neg (by omega)]; simp

/-- The patch contains the value at each corner; if no exponent is larger than 1, its entries are the values at the corners. -/
theorem patch_corners {coeffs : List K} {exps : List (List ℕ)} {n : ℕ} (hn : 1 ≤ n) (hl : coeffs.length = exps.length) (hne : exps ≠ [])
    (hw : ∀ e ∈ exps, e.length = n) (hnd : exps.Nodup) (hdeg : ∀ e ∈ exps, ∀ k ∈ e, k ≤ 62)
    {domain : List (String × Itv K)} (hdom : domain.length = n) :
    ∃ patch, bernsteinPatch coeffs exps domain = .ok patch ∧
      (∀ x, List.Forall₂ (fun (I : Itv K) x => x = I.lo ∨ x = I.hi) (domain.map Prod.snd) x →
        Spec.polyVal coeffs exps x ∈ patch.flatten) ∧
      ((∀ e ∈ exps, ∀ k ∈ e, k ≤ 1) → ∀ v ∈ patch.flatten,
        ∃ x, List.Forall₂ (fun (I : Itv K) x => x = I.lo ∨ x = I.hi) (domain.map Prod.snd) x ∧ Spec.polyVal coeffs exps x = v) := by
  obtain ⟨md, f, ⟨h1, hatt⟩, h2, h3⟩ := patch_spec hn hl hne hw hnd hdeg hdom
  have hmd : md ≠ [] := by rintro rfl; simp at h1; omega
  have hpatch : ∀ ks, Below md ks → f (ks.headD 0) (enc md.tail ks.tail) ∈ (Mat.ofFn (md.headD 0 + 1) (md.tail.map (· + 1)).prod f).flatten := by
    intro ks hks
    refine mem_flatten_ofFn.2 ⟨_, ?_, _, ?_, rfl⟩
    · cases hks with
      | nil => exact absurd rfl hmd
      | cons h _ => simpa using Nat.lt_succ_of_le h
    · cases hks with
      | nil => exact absurd rfl hmd
      | cons _ h => exact enc_lt h
  refine ⟨_, h2, fun x hx => ?_, fun hone v hv => ?_⟩
  · -- parameters 0 or 1
    have hex : ∀ {md : List ℕ} {box : List (Itv K)} {x : List K},
        List.Forall₂ (fun (I : Itv K) x => x = I.lo ∨ x = I.hi) box x → md.length = box.length →
        ∃ (t : List K) (ks : List ℕ), t.length = box.length ∧ boxPoint box t = x ∧ Below md ks ∧
          List.zipWith (fun m t i => bern m i t) md t = ks.map delta := by
      intro md box x h
      induction h generalizing md with
      | nil =>
        intro hl
        rw [List.length_nil, List.length_eq_zero_iff] at hl
        subst hl
        exact ⟨[], [], rfl, rfl, List.Forall₂.nil, rfl⟩
      | @cons I x box xs hI _ ih =>
        intro hl
        cases md with
        | nil => simp at hl
        | cons m ms =>
          obtain ⟨t, ks, e1, e2, e3, e4⟩ := ih (md := ms) (by simpa using hl)
          unfold boxPoint at e2 ⊢
          rcases hI with hI | hI
          · refine ⟨0 :: t, 0 :: ks, by simp [e1], ?_, List.Forall₂.cons (Nat.zero_le _) e3, ?_⟩
            · rw [List.zipWith_cons_cons, e2, hI]; congr 1; ring
            · rw [List.zipWith_cons_cons, e4, List.map_cons]
              congr 1
              exact funext fun i => bern_zero m i
          · refine ⟨1 :: t, m :: ks, by simp [e1], ?_, List.Forall₂.cons le_rfl e3, ?_⟩
            · rw [List.zipWith_cons_cons, e2, hI]; congr 1; ring
            · rw [List.zipWith_cons_cons, e4, List.map_cons]
              congr 1
              exact funext fun i => bern_one m i
    obtain ⟨t, ks, e1, e2, e3, e4⟩ := hex (md := md) hx (by simp [hdom, h1])
    rw [← e2, h3 t (by rw [e1]; simp [hdom]), e4, wsum_delta hmd e3]
    exact hpatch ks e3
  · obtain ⟨i, hi, j, hj, rfl⟩ := mem_flatten_ofFn.1 hv
    obtain ⟨js, hj1, hj2⟩ := enc_surj md.tail hj
    have hmd1 : ∀ m ∈ md, m ≤ 1 := fun m hm => by
      obtain ⟨e, he, hme⟩ := hatt m hm
      exact hone e he m hme
    have hks : Below md (i :: js) := by
      cases md with
      | nil => exact absurd rfl hmd
      | cons m ms => exact List.Forall₂.cons (by simpa [Nat.lt_succ_iff] using hi) hj1
    have hex : ∀ {md ks : List ℕ}, Below md ks → (∀ m ∈ md, m ≤ 1) → ∀ {box : List (Itv K)}, md.length = box.length →
        ∃ t : List K, t.length = box.length ∧
          List.Forall₂ (fun (I : Itv K) x => x = I.lo ∨ x = I.hi) box (boxPoint box t) ∧
          List.zipWith (fun m t i => bern m i t) md t = ks.map delta := by
      intro md ks h
      induction h with
      | nil =>
        intro _ box hl
        rw [List.length_nil] at hl
        have := List.length_eq_zero_iff.1 hl.symm
        subst this
        exact ⟨[], rfl, List.Forall₂.nil, rfl⟩
      | @cons m k ms ks hmk _ ih =>
        intro hone box hl
        cases box with
        | nil => simp at hl
        | cons I box =>
          obtain ⟨t, e1, e2, e3⟩ := ih (fun m hm => hone m (List.mem_cons_of_mem _ hm)) (box := box) (by simpa using hl)
          unfold boxPoint at e2 ⊢
          rcases Nat.eq_zero_or_pos k with hk | hk
          · refine ⟨0 :: t, by simp [e1], ?_, ?_⟩
            · rw [List.zipWith_cons_cons]
              exact List.Forall₂.cons (Or.inl (by ring)) e2
            · rw [List.zipWith_cons_cons, e3, List.map_cons, hk]
              congr 1
              exact funext fun i => bern_zero m i
          · have hm : k = m := le_antisymm hmk ((hone m List.mem_cons_self).trans hk)
            refine ⟨1 :: t, by simp [e1], ?_, ?_⟩
            · rw [List.zipWith_cons_cons]
              exact List.Forall₂.cons (Or.inr (by ring)) e2
            · rw [List.zipWith_cons_cons, e3, List.map_cons, hm]
              congr 1
              exact funext fun i => bern_one m i
    obtain ⟨t, e1, e2, e3⟩ := hex hks hmd1 (box := domain.map Prod.snd) (by simp [hdom, h1])
    refine ⟨_, e2, ?_⟩
    rw [h3 t (by rw [e1]; simp [hdom]), e3, wsum_delta hmd hks, List.headD_cons, List.tail_cons, hj2]

end Audi.Bounding
