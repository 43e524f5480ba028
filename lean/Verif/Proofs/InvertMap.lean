import Verif.Proofs.MapCompose
import Verif.Proofs.Functions
import Std.Data.String.ToNat

/-! What `invert_map` computes. -/

namespace Audi

open MvPolynomial Spec

theorem mapM_get {α β : Type} {f : α → Res β} {l : List α} {Q : ℕ → β → Prop}
    (h : ∀ j (hj : j < l.length), ∃ y, f l[j] = .ok y ∧ Q j y) :
    ∃ l', l.mapM f = .ok l' ∧ l'.length = l.length ∧ ∀ j (hj : j < l'.length), Q j l'[j] := by
  induction l generalizing Q with
  | nil => exact ⟨[], rfl, rfl, fun j hj => absurd hj (by simp)⟩
  | cons a l ih =>
    obtain ⟨y, h1, h2⟩ := h 0 (by simp)
    obtain ⟨l', h3, h4, h5⟩ := ih (Q := fun j => Q (j + 1)) fun j hj => h (j + 1) (by simpa using hj)
    refine ⟨y :: l', ?_, by simp [h4], fun j hj => ?_⟩
    · rw [List.mapM_cons, bind_ok (show f a = _ from h1), bind_ok h3]; rfl
    · cases j with
      | zero => exact h2
      | succ j => exact h5 j (by simpa using hj)

/-! Names -/

theorem d_append_inj {s t : String} (h : "d" ++ s = "d" ++ t) : s = t := by
  have := congrArg String.toList h
  simp only [String.toList_append] at this
  exact String.toList_injective (List.append_cancel_left this)

theorem append_left_inj' {a s t : String} (h : a ++ s = a ++ t) : s = t := by
  have := congrArg String.toList h
  simp only [String.toList_append] at this
  exact String.toList_injective (List.append_cancel_left this)

theorem toString_nat_inj {i j : ℕ} (h : toString i = toString j) : i = j := Nat.repr_injective h

theorem digits_head (i : ℕ) : ∃ c l, (toString i).toList = c :: l ∧ c.isDigit = true := by
  have h1 : (toString i).toList = Nat.toDigits 10 i := Nat.toList_repr
  cases h2 : Nat.toDigits 10 i with
  | nil => exact absurd h2 Nat.toDigits_ne_nil
  | cons c l =>
    exact ⟨c, l, h1.trans h2, Nat.isDigit_of_mem_toDigits (b := 10) (n := i) (by decide) (by decide) (by rw [h2]; simp)⟩

theorem p_ne_pdummy (i j : ℕ) : "d" ++ ("p" ++ toString i) ≠ "d" ++ ("pdummy" ++ toString j) := by
  intro h
  obtain ⟨c, l, h1, h2⟩ := digits_head i
  have := congrArg String.toList h
  simp only [String.toList_append, h1] at this
  have h3 : ("d".toList ++ ("p".toList ++ c :: l)) = 'd' :: 'p' :: c :: l := rfl
  have h4 : ("d".toList ++ ("pdummy".toList ++ (toString j).toList)) = 'd' :: 'p' :: 'd' :: 'u' :: 'm' :: 'm' :: 'y' :: (toString j).toList := rfl
  rw [h3, h4] at this
  injection this with _ this
  injection this with _ this
  injection this with this _
  subst this
  exact absurd h2 (by decide)

theorem strip_d (s : String) : String.ofList (("d" ++ s).toList.drop 1) = s := by
  rw [String.toList_append]
  change String.ofList s.toList = s
  exact String.ofList_toList

theorem dp_eq (i : ℕ) : "dp" ++ toString i = "d" ++ ("p" ++ toString i) := by
  rw [← String.append_assoc]; rfl

namespace TMap

theorem mem_invNames {n : ℕ} {s : String} : s ∈ invNames n ↔ ∃ i < n, s = "d" ++ ("p" ++ toString i) := by
  unfold invNames
  simp only [List.mem_map, List.mem_range, dp_eq]
  exact ⟨fun ⟨i, h, e⟩ => ⟨i, h, e.symm⟩, fun ⟨i, h, e⟩ => ⟨i, h, e.symm⟩⟩

section field
variable {K : Type} [Field K] [LinearOrder K] {f r : GDual K} {n m : ℕ} {ss : List String}

theorem head_p (i : ℕ) (pre : String) (hpre : pre.toList.head? = some 'p') :
    ∃ c, (pre ++ toString i).toList.head? = some c ∧ c ≠ 'd' := by
  refine ⟨'p', ?_, by decide⟩
  rw [String.toList_append, List.head?_append, hpre]; rfl

theorem mk3_p {pre : String} (hpre : pre.toList.head? = some 'p') (hm : m < UINT_MAX - 10) (i : ℕ) :
    ∃ d : GDual K, GDual.mk3 (0 : K) (pre ++ toString i) m = .ok d ∧ d.Valid ∧ d.order = m ∧ d.p.syms = ["d" ++ (pre ++ toString i)] ∧
      (m ≠ 0 → d.toMv () = (X ("d" ++ (pre ++ toString i)) : MvPolynomial String K)) := by
  have h := (GDual.mk3_ok (v := (0 : K)) (s := pre ++ toString i) (n := m)).mpr ⟨hm, head_p i pre hpre, rfl⟩
  refine ⟨_, h, GDual.valid_mk3 (ι := Unit) (K := K) h, GDual.order_mk3 h, GDual.syms_mk3 h, fun h0 => ?_⟩
  rw [GDual.toMv_mk3 h, if_neg h0]
  change MvPolynomial.C (0 : K) + _ = _
  simp

theorem identityAt_spec (hm : m < UINT_MAX - 10) (i : ℕ) (hi : i < n) :
    ∃ d : GDual K, identityAt (invNames n) m i = .ok d ∧ d.Valid ∧ d.order = m ∧ (∀ s ∈ d.p.syms, s ∈ invNames n) ∧
      (m ≠ 0 → d.toMv () = (X ("d" ++ ("p" ++ toString i)) : MvPolynomial String K)) := by
  obtain ⟨d, h1, h2, h3, h4, h5⟩ := mk3_p (K := K) (pre := "p") rfl hm i
  have h6 : d.extendSymbolSet (invNames n) = .ok _ := GDual.extendSymbolSet_ok.mpr ⟨fun s hs => by
    obtain ⟨i, _, rfl⟩ := mem_invNames.mp hs
    rw [String.toList_append]; rfl, rfl⟩
  refine ⟨_, by unfold identityAt; rw [bind_ok h1]; exact h6, h2.extendSymbolSet h6, h3, ?_, fun h0 => ?_⟩
  · intro s hs
    have hs : s ∈ mergeSyms d.p.syms (mergeSyms [] (invNames n)) := hs
    rw [mem_mergeSyms, mem_mergeSyms, h4, List.mem_singleton] at hs
    rcases hs with rfl | hs | hs
    · exact mem_invNames.mpr ⟨i, hi, rfl⟩
    · exact absurd hs (by simp)
    · exact hs
  · rw [GDual.toMv_extendSymbolSet h2 h6, h5 h0]

theorem extend_self (hf : f.Valid) (hs : f.p.syms = ss.map fun s => "d" ++ s) :
    ∃ d, f.extendSymbolSet (ss.map fun s => "d" ++ s) = .ok d ∧ d.Valid ∧ d.order = f.order ∧ d.p.syms = f.p.syms ∧
      d.toMv () = (f.toMv () : MvPolynomial String K) := by
  have h : f.extendSymbolSet (ss.map fun s => "d" ++ s) = .ok _ := GDual.extendSymbolSet_ok.mpr ⟨fun s hs => by
    obtain ⟨t, _, rfl⟩ := List.mem_map.mp hs
    rw [String.toList_append]; rfl, rfl⟩
  refine ⟨_, h, hf.extendSymbolSet h, rfl, ?_, GDual.toMv_extendSymbolSet hf h ()⟩
  change mergeSyms f.p.syms _ = _
  refine mergeSyms_eq_left hf.wf.sorted fun s hs' => ?_
  rw [mem_mergeSyms] at hs'
  rcases hs' with h | h
  · exact absurd h (by simp)
  · rwa [hs]

theorem linearPart_spec (hf : f.Valid) (hs : f.p.syms = ss.map fun s => "d" ++ s) (h1 : 1 ≤ f.order) :
    ∃ d, linearPart (ss.map fun s => "d" ++ s) f = .ok d ∧ d.Valid ∧ d.order = 1 ∧ d.p.syms = f.p.syms ∧
      ∀ e, coeff e (d.toMv () : MvPolynomial String K) = if e.degree = 1 then coeff e (f.toMv ()) else 0 := by
  have h2 : f.extractTerms 1 = .ok ⟨f.p.filter fun t => Poly.keyDegree t.1 = 1, 1⟩ := if_neg (by omega)
  obtain ⟨d, h3, h4, h5, h6, h7⟩ := extend_self (K := K) (hf.extractTerms h2) (ss := ss) hs
  refine ⟨d, by unfold linearPart; rw [bind_ok h2]; exact h3, h4, h5, h6, fun e => ?_⟩
  rw [h7, GDual.coeff_extractTerms hf h2]

theorem nonLinear_loop (hf : f.Valid) (k : ℕ) (hk : k + 1 ≤ f.order) :
    ∃ d, (List.range' 2 k).foldlM (fun (acc : GDual K) (j : ℕ) => do
        let t ← f.extractTerms j
        .ok (acc.add t)) (GDual.ofRat 0) = .ok d ∧ d.Valid ∧ d.order = (if k = 0 then 0 else k + 1) ∧
      (∀ s ∈ d.p.syms, s ∈ f.p.syms) ∧ (k ≠ 0 → d.p.syms = f.p.syms) ∧
      ∀ e, coeff e (d.toMv () : MvPolynomial String K) = if 2 ≤ e.degree ∧ e.degree ≤ k + 1 then coeff e (f.toMv ()) else 0 := by
  induction k with
  | zero =>
    refine ⟨GDual.ofRat 0, rfl, GDual.valid_ofRat 0, rfl, fun s hs => absurd hs (by simp [GDual.ofRat, GDual.ofCf, Poly.const]),
      fun h => absurd rfl h, fun e => ?_⟩
    rw [if_neg (by omega), GDual.toMv_ofRat]
    simp
  | succ k ih =>
    obtain ⟨d, h1, h2, h3, h4, -, h5⟩ := ih (by omega)
    have h6 : f.extractTerms (2 + k) = .ok ⟨f.p.filter fun t => Poly.keyDegree t.1 = 2 + k, 2 + k⟩ := if_neg (by omega)
    have hv := hf.extractTerms h6
    have hsy : ∀ s, s ∈ (d.add ⟨f.p.filter fun t => Poly.keyDegree t.1 = 2 + k, 2 + k⟩).p.syms ↔ s ∈ f.p.syms := fun s => by
      change s ∈ mergeSyms d.p.syms f.p.syms ↔ _
      rw [mem_mergeSyms]
      exact ⟨fun h => h.elim (h4 s) id, Or.inr⟩
    refine ⟨d.add ⟨f.p.filter fun t => Poly.keyDegree t.1 = 2 + k, 2 + k⟩, ?_, h2.add hv, ?_, fun s hs => (hsy s).mp hs, fun _ => ?_, fun e => ?_⟩
    · rw [List.range'_concat, List.foldlM_append, bind_ok h1, List.foldlM_cons, one_mul, bind_ok h6]
      rfl
    · change max d.order (2 + k) = _
      rw [h3, if_neg (show k + 1 ≠ 0 by omega)]
      split_ifs <;> omega
    · exact sorted_ext (h2.add hv).wf.sorted hf.wf.sorted hsy
    · rw [GDual.toMv_add h2 hv, coeff_add, h5, GDual.coeff_extractTerms hf h6]
      by_cases ha : e.degree = 2 + k
      · rw [if_neg (by omega), if_pos ha, if_pos (by omega), zero_add]
      · rw [if_neg ha, add_zero]
        refine if_congr (by omega) rfl rfl

theorem nonLinearPart_spec (hf : f.Valid) (hs : f.p.syms = ss.map fun s => "d" ++ s) (h1 : 1 ≤ f.order) :
    ∃ d, nonLinearPart (ss.map fun s => "d" ++ s) f.order f = .ok d ∧ d.Valid ∧ (2 ≤ f.order → d.order = f.order) ∧ (f.order = 1 → d.order = 0) ∧ d.p.syms = f.p.syms ∧
      ∀ e, coeff e (d.toMv () : MvPolynomial String K) = if 2 ≤ e.degree then coeff e (f.toMv ()) else 0 := by
  obtain ⟨d, h2, h3, h4, h5, h6, h7⟩ := nonLinear_loop hf (f.order - 1) (by omega)
  have h : d.extendSymbolSet (ss.map fun s => "d" ++ s) = .ok _ := GDual.extendSymbolSet_ok.mpr ⟨fun s hs => by
    obtain ⟨t, _, rfl⟩ := List.mem_map.mp hs
    rw [String.toList_append]; rfl, rfl⟩
  refine ⟨_, by unfold nonLinearPart; rw [bind_ok h2]; exact h, h3.extendSymbolSet h, fun h0 => ?_, fun h0 => ?_, ?_, fun e => ?_⟩
  · change d.order = _
    rw [h4, if_neg (by omega)]; omega
  · change d.order = _
    rw [h4, if_pos (by omega)]
  · change mergeSyms d.p.syms _ = _
    refine sorted_ext (sorted_mergeSyms h3.wf.sorted) hf.wf.sorted fun s => ?_
    rw [mem_mergeSyms, mem_mergeSyms, ← hs]
    exact ⟨fun h => h.elim (h5 s) (fun h => h.elim (fun h => absurd h (by simp)) id), fun h => Or.inr (Or.inr h)⟩
  · rw [GDual.toMv_extendSymbolSet h3 h, h7]
    by_cases h2 : 2 ≤ e.degree
    · by_cases h8 : e.degree ≤ f.order - 1 + 1
      · rw [if_pos ⟨h2, h8⟩, if_pos h2]
      · rw [if_neg (fun h => h8 h.2), if_pos h2]
        exact (GDual.Valid.degLE (ι := Unit) (K := K) hf () e (by omega)).symm
    · rw [if_neg (fun h => h2 h.1), if_neg h2]

/-! The rows of the inverse of the linear part -/

theorem linComb_loop {pre : String} (hpre : pre.toList.head? = some 'p') (hm : m < UINT_MAX - 10) (hm0 : m ≠ 0) (b : Fin n → K)
    (L : List (Fin n)) (acc : GDual K) (ha : acc.Valid) (hao : acc.order ≤ m) :
    ∃ d, L.foldlM (fun (acc : GDual K) (j : Fin n) => do
        let dummy ← GDual.mk3 (0 : K) (pre ++ toString (j : ℕ)) m
        .ok (acc.add (dummy.mulGS (b j)))) acc = .ok d ∧ d.Valid ∧ d.order ≤ m ∧ (L ≠ [] → d.order = m) ∧
      d.p.syms = mergeSyms acc.p.syms (L.map fun j : Fin n => "d" ++ (pre ++ toString (j : ℕ))) ∧
      d.toMv () = (acc.toMv () : MvPolynomial String K) + (L.map fun j : Fin n => MvPolynomial.C (b j) * X ("d" ++ (pre ++ toString (j : ℕ)))).sum := by
  induction L generalizing acc with
  | nil => exact ⟨acc, rfl, ha, hao, fun h => absurd rfl h, rfl, by simp⟩
  | cons j L ih =>
    obtain ⟨d, h1, h2, h3, h4, h5⟩ := mk3_p (K := K) hpre hm (j : ℕ)
    have hv := h2.mulGS (b j)
    have ho : (acc.add (d.mulGS (b j))).order = m := by
      change max acc.order (d.mulGS (b j)).order = m
      rw [GDual.order_mulGS, h3]; omega
    obtain ⟨d', g1, g2, g3, g4, g5, g6⟩ := ih (acc.add (d.mulGS (b j))) (ha.add hv) ho.le
    refine ⟨d', ?_, g2, g3, fun _ => ?_, ?_, ?_⟩
    · rw [List.foldlM_cons, bind_ok (a := acc.add (d.mulGS (b j)))]
      · exact g1
      · rw [bind_ok h1]
    · by_cases hL : L = []
      · subst hL
        injection g1 with g1
        rw [← g1, ho]
      · exact g4 hL
    · rw [g5]
      have : (acc.add (d.mulGS (b j))).p.syms = insertSym ("d" ++ (pre ++ toString (j : ℕ))) acc.p.syms := by
        change mergeSyms acc.p.syms (mergeSyms d.p.syms []) = _
        rw [h4]; rfl
      rw [this]; rfl
    · rw [g6, GDual.toMv_add ha hv, GDual.toMv_mulGS _ h2, h5 hm0, List.map_cons, List.sum_cons, add_assoc, mul_comm (X _)]
      rfl

theorem linComb_spec {pre : String} (hpre : pre.toList.head? = some 'p') (hm : m < UINT_MAX - 10) (hm0 : m ≠ 0)
    (B : Matrix (Fin n) (Fin n) K) (i : Fin n) :
    ∃ d, linComb B pre m i = .ok d ∧ d.Valid ∧ d.order = m ∧
      d.p.syms = mergeSyms [] ((List.finRange n).map fun j : Fin n => "d" ++ (pre ++ toString (j : ℕ))) ∧
      d.toMv () = (∑ j, MvPolynomial.C (B i j) * X ("d" ++ (pre ++ toString (j : ℕ))) : MvPolynomial String K) := by
  obtain ⟨d, h1, h2, h3, h4, h5, h6⟩ := linComb_loop (K := K) hpre hm hm0 (B i) (List.finRange n) (GDual.ofRat 0) (GDual.valid_ofRat 0) (Nat.zero_le _)
  refine ⟨d, h1, h2, h4 ?_, ?_, ?_⟩
  · intro h
    have := congrArg List.length h
    rw [List.length_finRange] at this
    exact absurd i.2 (by simp at this; omega)
  · rw [h5]
    have : (GDual.ofRat 0 : GDual K).p.syms = [] := rfl
    rw [this]
  · rw [h6, GDual.toMv_ofRat]
    simp only [Rat.cast_zero, map_zero, zero_add]
    rw [← Fin.sum_univ_def]

/-! The Picard iterations -/

/-- Polynomials of a map. -/
noncomputable def polys (r : List (GDual K)) : List (MvPolynomial String K) := r.map fun d => d.toMv ()

/-- The j-th polynomial of a map. -/
noncomputable def polyAt (r : List (GDual K)) (j : ℕ) : MvPolynomial String K := (polys r).getD j 0

theorem polyAt_eq {r : List (GDual K)} {j : ℕ} (h : j < r.length) : polyAt r j = (r[j].toMv () : MvPolynomial String K) := by
  unfold polyAt polys
  rw [List.getD_eq_getElem _ _ (by simpa using h), List.getElem_map]

theorem pairs_zip (l : List String) (r : List (GDual K)) : (pairs () (l.zip r) : List (String × MvPolynomial String K)) = (l.map fun s => "d" ++ s).zip (polys r) := by
  unfold pairs polys
  rw [List.zip_map]
  rfl

/-- What holds for all the iterates. -/
structure Inv0 (n m : ℕ) (r : List (GDual K)) : Prop where
  len : r.length = n
  valid : ∀ d ∈ r, d.Valid
  order : ∀ d ∈ r, d.order = m
  supp : ∀ d ∈ r, (d.toMv () : MvPolynomial String K) ∈ supported K {t | t ∈ invNames n}
  zero : ∀ d ∈ r, coeff 0 (d.toMv () : MvPolynomial String K) = 0

theorem mem_zip_right {α β : Type} {a : List α} {b : List β} {x : α × β} (h : x ∈ a.zip b) : x.2 ∈ b := (List.of_mem_zip (a := x.1) (b := x.2) h).2

theorem compose_eq {A B : List (GDual K)} {a0 : GDual K} (h0 : A[0]? = some a0) (hl : B.length ≤ a0.symbolSet.length) :
    compose A B = .ok (A.map fun a => substAll a (a0.symbolSet.zip B)) := by
  cases A with
  | nil => exact absurd h0 (by simp)
  | cons a l =>
    have : a = a0 := by simpa using h0
    subst this
    exact if_pos hl

/-- The non linear part of the map and its symbols. -/
structure NonLin (ss : List String) (n m : ℕ) (N : List (GDual K)) : Prop where
  len : N.length = n
  valid : ∀ d ∈ N, d.Valid
  order : ∀ d ∈ N, d.order = m
  syms : ∀ d ∈ N, d.p.syms = ss.map fun s => "d" ++ s
  low : ∀ d ∈ N, (d.toMv () : MvPolynomial String K) ∈ (idealOfVars String K) ^ 2

omit [Field K] [LinearOrder K] in
theorem symbolSet_of_syms {d : GDual K} (h : d.p.syms = ss.map fun s => "d" ++ s) : d.symbolSet = ss := by
  unfold GDual.symbolSet
  rw [h, List.map_map]
  conv_rhs => rw [← List.map_id ss]
  exact List.map_congr_left fun s _ => strip_d s

/-- Composition of the non linear part with an iterate. -/
theorem compose_nonLin {N r : List (GDual K)} (hN : NonLin ss n m N) (hr : Inv0 n m r) (hn : n ≠ 0) (hss : ss.length = n)
    (hdis : ∀ s ∈ ss.tail, "d" ++ s ∉ invNames n) :
    ∃ c, compose N r = .ok c ∧ Inv0 n m c ∧
      ∀ j < n, EqUpTo m (polyAt c j) (substAt ((ss.map fun s => "d" ++ s).zip (polys r)) (polyAt N j)) := by
  have h0 : ∃ a0, N[0]? = some a0 := ⟨N[0]'(by rw [hN.len]; omega), List.getElem?_eq_getElem _⟩
  obtain ⟨a0, h0⟩ := h0
  have ha0 : a0 ∈ N := List.mem_of_getElem? h0
  have hsy := symbolSet_of_syms (hN.syms a0 ha0)
  have hz : ∀ x ∈ ss.zip r, x.2 ∈ r := fun x hx => mem_zip_right hx
  have hpw : (ss.zip r).Pairwise fun x y => ∃ T : Set String, (x.2.toMv () : MvPolynomial String K) ∈ supported K T ∧ "d" ++ y.1 ∉ T := by
    cases hcs : ss with
    | nil => simp
    | cons s0 st =>
      cases hcr : r with
      | nil => simp
      | cons r0 rt =>
        have key : ∀ x : String × GDual K, x.2 ∈ r → ∀ y : String × GDual K, y.1 ∈ st →
            ∃ T : Set String, (x.2.toMv () : MvPolynomial String K) ∈ supported K T ∧ "d" ++ y.1 ∉ T := fun x hx y hy =>
          ⟨_, hr.supp x.2 hx, by
            have := hdis y.1 (by rw [hcs]; exact hy)
            exact this⟩
        rw [List.zip_cons_cons, List.pairwise_cons]
        have hst : ∀ y ∈ st.zip rt, y.1 ∈ st := fun y hy => (List.of_mem_zip (a := y.1) (b := y.2) hy).1
        refine ⟨fun y hy => key _ (by rw [hcr]; simp) y (hst y hy), List.pairwise_of_forall_mem_list fun x hx y hy => ?_⟩
        exact key x (by rw [hcr]; exact List.mem_cons_of_mem _ (mem_zip_right hx)) y (hst y hy)
  have hspec : ∀ a ∈ N, (substAll a (ss.zip r)).Valid ∧ (substAll a (ss.zip r)).order = m ∧
      ((substAll a (ss.zip r)).toMv () : MvPolynomial String K) ∈ supported K {t | t ∈ invNames n} ∧
      EqUpTo m ((substAll a (ss.zip r)).toMv () : MvPolynomial String K) (substAt ((ss.map fun s => "d" ++ s).zip (polys r)) (a.toMv ())) := fun a ha => by
    have h1 := valid_substAll (ι := Unit) (K := K) (ss.zip r) (hN.valid a ha) fun x hx => hr.valid _ (hz x hx)
    have h2 := substAll_spec (ι := Unit) (K := K) (ss.zip r) (hN.valid a ha) (fun x hx => hr.valid _ (hz x hx)) ()
      (fun x hx => hr.zero _ (hz x hx)) hpw
    rw [hN.order a ha] at h1 h2
    refine ⟨h1.1, h1.2, substAll_supported (ss.zip r) (hN.valid a ha) (fun x hx => hr.valid _ (hz x hx)) ()
      (T := {t | t ∈ ss.map fun s => "d" ++ s}) (fun x hx => hr.supp _ (hz x hx)) (toMv_mem_supported a () fun s hs => by
        rw [hN.syms a ha] at hs; exact hs) ?_, ?_⟩
    · rintro t ht -
      obtain ⟨s, hs, rfl⟩ := List.mem_map.mp ht
      obtain ⟨j, hj, rfl⟩ := List.getElem_of_mem hs
      have hjr : j < r.length := by rw [hr.len]; omega
      refine ⟨(ss[j], r[j]), ?_, rfl⟩
      rw [List.mem_iff_getElem]
      exact ⟨j, by rw [List.length_zip]; omega, List.getElem_zip⟩
    · rwa [pairs_zip] at h2
  have hI : ∀ t, replacement ((ss.map fun s => "d" ++ s).zip (polys r)) t ∈ idealOfVars String K := replacement_mem fun x hx => by
    obtain ⟨d, hd, he⟩ := List.mem_map.mp (mem_zip_right hx)
    rw [← he]
    exact mem_ideal_iff.mpr (hr.zero d hd)
  refine ⟨N.map fun a => substAll a (ss.zip r), ?_, ⟨by rw [List.length_map, hN.len], ?_, ?_, ?_, ?_⟩, fun j hj => ?_⟩
  · rw [compose_eq h0 (by rw [hsy, hss, hr.len]), hsy]
  · intro d hd
    obtain ⟨a, ha, rfl⟩ := List.mem_map.mp hd
    exact (hspec a ha).1
  · intro d hd
    obtain ⟨a, ha, rfl⟩ := List.mem_map.mp hd
    exact (hspec a ha).2.1
  · intro d hd
    obtain ⟨a, ha, rfl⟩ := List.mem_map.mp hd
    exact (hspec a ha).2.2.1
  · intro d hd
    obtain ⟨a, ha, rfl⟩ := List.mem_map.mp hd
    rw [(hspec a ha).2.2.2 0 (by simp), ← mem_ideal_iff, ← pow_one (idealOfVars String K)]
    exact aeval_mem_pow hI (Ideal.pow_le_pow_right (by omega) (hN.low a ha))
  · have hjN : j < N.length := by rw [hN.len]; exact hj
    rw [polyAt_eq (by rw [List.length_map]; exact hjN), polyAt_eq hjN, List.getElem_map]
    exact (hspec _ (List.getElem_mem hjN)).2.2.2

/-- The identity map. -/
structure Ident (n m : ℕ) (I : List (GDual K)) : Prop where
  len : I.length = n
  valid : ∀ d ∈ I, d.Valid
  order : ∀ d ∈ I, d.order = m
  syms : ∀ d ∈ I, ∀ s ∈ d.p.syms, s ∈ invNames n
  poly : ∀ j < n, polyAt I j = X ("d" ++ ("p" ++ toString j))

theorem sub_spec {I c : List (GDual K)} (hI : Ident n m I) (hc : Inv0 n m c) :
    ∃ s, sub I c = .ok s ∧ Inv0 n m s ∧ ∀ j < n, polyAt s j = X ("d" ++ ("p" ++ toString j)) - polyAt c j := by
  have hlen : (List.zipWith GDual.sub I c).length = n := by rw [List.length_zipWith, hI.len, hc.len, min_self]
  have hmem : ∀ d ∈ List.zipWith GDual.sub I c, ∃ j, ∃ h1 : j < I.length, ∃ h2 : j < c.length, d = I[j].sub c[j] := fun d hd => by
    obtain ⟨j, hj, rfl⟩ := List.getElem_of_mem hd
    rw [hlen] at hj
    exact ⟨j, by rw [hI.len]; exact hj, by rw [hc.len]; exact hj, List.getElem_zipWith⟩
  have hpoly : ∀ j < n, polyAt (List.zipWith GDual.sub I c) j = X ("d" ++ ("p" ++ toString j)) - polyAt c j := fun j hj => by
    have h1 : j < I.length := by rw [hI.len]; exact hj
    have h2 : j < c.length := by rw [hc.len]; exact hj
    rw [polyAt_eq (by rw [hlen]; exact hj), List.getElem_zipWith, GDual.toMv_sub (hI.valid _ (List.getElem_mem h1)) (hc.valid _ (List.getElem_mem h2)),
      ← polyAt_eq h1, ← polyAt_eq h2, hI.poly j hj]
  refine ⟨_, if_pos (by rw [hI.len, hc.len]), ⟨hlen, ?_, ?_, ?_, ?_⟩, hpoly⟩
  · intro d hd
    obtain ⟨j, h1, h2, rfl⟩ := hmem d hd
    exact (hI.valid _ (List.getElem_mem h1)).sub (hc.valid _ (List.getElem_mem h2))
  · intro d hd
    obtain ⟨j, h1, h2, rfl⟩ := hmem d hd
    change max _ _ = _
    rw [hI.order _ (List.getElem_mem h1), hc.order _ (List.getElem_mem h2), max_self]
  · intro d hd
    obtain ⟨j, h1, h2, rfl⟩ := hmem d hd
    rw [GDual.toMv_sub (hI.valid _ (List.getElem_mem h1)) (hc.valid _ (List.getElem_mem h2))]
    exact sub_mem (toMv_mem_supported _ () fun s hs => hI.syms _ (List.getElem_mem h1) s hs) (hc.supp _ (List.getElem_mem h2))
  · intro d hd
    obtain ⟨j, h1, h2, rfl⟩ := hmem d hd
    rw [GDual.toMv_sub (hI.valid _ (List.getElem_mem h1)) (hc.valid _ (List.getElem_mem h2)), coeff_sub, hc.zero _ (List.getElem_mem h2),
      ← polyAt_eq h1, hI.poly j (by rw [← hI.len]; exact h1)]
    simp

/-- The sorted names of the auxiliary symbols. -/
def dummies (n : ℕ) : List String := mergeSyms [] ((List.finRange n).map fun j : Fin n => "d" ++ ("pdummy" ++ toString (j : ℕ)))

theorem mem_dummies {n : ℕ} {s : String} : s ∈ dummies n ↔ ∃ j : Fin n, s = "d" ++ ("pdummy" ++ toString (j : ℕ)) := by
  unfold dummies
  rw [mem_mergeSyms]
  simp only [List.not_mem_nil, false_or, List.mem_map, List.mem_finRange, true_and]
  exact ⟨fun ⟨j, h⟩ => ⟨j, h.symm⟩, fun ⟨j, h⟩ => ⟨j, h.symm⟩⟩

theorem nodup_dummies (n : ℕ) : (dummies n).Nodup := (sorted_mergeSyms List.Pairwise.nil).imp ne_of_lt

theorem length_dummies (n : ℕ) : (dummies n).length = n := by
  have h1 : ((List.finRange n).map fun j : Fin n => "d" ++ ("pdummy" ++ toString (j : ℕ))).Nodup :=
    (List.nodup_finRange n).map fun i j h => Fin.ext (toString_nat_inj (append_left_inj' (d_append_inj h)))
  have h2 : (dummies n).Perm ((List.finRange n).map fun j : Fin n => "d" ++ ("pdummy" ++ toString (j : ℕ))) :=
    (List.perm_ext_iff_of_nodup (nodup_dummies n) h1).mpr fun s => by
      rw [mem_dummies]; simp [eq_comm]
  rw [h2.length_eq, List.length_map, List.length_finRange]

/-- Position of the j-th auxiliary symbol in the sorted list. -/
def pos (n : ℕ) (j : ℕ) : ℕ := (dummies n).idxOf ("d" ++ ("pdummy" ++ toString j))

theorem pos_lt {n j : ℕ} (h : j < n) : pos n j < n := by
  have := List.idxOf_lt_length_of_mem (mem_dummies.mpr ⟨⟨j, h⟩, rfl⟩ : "d" ++ ("pdummy" ++ toString j) ∈ dummies n)
  rwa [length_dummies] at this

/-- Up to 10 variables the auxiliary symbols are sorted by index. -/
theorem pos_eq {n : ℕ} (hn : n ≤ 10) {j : ℕ} (hj : j < n) : pos n j = j := by
  have : ∀ n < 11, ∀ j < n, pos n j = j := by decide +kernel
  exact this n (by omega) j hj

/-- From 11 variables on the auxiliary symbols are not sorted by index. -/
theorem pos_ne {n : ℕ} (hn : 11 ≤ n) : ¬ ∀ j < n, pos n j = j := by
  intro h
  have hg : ∀ j (hj : j < n), (dummies n)[j]'(by rw [length_dummies]; exact hj) = "d" ++ ("pdummy" ++ toString j) := fun j hj => by
    have e1 : (dummies n)[pos n j]'(by rw [length_dummies]; exact pos_lt hj) = "d" ++ ("pdummy" ++ toString j) := List.getElem_idxOf _
    rw [← e1]
    congr 1
    exact (h j hj).symm
  have hs : (dummies n).Pairwise (· < ·) := sorted_mergeSyms List.Pairwise.nil
  have h1 := List.pairwise_iff_getElem.mp hs 2 10 (by rw [length_dummies]; omega) (by rw [length_dummies]; omega) (by omega)
  rw [hg 2 (by omega), hg 10 (by omega)] at h1
  exact absurd h1 (by decide +kernel)

/-- Composition of the inverse of the linear part with `s`. -/
theorem compose_minv2 {M2 s : List (GDual K)} {B : Matrix (Fin n) (Fin n) K} (hn : n ≠ 0) (hlen : M2.length = n)
    (hM : ∀ i (h : i < M2.length), ∃ h' : i < n, M2[i].Valid ∧ M2[i].order = m ∧ M2[i].p.syms = dummies n ∧
      M2[i].toMv () = (∑ j, MvPolynomial.C (B ⟨i, h'⟩ j) * X ("d" ++ ("pdummy" ++ toString (j : ℕ))) : MvPolynomial String K))
    (hs : Inv0 n m s) :
    ∃ r, compose M2 s = .ok r ∧ Inv0 n m r ∧ ∀ i : Fin n, EqUpTo m (polyAt r i) (∑ j, MvPolynomial.C (B i j) * polyAt s (pos n j)) := by
  have h0' : 0 < M2.length := by omega
  have hdn : (dummies n).map (fun s => String.ofList (s.toList.drop 1)) = (M2[0]).symbolSet := by
    unfold GDual.symbolSet
    obtain ⟨_, _, _, h, _⟩ := hM 0 h0'
    rw [h]
  set ss := (dummies n).map (fun s => String.ofList (s.toList.drop 1)) with hss
  have hssd : ss.map (fun s => "d" ++ s) = dummies n := by
    rw [hss, List.map_map]
    conv_rhs => rw [← List.map_id (dummies n)]
    refine List.map_congr_left fun t ht => ?_
    obtain ⟨j, rfl⟩ := mem_dummies.mp ht
    simp only [Function.comp, strip_d, id]
  have hsslen : ss.length = n := by rw [hss, List.length_map, length_dummies]
  have hz : ∀ x ∈ ss.zip s, x.2 ∈ s := fun x hx => mem_zip_right hx
  have hx1 : ∀ x ∈ ss.zip s, "d" ++ x.1 ∉ invNames n := fun x hx h => by
    have h1 := (List.of_mem_zip (a := x.1) (b := x.2) hx).1
    have h2 : "d" ++ x.1 ∈ dummies n := by
      rw [← hssd]; exact List.mem_map.mpr ⟨x.1, h1, rfl⟩
    obtain ⟨j, hj⟩ := mem_dummies.mp h2
    obtain ⟨i, _, hi⟩ := mem_invNames.mp h
    exact p_ne_pdummy i j (hi.symm.trans hj)
  have hpw : (ss.zip s).Pairwise fun x y => ∃ T : Set String, (x.2.toMv () : MvPolynomial String K) ∈ supported K T ∧ "d" ++ y.1 ∉ T :=
    List.pairwise_of_forall_mem_list fun x hx y hy => ⟨_, hs.supp _ (hz x hx), hx1 y hy⟩
  have hI : ∀ t, replacement ((dummies n).zip (polys s)) t ∈ idealOfVars String K := replacement_mem fun x hx => by
    obtain ⟨d, hd, he⟩ := List.mem_map.mp (mem_zip_right hx)
    rw [← he]
    exact mem_ideal_iff.mpr (hs.zero d hd)
  have hspec : ∀ i (h : i < M2.length), ∃ h' : i < n, (substAll M2[i] (ss.zip s)).Valid ∧ (substAll M2[i] (ss.zip s)).order = m ∧
      ((substAll M2[i] (ss.zip s)).toMv () : MvPolynomial String K) ∈ supported K {t | t ∈ invNames n} ∧
      EqUpTo m ((substAll M2[i] (ss.zip s)).toMv () : MvPolynomial String K) (∑ j, MvPolynomial.C (B ⟨i, h'⟩ j) * polyAt s (pos n j)) ∧
      coeff 0 ((substAll M2[i] (ss.zip s)).toMv () : MvPolynomial String K) = 0 := fun i h => by
    obtain ⟨h', g1, g2, g3, g4⟩ := hM i h
    have h1 := valid_substAll (ι := Unit) (K := K) (ss.zip s) g1 fun x hx => hs.valid _ (hz x hx)
    have h2 := substAll_spec (ι := Unit) (K := K) (ss.zip s) g1 (fun x hx => hs.valid _ (hz x hx)) ()
      (fun x hx => hs.zero _ (hz x hx)) hpw
    rw [g2] at h1 h2
    rw [pairs_zip, hssd] at h2
    have h3 : substAt ((dummies n).zip (polys s)) (M2[i].toMv ()) = ∑ j, MvPolynomial.C (B ⟨i, h'⟩ j) * polyAt s (pos n j) := by
      rw [g4, map_sum]
      refine Finset.sum_congr rfl fun j _ => ?_
      rw [map_mul]
      unfold substAt
      rw [aeval_X, algHom_C, algebraMap_eq]
      congr 1
      have hp := pos_lt j.2
      have e1 : (dummies n)[pos n j]'(by rw [length_dummies]; exact hp) = "d" ++ ("pdummy" ++ toString (j : ℕ)) :=
        List.getElem_idxOf _
      have e2 := replacement_zip (K := K) (v := polys s) (nodup_dummies n) (j := pos n j) (by rw [length_dummies]; exact hp)
        (by unfold polys; rw [List.length_map, hs.len]; exact hp)
      rw [e1] at e2
      rw [e2]
      unfold polyAt
      rw [List.getD_eq_getElem]
    have h4 : EqUpTo m ((substAll M2[i] (ss.zip s)).toMv () : MvPolynomial String K) (∑ j, MvPolynomial.C (B ⟨i, h'⟩ j) * polyAt s (pos n j)) := by
      rwa [h3] at h2
    refine ⟨h', h1.1, h1.2, substAll_supported (ss.zip s) g1 (fun x hx => hs.valid _ (hz x hx)) ()
      (T := {t | t ∈ dummies n}) (fun x hx => hs.supp _ (hz x hx)) (toMv_mem_supported _ () fun t ht => by
        rw [g3] at ht; exact ht) ?_, h4, ?_⟩
    · rintro t ht -
      have ht : t ∈ ss.map fun s => "d" ++ s := by rw [hssd]; exact ht
      obtain ⟨u, hu, rfl⟩ := List.mem_map.mp ht
      obtain ⟨j, hj, rfl⟩ := List.getElem_of_mem hu
      have hjr : j < s.length := by rw [hs.len]; omega
      refine ⟨(ss[j], s[j]), ?_, rfl⟩
      rw [List.mem_iff_getElem]
      exact ⟨j, by rw [List.length_zip]; omega, List.getElem_zip⟩
    · rw [h4 0 (by simp), ← mem_ideal_iff]
      refine Submodule.sum_mem _ fun j _ => Ideal.mul_mem_left _ _ ?_
      have hp : pos n j < s.length := by rw [hs.len]; exact pos_lt j.2
      rw [polyAt_eq hp]
      exact mem_ideal_iff.mpr (hs.zero _ (List.getElem_mem hp))
  have hmem : ∀ d ∈ M2.map (fun a => substAll a (ss.zip s)), ∃ i, ∃ h : i < M2.length, d = substAll M2[i] (ss.zip s) := fun d hd => by
    obtain ⟨a, ha, rfl⟩ := List.mem_map.mp hd
    obtain ⟨i, hi, rfl⟩ := List.getElem_of_mem ha
    exact ⟨i, hi, rfl⟩
  refine ⟨M2.map fun a => substAll a (ss.zip s), ?_, ⟨by rw [List.length_map, hlen], ?_, ?_, ?_, ?_⟩, fun i => ?_⟩
  · rw [compose_eq (a0 := M2[0]) (List.getElem?_eq_getElem h0') (by rw [← hdn, hsslen, hs.len]), ← hdn]
  · intro d hd
    obtain ⟨i, hi, rfl⟩ := hmem d hd
    exact (hspec i hi).2.1
  · intro d hd
    obtain ⟨i, hi, rfl⟩ := hmem d hd
    exact (hspec i hi).2.2.1
  · intro d hd
    obtain ⟨i, hi, rfl⟩ := hmem d hd
    exact (hspec i hi).2.2.2.1
  · intro d hd
    obtain ⟨i, hi, rfl⟩ := hmem d hd
    exact (hspec i hi).2.2.2.2.2
  · have hi : (i : ℕ) < M2.length := by rw [hlen]; exact i.2
    obtain ⟨h', _, _, _, h4, _⟩ := hspec i hi
    rw [polyAt_eq (by rw [List.length_map]; exact hi), List.getElem_map]
    exact h4

/-- One Picard iteration. -/
theorem picard_spec {I N M2 r : List (GDual K)} {B : Matrix (Fin n) (Fin n) K} (hn : n ≠ 0) (hI : Ident n m I) (hN : NonLin ss n m N)
    (hlen : M2.length = n)
    (hM : ∀ i (h : i < M2.length), ∃ h' : i < n, M2[i].Valid ∧ M2[i].order = m ∧ M2[i].p.syms = dummies n ∧
      M2[i].toMv () = (∑ j, MvPolynomial.C (B ⟨i, h'⟩ j) * X ("d" ++ ("pdummy" ++ toString (j : ℕ))) : MvPolynomial String K))
    (hss : ss.length = n) (hdis : ∀ s ∈ ss.tail, "d" ++ s ∉ invNames n) (hr : Inv0 n m r) :
    ∃ r', picard I N M2 r = .ok r' ∧ Inv0 n m r' ∧
      ∀ i : Fin n, EqUpTo m (polyAt r' i) (∑ j : Fin n, MvPolynomial.C (B i j) *
        (X ("d" ++ ("p" ++ toString (pos n j))) - substAt ((ss.map fun s => "d" ++ s).zip (polys r)) (polyAt N (pos n j)))) := by
  obtain ⟨c, c1, c2, c3⟩ := compose_nonLin hN hr hn hss hdis
  obtain ⟨s, s1, s2, s3⟩ := sub_spec hI c2
  obtain ⟨r', r1, r2, r3⟩ := compose_minv2 hn hlen hM s2
  refine ⟨r', by unfold picard; rw [bind_ok c1, bind_ok s1]; exact r1, r2, fun i => (r3 i).trans ?_⟩
  rw [eqUpTo_iff_mem]
  refine sum_mul_mem (A := B) (u := fun j => polyAt s (pos n j))
    (v := fun j => X ("d" ++ ("p" ++ toString (pos n j))) - substAt ((ss.map fun s => "d" ++ s).zip (polys r)) (polyAt N (pos n j))) (fun j => ?_) i
  have h := eqUpTo_iff_mem.mp (c3 _ (pos_lt j.2))
  have h' := neg_mem h
  convert h' using 1
  rw [s3 _ (pos_lt j.2)]
  ring

/-- The values given to the symbols of the map. -/
theorem replacement_polys {r : List (GDual K)} (hnd : ss.Nodup) (hss : ss.length = n) (hr : r.length = n) (j : Fin n) :
    replacement ((ss.map fun s => "d" ++ s).zip (polys r)) ("d" ++ ss[(j : ℕ)]'(by rw [hss]; exact j.2)) = (polyAt r j : MvPolynomial String K) := by
  have hnd' : (ss.map fun s => "d" ++ s).Nodup := hnd.map fun a b h => d_append_inj h
  have := replacement_zip (K := K) (v := polys r) hnd' (j := j) (by rw [List.length_map, hss]; exact j.2) (by unfold polys; rw [List.length_map, hr]; exact j.2)
  rw [List.getElem_map] at this
  rw [this]
  unfold polyAt
  rw [List.getD_eq_getElem]

theorem replacement_off {r : List (GDual K)} (hss : ss.length = n) {t : String}
    (ht : ∀ j : Fin n, t ≠ "d" ++ ss[(j : ℕ)]'(by rw [hss]; exact j.2)) :
    replacement ((ss.map fun s => "d" ++ s).zip (polys r)) t = (X t : MvPolynomial String K) := by
  refine replacement_of_notMem fun x hx he => ?_
  obtain ⟨s, hs, h⟩ := List.mem_map.mp (List.of_mem_zip (a := x.1) (b := x.2) hx).1
  obtain ⟨j, hj, rfl⟩ := List.getElem_of_mem hs
  exact ht ⟨j, by rw [← hss]; exact hj⟩ (he.symm.trans h.symm)

theorem replacement_ideal {r : List (GDual K)} (hr : Inv0 n m r) (l : List String) (t : String) :
    replacement (l.zip (polys r)) t ∈ idealOfVars String K := replacement_mem (fun x hx => by
    obtain ⟨d, hd, he⟩ := List.mem_map.mp (mem_zip_right hx)
    rw [← he]
    exact mem_ideal_iff.mpr (hr.zero d hd)) t

/-- All the iterations. -/
theorem loop_spec {I N M2 r0 : List (GDual K)} {A B : Matrix (Fin n) (Fin n) K} (hn : n ≠ 0) (hI : Ident n m I) {mN : ℕ} (hmN : 2 ≤ m → mN = m)
    (hN : NonLin ss n mN N) (hlen : M2.length = n)
    (hM : ∀ i (h : i < M2.length), ∃ h' : i < n, M2[i].Valid ∧ M2[i].order = m ∧ M2[i].p.syms = dummies n ∧
      M2[i].toMv () = (∑ j, MvPolynomial.C (B ⟨i, h'⟩ j) * X ("d" ++ ("pdummy" ++ toString (j : ℕ))) : MvPolynomial String K))
    (hnd : ss.Nodup) (hss : ss.length = n) (hdis : ∀ s ∈ ss.tail, "d" ++ s ∉ invNames n) (hr0 : Inv0 n m r0)
    (hG : ∀ i : Fin n, polyAt r0 i = ∑ j, MvPolynomial.C (B i j) * X ("d" ++ ("p" ++ toString (j : ℕ)))) (k : ℕ) (hk : k + 1 ≤ m) :
    ∃ r, (List.range' 1 k).foldlM (fun (r : List (GDual K)) (_ : ℕ) => picard I N M2 r) r0 = .ok r ∧ Inv0 n m r ∧
      (A * B = 1 → B * A = 1 → (k = 0 ∨ ∀ j < n, pos n j = j) → ∀ i : Fin n, (∑ j : Fin n, MvPolynomial.C (A i j) * polyAt r j) +
        substAt ((ss.map fun s => "d" ++ s).zip (polys r)) (polyAt N i) - X ("d" ++ ("p" ++ toString (i : ℕ))) ∈ (idealOfVars String K) ^ (k + 1 + 1)) ∧
      (k ≠ 0 → ∀ i : Fin n, polyAt r i - ∑ j : Fin n, MvPolynomial.C (B i j) * X ("d" ++ ("p" ++ toString (pos n j))) ∈ (idealOfVars String K) ^ 2) := by
  have hNlow : ∀ j, j < n → polyAt N j ∈ (idealOfVars String K) ^ 2 := fun j hj => by
    have hj : j < N.length := by rw [hN.len]; exact hj
    rw [polyAt_eq hj]
    exact hN.low _ (List.getElem_mem hj)
  induction k with
  | zero =>
    refine ⟨r0, rfl, hr0, fun hAB _ _ i => ?_, fun h => absurd rfl h⟩
    exact picard_base (A := A) (B := B) (N := fun i : Fin n => polyAt N i) (G := fun i : Fin n => polyAt r0 i)
      (s := replacement ((ss.map fun s => "d" ++ s).zip (polys r0))) (p := fun i : Fin n => "d" ++ ("p" ++ toString (i : ℕ))) hAB
      (fun i => hNlow i i.2) (replacement_ideal hr0 _) hG i
  | succ k ih =>
    obtain ⟨r, h1, h2, h3, -⟩ := ih (by omega)
    have hN' : NonLin ss n m N := by rw [← hmN (by omega)]; exact hN
    obtain ⟨r', g1, g2, g3⟩ := picard_spec hn hI hN' hlen hM hss hdis h2
    refine ⟨r', ?_, g2, fun hAB hBA hpos' i => ?_, fun _ i => ?_⟩
    · rw [List.range'_concat, List.foldlM_append, bind_ok h1, List.foldlM_cons, bind_ok g1]; rfl
    · have hpos := hpos'.resolve_left (by omega)
      refine picard_step (k := k + 1) (m := m) (A := A) (B := B) (N := fun i : Fin n => polyAt N i) (G := fun i : Fin n => polyAt r i) (G' := fun i : Fin n => polyAt r' i)
        (s := replacement ((ss.map fun s => "d" ++ s).zip (polys r))) (s' := replacement ((ss.map fun s => "d" ++ s).zip (polys r')))
        (x := fun j : Fin n => "d" ++ ss[(j : ℕ)]'(by rw [hss]; exact j.2))
        (p := fun i : Fin n => "d" ++ ("p" ++ toString (i : ℕ))) hAB hBA (fun i => hNlow i i.2) (replacement_ideal h2 _) (replacement_ideal g2 _)
        (replacement_polys hnd hss h2.len) (replacement_polys hnd hss g2.len)
        (fun t ht => by rw [replacement_off hss ht, replacement_off hss ht]) (h3 hAB hBA (Or.inr hpos)) (by omega) (fun i => ?_) i
      have := eqUpTo_iff_mem.mp (g3 i)
      convert this using 5 with j _
      · rw [hpos _ j.2]
      · rw [hpos _ j.2]; rfl
    · have h4 := Ideal.pow_le_pow_right (show 2 ≤ m + 1 by omega) (eqUpTo_iff_mem.mp (g3 i))
      have h5 := sum_mul_mem (A := B) (k := 2)
        (u := fun j : Fin n => X ("d" ++ ("p" ++ toString (pos n j))) - substAt ((ss.map fun s => "d" ++ s).zip (polys r)) (polyAt N (pos n j)))
        (v := fun j : Fin n => X ("d" ++ ("p" ++ toString (pos n j)))) (fun j => by
          rw [sub_sub_cancel_left]
          exact neg_mem (aeval_mem_pow (replacement_ideal h2 _) (hNlow _ (pos_lt j.2)))) i
      have := add_mem h4 h5
      rwa [sub_add_sub_cancel] at this

/-! The matrix of the linear part -/

omit [LinearOrder K] in
theorem toExp_replicate (ss : List String) (n : ℕ) : toExp ss (List.replicate n 0) = 0 := by
  induction ss generalizing n with
  | nil => cases n <;> rfl
  | cons s ss ih =>
    cases n with
    | zero => rfl
    | succ n =>
      rw [List.replicate_succ]
      change Finsupp.single s 0 + _ = _
      rw [ih, Finsupp.single_zero, add_zero]

theorem toExp_unitExp (ss : List String) (j : ℕ) (hj : j < ss.length) : toExp ss (unitExp ss.length j) = Finsupp.single ss[j] 1 := by
  unfold unitExp
  induction ss generalizing j with
  | nil => exact absurd hj (by simp)
  | cons s ss ih =>
    rw [List.length_cons, List.replicate_succ]
    cases j with
    | zero =>
      change Finsupp.single s 1 + toExp ss _ = _
      rw [toExp_replicate]; simp
    | succ j =>
      change Finsupp.single s 0 + toExp ss _ = _
      rw [ih j (by simpa using hj), Finsupp.single_zero, zero_add]
      rfl

theorem sum_unitExp (n j : ℕ) : (unitExp n j).sum ≤ 1 := by
  unfold unitExp
  induction n generalizing j with
  | zero => simp
  | succ n ih =>
    rw [List.replicate_succ]
    cases j with
    | zero => simp
    | succ j => simpa using ih j

/-- The matrix of the linear part. -/
theorem linearRows_spec {M : List (GDual K)} (hss : ss.length = n) (hM : ∀ d ∈ M, d.Valid ∧ d.order = 1 ∧ d.p.syms = ss.map fun s => "d" ++ s)
    (hlen : M.length = n) :
    ∃ rows, linearRows n M = .ok rows ∧ ∀ i j : Fin n, matrixOf n rows i j =
      coeff (Finsupp.single ("d" ++ ss[(j : ℕ)]'(by rw [hss]; exact j.2)) 1) (polyAt M i) := by
  have h1 : ∀ i (hi : i < M.length), ∃ row, (List.range n).mapM (fun (j : ℕ) => M[i].findCf (unitExp n j)) = .ok row ∧
      (row.length = n ∧ ∀ j (hj : j < n), row.getD j 0 = coeff (Finsupp.single ("d" ++ ss[j]'(by rw [hss]; exact hj)) 1) (polyAt M i)) := fun i hi => by
    obtain ⟨v1, v2, v3⟩ := hM _ (List.getElem_mem hi)
    have hsl : M[i].p.syms.length = n := by rw [v3, List.length_map, hss]
    obtain ⟨row, g1, g2, g3⟩ := mapM_get (f := fun (j : ℕ) => M[i].findCf (unitExp n j)) (l := List.range n)
      (Q := fun j c => ∀ hj : j < n, c = coeff (Finsupp.single ("d" ++ ss[j]'(by rw [hss]; exact hj)) 1) (polyAt M i)) fun j hj => by
        rw [List.getElem_range]
        have hj : j < n := by simpa using hj
        obtain ⟨c, hc⟩ := GDual.findCf_isOk (d := M[i]) (e := unitExp n j) (by rw [v2]; exact sum_unitExp n j) (by rw [hsl]; simp [unitExp])
        refine ⟨c, hc, fun hj => ?_⟩
        have := GDual.lane_findCf (ι := Unit) (K := K) v1 hc ()
        have e : toExp M[i].p.syms (unitExp n j) = Finsupp.single ("d" ++ ss[j]'(by rw [hss]; exact hj)) 1 := by
          have := toExp_unitExp M[i].p.syms j (by rw [hsl]; exact hj)
          conv at this => lhs; rw [hsl]
          rw [this]
          congr 1
          simp only [v3, List.getElem_map]
        rw [e, ← polyAt_eq hi] at this
        exact this
    rw [List.length_range] at g2
    exact ⟨row, g1, g2, fun j hj => by rw [List.getD_eq_getElem _ _ (by rw [g2]; exact hj)]; exact g3 j _ hj⟩
  obtain ⟨rows, g1, g2, g3⟩ := mapM_get (f := fun (f : GDual K) => (List.range n).mapM fun (j : ℕ) => f.findCf (unitExp n j)) (l := M)
    (Q := fun i row => row.length = n ∧ ∀ j (hj : j < n), row.getD j 0 = coeff (Finsupp.single ("d" ++ ss[j]'(by rw [hss]; exact hj)) 1) (polyAt M i)) h1
  refine ⟨rows, g1, fun i j => ?_⟩
  unfold matrixOf
  have hi : (i : ℕ) < rows.length := by rw [g2, hlen]; exact i.2
  rw [List.getD_eq_getElem _ _ hi]
  exact (g3 i hi).2 j j.2

/-! Success, whatever the names of the variables -/

/-- What holds for all the iterates, whatever the names of the variables. -/
structure Inv1 (n m : ℕ) (r : List (GDual K)) : Prop where
  len : r.length = n
  valid : ∀ d ∈ r, d.Valid
  order : ∀ d ∈ r, d.order = m
  supp : ∀ d ∈ r, (d.toMv () : MvPolynomial String K) ∈ supported K {t | t ∈ invNames n}

/-- The symbol sets contain only symbols that occur. -/
def Trimmed (r : List (GDual K)) : Prop := ∀ d ∈ r, ∀ u ∈ d.p.syms, u ∈ (d.toMv () : MvPolynomial String K).vars

theorem subs_trimmed {a b : GDual K} (ha : a.Valid) (hb : b.Valid) (s : String) :
    ∀ u ∈ (a.subs s b).p.syms, u ∈ ((a.subs s b).toMv () : MvPolynomial String K).vars := fun u hu => by
  obtain ⟨hu, t, ht, hne⟩ := (Poly.mem_trimSyms _ _).mp hu
  set p := (a.p.subsPoly s b.p).truncate a.order with hp
  have hw : p.WF := (ha.wf.subsPoly hb.wf s).truncate a.order
  obtain ⟨i, hi⟩ := Poly.exists_lane_ne (ι := Unit) (K := K) (hw.nz t ht)
  refine (mem_vars_iff_mem_support u).mpr ⟨toExp p.syms t.1, mem_support_iff.mpr ?_, Finsupp.mem_support_iff.mpr ?_⟩
  · have h1 : (a.subs s b).toMv () = (p.toMv () : MvPolynomial String K) := (hw.trimSyms (ι := Unit) (K := K)).2 ()
    rw [h1, Poly.coeff_toMv_of_mem hw (e := t.1) (c := t.2) ht]
    exact hi
  · rw [toExp_apply hw.ndsyms]; exact hne

theorem substAll_trimmed {a : GDual K} (l : List (String × GDual K)) (hl0 : l ≠ []) (ha : a.Valid) (hl : ∀ x ∈ l, x.2.Valid) :
    ∀ u ∈ (substAll a l).p.syms, u ∈ ((substAll a l).toMv () : MvPolynomial String K).vars := by
  induction l generalizing a with
  | nil => exact absurd rfl hl0
  | cons x l ih =>
    simp only [List.forall_mem_cons] at hl
    by_cases h : l = []
    · subst h
      exact subs_trimmed ha hl.1 _
    · exact ih h (GDual.Valid.subs (ι := Unit) (K := K) ha hl.1 _) hl.2

theorem compose_ok {A r : List (GDual K)} (hn : n ≠ 0) (hlen : A.length = n) (hss : ss.length = n)
    (hA : ∀ d ∈ A, d.Valid ∧ d.order = m ∧ d.p.syms = ss.map fun s => "d" ++ s) (hr : Inv1 n m r) :
    ∃ c, compose A r = .ok c ∧ Inv1 n m c ∧ Trimmed c := by
  have h0 : ∃ a0, A[0]? = some a0 := ⟨A[0]'(by rw [hlen]; omega), List.getElem?_eq_getElem _⟩
  obtain ⟨a0, h0⟩ := h0
  have ha0 : a0 ∈ A := List.mem_of_getElem? h0
  have hsy := symbolSet_of_syms (hA a0 ha0).2.2
  have hz : ∀ x ∈ ss.zip r, x.2 ∈ r := fun x hx => mem_zip_right hx
  have hv := fun a (ha : a ∈ A) => valid_substAll (ι := Unit) (K := K) (ss.zip r) (hA a ha).1 fun x hx => hr.valid _ (hz x hx)
  refine ⟨A.map fun a => substAll a (ss.zip r), ?_, ⟨by rw [List.length_map, hlen], ?_, ?_, ?_⟩, ?_⟩
  · rw [compose_eq h0 (by rw [hsy, hss, hr.len]), hsy]
  · intro d hd
    obtain ⟨a, ha, rfl⟩ := List.mem_map.mp hd
    exact (hv a ha).1
  · intro d hd
    obtain ⟨a, ha, rfl⟩ := List.mem_map.mp hd
    rw [(hv a ha).2, (hA a ha).2.1]
  · intro d hd
    obtain ⟨a, ha, rfl⟩ := List.mem_map.mp hd
    refine substAll_supported (ss.zip r) (hA a ha).1 (fun x hx => hr.valid _ (hz x hx)) ()
      (T := {t | t ∈ ss.map fun s => "d" ++ s}) (fun x hx => hr.supp _ (hz x hx)) (toMv_mem_supported a () fun s hs => by
        rw [(hA a ha).2.2] at hs; exact hs) ?_
    rintro t ht -
    obtain ⟨s, hs, rfl⟩ := List.mem_map.mp ht
    obtain ⟨j, hj, rfl⟩ := List.getElem_of_mem hs
    have hjr : j < r.length := by rw [hr.len]; omega
    refine ⟨(ss[j], r[j]), ?_, rfl⟩
    rw [List.mem_iff_getElem]
    exact ⟨j, by rw [List.length_zip]; omega, List.getElem_zip⟩
  · intro d hd
    obtain ⟨a, ha, rfl⟩ := List.mem_map.mp hd
    refine substAll_trimmed _ ?_ (hA a ha).1 fun x hx => hr.valid _ (hz x hx)
    intro h
    have := congrArg List.length h
    rw [List.length_zip, hss, hr.len, min_self] at this
    exact hn this

theorem sub_ok {I c : List (GDual K)} (hI : Ident n m I) (hc : Inv1 n m c) : ∃ s, sub I c = .ok s ∧ Inv1 n m s := by
  have hlen : (List.zipWith GDual.sub I c).length = n := by rw [List.length_zipWith, hI.len, hc.len, min_self]
  have hmem : ∀ d ∈ List.zipWith GDual.sub I c, ∃ j, ∃ h1 : j < I.length, ∃ h2 : j < c.length, d = I[j].sub c[j] := fun d hd => by
    obtain ⟨j, hj, rfl⟩ := List.getElem_of_mem hd
    rw [hlen] at hj
    exact ⟨j, by rw [hI.len]; exact hj, by rw [hc.len]; exact hj, List.getElem_zipWith⟩
  refine ⟨_, if_pos (by rw [hI.len, hc.len]), ⟨hlen, ?_, ?_, ?_⟩⟩
  · intro d hd
    obtain ⟨j, h1, h2, rfl⟩ := hmem d hd
    exact (hI.valid _ (List.getElem_mem h1)).sub (hc.valid _ (List.getElem_mem h2))
  · intro d hd
    obtain ⟨j, h1, h2, rfl⟩ := hmem d hd
    change max _ _ = _
    rw [hI.order _ (List.getElem_mem h1), hc.order _ (List.getElem_mem h2), max_self]
  · intro d hd
    obtain ⟨j, h1, h2, rfl⟩ := hmem d hd
    rw [GDual.toMv_sub (hI.valid _ (List.getElem_mem h1)) (hc.valid _ (List.getElem_mem h2))]
    exact sub_mem (toMv_mem_supported _ () fun s hs => hI.syms _ (List.getElem_mem h1) s hs) (hc.supp _ (List.getElem_mem h2))

theorem loop_ok {I N M2 r0 : List (GDual K)} (hn : n ≠ 0) (hI : Ident n m I) {mN : ℕ} (hmN : 2 ≤ m → mN = m) (hN : NonLin ss n mN N)
    (hlen : M2.length = n) (hM : ∀ d ∈ M2, d.Valid ∧ d.order = m ∧ d.p.syms = dummies n) (hss : ss.length = n) (hr0 : Inv1 n m r0) (k : ℕ) (hk : k + 1 ≤ m) :
    ∃ r, (List.range' 1 k).foldlM (fun (r : List (GDual K)) (_ : ℕ) => picard I N M2 r) r0 = .ok r ∧ Inv1 n m r ∧ (k ≠ 0 → Trimmed r) := by
  induction k with
  | zero => exact ⟨r0, rfl, hr0, fun h => absurd rfl h⟩
  | succ k ih =>
    obtain ⟨r, h1, h2, -⟩ := ih (by omega)
    have hN' : NonLin ss n m N := by rw [← hmN (by omega)]; exact hN
    obtain ⟨c, c1, c2, -⟩ := compose_ok hn hN'.len hss (fun d hd => ⟨hN'.valid d hd, hN'.order d hd, hN'.syms d hd⟩) h2
    obtain ⟨s, s1, s2⟩ := sub_ok hI c2
    have hdn : ∃ dn : List String, dn.length = n ∧ dummies n = dn.map fun s => "d" ++ s := by
      refine ⟨(dummies n).map (fun s => String.ofList (s.toList.drop 1)), by rw [List.length_map, length_dummies], ?_⟩
      rw [List.map_map]
      conv_lhs => rw [← List.map_id (dummies n)]
      refine List.map_congr_left fun t ht => ?_
      obtain ⟨j, rfl⟩ := mem_dummies.mp ht
      simp only [Function.comp, strip_d, id]
    obtain ⟨dn, hd1, hd2⟩ := hdn
    rw [hd2] at hM
    obtain ⟨r', g1, g2, g3⟩ := compose_ok hn hlen hd1 hM s2
    refine ⟨r', ?_, g2, fun _ => g3⟩
    rw [List.range'_concat, List.foldlM_append, bind_ok h1, List.foldlM_cons, bind_ok (show picard I N M2 r = .ok r' by
      unfold picard; rw [bind_ok c1, bind_ok s1]; exact g1)]; rfl

/-! The whole function -/

/-- What the checks of `invert_map` establish. -/
structure Square (n m : ℕ) (ss : List String) (f : List (GDual K)) : Prop where
  len : f.length = n
  ssLen : ss.length = n
  valid : ∀ d ∈ f, d.Valid
  order : ∀ d ∈ f, d.order = m
  syms : ∀ d ∈ f, d.p.syms = ss.map fun s => "d" ++ s

theorem Square.nodup {f : List (GDual K)} (h : Square n m ss f) (hn : n ≠ 0) : ss.Nodup := by
  have h0 : 0 < f.length := by rw [h.len]; omega
  have h1 := (h.valid _ (List.getElem_mem h0)).wf.ndsyms
  rw [h.syms _ (List.getElem_mem h0)] at h1
  exact List.Nodup.of_map _ h1

/-- The matrix of the linear part. -/
noncomputable def jac (n : ℕ) (ss : List String) (f : List (GDual K)) : Matrix (Fin n) (Fin n) K :=
  fun i j => coeff (Finsupp.single ("d" ++ ss.getD j "") 1) (polyAt f i)

theorem inverse_mul [IsStrictOrderedRing K] {mat : Matrix (Fin n) (Fin n) K} (h : ¬ |mat.det| < ((1 / 10 ^ 10 : ℚ) : K)) :
    mat * inverse mat = 1 ∧ inverse mat * mat = 1 := by
  have h0 : mat.det ≠ 0 := fun e => h (by
    rw [e, abs_zero]
    exact_mod_cast (by norm_num : (0 : ℚ) < 1 / 10 ^ 10))
  have e : inverse mat = mat.det⁻¹ • mat.adjugate := by
    ext i j; rfl
  rw [e, Matrix.mul_smul, Matrix.smul_mul, Matrix.mul_adjugate, Matrix.adjugate_mul, smul_smul, inv_mul_cancel₀ h0, one_smul]
  exact ⟨rfl, rfl⟩

theorem decompose {ss : List String} {F N : MvPolynomial String K} (hnd : ss.Nodup) (hss : ss.length = n)
    (hF : F ∈ supported K {t | t ∈ ss.map fun s => "d" ++ s})
    (hN : ∀ e, coeff e N = if 2 ≤ e.degree then coeff e F else 0) :
    F - MvPolynomial.C (coeff 0 F) = (∑ j : Fin n, MvPolynomial.C (coeff (Finsupp.single ("d" ++ ss.getD j "") 1) F) * X ("d" ++ ss.getD j "")) + N := by
  ext e
  rw [coeff_sub, coeff_C, coeff_add, hN, coeff_sum]
  simp_rw [coeff_C_mul, coeff_X]
  by_cases h0 : e = 0
  · subst h0
    rw [if_pos rfl, if_neg (by simp), sub_self, add_zero]
    refine (Finset.sum_eq_zero fun j _ => ?_).symm
    rw [if_neg (by simp), mul_zero]
  rw [if_neg (Ne.symm h0), sub_zero]
  by_cases h2 : 2 ≤ e.degree
  · rw [if_pos h2, Finset.sum_eq_zero, zero_add]
    intro j _
    rw [if_neg, mul_zero]
    rintro rfl
    rw [Finsupp.degree_single] at h2
    omega
  · rw [if_neg h2, add_zero]
    have h1 : e.degree = 1 := by
      have : e.degree ≠ 0 := fun h => h0 ((Finsupp.degree_eq_zero_iff e).mp h)
      omega
    obtain ⟨t, rfl⟩ : ∃ t, e = Finsupp.single t 1 := by
      obtain ⟨t, ht⟩ := Finsupp.ne_iff.mp h0
      have ht : e t ≠ 0 := ht
      have h3 := Finsupp.single_add_erase t e
      have h4 : e t + (e.erase t).degree = 1 := by
        rw [← Finsupp.degree_single t (e t), ← map_add, h3, h1]
      have h5 : e.erase t = 0 := (Finsupp.degree_eq_zero_iff _).mp (by omega)
      refine ⟨t, ?_⟩
      rw [h5, add_zero, show e t = 1 by omega] at h3
      exact h3.symm
    by_cases ht : t ∈ ss.map fun s => "d" ++ s
    · obtain ⟨s, hs, rfl⟩ := List.mem_map.mp ht
      obtain ⟨j, hj, rfl⟩ := List.getElem_of_mem hs
      have hj' : j < n := by omega
      rw [Finset.sum_eq_single ⟨j, hj'⟩]
      · simp only [List.getD_eq_getElem _ _ hj, if_true, mul_one]
      · intro k _ hk
        rw [if_neg, mul_zero]
        intro he
        have hk' : (k : ℕ) < ss.length := by rw [hss]; exact k.2
        have := d_append_inj (Finsupp.single_left_injective one_ne_zero he)
        rw [List.getD_eq_getElem _ _ hk'] at this
        exact hk (Fin.ext ((List.Nodup.getElem_inj_iff hnd).mp this))
      · intro h; exact absurd (Finset.mem_univ _) h
    · have hz : coeff (Finsupp.single t 1) F = 0 := by
        by_contra hc
        exact ht (mem_supported.mp hF ((mem_vars_iff_mem_support t).mpr ⟨_, mem_support_iff.mpr hc, by simp⟩))
      rw [hz, Finset.sum_eq_zero]
      intro j _
      rw [if_neg, mul_zero]
      intro he
      refine ht (List.mem_map.mpr ⟨ss.getD j "", ?_, Finsupp.single_left_injective one_ne_zero he⟩)
      have hj : (j : ℕ) < ss.length := by rw [hss]; exact j.2
      rw [List.getD_eq_getElem _ _ hj]
      exact List.getElem_mem hj

/-- `invert_map` after the checks, for maps of order at least 1. -/
theorem invertChecked_spec {f : List (GDual K)} (hn : n ≠ 0) (hm0 : 1 ≤ m) (hm : m < UINT_MAX - 10) (hf : Square n m ss f) :
    (|(jac n ss f).det| < ((1 / 10 ^ 10 : ℚ) : K) → invertChecked n m ss f = .error .invalidArgument) ∧
    (¬ |(jac n ss f).det| < ((1 / 10 ^ 10 : ℚ) : K) → ∃ r, invertChecked n m ss f = .ok r ∧ Inv1 n m r ∧
      (2 ≤ m → Trimmed r) ∧ (m = 1 → ∀ d ∈ r, ∀ s, s ∈ d.p.syms ↔ s ∈ invNames n) ∧
      ((∀ s ∈ ss.tail, "d" ++ s ∉ invNames n) → Inv0 n m r ∧
        (m = 1 → ∀ i : Fin n, polyAt r i = ∑ j, MvPolynomial.C (inverse (jac n ss f) i j) * X ("d" ++ ("p" ++ toString (j : ℕ)))) ∧
        (2 ≤ m → ∀ i : Fin n, polyAt r i - ∑ j : Fin n, MvPolynomial.C (inverse (jac n ss f) i j) * X ("d" ++ ("p" ++ toString (pos n j))) ∈ (idealOfVars String K) ^ 2) ∧
        (jac n ss f * inverse (jac n ss f) = 1 → inverse (jac n ss f) * jac n ss f = 1 → (m = 1 ∨ ∀ j < n, pos n j = j) → ∀ i : Fin n,
          EqUpTo m (substAt ((ss.map fun s => "d" ++ s).zip (polys r)) (polyAt f i - MvPolynomial.C (coeff 0 (polyAt f i))))
            (X ("d" ++ ("p" ++ toString (i : ℕ))))))) := by
  have hnd := hf.nodup hn
  -- the identity
  obtain ⟨I, i1, i2, i3⟩ := mapM_get (f := identityAt (K := K) (invNames n) m) (l := List.range n)
    (Q := fun j d => j < n → d.Valid ∧ d.order = m ∧ (∀ s ∈ d.p.syms, s ∈ invNames n) ∧ d.toMv () = (X ("d" ++ ("p" ++ toString j)) : MvPolynomial String K))
    fun j hj => by
      rw [List.getElem_range]
      have hj : j < n := by simpa using hj
      obtain ⟨d, h1, h2, h3, h4, h5⟩ := identityAt_spec (K := K) hm j hj
      exact ⟨d, h1, fun _ => ⟨h2, h3, h4, h5 (by omega)⟩⟩
  rw [List.length_range] at i2
  have hI : Ident n m I := by
    have key : ∀ d ∈ I, d.Valid ∧ d.order = m ∧ ∀ s ∈ d.p.syms, s ∈ invNames n := fun d hd => by
      obtain ⟨j, hj, rfl⟩ := List.getElem_of_mem hd
      obtain ⟨a, b, c, _⟩ := i3 j hj (by omega)
      exact ⟨a, b, c⟩
    refine ⟨i2, fun d hd => (key d hd).1, fun d hd => (key d hd).2.1, fun d hd => (key d hd).2.2, fun j hj => ?_⟩
    rw [polyAt_eq (by omega)]
    exact (i3 j (by omega) hj).2.2.2
  -- the linear part
  obtain ⟨M, m1, m2, m3⟩ := mapM_get (f := linearPart (K := K) (ss.map fun s => "d" ++ s)) (l := f)
    (Q := fun j d => d.Valid ∧ d.order = 1 ∧ d.p.syms = (ss.map fun s => "d" ++ s) ∧
      ∀ e, coeff e (d.toMv () : MvPolynomial String K) = if e.degree = 1 then coeff e (polyAt f j) else 0) fun j hj => by
      have hs := hf.syms _ (List.getElem_mem hj)
      obtain ⟨d, h1, h2, h3, h4, h5⟩ := linearPart_spec (K := K) (hf.valid _ (List.getElem_mem hj)) hs (by rw [hf.order _ (List.getElem_mem hj)]; exact hm0)
      exact ⟨d, h1, h2, h3, h4.trans hs, by rw [polyAt_eq hj]; exact h5⟩
  -- the non linear part
  obtain ⟨N, n1, n2, n3⟩ := mapM_get (f := nonLinearPart (K := K) (ss.map fun s => "d" ++ s) m) (l := f)
    (Q := fun j d => d.Valid ∧ (2 ≤ m → d.order = m) ∧ (m = 1 → d.order = 0) ∧ d.p.syms = (ss.map fun s => "d" ++ s) ∧
      ∀ e, coeff e (d.toMv () : MvPolynomial String K) = if 2 ≤ e.degree then coeff e (polyAt f j) else 0) fun j hj => by
      have hs := hf.syms _ (List.getElem_mem hj)
      have ho := hf.order _ (List.getElem_mem hj)
      obtain ⟨d, h1, h2, h3, h3', h4, h5⟩ := nonLinearPart_spec (K := K) (hf.valid _ (List.getElem_mem hj)) hs (by rw [ho]; exact hm0)
      rw [ho] at h1 h3 h3'
      exact ⟨d, h1, h2, h3, h3', h4.trans hs, by rw [polyAt_eq hj]; exact h5⟩
  obtain ⟨mN, hmN, hN⟩ : ∃ mN, (2 ≤ m → mN = m) ∧ NonLin ss n mN N := by
    have low : ∀ d ∈ N, (d.toMv () : MvPolynomial String K) ∈ (idealOfVars String K) ^ 2 := fun d hd => by
      obtain ⟨j, hj, rfl⟩ := List.getElem_of_mem hd
      rw [mem_pow_idealOfVars_iff']
      intro e he
      rw [(n3 j hj).2.2.2.2, if_neg (by omega)]
    refine ⟨if 2 ≤ m then m else 0, fun h => if_pos h, ⟨by rw [n2, hf.len], fun d hd => ?_, fun d hd => ?_, fun d hd => ?_, low⟩⟩
    · obtain ⟨j, hj, rfl⟩ := List.getElem_of_mem hd
      exact (n3 j hj).1
    · obtain ⟨j, hj, rfl⟩ := List.getElem_of_mem hd
      split_ifs with h
      · exact (n3 j hj).2.1 h
      · exact (n3 j hj).2.2.1 (by omega)
    · obtain ⟨j, hj, rfl⟩ := List.getElem_of_mem hd
      exact (n3 j hj).2.2.2.1
  have hMlen : M.length = n := by rw [m2, hf.len]
  obtain ⟨rows, r1, r2⟩ := linearRows_spec (ss := ss) hf.ssLen (M := M) (fun d hd => by
    obtain ⟨j, hj, rfl⟩ := List.getElem_of_mem hd
    exact ⟨(m3 j hj).1, (m3 j hj).2.1, (m3 j hj).2.2.1⟩) hMlen
  have hmat : matrixOf n rows = jac n ss f := by
    ext i j
    have hi : (i : ℕ) < M.length := by rw [hMlen]; exact i.2
    have hj : (j : ℕ) < ss.length := by rw [hf.ssLen]; exact j.2
    rw [r2, polyAt_eq hi, (m3 i hi).2.2.2, if_pos (by simp)]
    unfold jac
    rw [List.getD_eq_getElem _ _ hj]
  have hunf : invertChecked n m ss f = if |(jac n ss f).det| < ((1 / 10 ^ 10 : ℚ) : K) then .error .invalidArgument
      else iterate (jac n ss f) m I N := by
    unfold invertChecked
    rw [bind_ok i1, bind_ok m1, bind_ok n1, bind_ok r1, hmat]
  refine ⟨fun h => by rw [hunf, if_pos h], fun h => ?_⟩
  rw [hunf, if_neg h]
  set B := inverse (jac n ss f) with hB
  have hlin : ∀ pre : String, pre.toList.head? = some 'p' → ∃ L, (List.finRange n).mapM (linComb B pre m) = .ok L ∧ L.length = n ∧
      ∀ i (h : i < L.length), ∃ h' : i < n, L[i].Valid ∧ L[i].order = m ∧
        L[i].p.syms = mergeSyms [] ((List.finRange n).map fun j : Fin n => "d" ++ (pre ++ toString (j : ℕ))) ∧
        L[i].toMv () = (∑ j, MvPolynomial.C (B ⟨i, h'⟩ j) * X ("d" ++ (pre ++ toString (j : ℕ))) : MvPolynomial String K) := fun pre hpre => by
    obtain ⟨L, l1, l2, l3⟩ := mapM_get (f := linComb B pre m) (l := List.finRange n)
      (Q := fun i d => ∃ h' : i < n, d.Valid ∧ d.order = m ∧
        d.p.syms = mergeSyms [] ((List.finRange n).map fun j : Fin n => "d" ++ (pre ++ toString (j : ℕ))) ∧
        d.toMv () = (∑ j, MvPolynomial.C (B ⟨i, h'⟩ j) * X ("d" ++ (pre ++ toString (j : ℕ))) : MvPolynomial String K)) fun i hi => by
        have hi' : i < n := by simpa using hi
        have e : (List.finRange n)[i] = ⟨i, hi'⟩ := by simp
        rw [e]
        obtain ⟨d, h1, h2, h3, h4, h5⟩ := linComb_spec (K := K) hpre hm (by omega) B ⟨i, hi'⟩
        exact ⟨d, h1, hi', h2, h3, h4, h5⟩
    exact ⟨L, l1, by rw [l2, List.length_finRange], l3⟩
  obtain ⟨R0, a1, a2, a3⟩ := hlin "p" rfl
  obtain ⟨M2, b1, b2, b3⟩ := hlin "pdummy" rfl
  have hsyR : ∀ d ∈ R0, ∀ s, s ∈ d.p.syms ↔ s ∈ invNames n := fun d hd s => by
    obtain ⟨i, hi, rfl⟩ := List.getElem_of_mem hd
    obtain ⟨_, _, _, h, _⟩ := a3 i hi
    rw [h, mem_mergeSyms, mem_invNames]
    simp only [List.not_mem_nil, false_or, List.mem_map, List.mem_finRange, true_and]
    exact ⟨fun ⟨j, e⟩ => ⟨j, j.2, e.symm⟩, fun ⟨j, h, e⟩ => ⟨⟨j, h⟩, e.symm⟩⟩
  have hR1 : Inv1 n m R0 := ⟨a2, fun d hd => by
      obtain ⟨i, hi, rfl⟩ := List.getElem_of_mem hd
      exact (a3 i hi).2.1, fun d hd => by
      obtain ⟨i, hi, rfl⟩ := List.getElem_of_mem hd
      exact (a3 i hi).2.2.1, fun d hd => toMv_mem_supported _ () fun s hs => (hsyR d hd s).mp hs⟩
  have hM2 : ∀ d ∈ M2, d.Valid ∧ d.order = m ∧ d.p.syms = dummies n := fun d hd => by
    obtain ⟨i, hi, rfl⟩ := List.getElem_of_mem hd
    obtain ⟨_, c1, c2, c3, _⟩ := b3 i hi
    exact ⟨c1, c2, c3⟩
  have hR0 : Inv0 n m R0 := ⟨a2, hR1.valid, hR1.order, hR1.supp, fun d hd => by
    obtain ⟨i, hi, rfl⟩ := List.getElem_of_mem hd
    obtain ⟨_, _, _, _, h⟩ := a3 i hi
    rw [h, ← mem_ideal_iff]
    exact Submodule.sum_mem _ fun j _ => Ideal.mul_mem_left _ _ (X_mem _)⟩
  have hG : ∀ i : Fin n, polyAt R0 i = ∑ j, MvPolynomial.C (B i j) * X ("d" ++ ("p" ++ toString (j : ℕ))) := fun i => by
    have hi : (i : ℕ) < R0.length := by rw [a2]; exact i.2
    rw [polyAt_eq hi]
    exact (a3 i hi).2.2.2.2
  obtain ⟨r, g1, g2, g3⟩ := loop_ok hn hI hmN hN b2 hM2 hf.ssLen hR1 (m - 1) (by omega)
  refine ⟨r, ?_, g2, fun h => g3 (by omega), fun h => ?_, fun hdis => ?_⟩
  · unfold iterate
    rw [bind_ok a1, bind_ok b1]; exact g1
  · subst h
    injection g1 with g1
    rw [← g1]
    exact hsyR
  · obtain ⟨r', k1, k2, k3, k4⟩ := loop_spec (A := jac n ss f) (B := B) hn hI hmN hN b2 b3 hnd hf.ssLen hdis hR0 hG (m - 1) (by omega)
    have : r = r' := by
      rw [g1] at k1
      injection k1
    subst this
    refine ⟨k2, fun h => ?_, fun h => k4 (by omega), fun hAB hBA hpos i => ?_⟩
    · subst h
      injection g1 with g1
      rw [← g1]
      exact hG
    · have hi : (i : ℕ) < f.length := by rw [hf.len]; exact i.2
      have hiN : (i : ℕ) < N.length := by rw [hN.len]; exact i.2
      have hdec := decompose (n := n) (F := polyAt f i) (N := polyAt N i) hnd hf.ssLen (by
        rw [polyAt_eq hi]
        exact toMv_mem_supported _ () fun s hs => by
          rw [hf.syms _ (List.getElem_mem hi)] at hs; exact hs) (by
        rw [polyAt_eq hiN]
        exact (n3 i hiN).2.2.2.2)
      rw [eqUpTo_iff_mem, hdec, map_add, map_sum]
      have h5 := k3 hAB hBA (hpos.imp (fun h => by omega) id) i
      rw [show m - 1 + 1 = m by omega] at h5
      convert h5 using 4 with j _
      rw [map_mul]
      unfold substAt
      rw [aeval_X, algHom_C, algebraMap_eq]
      have hj : (j : ℕ) < ss.length := by rw [hf.ssLen]; exact j.2
      have := replacement_polys (r := r) hnd hf.ssLen k2.len j
      rw [List.getD_eq_getElem _ _ hj, this]
      unfold jac
      rw [List.getD_eq_getElem _ _ hj]

end field
end TMap
end Audi
