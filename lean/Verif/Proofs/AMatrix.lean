import Verif.Proofs.Cycle
import Verif.Proofs.GetPoly

/-!
# Proofs: the coefficient matrix
-/

namespace Audi.Bounding

open Finset

/-- Column of the exponents: the first one varies fastest. -/
def enc : List ℕ → List ℕ → ℕ
  | n :: ns, k :: ks => k + (n + 1) * enc ns ks
  | _, _ => 0

theorem foldl_enc (ks ns : List ℕ) (j s : ℕ) :
    ((ks.zip ns).foldl (fun (s : ℕ × ℕ) (x : ℕ × ℕ) => (s.1 + x.1 * s.2, s.2 * (x.2 + 1))) (j, s)).1 = j + s * enc ns ks := by
  induction ks generalizing ns j s with
  | nil => cases ns <;> simp [enc]
  | cons k ks ih =>
    cases ns with
    | nil => simp [enc]
    | cons n ns =>
      simp only [List.zip_cons_cons, List.foldl_cons, enc]
      rw [ih]
      ring

theorem colIndex_cons (n : ℕ) (ns : List ℕ) (k : ℕ) (ks : List ℕ) : colIndex (n :: ns) (k :: ks) = enc ns ks := by
  unfold colIndex
  rw [List.zip_cons_cons, List.tail_cons, foldl_enc]
  simp

/-- Exponents bounded by the degrees. -/
abbrev Below (ns ks : List ℕ) : Prop := List.Forall₂ (fun (n k : ℕ) => k ≤ n) ns ks

theorem enc_lt {ns ks : List ℕ} (h : Below ns ks) : enc ns ks < (ns.map (· + 1)).prod := by
  induction h with
  | nil => simp [enc]
  | @cons n k ns ks h1 _ ih =>
    simp only [enc, List.map_cons, List.prod_cons]
    calc k + (n + 1) * enc ns ks < (n + 1) + (n + 1) * enc ns ks := by omega
      _ = (n + 1) * (enc ns ks + 1) := by ring
      _ ≤ _ := Nat.mul_le_mul_left _ ih

theorem enc_inj {ns ks ks' : List ℕ} (h : Below ns ks) (h' : Below ns ks') (he : enc ns ks = enc ns ks') : ks = ks' := by
  induction h generalizing ks' with
  | nil => cases h'; rfl
  | @cons n k ns ks h1 _ ih =>
    cases h' with
    | @cons _ k' _ ks' h2 h3 =>
      simp only [enc] at he
      have hm : k = k' := by
        have := congrArg (· % (n + 1)) he
        simp only [Nat.add_mul_mod_self_left] at this
        rwa [Nat.mod_eq_of_lt (by omega), Nat.mod_eq_of_lt (by omega)] at this
      subst hm
      rw [ih h3 (Nat.eq_of_mul_eq_mul_left (Nat.succ_pos n) (Nat.add_left_cancel he))]

theorem enc_surj (ns : List ℕ) {j : ℕ} (hj : j < (ns.map (· + 1)).prod) : ∃ ks, Below ns ks ∧ enc ns ks = j := by
  induction ns generalizing j with
  | nil =>
    refine ⟨[], List.Forall₂.nil, ?_⟩
    simp at hj
    simp [enc, hj]
  | cons n ns ih =>
    simp only [List.map_cons, List.prod_cons] at hj
    obtain ⟨ks, h1, h2⟩ := ih (Nat.div_lt_of_lt_mul hj)
    refine ⟨j % (n + 1) :: ks, List.Forall₂.cons (Nat.lt_succ_iff.1 (Nat.mod_lt _ (Nat.succ_pos n))) h1, ?_⟩
    simp only [enc, h2]
    exact Nat.mod_add_div j (n + 1)

/-- Dimensions with their degrees and weights. -/
def dims {K : Type} (md : List ℕ) (ws : List (ℕ → K)) : List (Dim K) := List.zipWith (fun n φ => (n + 1, φ)) md ws

section
variable {K : Type} [Field K]

theorem W_enc {ns ks : List ℕ} (h : Below ns ks) {ws : List (ℕ → K)} (hw : ws.length = ns.length) :
    W (dims ns ws) (enc ns ks) = (List.zipWith (fun (φ : ℕ → K) k => φ k) ws ks).prod := by
  induction h generalizing ws with
  | nil =>
    rw [List.length_nil, List.length_eq_zero_iff] at hw
    subst hw
    simp [dims, W]
  | @cons n k ns ks h1 _ ih =>
    cases ws with
    | nil => simp at hw
    | cons φ ws =>
      have := ih (ws := ws) (by simpa using hw)
      unfold dims at this ⊢
      simp only [List.zipWith_cons_cons, W, enc, List.prod_cons]
      rw [Nat.add_mul_mod_self_left, Nat.mod_eq_of_lt (by omega), Nat.add_mul_div_left _ _ (Nat.succ_pos n),
        Nat.div_eq_of_lt (by omega), zero_add, this]

omit [Field K] in
theorem tot_dims {ns : List ℕ} {ws : List (ℕ → K)} (hw : ws.length = ns.length) : tot (dims ns ws) = (ns.map (· + 1)).prod := by
  induction ns generalizing ws with
  | nil => simp [dims, tot]
  | cons n ns ih =>
    cases ws with
    | nil => simp at hw
    | cons φ ws =>
      have := ih (ws := ws) (by simpa using hw)
      unfold dims at this ⊢
      rw [List.zipWith_cons_cons, tot_cons, this]
      simp

/-- The entries of the coefficient matrix. -/
def aEntry (md : List ℕ) (coeffs : List K) (exps : List (List ℕ)) (i j : ℕ) : K :=
  (List.zipWith (fun (c : K) (e : List ℕ) => if e.headD 0 = i ∧ colIndex md e = j then c else 0) coeffs exps).sum

theorem getCoefficient_eq {md : List ℕ} (hmd : md ≠ []) {coeffs : List K} {exps : List (List ℕ)} (hl : coeffs.length = exps.length)
    (hb : ∀ e ∈ exps, Below md e) (hnd : exps.Nodup) {comb : List ℕ} (hc : Below md comb) :
    getCoefficient comb coeffs exps = .ok (aEntry md coeffs exps (comb.headD 0) (colIndex md comb)) := by
  have hiff : ∀ e, Below md e → ((e.headD 0 = comb.headD 0 ∧ colIndex md e = colIndex md comb) ↔ e = comb) := by
    intro e he
    constructor
    · rintro ⟨h1, h2⟩
      cases he with
      | nil => exact absurd rfl hmd
      | cons _ he' =>
        cases hc with
        | cons _ hc' =>
          rw [colIndex_cons, colIndex_cons] at h2
          simp only [List.headD_cons] at h1
          rw [h1, enc_inj he' hc' h2]
    · rintro rfl; exact ⟨rfl, rfl⟩
  unfold aEntry
  induction exps generalizing coeffs with
  | nil =>
    rw [List.length_nil, List.length_eq_zero_iff] at hl
    subst hl
    rfl
  | cons e es ih =>
    cases coeffs with
    | nil => simp at hl
    | cons c cs =>
      rw [List.nodup_cons] at hnd
      have hz : ∀ cs : List K, comb ∉ es → (List.zipWith (fun (c : K) (e : List ℕ) =>
          if e.headD 0 = comb.headD 0 ∧ colIndex md e = colIndex md comb then c else 0) cs es).sum = 0 := by
        intro cs hn
        have hb' : ∀ e ∈ es, Below md e := fun e he => hb e (List.mem_cons_of_mem _ he)
        clear ih hl hnd hb
        induction es generalizing cs with
        | nil => simp
        | cons e es ih =>
          cases cs with
          | nil => simp
          | cons c cs =>
            rw [List.zipWith_cons_cons, List.sum_cons, ih cs (fun h => hn (List.mem_cons_of_mem _ h))
              fun e he => hb' e (List.mem_cons_of_mem _ he), if_neg, add_zero]
            rw [hiff e (hb' e List.mem_cons_self)]
            rintro rfl
            exact hn List.mem_cons_self
      rw [getCoefficient, List.zipWith_cons_cons, List.sum_cons]
      by_cases he : e = comb
      · subst he
        simp only [if_true, and_self]
        rw [hz cs hnd.1, add_zero]
      · rw [if_neg he, if_neg (mt (hiff e (hb e List.mem_cons_self)).1 he), zero_add]
        exact ih (by simpa using hl) (fun e he => hb e (List.mem_cons_of_mem _ he)) hnd.2

theorem below_iff_within {md comb : List ℕ} : Within (md.map Int.ofNat) comb ↔ Below md comb := by
  unfold Within Below
  rw [List.forall₂_map_left_iff]
  constructor <;> intro h <;> refine h.imp fun a b hab => ?_
  · exact Int.ofNat_le.1 hab
  · exact Int.ofNat_le.2 hab

theorem getAMatrix_ok {coeffs : List K} {exps : List (List ℕ)} {n : ℕ} (hl : coeffs.length = exps.length) (hne : exps ≠ [])
    (hw : ∀ e ∈ exps, e.length = n) (hnd : exps.Nodup) {m0 : ℕ} {ms : List ℕ} (hmd : getMaxDegrees exps n = .ok (m0 :: ms))
    (hlen : (m0 :: ms).length = n) (hb : ∀ e ∈ exps, Below (m0 :: ms) e) :
    getAMatrix coeffs exps = .ok (Mat.ofFn (m0 + 1) (ms.map (· + 1)).prod (aEntry (m0 :: ms) coeffs exps)) := by
  unfold getAMatrix
  rw [bind_ok (getNdim_ok hl hne hw), bind_ok hmd]
  simp only [List.tail_cons, List.headD_cons]
  have h1 : ms.take (n - 1) = ms := List.take_of_length_le (by simp at hlen; omega)
  have h2 : ms.foldl (fun l d => l * (d + 1)) 1 = (ms.map (· + 1)).prod := by
    rw [List.prod_eq_foldl, List.foldl_map]
  rw [h1, h2, replicate_eq_ofFn]
  obtain ⟨cap, -, -, hinv⟩ := combInv_generate (limits := (m0 :: ms).map Int.ofNat) (by simp) false
  have hmem : ∀ e, e ∈ generateCombinations ((m0 :: ms).map Int.ofNat) false ↔ Below (m0 :: ms) e := by
    intro e
    rw [hinv.mem, below_iff_within]
    simp
  refine foldlM_set _ (fun comb : List ℕ => comb.headD 0) (fun comb : List ℕ => colIndex (m0 :: ms) comb)
    (fun comb : List ℕ => getCoefficient comb coeffs exps) _ _ ?_ ?_
  · intro comb hc
    rw [hmem] at hc
    refine ⟨?_, ?_, getCoefficient_eq (by simp) hl hb hnd hc⟩
    · cases hc with
      | cons h1 _ => simpa using Nat.lt_succ_of_le h1
    · cases hc with
      | cons _ h2 => rw [colIndex_cons]; exact enc_lt h2
  · intro i hi j hj
    obtain ⟨ks, h1, h2⟩ := enc_surj ms hj
    exact ⟨i :: ks, (hmem _).2 (List.Forall₂.cons (Nat.lt_succ_iff.1 hi) h1), rfl, by rw [colIndex_cons, h2]⟩

/-- Weighted sum of the coefficient matrix. -/
theorem wsum_aEntry {md : List ℕ} (hmd : md ≠ []) {coeffs : List K} {exps : List (List ℕ)} (hb : ∀ e ∈ exps, Below md e)
    {ws : List (ℕ → K)} (hw : ws.length = md.length) :
    wsum (dims md ws) (aEntry md coeffs exps) =
      (List.zipWith (fun (c : K) (e : List ℕ) => c * (List.zipWith (fun (φ : ℕ → K) k => φ k) ws e).prod) coeffs exps).sum := by
  cases md with
  | nil => exact absurd rfl hmd
  | cons m0 ms =>
    cases ws with
    | nil => simp at hw
    | cons φ ws =>
      have hw' : ws.length = ms.length := by simpa using hw
      have htot := tot_dims hw'
      unfold dims at htot ⊢
      rw [List.zipWith_cons_cons, wsum, htot]
      induction exps generalizing coeffs with
      | nil => simp [aEntry]
      | cons e es ih =>
        cases coeffs with
        | nil => simp [aEntry]
        | cons c cs =>
          rw [List.zipWith_cons_cons, List.sum_cons, ← ih (coeffs := cs) fun e he => hb e (List.mem_cons_of_mem _ he)]
          have hsplit : ∀ i j, aEntry (m0 :: ms) (c :: cs) (e :: es) i j =
              (if e.headD 0 = i ∧ colIndex (m0 :: ms) e = j then c else 0) + aEntry (m0 :: ms) cs es i j := fun i j => by
            simp [aEntry]
          simp only [hsplit, add_mul, sum_add_distrib]
          congr 1
          cases hb e List.mem_cons_self with
          | @cons _ k _ ks h1 h2 =>
            have hterm : ∀ i j, (if (k :: ks).headD 0 = i ∧ colIndex (m0 :: ms) (k :: ks) = j then c else 0) =
                if k = i ∧ enc ms ks = j then c else 0 := fun i j => by rw [colIndex_cons]; rfl
            simp only [hterm]
            rw [List.zipWith_cons_cons, List.prod_cons, sum_eq_single k, sum_eq_single (enc ms ks)]
            · simp only [and_self, if_true]
              have := W_enc h2 hw'
              unfold dims at this
              rw [this]
            · intro j _ hj
              rw [if_neg (fun h => hj h.2.symm), zero_mul]
            · intro h
              exact absurd (mem_range.2 (enc_lt h2)) h
            · intro i _ hi
              refine sum_eq_zero fun j _ => ?_
              rw [if_neg (fun h => hi h.1.symm), zero_mul]
            · intro h
              exact absurd (mem_range.2 (Nat.lt_succ_of_le h1)) h

end

theorem below_of_getD {md e : List ℕ} (hl : e.length = md.length) (h : ∀ k (_ : k < md.length), e.getD k 0 ≤ md.getD k 0) :
    Below md e := by
  rw [Below, List.forall₂_iff_get]
  refine ⟨hl.symm, fun i h1 h2 => ?_⟩
  have := h i h1
  simp only [List.getD, List.getElem?_eq_getElem h1, List.getElem?_eq_getElem h2, Option.getD_some] at this
  simpa using this

end Audi.Bounding
