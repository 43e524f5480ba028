import Verif.Proofs.AMatrix
import Verif.Proofs.BernsteinMatrices
import Verif.Spec.Bernstein

/-!
# Proofs: the Bernstein patch
-/

namespace Audi.Bounding

open Finset

variable {K : Type} [Field K]

/-- The degrees seen from dimension `d`. -/
def rot (md : List ℕ) (d : ℕ) : List ℕ := md.drop d ++ md.take d

/-- Number of columns of the matrix seen from dimension `d`. -/
def restSize (md : List ℕ) (d : ℕ) : ℕ := ((rot md d).tail.map (· + 1)).prod

theorem getD_getElem {α : Type} {l : List α} {d : ℕ} {x : α} (hd : d < l.length) : l.getD d x = l[d] := by simp [List.getD, hd]

theorem rot_cons {md : List ℕ} {d : ℕ} (hd : d < md.length) :
    rot md d = md.getD d 0 :: (md.drop (d + 1) ++ md.take d) := by
  unfold rot
  rw [List.drop_eq_getElem_cons hd, List.cons_append, ← getD_getElem hd]

theorem rot_succ {md : List ℕ} {d : ℕ} (hd : d < md.length) :
    rot md (d + 1) = (md.drop (d + 1) ++ md.take d) ++ [md.getD d 0] := by
  unfold rot
  rw [List.take_succ_eq_append_getElem hd]
  simp [List.getD, hd]

theorem rot_zero (md : List ℕ) : rot md 0 = md := by simp [rot]

theorem rot_length (md : List ℕ) : rot md md.length = md := by simp [rot]

theorem head_tail {md : List ℕ} {d : ℕ} (hd : d < md.length) (h2 : 2 ≤ md.length) :
    ∃ T, md.drop (d + 1) ++ md.take d = md.getD ((d + 1) % md.length) 0 :: T := by
  rcases Nat.lt_or_ge (d + 1) md.length with h | h
  · rw [Nat.mod_eq_of_lt h, List.drop_eq_getElem_cons h]
    exact ⟨md.drop (d + 1 + 1) ++ md.take d, by rw [← getD_getElem h, List.cons_append]⟩
  · have e : d + 1 = md.length := by omega
    rw [e, Nat.mod_self]
    cases md with
    | nil => simp at h2
    | cons m ms =>
      obtain ⟨d, rfl⟩ : ∃ d', d = d' + 1 := ⟨d - 1, by simp at h2 e; omega⟩
      exact ⟨ms.take d, by simp⟩

theorem prod_rot {md : List ℕ} {d : ℕ} (hd : d < md.length) :
    (md.getD d 0 + 1) * ((md.drop (d + 1) ++ md.take d).map (· + 1)).prod = (md.map (· + 1)).prod := by
  have h : (rot md d).Perm md := by
    unfold rot
    conv_rhs => rw [← List.take_append_drop d md]
    exact List.perm_append_comm
  have := (h.map (· + 1)).prod_eq
  rw [rot_cons hd, List.map_cons, List.prod_cons] at this
  exact this

/-- The dimensions seen from dimension `d`: the first `d` ones already transformed. -/
def rotDims (md : List ℕ) (old new : List (ℕ → K)) (d : ℕ) : List (Dim K) :=
  dims (md.drop d) (old.drop d) ++ dims (md.take d) (new.take d)

/-- The dimensions after dimension `d`. -/
def restDims (md : List ℕ) (old new : List (ℕ → K)) (d : ℕ) : List (Dim K) :=
  dims (md.drop (d + 1)) (old.drop (d + 1)) ++ dims (md.take d) (new.take d)

/-- Weight function of a dimension. -/
def wt (ws : List (ℕ → K)) (d : ℕ) : ℕ → K := ws.getD d fun _ => 0

theorem rotDims_cons {md : List ℕ} {old new : List (ℕ → K)} {d : ℕ} (hd : d < md.length) (ho : old.length = md.length) :
    rotDims md old new d = (md.getD d 0 + 1, wt old d) :: restDims md old new d := by
  unfold rotDims restDims dims wt
  have ho' : d < old.length := ho ▸ hd
  rw [List.drop_eq_getElem_cons hd, List.drop_eq_getElem_cons ho', List.zipWith_cons_cons, List.cons_append,
    ← getD_getElem (x := 0) hd, ← getD_getElem (x := fun _ => 0) ho']

theorem rotDims_succ {md : List ℕ} {old new : List (ℕ → K)} {d : ℕ} (hd : d < md.length) (hn : new.length = md.length) :
    rotDims md old new (d + 1) = restDims md old new d ++ [(md.getD d 0 + 1, wt new d)] := by
  unfold rotDims restDims dims wt
  have hn' : d < new.length := hn ▸ hd
  rw [List.take_succ_eq_append_getElem hd, List.take_succ_eq_append_getElem hn', List.zipWith_append (by simp; omega)]
  simp [List.getD, hd, hn']

omit [Field K] in
theorem map_fst_dims {ns : List ℕ} {ws : List (ℕ → K)} (h : ws.length = ns.length) : (dims ns ws).map Prod.fst = ns.map (· + 1) := by
  induction ns generalizing ws with
  | nil => simp [dims]
  | cons n ns ih =>
    cases ws with
    | nil => simp at h
    | cons w ws =>
      have := ih (ws := ws) (by simpa using h)
      unfold dims at this ⊢
      simp [this]

omit [Field K] in
theorem map_fst_restDims {md : List ℕ} {old new : List (ℕ → K)} {d : ℕ} (ho : old.length = md.length) (hn : new.length = md.length) :
    (restDims md old new d).map Prod.fst = (md.drop (d + 1) ++ md.take d).map (· + 1) := by
  unfold restDims
  rw [List.map_append, List.map_append, map_fst_dims (by simp [ho]), map_fst_dims (by simp [hn])]

/-- A loop over the dimensions that applies a matrix to the rows and cycles. -/
theorem loop_ok {md : List ℕ} (hpos : 1 ≤ md.length) (step : Mat K → ℕ → Res (Mat K)) (A : ℕ → ℕ → ℕ → K)
    (hstep : ∀ d, d < md.length → ∀ (c : ℕ) (f : ℕ → ℕ → K), step (Mat.ofFn (md.getD d 0 + 1) c f) d =
      cycle (Mat.ofFn (md.getD d 0 + 1) c fun i j => ∑ k ∈ range (md.getD d 0 + 1), A d i k * f k j) md d) (f0 : ℕ → ℕ → K) :
    ∃ f, (List.range md.length).foldlM step (Mat.ofFn (md.headD 0 + 1) (md.tail.map (· + 1)).prod f0) =
        .ok (Mat.ofFn (md.headD 0 + 1) (md.tail.map (· + 1)).prod f) ∧
      ∀ old new : List (ℕ → K), old.length = md.length → new.length = md.length →
        (∀ d, d < md.length → ∀ k, k < md.getD d 0 + 1 → ∑ i ∈ range (md.getD d 0 + 1), A d i k * wt new d i = wt old d k) →
        wsum (dims md new) f = wsum (dims md old) f0 := by
  have key : ∀ d, d ≤ md.length → ∃ f, (List.range d).foldlM step (Mat.ofFn (md.headD 0 + 1) (md.tail.map (· + 1)).prod f0) =
        .ok (Mat.ofFn ((rot md d).headD 0 + 1) (restSize md d) f) ∧
      ∀ old new : List (ℕ → K), old.length = md.length → new.length = md.length →
        (∀ d, d < md.length → ∀ k, k < md.getD d 0 + 1 → ∑ i ∈ range (md.getD d 0 + 1), A d i k * wt new d i = wt old d k) →
        wsum (rotDims md old new d) f = wsum (dims md old) f0 := by
    intro d
    induction d with
    | zero =>
      intro _
      refine ⟨f0, ?_, fun old new _ _ _ => ?_⟩
      · rw [restSize, rot_zero]; rfl
      · simp [rotDims, dims]
    | succ d ih =>
      intro hd
      obtain ⟨f, h1, h2⟩ := ih (by omega)
      have hd' : d < md.length := hd
      rw [List.range_succ, List.foldlM_append, bind_ok h1]
      simp only [List.foldlM_cons, List.foldlM_nil, bind_pure]
      rw [rot_cons hd', List.headD_cons, hstep d hd']
      set g : ℕ → ℕ → K := fun i j => ∑ k ∈ range (md.getD d 0 + 1), A d i k * f k j with hg
      have hgw : ∀ old new : List (ℕ → K), old.length = md.length → new.length = md.length →
          (∀ d, d < md.length → ∀ k, k < md.getD d 0 + 1 → ∑ i ∈ range (md.getD d 0 + 1), A d i k * wt new d i = wt old d k) →
          wsum ((md.getD d 0 + 1, wt new d) :: restDims md old new d) g = wsum (dims md old) f0 := by
        intro old new ho hn hrel
        rw [← h2 old new ho hn hrel, rotDims_cons hd' ho]
        exact wsum_matmul _ _ _ _ _ _ (hrel d hd')
      rcases Nat.lt_or_ge md.length 2 with hlt | hge
      · have hone : md.length = 1 := by omega
        obtain rfl : d = 0 := by omega
        obtain ⟨m, rfl⟩ := List.length_eq_one_iff.1 hone
        refine ⟨g, ?_, fun old new ho hn hrel => ?_⟩
        · rw [cycle_one hone (by simp)]
          simp [rot, restSize]
        · rw [← hgw old new ho hn hrel, rotDims_succ hd' hn]
          simp [restDims, dims]
      · obtain ⟨T, hT⟩ := head_tail hd' hge
        have hprod := prod_rot hd'
        rw [hT, List.map_cons, List.prod_cons] at hprod
        have hrest : restSize md d = (md.getD ((d + 1) % md.length) 0 + 1) * (T.map (· + 1)).prod := by
          rw [restSize, rot_cons hd', List.tail_cons, hT]; simp
        refine ⟨cycled (md.getD ((d + 1) % md.length) 0 + 1) (T.map (· + 1)).prod g, ?_, fun old new ho hn hrel => ?_⟩
        · rw [hrest, cycle_ofFn hd' hge rfl rfl hprod]
          rw [restSize, rot_succ hd', hT]
          simp
        · rw [← hgw old new ho hn hrel, rotDims_succ hd' hn]
          have hfst := map_fst_restDims (d := d) ho hn
          rw [hT] at hfst
          cases hr : restDims md old new d with
          | nil => rw [hr] at hfst; simp at hfst
          | cons x ds =>
            obtain ⟨N', χ⟩ := x
            rw [hr] at hfst
            simp only [List.map_cons, List.cons.injEq] at hfst
            obtain ⟨e1, e2⟩ := hfst
            have htot : tot ds = (T.map (· + 1)).prod := by rw [tot, e2]
            rw [← htot, ← e1, List.cons_append]
            refine wsum_cycled _ _ _ _ _ (by omega) (fun y hy => ?_) g
            have : y.1 ∈ T.map (· + 1) := e2 ▸ List.mem_map_of_mem hy
            obtain ⟨z, _, hz⟩ := List.mem_map.1 this
            omega
  obtain ⟨f, h1, h2⟩ := key md.length le_rfl
  refine ⟨f, ?_, fun old new ho hn hrel => ?_⟩
  · rw [h1, restSize, rot_length]
  · rw [← h2 old new ho hn hrel]
    have e : new.take md.length = new := by rw [← hn, List.take_length]
    simp [rotDims, dims, e]

/-- The point of the box with the given parameters in `[0, 1]`. -/
def boxPoint (box : List (Itv K)) (t : List K) : List K := List.zipWith (fun I t => I.lo + (I.hi - I.lo) * t) box t

section patch
variable [LinearOrder K] [IsStrictOrderedRing K]

/-- The matrix applied by `lambdaStep`. -/
def lamA (md : List ℕ) (domain : List (String × Itv K)) (d i k : ℕ) : K :=
  ∑ l ∈ range (md.getD d 0 + 1), (if i = l then 1 / (Nat.choose (md.getD d 0) i : K) else 0) *
    qEntry ((domain.map Prod.snd).getD d ⟨0, 0⟩).lo ((domain.map Prod.snd).getD d ⟨0, 0⟩).hi l k

theorem lambdaStep_eq {md : List ℕ} (hdeg : ∀ m ∈ md, m ≤ 62) {domain : List (String × Itv K)} (hdom : domain.length = md.length)
    (d : ℕ) (hd : d < md.length) (c : ℕ) (f : ℕ → ℕ → K) :
    lambdaStep md domain (Mat.ofFn (md.getD d 0 + 1) c f) d =
      cycle (Mat.ofFn (md.getD d 0 + 1) c fun i j => ∑ k ∈ range (md.getD d 0 + 1), lamA md domain d i k * f k j) md d := by
  have hn : md.getD d 0 ≤ 62 := by
    rw [getD_getElem hd]
    exact hdeg _ (List.getElem_mem hd)
  have hd' : d < domain.length := hdom ▸ hd
  have hq : domain[d]? = some (domain[d].1, (domain.map Prod.snd).getD d ⟨0, 0⟩) := by
    simp [List.getD, hd']
  unfold lambdaStep
  rw [bind_ok (getDAcc_eq hd hn), bind_ok (getQ_eq hd hn hq), bind_ok (matmul_ofFn (by omega) (by omega) _ _),
    bind_ok (matmul_ofFn (by omega) (by omega) _ _)]
  rfl

theorem lamA_rel {md : List ℕ} {domain : List (String × Itv K)} (d : ℕ) (t : K) (k : ℕ) (hk : k < md.getD d 0 + 1) :
    ∑ i ∈ range (md.getD d 0 + 1), lamA md domain d i k * ((Nat.choose (md.getD d 0) i : K) * t ^ i) =
      (((domain.map Prod.snd).getD d ⟨0, 0⟩).lo + (((domain.map Prod.snd).getD d ⟨0, 0⟩).hi -
        ((domain.map Prod.snd).getD d ⟨0, 0⟩).lo) * t) ^ k := by
  rw [← sum_qEntry _ _ _ (Nat.lt_succ_iff.1 hk)]
  refine sum_congr rfl fun i hi => ?_
  unfold lamA
  rw [sum_eq_single i]
  · have : (Nat.choose (md.getD d 0) i : K) ≠ 0 := by
      rw [Nat.cast_ne_zero]
      exact (Nat.choose_pos (Nat.lt_succ_iff.1 (mem_range.1 hi))).ne'
    rw [if_pos rfl]
    field_simp
  · intro l _ hl
    rw [if_neg (Ne.symm hl), zero_mul]
  · intro h
    exact absurd hi h

omit [LinearOrder K] [IsStrictOrderedRing K] in
theorem patchStep_eq {md : List ℕ} (hdeg : ∀ m ∈ md, m ≤ 62) (d : ℕ) (hd : d < md.length) (c : ℕ) (f : ℕ → ℕ → K) :
    patchStep md (Mat.ofFn (md.getD d 0 + 1) c f) d =
      cycle (Mat.ofFn (md.getD d 0 + 1) c fun i j => ∑ k ∈ range (md.getD d 0 + 1), (Nat.choose i k : K) * f k j) md d := by
  have hn : md.getD d 0 ≤ 62 := by
    rw [getD_getElem hd]
    exact hdeg _ (List.getElem_mem hd)
  unfold patchStep
  rw [bind_ok (getPascal_eq hd hn), bind_ok (matmul_ofFn (by omega) (by omega) _ _)]

/-- Weighted sums of the entries of the patch. -/
theorem patch_weights' {coeffs : List K} {exps : List (List ℕ)} {n : ℕ} (hn : 1 ≤ n) (hl : coeffs.length = exps.length) (hne : exps ≠ [])
    (hw : ∀ e ∈ exps, e.length = n) (hnd : exps.Nodup) (hdeg : ∀ e ∈ exps, ∀ k ∈ e, k ≤ 62)
    {domain : List (String × Itv K)} (hdom : domain.length = n) :
    ∃ (md : List ℕ) (f : ℕ → ℕ → K), getMaxDegrees exps n = .ok md ∧ (md.length = n ∧ ∀ m ∈ md, ∃ e ∈ exps, m ∈ e) ∧ (∀ e ∈ exps, Below md e) ∧
      bernsteinPatch coeffs exps domain = .ok (Mat.ofFn (md.headD 0 + 1) (md.tail.map (· + 1)).prod f) ∧
      ∀ old mid new : List (ℕ → K), old.length = n → mid.length = n → new.length = n →
        (∀ d, d < n → ∀ k, k < md.getD d 0 + 1 → ∑ i ∈ range (md.getD d 0 + 1), lamA md domain d i k * wt mid d i = wt old d k) →
        (∀ d, d < n → ∀ k, k < md.getD d 0 + 1 → ∑ i ∈ range (md.getD d 0 + 1), (Nat.choose i k : K) * wt new d i = wt mid d k) →
        wsum (dims md new) f =
          (List.zipWith (fun (c : K) (e : List ℕ) => c * (List.zipWith (fun (φ : ℕ → K) k => φ k) old e).prod) coeffs exps).sum := by
  obtain ⟨md, h1, h2, h3, h4⟩ := getMaxDegrees_ok hn hne hw
  have hb : ∀ e ∈ exps, Below md e := fun e he => below_of_getD ((hw e he).trans h2.symm) fun k hk => h3 e he k (h2 ▸ hk)
  have hatt : ∀ m ∈ md, ∃ e ∈ exps, m ∈ e := by
    intro m hm
    obtain ⟨k, hk, rfl⟩ := List.getElem_of_mem hm
    obtain ⟨e, he, hek⟩ := h4 k (h2 ▸ hk)
    have hke : k < e.length := by rw [hw e he, ← h2]; exact hk
    rw [getD_getElem hk, getD_getElem hke] at hek
    exact ⟨e, he, hek ▸ List.getElem_mem hke⟩
  have hdeg' : ∀ m ∈ md, m ≤ 62 := fun m hm => by
    obtain ⟨e, he, hme⟩ := hatt m hm
    exact hdeg e he m hme
  have hpos : 1 ≤ md.length := h2 ▸ hn
  have hmd : md ≠ [] := by rintro rfl; simp at hpos
  obtain ⟨m0, ms, hms⟩ := List.exists_cons_of_ne_nil hmd
  have hA : getAMatrix coeffs exps = .ok (Mat.ofFn (md.headD 0 + 1) (md.tail.map (· + 1)).prod (aEntry md coeffs exps)) := by
    subst hms
    exact getAMatrix_ok hl hne hw hnd h1 h2 hb
  obtain ⟨f1, e1, w1⟩ := loop_ok hpos (lambdaStep md domain) (lamA md domain) (lambdaStep_eq hdeg' (hdom.trans h2.symm))
    (aEntry md coeffs exps)
  obtain ⟨f2, e2, w2⟩ := loop_ok hpos (patchStep md) (fun _ i k => (Nat.choose i k : K)) (patchStep_eq hdeg') f1
  refine ⟨md, f2, h1, ⟨h2, hatt⟩, hb, ?_, fun old mid new l1 l2 l3 r1 r2 => ?_⟩
  · unfold bernsteinPatch baseLambda
    rw [bind_ok (getNdim_ok hl hne hw), bind_ok (getNdim_ok hl hne hw), bind_ok hA, bind_ok h1]
    rw [← h2] at h1 ⊢
    rw [bind_ok e1, bind_ok h1]
    exact e2
  · rw [w2 mid new (l2.trans h2.symm) (l3.trans h2.symm) (by rw [h2]; exact r2),
      w1 old mid (l1.trans h2.symm) (l2.trans h2.symm) (by rw [h2]; exact r1), wsum_aEntry hmd hb (l1.trans h2.symm)]

theorem patch_weights {coeffs : List K} {exps : List (List ℕ)} {n : ℕ} (hn : 1 ≤ n) (hl : coeffs.length = exps.length) (hne : exps ≠ [])
    (hw : ∀ e ∈ exps, e.length = n) (hnd : exps.Nodup) (hdeg : ∀ e ∈ exps, ∀ k ∈ e, k ≤ 62)
    {domain : List (String × Itv K)} (hdom : domain.length = n) :
    ∃ (md : List ℕ) (f : ℕ → ℕ → K), (md.length = n ∧ ∀ m ∈ md, ∃ e ∈ exps, m ∈ e) ∧ (∀ e ∈ exps, Below md e) ∧
      bernsteinPatch coeffs exps domain = .ok (Mat.ofFn (md.headD 0 + 1) (md.tail.map (· + 1)).prod f) ∧
      ∀ old mid new : List (ℕ → K), old.length = n → mid.length = n → new.length = n →
        (∀ d, d < n → ∀ k, k < md.getD d 0 + 1 → ∑ i ∈ range (md.getD d 0 + 1), lamA md domain d i k * wt mid d i = wt old d k) →
        (∀ d, d < n → ∀ k, k < md.getD d 0 + 1 → ∑ i ∈ range (md.getD d 0 + 1), (Nat.choose i k : K) * wt new d i = wt mid d k) →
        wsum (dims md new) f =
          (List.zipWith (fun (c : K) (e : List ℕ) => c * (List.zipWith (fun (φ : ℕ → K) k => φ k) old e).prod) coeffs exps).sum := by
  obtain ⟨md, f, -, h⟩ := patch_weights' hn hl hne hw hnd hdeg hdom
  exact ⟨md, f, h⟩

theorem patch_spec {coeffs : List K} {exps : List (List ℕ)} {n : ℕ} (hn : 1 ≤ n) (hl : coeffs.length = exps.length) (hne : exps ≠ [])
    (hw : ∀ e ∈ exps, e.length = n) (hnd : exps.Nodup) (hdeg : ∀ e ∈ exps, ∀ k ∈ e, k ≤ 62)
    {domain : List (String × Itv K)} (hdom : domain.length = n) :
    ∃ (md : List ℕ) (f : ℕ → ℕ → K), (md.length = n ∧ ∀ m ∈ md, ∃ e ∈ exps, m ∈ e) ∧
      bernsteinPatch coeffs exps domain = .ok (Mat.ofFn (md.headD 0 + 1) (md.tail.map (· + 1)).prod f) ∧
      ∀ t : List K, t.length = n → Spec.polyVal coeffs exps (boxPoint (domain.map Prod.snd) t) =
        wsum (dims md (List.zipWith (fun m t i => bern m i t) md t)) f := by
  obtain ⟨md, f, ⟨h2, hatt⟩, hb, hf, hwt⟩ := patch_weights hn hl hne hw hnd hdeg hdom
  refine ⟨md, f, ⟨h2, hatt⟩, hf, fun t ht => ?_⟩
  · have hlen : (boxPoint (domain.map Prod.snd) t).length = md.length := by simp [boxPoint, hdom, ht, h2]
    rw [hwt ((boxPoint (domain.map Prod.snd) t).map fun x k => x ^ k) (List.zipWith (fun m t i => (Nat.choose m i : K) * t ^ i) md t) _
      (by simp [hlen, h2]) (by simp [ht, h2]) (by simp [ht, h2])]
    · unfold Spec.polyVal
      simp only [List.zipWith_map_left]
    · intro d hd k hk
      rw [← h2] at hd
      have e1 : wt (List.zipWith (fun m t i => (Nat.choose m i : K) * t ^ i) md t) d = fun i => (Nat.choose (md.getD d 0) i : K) * (t.getD d 0) ^ i := by
        have ht' : d < t.length := by rw [ht, ← h2]; exact hd
        unfold wt
        simp [List.getD, hd, ht']
      have e2 : wt ((boxPoint (domain.map Prod.snd) t).map fun x k => x ^ k) d k =
          (((domain.map Prod.snd).getD d ⟨0, 0⟩).lo + (((domain.map Prod.snd).getD d ⟨0, 0⟩).hi -
            ((domain.map Prod.snd).getD d ⟨0, 0⟩).lo) * t.getD d 0) ^ k := by
        have ht' : d < t.length := by rw [ht, ← h2]; exact hd
        have hd' : d < domain.length := by rw [hdom, ← h2]; exact hd
        unfold wt boxPoint
        simp [List.getD, hd', ht']
      rw [e1, e2]
      exact lamA_rel d _ k hk
    · intro d hd k hk
      rw [← h2] at hd
      have ht' : d < t.length := by rw [ht, ← h2]; exact hd
      have e1 : wt (List.zipWith (fun m t i => (Nat.choose m i : K) * t ^ i) md t) d k = (Nat.choose (md.getD d 0) k : K) * (t.getD d 0) ^ k := by
        unfold wt
        simp [List.getD, hd, ht']
      have e2 : wt (List.zipWith (fun m t i => bern m i t) md t) d = fun i => bern (md.getD d 0) i (t.getD d 0) := by
        unfold wt
        simp [List.getD, hd, ht']
      rw [e1, e2]
      exact sum_choose_bern _ _ (Nat.lt_succ_iff.1 hk) _

/-- A weighted mean lies between the smallest and the largest entry. -/
theorem wsum_between {ds : List (Dim K)} (hne : ds ≠ []) (hpos : ∀ d ∈ ds, 0 < d.1) (hnn : ∀ d ∈ ds, ∀ i, 0 ≤ d.2 i)
    (hone : ∀ d ∈ ds, ∑ i ∈ range d.1, d.2 i = 1) (f : ℕ → ℕ → K) :
    (∃ i, i < (ds.map Prod.fst).headD 0 ∧ ∃ j, j < tot ds.tail ∧ f i j ≤ wsum ds f) ∧
    (∃ i, i < (ds.map Prod.fst).headD 0 ∧ ∃ j, j < tot ds.tail ∧ wsum ds f ≤ f i j) := by
  cases ds with
  | nil => exact absurd rfl hne
  | cons d ds =>
    obtain ⟨N, φ⟩ := d
    have hWnn : ∀ (ds : List (Dim K)), (∀ d ∈ ds, ∀ i, 0 ≤ d.2 i) → ∀ j, 0 ≤ W ds j := by
      intro ds
      induction ds with
      | nil => intro _ j; simp [W]
      | cons d ds ih =>
        intro h j
        obtain ⟨M, ψ⟩ := d
        exact mul_nonneg (h _ List.mem_cons_self _) (ih (fun d hd => h d (List.mem_cons_of_mem _ hd)) _)
    have hw : ∀ i j, 0 ≤ φ i * W ds j := fun i j =>
      mul_nonneg (hnn _ List.mem_cons_self i) (hWnn ds (fun d hd => hnn d (List.mem_cons_of_mem _ hd)) j)
    have htot : ∑ i ∈ range N, ∑ j ∈ range (tot ds), φ i * W ds j = 1 := by
      simp only [← mul_sum]
      rw [sum_W ds fun d hd => hpos d (List.mem_cons_of_mem _ hd)]
      have : (ds.map fun d => ∑ i ∈ range d.1, d.2 i) = ds.map fun _ => (1 : K) :=
        List.map_congr_left fun d hd => hone d (List.mem_cons_of_mem _ hd)
      rw [this, ← sum_mul, hone (N, φ) List.mem_cons_self]
      simp
    have hN : 0 < N := hpos _ List.mem_cons_self
    have hS : 0 < tot ds := List.prod_pos fun a ha => by
      obtain ⟨d, hd, rfl⟩ := List.mem_map.1 ha
      exact hpos d (List.mem_cons_of_mem _ hd)
    have hne' : (range N ×ˢ range (tot ds)).Nonempty := ⟨(0, 0), by simp [hN, hS]⟩
    simp only [List.map_cons, List.headD_cons, List.tail_cons, wsum]
    constructor
    · obtain ⟨⟨i, j⟩, hij, hmin⟩ := exists_min_image _ (fun x : ℕ × ℕ => f x.1 x.2) hne'
      rw [mem_product, mem_range, mem_range] at hij
      refine ⟨i, hij.1, j, hij.2, ?_⟩
      calc f i j = ∑ a ∈ range N, ∑ b ∈ range (tot ds), f i j * (φ a * W ds b) := by
            simp only [← mul_sum] at htot ⊢
            rw [htot, mul_one]
        _ ≤ _ := sum_le_sum fun a ha => sum_le_sum fun b hb => mul_le_mul_of_nonneg_right
            (hmin (a, b) (mem_product.2 ⟨ha, hb⟩)) (hw a b)
    · obtain ⟨⟨i, j⟩, hij, hmax⟩ := exists_max_image _ (fun x : ℕ × ℕ => f x.1 x.2) hne'
      rw [mem_product, mem_range, mem_range] at hij
      refine ⟨i, hij.1, j, hij.2, ?_⟩
      calc _ ≤ ∑ a ∈ range N, ∑ b ∈ range (tot ds), f i j * (φ a * W ds b) :=
            sum_le_sum fun a ha => sum_le_sum fun b hb => mul_le_mul_of_nonneg_right
              (hmax (a, b) (mem_product.2 ⟨ha, hb⟩)) (hw a b)
        _ = f i j := by
            simp only [← mul_sum] at htot ⊢
            rw [htot, mul_one]

/-- A point of the box has parameters in `[0, 1]`. -/
theorem exists_params {box : List (Itv K)} {x : List K} (h : Spec.InBox box x) :
    ∃ t : List K, t.length = box.length ∧ (∀ s ∈ t, 0 ≤ s ∧ s ≤ 1) ∧ boxPoint box t = x := by
  induction h with
  | nil => exact ⟨[], rfl, by simp, rfl⟩
  | @cons I x box xs h1 _ ih =>
    obtain ⟨t, e1, e2, e3⟩ := ih
    by_cases hI : I.lo = I.hi
    · refine ⟨0 :: t, by simp [e1], ?_, ?_⟩
      · intro s hs
        rcases List.mem_cons.1 hs with rfl | hs
        · exact ⟨le_rfl, zero_le_one⟩
        · exact e2 s hs
      · unfold boxPoint at e3 ⊢
        rw [List.zipWith_cons_cons, e3, mul_zero, add_zero]
        congr 1
        exact le_antisymm h1.1 (hI ▸ h1.2)
    · have hpos : 0 < I.hi - I.lo := sub_pos.2 (lt_of_le_of_ne (h1.1.trans h1.2) hI)
      refine ⟨(x - I.lo) / (I.hi - I.lo) :: t, by simp [e1], ?_, ?_⟩
      · intro s hs
        rcases List.mem_cons.1 hs with rfl | hs
        · exact ⟨div_nonneg (sub_nonneg.2 h1.1) hpos.le, (div_le_one hpos).2 (sub_le_sub_right h1.2 _)⟩
        · exact e2 s hs
      · unfold boxPoint at e3 ⊢
        rw [List.zipWith_cons_cons, e3, mul_div_cancel₀ _ hpos.ne', add_sub_cancel]

theorem patch_encloses {coeffs : List K} {exps : List (List ℕ)} {n : ℕ} (hn : 1 ≤ n) (hl : coeffs.length = exps.length) (hne : exps ≠ [])
    (hw : ∀ e ∈ exps, e.length = n) (hnd : exps.Nodup) (hdeg : ∀ e ∈ exps, ∀ k ∈ e, k ≤ 62)
    {domain : List (String × Itv K)} (hdom : domain.length = n) :
    ∃ patch, bernsteinPatch coeffs exps domain = .ok patch ∧ patch.flatten ≠ [] ∧
      ∀ x, Spec.InBox (domain.map Prod.snd) x →
        (∃ v ∈ patch.flatten, v ≤ Spec.polyVal coeffs exps x) ∧ ∃ v ∈ patch.flatten, Spec.polyVal coeffs exps x ≤ v := by
  obtain ⟨md, f, ⟨h1, -⟩, h2, h3⟩ := patch_spec hn hl hne hw hnd hdeg hdom
  refine ⟨_, h2, ?_, fun x hx => ?_⟩
  · refine List.ne_nil_of_mem (a := f 0 0) (mem_flatten_ofFn.2 ⟨0, by omega, 0, ?_, rfl⟩)
    exact List.prod_pos fun a ha => by
      obtain ⟨z, _, rfl⟩ := List.mem_map.1 ha
      exact Nat.succ_pos z
  · obtain ⟨t, e1, e2, e3⟩ := exists_params hx
    have ht : t.length = n := by rw [e1]; simp [hdom]
    rw [← e3, h3 t ht]
    set ws := List.zipWith (fun m t i => bern m i t) md t with hws
    have hwl : ws.length = md.length := by simp [hws, ht, h1]
    have hmem : ∀ d ∈ dims md ws, ∃ m s, (0 ≤ s ∧ s ≤ 1) ∧ d = (m + 1, fun i => bern m i s) := by
      intro d hd
      obtain ⟨k, hk, rfl⟩ := List.getElem_of_mem hd
      have hk' : k < md.length ∧ k < t.length := by
        simp [dims, hws] at hk; omega
      refine ⟨md[k], t[k], e2 _ (List.getElem_mem hk'.2), ?_⟩
      simp [dims, hws]
    have hfst := map_fst_dims hwl
    have hdne : dims md ws ≠ [] := by
      intro h
      rw [h] at hfst
      simp at hfst
      rw [hfst] at h1
      simp at h1
      omega
    obtain ⟨⟨i, hi, j, hj, hij⟩, i', hi', j', hj', hij'⟩ := wsum_between (ds := dims md ws) hdne
      (fun d hd => by obtain ⟨m, s, -, rfl⟩ := hmem d hd; exact Nat.succ_pos m)
      (fun d hd i => by obtain ⟨m, s, hs, rfl⟩ := hmem d hd; exact bern_nonneg m i hs.1 hs.2)
      (fun d hd => by obtain ⟨m, s, -, rfl⟩ := hmem d hd; exact sum_bern m s) f
    have e4 : ((dims md ws).map Prod.fst).headD 0 = md.headD 0 + 1 := by
      rw [hfst]
      cases md with
      | nil => simp at h1; omega
      | cons m ms => simp
    have e5 : tot (dims md ws).tail = (md.tail.map (· + 1)).prod := by
      rw [tot, List.map_tail, hfst, ← List.map_tail]
    rw [e4] at hi hi'
    rw [e5] at hj hj'
    exact ⟨⟨_, mem_flatten_ofFn.2 ⟨i, hi, j, hj, rfl⟩, hij⟩, _, mem_flatten_ofFn.2 ⟨i', hi', j', hj', rfl⟩, hij'⟩

end patch

end Audi.Bounding
