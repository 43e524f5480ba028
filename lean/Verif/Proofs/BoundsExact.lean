import Verif.Proofs.TMProduct
import Verif.Proofs.BernsteinCorners

/-!
# Proofs: bounds of polynomials of degree at most 1 in each variable are attained
-/

namespace Audi
namespace TM

open MvPolynomial

variable {K : Type} [Field K] [LinearOrder K]

omit [Field K] in
theorem foldl_min_mem (x : K) (l : List K) : l.foldl min x ∈ x :: l := by
  induction l generalizing x with
  | nil => simp
  | cons a l ih =>
    rw [List.foldl_cons]
    rcases List.mem_cons.1 (ih (min x a)) with h | h
    · rw [h]
      rcases min_choice x a with h' | h' <;> rw [h'] <;> simp
    · simp [h]

omit [Field K] in
theorem foldl_max_mem (x : K) (l : List K) : l.foldl max x ∈ x :: l := by
  induction l generalizing x with
  | nil => simp
  | cons a l ih =>
    rw [List.foldl_cons]
    rcases List.mem_cons.1 (ih (max x a)) with h | h
    · rw [h]
      rcases max_choice x a with h' | h' <;> rw [h'] <;> simp
    · simp [h]

omit [Field K] in
theorem minmax_mem {l : List K} {I : Itv K} (h : minmax l = .ok I) : I.lo ∈ l ∧ I.hi ∈ l := by
  cases l with
  | nil => simp [minmax] at h
  | cons x xs =>
    unfold minmax Itv.make at h
    simp only at h
    split_ifs at h
    injection h with h
    subst h
    exact ⟨foldl_min_mem x xs, foldl_max_mem x xs⟩

omit [Field K] [LinearOrder K] in
theorem map_lookup_zip [Zero K] {vars : List String} (hnd : vars.Nodup) {xs : List K} (hl : vars.length = xs.length) :
    (vars.map fun v => ((vars.zip xs).lookup v).getD 0) = xs := by
  refine List.ext_getElem (by simp [hl]) fun i h1 h2 => ?_
  rw [List.getElem_map]
  have hm : (vars[i]'(by omega), xs[i]) ∈ vars.zip xs := by
    rw [List.mem_iff_getElem]
    exact ⟨i, by simp [h2]; omega, by simp⟩
  rw [VMap.lookup_of_mem (m := vars.zip xs) (by rw [List.map_fst_zip (by omega)]; exact hnd) hm]
  rfl

theorem expOf_getElem {ss : List String} (h : ss.Nodup) {e : List ℕ} (hl : e.length = ss.length) {i : ℕ} (h1 : i < ss.length) (h2 : i < e.length) :
    expOf ss e (ss[i]'h1) = e[i]'h2 := by
  induction ss generalizing e i with
  | nil => simp at h1
  | cons t ss ih =>
    cases e with
    | nil => simp at h2
    | cons k ks =>
      rw [List.nodup_cons] at h
      cases i with
      | zero => simp [expOf]
      | succ i =>
        simp only [List.length_cons, add_lt_add_iff_right, add_left_inj] at h1 h2 hl
        simp only [List.getElem_cons_succ, expOf]
        rw [if_neg, ih h.2 hl h1 h2]
        rintro hc
        exact h.1 (hc ▸ List.getElem_mem h1)

variable [IsStrictOrderedRing K]

/-- The bounds of a polynomial of degree at most 1 in each variable are values of the polynomial on the domain. -/
theorem getBounds_attained {ord : List String → List String} {p : GDual K} {exp : VMap K} {dom : VMap (Itv K)} (hp : p.Valid)
    (hn : ∀ s ∈ p.p.syms, ∃ v, s = "d" ++ v) (hlin : ∀ t ∈ p.p.terms, ∀ k ∈ t.1, k ≤ 1)
    (hm : ∀ v ∈ p.p.syms.map varName, ∃ I x, dom.lookup v = some I ∧ exp.lookup v = some x ∧ I.lo ≤ I.hi)
    (ho : ord (p.p.syms.map varName) = p.p.syms.map varName) {B : Itv K} (hB : getBounds ord p exp dom = .ok B) :
    ∀ b, b = B.lo ∨ b = B.hi → ∃ x : String → K, (∀ v ∈ p.p.syms.map varName, ∀ I, dom.lookup v = some I → Spec.InItv I (x v)) ∧
      eval (displacement exp x) (p.toMv ()) = b := by
  have hin : ∀ v ∈ p.p.syms.map varName, ∀ I, dom.lookup v = some I → Spec.InItv I (((dom.lookup v).getD ⟨0, 0⟩).lo) := by
    intro v hv I hI
    obtain ⟨I', x, h1, -, h3⟩ := hm v hv
    rw [h1] at hI
    obtain rfl := Option.some.inj hI
    rw [h1]
    exact ⟨le_rfl, h3⟩
  have hzero : ∀ {coeffs : List K} {exps : List (List ℕ)}, Bounding.getPoly p = .ok (coeffs, exps) → exps = [] →
      (∀ δ, eval δ (p.toMv ()) = coeff 0 (p.toMv () : MvPolynomial String K)) →
      ∀ b, b = B.lo ∨ b = B.hi → ∃ x : String → K, (∀ v ∈ p.p.syms.map varName, ∀ I, dom.lookup v = some I → Spec.InItv I (x v)) ∧
        eval (displacement exp x) (p.toMv ()) = b := by
    intro coeffs exps h1 h2 h3 b hb
    subst h2
    have hnd : Bounding.getNdim coeffs ([] : List (List ℕ)) = .ok 0 := by cases coeffs <;> rfl
    obtain ⟨c, hc1⟩ := GDual.constantCf_isOk p
    have hc2 := GDual.lane_constantCf (ι := Unit) (K := K) hp hc1 ()
    unfold getBounds at hB
    rw [bind_ok h1, bind_ok hnd, if_neg (by omega), bind_ok hc1] at hB
    obtain rfl := Except.ok.inj hB
    refine ⟨fun v => ((dom.lookup v).getD ⟨0, 0⟩).lo, hin, ?_⟩
    rw [h3, ← hc2]
    rcases hb with rfl | rfl <;> rfl
  by_cases hs : p.symbolSetSize = 0
  · refine hzero (Bounding.getPoly_no_symbols hs) rfl fun δ => ?_
    have hs' : p.p.syms = [] := List.length_eq_zero_iff.1 hs
    have : eval δ (p.toMv ()) = eval 0 (p.toMv ()) := by
      rw [eval_toMv hp, eval_toMv hp, hs']
      rfl
    rw [this, eval_zero]
    rfl
  · obtain ⟨coeffs, exps, h1, h2, h3, h4⟩ := Bounding.getPoly_spec (ι := Unit) (K := K) hp (Nat.one_le_iff_ne_zero.2 hs)
    by_cases he : exps = []
    · refine hzero h1 he fun δ => ?_
      subst he
      have ht : p.p.terms = [] := by simpa using h3
      have : p.toMv () = (0 : MvPolynomial String K) := by
        unfold GDual.toMv Poly.toMv
        rw [ht]
        rfl
      rw [this]
      simp
    · have hexps : ∀ e ∈ exps, ∃ c, (e, c) ∈ p.p.terms := by
        intro e hee
        have hm : exps = (exps.zip coeffs).map Prod.fst := (List.map_fst_zip (by rw [h2])).symm
        rw [hm] at hee
        obtain ⟨⟨e', c⟩, hx, rfl⟩ := List.mem_map.1 hee
        exact ⟨c, h3.mem_iff.1 hx⟩
      have hw : ∀ e ∈ exps, e.length = p.p.syms.length := fun e hee => by
        obtain ⟨c, hc⟩ := hexps e hee
        exact hp.wf.len _ hc
      have hd1 : ∀ e ∈ exps, ∀ k ∈ e, k ≤ 1 := fun e hee k hk => by
        obtain ⟨c, hc⟩ := hexps e hee
        exact hlin _ hc k hk
      set vars := p.p.syms.map varName with hvars
      have hvnd : vars.Nodup := nodup_varNames hp.wf.ndsyms hn
      set sh : VMap (Itv K) := vars.map fun v => (v, shiftItv exp dom v) with hsh
      have hkeys : sh.map Prod.fst = vars := by rw [hsh, List.map_map]; simp [Function.comp_def]
      have hit : iterate ord sh = sh := iterate_faithful (by rw [hkeys]; exact hvnd) (by rw [hkeys]; exact ho)
      obtain ⟨patch, e1, -, e2⟩ := Bounding.patch_corners (Nat.one_le_iff_ne_zero.2 hs) h2 he hw (h4.imp fun h => ne_of_lt h)
        (fun e hee k hk => (hd1 e hee k hk).trans (by decide)) (domain := sh) (by simp [hsh, hvars, GDual.symbolSetSize])
      unfold getBounds at hB
      rw [bind_ok h1] at hB
      simp only at hB
      rw [bind_ok (Bounding.getNdim_ok h2 he hw), if_pos (show 1 ≤ p.p.syms.length from Nat.one_le_iff_ne_zero.2 hs), symbolSet_eq,
        bind_ok (shiftedDomain_ok hm), hit, bind_ok e1] at hB
      have hmem := minmax_mem hB
      intro b hb
      have hbm : b ∈ patch.flatten := by rcases hb with rfl | rfl; exacts [hmem.1, hmem.2]
      obtain ⟨xs, hx1, hx2⟩ := e2 hd1 b hbm
      have hlen : vars.length = xs.length := by rw [← hx1.length_eq]; simp [hsh]
      set X : String → K := fun v => ((vars.zip xs).lookup v).getD 0 + (exp.lookup v).getD 0 with hX
      have hdisp : p.p.syms.map (displacement exp X) = xs := by
        rw [← map_lookup_zip hvnd hlen, hvars, List.map_map, ← hvars]
        refine List.map_congr_left fun s _ => ?_
        simp only [displacement, hX, Function.comp_apply]
        ring
      refine ⟨X, fun v hv I hI => ?_, ?_⟩
      · obtain ⟨I', x0, a1, a2, a3⟩ := hm v hv
        rw [a1] at hI
        obtain rfl := Option.some.inj hI
        obtain ⟨s, hsm, rfl⟩ := List.mem_map.1 hv
        rw [← hdisp, hsh, hvars, List.map_map, List.map_map, List.forall₂_map_left_iff, List.forall₂_map_right_iff, List.forall₂_same] at hx1
        have := hx1 s hsm
        simp only [Function.comp_apply, shiftItv, displacement, a1, a2, Option.getD_some] at this
        rcases this with h | h
        · have : X (varName s) = I'.lo := by linarith
          rw [this]
          exact ⟨le_rfl, a3⟩
        · have : X (varName s) = I'.hi := by linarith
          rw [this]
          exact ⟨a3, le_rfl⟩
      · rw [← polyVal_eq hp h3, hdisp]
        exact hx2

end TM
end Audi
