import Verif.Proofs.BoundsWidth
import Verif.Proofs.BoundsShrink

/-!
# Proofs: the bounds of a polynomial without terms of low degree over a small domain
-/

namespace Audi
namespace TM

open MvPolynomial Spec

variable {K : Type} [Field K] [LinearOrder K] [IsStrictOrderedRing K]

/-- `getBounds_abs` with one distance for all variables; the map may be traversed in any order. -/
theorem getBounds_radius {ord : List String → List String} {p : GDual K} {exp : VMap K} {dom : VMap (Itv K)} (hp : p.Valid)
    (hn : ∀ s ∈ p.p.syms, ∃ v, s = "d" ++ v) (hdeg : ∀ t ∈ p.p.terms, ∀ k ∈ t.1, k ≤ 62)
    (hm : Covers (p.p.syms.map varName) exp dom) (ho : (ord (p.p.syms.map varName)).Perm (p.p.syms.map varName)) {B : Itv K}
    (hB : getBounds ord p exp dom = .ok B) {h : K} (h0 : 0 ≤ h)
    (hR : ∀ v ∈ p.p.syms.map varName, ∀ I x, dom.lookup v = some I → exp.lookup v = some x → |I.lo - x| ≤ h ∧ |I.hi - x| ≤ h) :
    |B.lo| ≤ absVal (fun _ => h) (p.toMv ()) ∧ |B.hi| ≤ absVal (fun _ => h) (p.toMv ()) := by
  have hzero : ∀ {coeffs : List K} {exps : List (List ℕ)}, Bounding.getPoly p = .ok (coeffs, exps) → exps = [] →
      |B.lo| ≤ absVal (fun _ => h) (p.toMv ()) ∧ |B.hi| ≤ absVal (fun _ => h) (p.toMv ()) := by
    intro coeffs exps h1 h2
    subst h2
    have hnd : Bounding.getNdim coeffs ([] : List (List ℕ)) = .ok 0 := by cases coeffs <;> rfl
    obtain ⟨c, hc1⟩ := GDual.constantCf_isOk p
    have hc2 := GDual.lane_constantCf (ι := Unit) (K := K) hp hc1 ()
    unfold getBounds at hB
    rw [bind_ok h1, bind_ok hnd, if_neg (by omega), bind_ok hc1] at hB
    obtain rfl := Except.ok.inj hB
    have h3 : |eval (0 : String → K) (p.toMv ())| ≤ absVal (fun _ => h) (p.toMv ()) := abs_eval_le fun s hs => by
      rw [Pi.zero_apply, abs_zero]
      exact h0
    have h4 : eval (0 : String → K) (p.toMv ()) = c := by
      rw [eval_zero]
      exact hc2.symm
    rw [h4] at h3
    exact ⟨h3, h3⟩
  by_cases hs : p.symbolSetSize = 0
  · exact hzero (Bounding.getPoly_no_symbols hs) rfl
  · obtain ⟨coeffs, exps, h1, h2, h3, h4⟩ := Bounding.getPoly_spec (ι := Unit) (K := K) hp (Nat.one_le_iff_ne_zero.2 hs)
    by_cases he : exps = []
    · exact hzero h1 he
    · have hexps : ∀ e ∈ exps, ∃ c, (e, c) ∈ p.p.terms := by
        intro e hee
        have hm : exps = (exps.zip coeffs).map Prod.fst := (List.map_fst_zip (by rw [h2])).symm
        rw [hm] at hee
        obtain ⟨⟨e', c⟩, hx, rfl⟩ := List.mem_map.1 hee
        exact ⟨c, h3.mem_iff.1 hx⟩
      have hw : ∀ e ∈ exps, e.length = p.p.syms.length := fun e hee => by
        obtain ⟨c, hc⟩ := hexps e hee
        exact hp.wf.len _ hc
      have hd62 : ∀ e ∈ exps, ∀ k ∈ e, k ≤ 62 := fun e hee k hk => by
        obtain ⟨c, hc⟩ := hexps e hee
        exact hdeg _ hc k hk
      have hvnd : (p.p.syms.map varName).Nodup := nodup_varNames hp.wf.ndsyms hn
      have hit : iterate ord (shiftBox (p.p.syms.map varName) exp dom) = shiftBox (ord (p.p.syms.map varName)) exp dom :=
        iterate_perm_of ho (shiftItv exp dom) hvnd
      obtain ⟨patch, e1, e2, -⟩ := Bounding.patch_abs (Nat.one_le_iff_ne_zero.2 hs) h2 he hw (h4.imp fun h => ne_of_lt h) hd62
        (domain := shiftBox (ord (p.p.syms.map varName)) exp dom) (by simp [shiftBox, ho.length_eq, GDual.symbolSetSize])
      unfold getBounds at hB
      rw [bind_ok h1] at hB
      simp only at hB
      rw [bind_ok (Bounding.getNdim_ok h2 he hw), if_pos (show 1 ≤ p.p.syms.length from Nat.one_le_iff_ne_zero.2 hs), symbolSet_eq,
        bind_ok (shiftedDomain_ok hm),
        show (p.p.syms.map varName).map (fun v => (v, shiftItv exp dom v)) = shiftBox (p.p.syms.map varName) exp dom from rfl, hit, bind_ok e1] at hB
      have hmem := minmax_mem hB
      have hbox : List.Forall₂ (fun (I : Itv K) r => |I.lo| ≤ r ∧ |I.hi| ≤ r) ((shiftBox (ord (p.p.syms.map varName)) exp dom).map Prod.snd)
          (p.p.syms.map fun _ => h) := by
        have hl : (p.p.syms.map fun _ => h) = (ord (p.p.syms.map varName)).map fun _ => h := by
          rw [List.map_const', List.map_const', ho.length_eq, List.length_map]
        rw [hl, shiftBox_snd, List.forall₂_map_left_iff, List.forall₂_map_right_iff, List.forall₂_same]
        intro v hv
        obtain ⟨I, x0, a1, a2, -⟩ := hm v (ho.mem_iff.1 hv)
        have := hR v (ho.mem_iff.1 hv) I x0 a1 a2
        simpa only [shiftItv, a1, a2, Option.getD_some] using this
      have habs : Spec.polyVal (coeffs.map fun c => |c|) exps (p.p.syms.map fun _ => h) = absVal (fun _ => h) (p.toMv ()) := by
        rw [absVal_eq hp, ← (h3.map _).sum_eq]
        unfold Spec.polyVal
        congr 1
        rw [List.zip, List.map_zipWith, List.zipWith_comm, List.zipWith_map_right]
      rw [← habs]
      exact ⟨e2 _ hbox _ hmem.1, e2 _ hbox _ hmem.2⟩

/-- A polynomial without terms of degree less than `n` is of the order `h ^ n`. -/
theorem absVal_le_pow {f : MvPolynomial String K} {n : ℕ} (hf : ∀ e, e.degree < n → coeff e f = 0) {h : K} (h0 : 0 ≤ h) (h1 : h ≤ 1) :
    absVal (fun _ => h) f ≤ absVal (fun _ => 1) f * h ^ n := by
  unfold absVal
  rw [Finset.sum_mul]
  refine Finset.sum_le_sum fun e he => ?_
  have hd : n ≤ e.degree := by
    by_contra hlt
    exact (mem_support_iff.1 he) (hf e (by omega))
  have e1 : (e.prod fun _ k => h ^ k) = h ^ e.degree := by
    rw [Finsupp.prod, Finset.prod_pow_eq_pow_sum]
    rfl
  have e2 : (e.prod fun _ k => (1 : K) ^ k) = 1 := by
    simp [Finsupp.prod]
  simp only [e1, e2]
  rw [mul_one]
  exact mul_le_mul_of_nonneg_left (pow_le_pow_of_le_one h0 h1 hd) (abs_nonneg _)

end TM
end Audi
