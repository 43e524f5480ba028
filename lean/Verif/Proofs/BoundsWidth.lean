import Verif.Proofs.BoundsExact
import Verif.Proofs.BernsteinWidth
import Verif.Spec.TaylorModel

/-!
# Proofs: the bounds of a Taylor polynomial are not wider than the sum of the absolute values of its terms
-/

namespace Audi
namespace TM

open MvPolynomial Spec

variable {K : Type} [Field K] [LinearOrder K] [IsStrictOrderedRing K]

omit [IsStrictOrderedRing K] in
theorem absVal_eq {p : GDual K} (hp : p.Valid) (R : String → K) :
    absVal R (p.toMv ()) = (p.p.terms.map fun t => |t.2| * (List.zipWith (fun (xi : K) (k : ℕ) => xi ^ k) (p.p.syms.map R) t.1).prod).sum := by
  have hnd : (p.p.terms.map fun t => toExp p.p.syms t.1).Nodup := by
    refine List.Nodup.map_on (fun a ha b hb hab => ?_) (List.Nodup.of_map _ hp.wf.nodup)
    exact List.inj_on_of_nodup_map hp.wf.nodup ha hb (toExp_inj hp.wf.ndsyms (hp.wf.len a ha) (hp.wf.len b hb) hab)
  have hsup : (p.toMv () : MvPolynomial String K).support = (p.p.terms.map fun t => toExp p.p.syms t.1).toFinset := by
    ext m
    rw [mem_support_iff, List.mem_toFinset]
    constructor
    · intro h
      obtain ⟨t, h1, h2⟩ := Poly.exists_mem_of_coeff_ne (K := K) (i := ()) h
      exact List.mem_map.2 ⟨t, h1, h2⟩
    · intro h
      obtain ⟨t, h1, rfl⟩ := List.mem_map.1 h
      rw [show coeff (toExp p.p.syms t.1) (p.toMv ()) = t.2 from Poly.coeff_toMv_of_mem (K := K) hp.wf (e := t.1) (c := t.2) h1 ()]
      intro h0
      have := hp.wf.nz t h1
      simp [Cf.isZero, h0] at this
  unfold absVal
  rw [hsup, List.sum_toFinset _ hnd, List.map_map]
  refine congrArg List.sum (List.map_congr_left fun t ht => ?_)
  have h1 := Poly.coeff_toMv_of_mem (K := K) hp.wf (e := t.1) (c := t.2) ht ()
  have h2 : coeff (toExp p.p.syms t.1) (p.toMv ()) = t.2 := h1
  have h3 := eval_monomial_toExp R p.p.syms t.1 (hp.wf.len t ht) (1 : K)
  rw [eval_monomial, one_mul, one_mul] at h3
  rw [Function.comp_apply, h2, h3]

theorem abs_eval_le {f : MvPolynomial String K} {δ R : String → K} (h : ∀ s ∈ f.vars, |δ s| ≤ R s) : |eval δ f| ≤ absVal R f := by
  rw [eval_eq]
  unfold absVal
  refine (Finset.abs_sum_le_sum_abs _ _).trans (Finset.sum_le_sum fun m hm => ?_)
  rw [abs_mul, Finset.abs_prod]
  refine mul_le_mul_of_nonneg_left (Finset.prod_le_prod (fun _ _ => abs_nonneg _) fun s hs => ?_) (abs_nonneg _)
  rw [abs_pow]
  exact pow_le_pow_left₀ (abs_nonneg _) (h s ((mem_vars_iff_mem_support s).2 ⟨m, hm, hs⟩)) _

/-- Both ends of the bounds: not larger in absolute value than the sum of the absolute values of the terms, where each variable is replaced by
its largest distance from the expansion point. -/
theorem getBounds_abs {ord : List String → List String} {p : GDual K} {exp : VMap K} {dom : VMap (Itv K)} (hp : p.Valid)
    (hn : ∀ s ∈ p.p.syms, ∃ v, s = "d" ++ v) (hdeg : ∀ t ∈ p.p.terms, ∀ k ∈ t.1, k ≤ 62)
    (hm : ∀ v ∈ p.p.syms.map varName, ∃ I x, dom.lookup v = some I ∧ exp.lookup v = some x ∧ I.lo ≤ I.hi)
    (ho : ord (p.p.syms.map varName) = p.p.syms.map varName) {B : Itv K} (hB : getBounds ord p exp dom = .ok B) {R : String → K}
    (hR : ∀ s ∈ p.p.syms, ∀ I x, dom.lookup (varName s) = some I → exp.lookup (varName s) = some x → |I.lo - x| ≤ R s ∧ |I.hi - x| ≤ R s) :
    |B.lo| ≤ absVal R (p.toMv ()) ∧ |B.hi| ≤ absVal R (p.toMv ()) := by
  have hR0 : ∀ s ∈ p.p.syms, 0 ≤ R s := fun s hs => by
    obtain ⟨I, x, h1, h2, -⟩ := hm (varName s) (List.mem_map_of_mem hs)
    exact (abs_nonneg _).trans (hR s hs I x h1 h2).1
  have hzero : ∀ {coeffs : List K} {exps : List (List ℕ)}, Bounding.getPoly p = .ok (coeffs, exps) → exps = [] →
      |B.lo| ≤ absVal R (p.toMv ()) ∧ |B.hi| ≤ absVal R (p.toMv ()) := by
    intro coeffs exps h1 h2
    subst h2
    have hnd : Bounding.getNdim coeffs ([] : List (List ℕ)) = .ok 0 := by cases coeffs <;> rfl
    obtain ⟨c, hc1⟩ := GDual.constantCf_isOk p
    have hc2 := GDual.lane_constantCf (ι := Unit) (K := K) hp hc1 ()
    unfold getBounds at hB
    rw [bind_ok h1, bind_ok hnd, if_neg (by omega), bind_ok hc1] at hB
    obtain rfl := Except.ok.inj hB
    have h3 : |eval (0 : String → K) (p.toMv ())| ≤ absVal R (p.toMv ()) := abs_eval_le fun s hs => by
      rw [Pi.zero_apply, abs_zero]
      exact hR0 s (mem_supported.1 (toMv_mem_supported p () (S := {t | t ∈ p.p.syms}) fun s hs => hs) hs)
    have h4 : eval (0 : String → K) (p.toMv ()) = c := by
      rw [eval_zero]
      exact hc2.symm
    rw [h4] at h3
    exact ⟨h3, h3⟩
  by_cases hs : p.symbolSetSize = 0
  · exact hzero (Bounding.getPoly_no_symbols hs) rfl
  · obtain ⟨coeffs, exps, h1, h2, h3, h4⟩ := Bounding.getPoly_spec (ι := Unit) (K := K) hp (Nat.one_le_iff_ne_zero.2 hs)
    by_cases he : exps = []
    · exact hzero h1 he
    · have hexps : ∀ e ∈ exps, ∃ c, (e, c) ∈ p.p.terms := by
        intro e hee
        have hm : exps = (exps.zip coeffs).map Prod.fst := (List.map_fst_zip (by rw [h2])).symm
        rw [hm] at hee
        obtain ⟨⟨e', c⟩, hx, rfl⟩ := List.mem_map.1 hee
        exact ⟨c, h3.mem_iff.1 hx⟩
      have hw : ∀ e ∈ exps, e.length = p.p.syms.length := fun e hee => by
        obtain ⟨c, hc⟩ := hexps e hee
        exact hp.wf.len _ hc
      have hd62 : ∀ e ∈ exps, ∀ k ∈ e, k ≤ 62 := fun e hee k hk => by
        obtain ⟨c, hc⟩ := hexps e hee
        exact hdeg _ hc k hk
      set vars := p.p.syms.map varName with hvars
      have hvnd : vars.Nodup := nodup_varNames hp.wf.ndsyms hn
      set sh : VMap (Itv K) := vars.map fun v => (v, shiftItv exp dom v) with hsh
      have hkeys : sh.map Prod.fst = vars := by rw [hsh, List.map_map]; simp [Function.comp_def]
      have hit : iterate ord sh = sh := iterate_faithful (by rw [hkeys]; exact hvnd) (by rw [hkeys]; exact ho)
      obtain ⟨patch, e1, e2, -⟩ := Bounding.patch_abs (Nat.one_le_iff_ne_zero.2 hs) h2 he hw (h4.imp fun h => ne_of_lt h) hd62
        (domain := sh) (by simp [hsh, hvars, GDual.symbolSetSize])
      unfold getBounds at hB
      rw [bind_ok h1] at hB
      simp only at hB
      rw [bind_ok (Bounding.getNdim_ok h2 he hw), if_pos (show 1 ≤ p.p.syms.length from Nat.one_le_iff_ne_zero.2 hs), symbolSet_eq,
        bind_ok (shiftedDomain_ok hm), hit, bind_ok e1] at hB
      have hmem := minmax_mem hB
      have hbox : List.Forall₂ (fun (I : Itv K) r => |I.lo| ≤ r ∧ |I.hi| ≤ r) (sh.map Prod.snd) (p.p.syms.map R) := by
        rw [hsh, hvars, List.map_map, List.map_map, List.forall₂_map_left_iff, List.forall₂_map_right_iff, List.forall₂_same]
        intro s hsm
        obtain ⟨I, x0, a1, a2, -⟩ := hm (varName s) (List.mem_map_of_mem hsm)
        have := hR s hsm I x0 a1 a2
        simpa only [Function.comp_apply, shiftItv, a1, a2, Option.getD_some] using this
      have habs : Spec.polyVal (coeffs.map fun c => |c|) exps (p.p.syms.map R) = absVal R (p.toMv ()) := by
        rw [absVal_eq hp, ← (h3.map _).sum_eq]
        unfold Spec.polyVal
        congr 1
        rw [List.zip, List.map_zipWith, List.zipWith_comm, List.zipWith_map_right]
      rw [← habs]
      exact ⟨e2 _ hbox _ hmem.1, e2 _ hbox _ hmem.2⟩

end TM
end Audi
