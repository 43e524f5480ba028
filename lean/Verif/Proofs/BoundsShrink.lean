import Verif.Proofs.BoundsExact
import Verif.Proofs.BernsteinShrink

/-!
# Proofs: the bounds of a Taylor polynomial over smaller domains
-/

namespace Audi
namespace TM

open MvPolynomial Spec

variable {K : Type} [Field K] [LinearOrder K] [IsStrictOrderedRing K]

/-- The domain seen from the expansion point. -/
def shiftBox (vars : List String) (exp : VMap K) (dom : VMap (Itv K)) : VMap (Itv K) := vars.map fun v => (v, shiftItv exp dom v)

omit [LinearOrder K] [IsStrictOrderedRing K] in
theorem shiftBox_snd (vars : List String) (exp : VMap K) (dom : VMap (Itv K)) :
    (shiftBox vars exp dom).map Prod.snd = vars.map (shiftItv exp dom) := by
  unfold shiftBox
  rw [List.map_map]
  rfl

/-- All variables have a domain and an expansion point. -/
def Covers (vars : List String) (exp : VMap K) (dom : VMap (Itv K)) : Prop :=
  ∀ v ∈ vars, ∃ I x, dom.lookup v = some I ∧ exp.lookup v = some x ∧ I.lo ≤ I.hi

omit [Field K] [LinearOrder K] [IsStrictOrderedRing K] in
theorem iterate_perm_of {ord : List String → List String} {α : Type} {vars : List String} (hord : (ord vars).Perm vars) (f : String → α)
    (hnd : vars.Nodup) : iterate ord (vars.map fun v => (v, f v)) = (ord vars).map fun v => (v, f v) := by
  have hk : (VMap.keys (vars.map fun v => (v, f v)) : List String) = vars := by
    unfold VMap.keys
    rw [List.map_map]
    simp [Function.comp_def]
  unfold iterate
  rw [hk]
  have : ∀ v ∈ ord vars, ((vars.map fun v => (v, f v)) : VMap α).lookup v = some (f v) := by
    intro v hv
    refine VMap.lookup_of_mem ?_ (List.mem_map.2 ⟨v, hord.mem_iff.1 hv, rfl⟩)
    rw [List.map_map]
    simpa [Function.comp_def] using hnd
  rw [List.filterMap_congr (g := fun v => some (v, f v)) fun v hv => by rw [this v hv]; rfl]
  simp

/-- The two cases of `get_bounds`: a constant, or the smallest and the largest entry of the Bernstein patch. -/
theorem getBounds_form {ord : List String → List String} {p : GDual K} (hp : p.Valid)
    (hn : ∀ s ∈ p.p.syms, ∃ v, s = "d" ++ v) (hdeg : ∀ t ∈ p.p.terms, ∀ k ∈ t.1, k ≤ 62)
    (ho : (ord (p.p.syms.map varName)).Perm (p.p.syms.map varName)) :
    (∃ c, (∀ δ, eval δ (p.toMv ()) = c) ∧ ∀ exp dom, getBounds ord p exp dom = .ok ⟨c, c⟩) ∨
    ∃ coeffs exps, 1 ≤ p.p.syms.length ∧ coeffs.length = exps.length ∧ exps ≠ [] ∧ (∀ e ∈ exps, e.length = p.p.syms.length) ∧ exps.Nodup ∧
      (∀ e ∈ exps, ∀ k ∈ e, k ≤ 62) ∧ (∀ δ, polyVal coeffs exps (p.p.syms.map δ) = eval δ (p.toMv ())) ∧
      ∀ exp dom, Covers (p.p.syms.map varName) exp dom → getBounds ord p exp dom =
        (Bounding.bernsteinPatch coeffs exps (shiftBox (ord (p.p.syms.map varName)) exp dom) >>= fun patch => minmax patch.flatten) := by
  have hzero : ∀ {coeffs : List K} {exps : List (List ℕ)}, Bounding.getPoly p = .ok (coeffs, exps) → exps = [] →
      (∀ δ, eval δ (p.toMv ()) = coeff 0 (p.toMv () : MvPolynomial String K)) →
      ∃ c, (∀ δ, eval δ (p.toMv ()) = c) ∧ ∀ exp dom, getBounds ord p exp dom = .ok ⟨c, c⟩ := by
    intro coeffs exps h1 h2 h3
    subst h2
    have hnd : Bounding.getNdim coeffs ([] : List (List ℕ)) = .ok 0 := by cases coeffs <;> rfl
    obtain ⟨c, hc⟩ := GDual.constantCf_isOk p
    have hc2 : c = coeff 0 (p.toMv () : MvPolynomial String K) := GDual.lane_constantCf (ι := Unit) (K := K) hp hc ()
    refine ⟨c, fun δ => by rw [h3, hc2], fun exp dom => ?_⟩
    unfold getBounds
    rw [bind_ok h1, bind_ok hnd, if_neg (by omega), bind_ok hc]
  by_cases hs : p.symbolSetSize = 0
  · refine .inl (hzero (Bounding.getPoly_no_symbols hs) rfl fun δ => ?_)
    have hs' : p.p.syms = [] := List.length_eq_zero_iff.1 hs
    have : eval δ (p.toMv ()) = eval 0 (p.toMv ()) := by
      rw [eval_toMv hp, eval_toMv hp, hs']
      rfl
    rw [this, eval_zero]
    rfl
  · obtain ⟨coeffs, exps, h1, h2, h3, h4⟩ := Bounding.getPoly_spec (ι := Unit) (K := K) hp (Nat.one_le_iff_ne_zero.2 hs)
    by_cases he : exps = []
    · refine .inl (hzero h1 he fun δ => ?_)
      subst he
      have ht : p.p.terms = [] := by simpa using h3
      have : p.toMv () = (0 : MvPolynomial String K) := by
        unfold GDual.toMv Poly.toMv
        rw [ht]
        rfl
      rw [this]
      simp
    · have hexps : ∀ e ∈ exps, ∃ c, (e, c) ∈ p.p.terms := by
        intro e hee
        have hm : exps = (exps.zip coeffs).map Prod.fst := (List.map_fst_zip (by rw [h2])).symm
        rw [hm] at hee
        obtain ⟨⟨e', c⟩, hx, rfl⟩ := List.mem_map.1 hee
        exact ⟨c, h3.mem_iff.1 hx⟩
      have hw : ∀ e ∈ exps, e.length = p.p.syms.length := fun e hee => by
        obtain ⟨c, hc⟩ := hexps e hee
        exact hp.wf.len _ hc
      have hd62 : ∀ e ∈ exps, ∀ k ∈ e, k ≤ 62 := fun e hee k hk => by
        obtain ⟨c, hc⟩ := hexps e hee
        exact hdeg _ hc k hk
      refine .inr ⟨coeffs, exps, Nat.one_le_iff_ne_zero.2 hs, h2, he, hw, h4.imp fun h => ne_of_lt h, hd62, polyVal_eq hp h3, fun exp dom hm => ?_⟩
      have hvnd : (p.p.syms.map varName).Nodup := nodup_varNames hp.wf.ndsyms hn
      have hit : iterate ord (shiftBox (p.p.syms.map varName) exp dom) = shiftBox (ord (p.p.syms.map varName)) exp dom :=
        iterate_perm_of ho (shiftItv exp dom) hvnd
      unfold getBounds
      rw [bind_ok h1]
      simp only
      rw [bind_ok (Bounding.getNdim_ok h2 he hw), if_pos (show 1 ≤ p.p.syms.length from Nat.one_le_iff_ne_zero.2 hs), symbolSet_eq,
        bind_ok (shiftedDomain_ok hm)]
      rw [show (p.p.syms.map varName).map (fun v => (v, shiftItv exp dom v)) = shiftBox (p.p.syms.map varName) exp dom from rfl, hit]

/-- Over a part of the domain the bounds are not wider. -/
theorem getBounds_shrink {ord : List String → List String} {p : GDual K} {exp : VMap K} {dom sub : VMap (Itv K)} (hp : p.Valid)
    (hn : ∀ s ∈ p.p.syms, ∃ v, s = "d" ++ v) (hdeg : ∀ t ∈ p.p.terms, ∀ k ∈ t.1, k ≤ 62)
    (ho : (ord (p.p.syms.map varName)).Perm (p.p.syms.map varName)) (hc1 : Covers (p.p.syms.map varName) exp dom)
    (hc2 : Covers (p.p.syms.map varName) exp sub)
    (hsub : ∀ v ∈ p.p.syms.map varName, ∀ I J, dom.lookup v = some I → sub.lookup v = some J → I.lo ≤ J.lo ∧ J.hi ≤ I.hi) {B B' : Itv K}
    (hB : getBounds ord p exp dom = .ok B) (hB' : getBounds ord p exp sub = .ok B') : B.lo ≤ B'.lo ∧ B'.hi ≤ B.hi := by
  rcases getBounds_form hp hn hdeg ho with ⟨c, -, h⟩ | ⟨coeffs, exps, g1, g2, g3, g4, g5, g6, -, g7⟩
  · rw [h] at hB hB'
    obtain rfl := Except.ok.inj hB
    obtain rfl := Except.ok.inj hB'
    exact ⟨le_rfl, le_rfl⟩
  · rw [g7 exp dom hc1] at hB
    rw [g7 exp sub hc2] at hB'
    obtain ⟨patch, patch', e1, e2, e3⟩ := Bounding.patch_shrink g1 g2 g3 g4 g5 g6 (domain := shiftBox (ord (p.p.syms.map varName)) exp dom)
      (sub := shiftBox (ord (p.p.syms.map varName)) exp sub) (by simp [shiftBox, ho.length_eq]) (by
        rw [shiftBox_snd, shiftBox_snd, List.forall₂_map_left_iff, List.forall₂_map_right_iff, List.forall₂_same]
        intro v hv'
        have hv := ho.mem_iff.1 hv'
        obtain ⟨I, x, a1, a2, -⟩ := hc1 v hv
        obtain ⟨J, y, b1, b2, b3⟩ := hc2 v hv
        have h := hsub v hv I J a1 b1
        simp only [shiftItv, a1, a2, b1, Option.getD_some]
        exact ⟨sub_le_sub_right h.1 _, sub_le_sub_right b3 _, sub_le_sub_right h.2 _⟩)
    rw [bind_ok e1] at hB
    rw [bind_ok e2] at hB'
    have hm := minmax_mem hB'
    have hne : patch.flatten ≠ [] := by
      obtain ⟨u, hu, -⟩ := (e3 _ hm.1).1
      exact List.ne_nil_of_mem hu
    obtain ⟨B0, c1, c2⟩ := minmax_ok hne
    obtain rfl : B0 = B := Except.ok.inj (c1.symm.trans hB)
    obtain ⟨u, hu, hu'⟩ := (e3 _ hm.1).1
    obtain ⟨w, hw, hw'⟩ := (e3 _ hm.2).2
    exact ⟨(c2 u hu).1.trans hu', hw'.trans (c2 w hw).2⟩

/-- The bounds are values of the polynomial at points of the domain, up to a multiple of the square of the width of the domain. -/
theorem getBounds_near {ord : List String → List String} {p : GDual K} (hp : p.Valid)
    (hn : ∀ s ∈ p.p.syms, ∃ v, s = "d" ++ v) (hdeg : ∀ t ∈ p.p.terms, ∀ k ∈ t.1, k ≤ 62)
    (ho : ord (p.p.syms.map varName) = p.p.syms.map varName) {R : K} (hR : 0 ≤ R) :
    ∃ C, 0 ≤ C ∧ ∀ (exp : VMap K) (dom : VMap (Itv K)) (h : K), Covers (p.p.syms.map varName) exp dom →
      (∀ v ∈ p.p.syms.map varName, ∀ I x, dom.lookup v = some I → exp.lookup v = some x → |I.lo - x| ≤ R ∧ |I.hi - x| ≤ R ∧ I.hi - I.lo ≤ h) →
      ∀ B, getBounds ord p exp dom = .ok B → ∀ b, b = B.lo ∨ b = B.hi →
        ∃ x : String → K, (∀ v ∈ p.p.syms.map varName, ∀ I, dom.lookup v = some I → InItv I (x v)) ∧
          |b - eval (displacement exp x) (p.toMv ())| ≤ C * h ^ 2 := by
  rcases getBounds_form hp hn hdeg (List.Perm.of_eq ho) with ⟨c, h0, h⟩ | ⟨coeffs, exps, g1, g2, g3, g4, g5, g6, g8, g7⟩
  · refine ⟨0, le_rfl, fun exp dom w hc _ B hB b hb => ?_⟩
    rw [h] at hB
    obtain rfl := Except.ok.inj hB
    refine ⟨fun v => ((dom.lookup v).getD ⟨0, 0⟩).lo, fun v hv I hI => ?_, ?_⟩
    · obtain ⟨J, x, a1, -, a3⟩ := hc v hv
      obtain rfl : J = I := Option.some.inj (a1.symm.trans hI)
      simp only [hI, Option.getD_some]
      exact ⟨le_rfl, a3⟩
    · rw [h0]
      rcases hb with rfl | rfl <;> simp
  · rw [ho] at g7
    obtain ⟨C, hC, hall⟩ := Bounding.patch_near g1 g2 g3 g4 g5 g6 hR
    refine ⟨C, hC, fun exp dom w hc hw B hB b hb => ?_⟩
    rw [g7 exp dom hc] at hB
    obtain ⟨patch, e1, e2⟩ := hall (shiftBox (p.p.syms.map varName) exp dom) w (by simp [shiftBox]) (by
      intro I hI
      rw [shiftBox_snd] at hI
      obtain ⟨v, hv, rfl⟩ := List.mem_map.1 hI
      obtain ⟨J, x, a1, a2, a3⟩ := hc v hv
      have := hw v hv J x a1 a2
      simp only [shiftItv, a1, a2, Option.getD_some]
      exact ⟨sub_le_sub_right a3 _, this.1, this.2.1, by rw [sub_sub_sub_cancel_right]; exact this.2.2⟩)
    rw [bind_ok e1] at hB
    have hm := minmax_mem hB
    obtain ⟨y, hy, hyb⟩ := e2 b (by rcases hb with rfl | rfl; exacts [hm.1, hm.2])
    have hyl : y.length = p.p.syms.length := by
      have := hy.length_eq
      simpa [shiftBox] using this.symm
    set x : String → K := fun v => (exp.lookup v).getD 0 + y.getD (p.p.syms.idxOf ("d" ++ v)) 0 with hx
    have hdisp : p.p.syms.map (displacement exp x) = y := by
      refine List.ext_getElem (by simp [hyl]) fun i h1 h2 => ?_
      have hi : i < p.p.syms.length := by simpa using h1
      have hs : p.p.syms[i] ∈ p.p.syms := List.getElem_mem hi
      obtain ⟨I, x0, a1, a2, -⟩ := hc (varName p.p.syms[i]) (List.mem_map_of_mem hs)
      have hd : "d" ++ varName p.p.syms[i] = p.p.syms[i] := by
        obtain ⟨v, hv⟩ := hn _ hs
        rw [hv, varName_d]
      rw [List.getElem_map]
      simp only [displacement, hx, hd, a2, Option.getD_some]
      rw [hp.wf.ndsyms.idxOf_getElem, Bounding.getD_getElem h2]
      ring
    refine ⟨x, fun v hv I hI => ?_, ?_⟩
    · obtain ⟨J, x0, a1, a2, a3⟩ := hc v hv
      obtain rfl : J = I := Option.some.inj (a1.symm.trans hI)
      obtain ⟨i, hi, hiv⟩ := List.getElem_of_mem hv
      have hi' : i < p.p.syms.length := by simpa using hi
      have hiy : i < y.length := hyl ▸ hi'
      have hbox : i < ((shiftBox (p.p.syms.map varName) exp dom).map Prod.snd).length := by simpa [shiftBox] using hi'
      have h5 := (List.forall₂_iff_get.1 hy).2 i hbox hiy
      have hd : "d" ++ v = p.p.syms[i] := by
        obtain ⟨u, hu⟩ := hn _ (List.getElem_mem hi')
        rw [← hiv, List.getElem_map, hu, varName_d]
      have hidx : p.p.syms.idxOf ("d" ++ v) = i := by rw [hd, hp.wf.ndsyms.idxOf_getElem]
      have hbi : ((shiftBox (p.p.syms.map varName) exp dom).map Prod.snd)[i] = shiftItv exp dom v := by
        simp only [shiftBox_snd, List.getElem_map]
        rw [← hiv, List.getElem_map]
      simp only [List.get_eq_getElem, hbi, shiftItv, a1, a2, Option.getD_some] at h5
      simp only [hx, a2, Option.getD_some, hidx, Bounding.getD_getElem hiy]
      exact ⟨by linarith [h5.1], by linarith [h5.2]⟩
    · rw [← g8, hdisp]
      exact hyb

end TM
end Audi
