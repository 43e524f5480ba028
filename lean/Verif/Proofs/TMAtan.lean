import Verif.Proofs.TMInverse
import Verif.Proofs.TMPower

/-!
# Proofs: inverse tangent of Taylor models
-/

namespace Audi
namespace TM
open MvPolynomial Spec

variable {a : TM ℝ} {ord : List String → List String}

/-- `p` has the variables, maps and order of `a`, and the remainder {0}. -/
structure Like (a p : TM ℝ) : Prop where
  wf : p.WF
  order : p.order = a.order
  exp : p.exp = a.exp
  dom : p.dom = a.dom
  syms : p.tpol.p.syms = a.tpol.p.syms
  rem : p.rem = ⟨0, 0⟩

theorem Like.inDom {p : TM ℝ} (h : Like a p) (x : String → ℝ) : p.InDom x ↔ a.InDom x := inDom_congr h.dom x

theorem Like.polyAt {p : TM ℝ} (h : Like a p) (x : String → ℝ) : p.polyAt x = eval (displacement a.exp x) (p.tpol.toMv ()) := by
  unfold TM.polyAt
  rw [h.exp]

theorem Like.allows {p : TM ℝ} (h : Like a p) (x : String → ℝ) : p.Allows x (p.polyAt x) := by
  unfold Allows
  rw [sub_self, h.rem]
  exact ⟨le_rfl, le_rfl⟩

theorem mul_zero_itv (s : ℝ) : (Itv.point s).mul (⟨0, 0⟩ : Itv ℝ) = ⟨0, 0⟩ := by
  simp [Itv.mul, Itv.point]

/-- Numerator and denominator of the argument of the remainder in `atan`. -/
theorem atan_start (ha : a.WF) (hrem : a.rem = ⟨0, 0⟩) (c : ℝ) : ∃ bar m d, subTS a c = .ok bar ∧ mulST c a = .ok m ∧ addST 1 m = .ok d ∧
    Like a bar ∧ Like a d ∧ (bar.tpol.toMv () : MvPolynomial String ℝ) = a.tpol.toMv () - C c ∧
    (d.tpol.toMv () : MvPolynomial String ℝ) = 1 + C c * a.tpol.toMv () := by
  have hS := ha.valid.wf.sorted
  have v1 : (a.tpol.subGS c).Valid := GDual.Valid.subGS (ι := Unit) (K := ℝ) c ha.valid
  obtain ⟨bar, b1, b2, b3, b4, b5, b6, b7⟩ := remake ha v1 rfl (rem := a.rem) ha.rem
  have v2 : (GDual.mulSG c a.tpol).Valid := GDual.Valid.mulSG c ha.valid
  have s2 : (GDual.mulSG c a.tpol).p.syms = a.tpol.p.syms := GDual.HasSyms.mulSG hS (a := a.tpol) rfl c
  obtain ⟨m, m1, m2, m3, m4, m5, m6, m7⟩ := remake ha v2 s2 (rem := (Itv.point c).mul a.rem) (by rw [hrem, mul_zero_itv])
  have v3 : (GDual.addSG 1 m.tpol).Valid := GDual.Valid.addSG 1 m2.valid
  have s3 : (GDual.addSG 1 m.tpol).p.syms = m.tpol.p.syms := GDual.HasSyms.addSG m2.valid.wf.sorted (a := m.tpol) rfl 1
  obtain ⟨d, d1, d2, d3, d4, d5, d6, d7⟩ := remake m2 v3 s3 (rem := m.rem) m2.rem
  refine ⟨bar, m, d, b1, m1, d1, ⟨b2, ?_, b6, b7, by rw [b4]; rfl, by rw [b5, hrem]⟩,
    ⟨d2, ?_, by rw [d6, m6], by rw [d7, m7], by rw [d4, s3, m4, s2], by rw [d5, m5, hrem, mul_zero_itv]⟩, ?_, ?_⟩
  · rw [b3, ha.order]
    rfl
  · rw [d3, ha.order]
    change max 0 m.tpol.order = _
    rw [m4, GDual.order_mulSG]
    exact Nat.zero_max _
  · rw [b4, GDual.toMv_subGS c ha.valid]
    rfl
  · rw [d4, GDual.toMv_addSG 1 m2.valid, m4, GDual.toMv_mulSG c ha.valid]
    change C (1 : ℝ) + C c * _ = _
    rw [C_1]

theorem atan_rem_mem {G : Itv ℝ} {y θ : ℝ} (hy : InItv G y) (h0 : 0 ≤ θ) (h1 : θ ≤ 1) (k : ℕ) :
    InItv (atanRem G k) (atanD (k + 1) (θ * y) / (k + 1).factorial * y ^ (k + 1)) := by
  have hA := Itv.mem_ratan (Itv.mem_mul (show InItv (⟨0, 1⟩ : Itv ℝ) θ from ⟨h0, h1⟩) hy)
  have := Itv.mem_mul (Itv.mem_mul (Itv.mem_mul (Itv.mem_point (1 / (k + 1 : ℝ))) (Itv.mem_pow hy (k + 1))) (Itv.mem_pow (Itv.mem_rcos hA) (k + 1)))
    (Itv.mem_rsin (Itv.mem_mul (Itv.mem_point (k + 1 : ℝ)) (Itv.mem_add hA (Itv.mem_point (Real.pi / 2)))))
  unfold atanRem
  simp only
  have e : atanD (k + 1) (θ * y) / (k + 1).factorial * y ^ (k + 1) =
      1 / (k + 1 : ℝ) * y ^ (k + 1) * Real.cos (Real.arctan (θ * y)) ^ (k + 1) * Real.sin ((k + 1 : ℝ) * (Real.arctan (θ * y) + Real.pi / 2)) := by
    simp only [atanD]
    rw [Nat.factorial_succ]
    push_cast
    have : (k.factorial : ℝ) ≠ 0 := Nat.cast_ne_zero.2 k.factorial_ne_zero
    field_simp
  rw [e]
  exact this

/-- `atan` of a Taylor model whose polynomial has degree 1 and no constant term. -/
theorem ratan_sound (ha : a.WF) (h1 : 1 ≤ a.order) (h30 : a.order ≤ 30) (ho : Faithful ord (a.tpol.p.syms.map varName))
    (hlin : DegLE 1 (a.tpol.toMv () : MvPolynomial String ℝ)) (hrem : a.rem = ⟨0, 0⟩) (hc : coeff 0 (a.tpol.toMv () : MvPolynomial String ℝ) = 0)
    (hnz : (a.tpol.toMv () : MvPolynomial String ℝ) ≠ 0) : Sound₁ a (ratan ord a) fun y z => z = Real.arctan y := by
  obtain ⟨c, c1⟩ := GDual.constantCf_isOk a.tpol
  have c2 : c = 0 := by
    have := GDual.lane_constantCf (ι := Unit) (K := ℝ) ha.valid c1 ()
    rw [hc] at this
    exact this
  subst c2
  obtain ⟨bar, m, d, b1, b2, b3, lb, ld, pb, pd⟩ := atan_start ha hrem (0 : ℝ)
  rw [C_0, sub_zero] at pb
  rw [C_0, zero_mul, add_zero] at pd
  have hd1 : ∀ x, d.polyAt x = 1 := fun x => by
    rw [ld.polyAt, pd, map_one]
  have hdeg1 : DegLE 1 (1 : MvPolynomial String ℝ) := by
    intro e he
    rw [coeff_one, if_neg]
    rintro rfl
    simp at he
  obtain ⟨inv, i1, i2, i3, i4, i5, i6, i7, i8, i9⟩ := divST_parts (ord := ord) ld.wf (by rw [ld.order]; omega)
    (ho _ (by rw [ld.syms]; exact ha.nodup) (by rw [ld.syms]; exact fun _ h => h)) ld.rem (by rw [pd]; exact hdeg1)
    (fun x _ => by rw [hd1]; exact one_ne_zero) zero_le_one le_rfl
  have ioe : inv.tpol.order = d.tpol.order := by rw [← i2.order, i3, ld.wf.order]
  have hfa : ∀ l : List String, l.Nodup → (∀ v ∈ l, v ∈ bar.tpol.p.syms.map varName ∨ v ∈ inv.tpol.p.syms.map varName) → ord l = l :=
    fun l h2 h3 => ho l h2 fun v hv => by
      rcases h3 v hv with h | h
      · rwa [lb.syms] at h
      · rwa [i8, ld.syms] at h
  have hinv : (inv.tpol.toMv () : MvPolynomial String ℝ) = 1 := by
    refine EqUpTo.eq_of_degLE (m := d.tpol.order) ?_ (ioe ▸ i2.valid.degLE (ι := Unit) (K := ℝ) ()) ?_
    · rw [pd, mul_one, C_1] at i9
      exact i9
    · exact fun e he => hdeg1 e (by have := ld.wf.order; have := ld.order; omega)
  obtain ⟨ad, q1, q2, q3, q4, q5, q6, q7, q8, q9⟩ := mul_parts (ord := ord) lb.wf i2
    (compatible_of_sub i2 (by rw [lb.exp, i6, ld.exp]; exact fun _ h => h) (by rw [lb.dom, i7, ld.dom]; exact fun _ h => h)) (by rw [pb]; exact hnz) (by rw [hinv]; exact one_ne_zero)
    (by rw [lb.order]; omega) (by rw [lb.order, i3, ld.order]; omega) (fun l h2 h3 => hfa l h2 fun v hv => List.mem_append.1 (h3 hv)) (.inr fun m hm => by
      rw [pb, hinv, mul_one]
      rw [lb.order] at hm
      exact hlin m (by have := le_max_left a.order inv.order; omega))
  obtain ⟨B, e1, e2, e3⟩ := bounds_encloses (ord := ord) q2 (by rw [q3, lb.order, i3, ld.order]; omega) (hfa _ q2.nodup fun v hv => by
    obtain ⟨s, hs, rfl⟩ := List.mem_map.1 hv
    exact (q7 s hs).imp (List.mem_map_of_mem) (List.mem_map_of_mem))
  obtain ⟨p, p1, p2⟩ := GDual.atanWith_lift (ι := Unit) (C := ℝ) (bin := GDual.binomialU32) ha.valid fun k _ hk => GDual.binomialU32_eq (hk.trans (ha.order ▸ h30))
  have hs : p.p.syms = a.tpol.p.syms := GDual.HasSyms.atanWith ha.valid.wf.sorted (d := a.tpol) rfl (ha.order ▸ h1) p1
  have hdiv : div ord bar d = .ok ad := by
    unfold div
    rw [bind_ok i1, q1]
  have hp : a.tpol.atan = .ok p := p1
  unfold ratan
  rw [bind_ok c1, bind_ok b1, bind_ok b2, bind_ok b3, bind_ok hdiv, bind_ok (show getBounds ord ad.tpol ad.exp ad.dom = .ok B from e1), bind_ok hp]
  refine func_sound derivs_arctan isOpen_univ Set.ordConnected_univ ha hlin (.inl hrem) hc trivial (fun _ _ _ _ => trivial) p2 hs ?_
  intro x hx y hy θ h0 h1'
  have hyP : y = a.polyAt x := by
    unfold Allows at hy
    rw [hrem] at hy
    exact sub_eq_zero.1 (le_antisymm hy.2 hy.1)
  have hG : InItv (B.add ad.rem) y := by
    have hx1 := (lb.inDom x).2 hx
    have hx2 := (i4 x).2 ((ld.inDom x).2 hx)
    have hz := i5 x ((ld.inDom x).2 hx) 1 1 (by have := ld.allows x; rwa [hd1] at this) (by norm_num)
    have hprod := q5 x hx1 hx2 _ _ (lb.allows x) hz
    have hadd := Itv.mem_add (e3 x (q4 x hx1 hx2)) hprod
    rw [mul_one, add_sub_cancel, lb.polyAt, pb] at hadd
    rw [hyP]
    exact hadd
  rw [zero_add, sub_zero, show a.tpol.getOrder = a.order from ha.order.symm]
  exact atan_rem_mem hG h0 h1' _

end TM
end Audi
