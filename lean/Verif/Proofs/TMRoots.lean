import Verif.Proofs.TMFunctions

/-!
# Proofs: logarithm and roots of Taylor models
-/

namespace Audi

open MvPolynomial Spec

namespace TM

variable {a : TM ℝ} {ord : List String → List String}

/-- The maps trimmed to the symbols of the polynomial itself are the same maps, possibly in another order. -/
theorem retrim {K : Type} [Field K] [LinearOrder K] {a : TM K} (ha : a.WF) {p : GDual K} (hp : p.Valid) (hs : p.p.syms = a.tpol.p.syms) :
    ∃ ne nd, trimMap p.symbolSet a.exp = .ok ne ∧ trimMap p.symbolSet a.dom = .ok nd ∧
      (∀ x, ∀ s ∈ a.tpol.p.syms, displacement ne x s = displacement a.exp x s) ∧
      ∀ rem : Itv K, rem.lo ≤ rem.hi → ∃ r : TM K, make p rem ne nd = .ok r ∧ r.WF ∧ r.order = p.order ∧ r.tpol = p ∧ r.rem = rem ∧
        r.exp = ne ∧ ∀ x, r.InDom x ↔ a.InDom x := by
  have hn : ∀ s ∈ p.p.syms, ∃ v, s = "d" ++ v := by rw [hs]; exact ha.names
  have hnd := nodup_varNames hp.wf.ndsyms hn
  have he : ∀ v ∈ p.p.syms.map varName, v ∈ a.exp.keys := fun v h => ha.expKeys.mem_iff.2 (by rwa [hs] at h)
  have hd : ∀ v ∈ p.p.syms.map varName, v ∈ a.dom.keys := fun v h => ha.domKeys.mem_iff.2 (by rwa [hs] at h)
  refine ⟨_, _, trimMap_ok hnd he, trimMap_ok hnd hd, fun x s h => ?_, fun rem hr => ?_⟩
  · unfold displacement
    rw [VMap.lookup_pick (show varName s ∈ p.symbolSet from List.mem_map_of_mem (by rwa [hs]))]
  · have hP : Parts p rem (VMap.pick p.symbolSet a.exp) (VMap.pick p.symbolSet a.dom) := by
      refine ⟨hp, hn, ?_, ?_, ?_, hr⟩
      · rw [symbolSet_eq, VMap.keys_pick he]
      · rw [symbolSet_eq, VMap.keys_pick hd]
      · rintro ⟨v, I⟩ hm
        obtain ⟨h1, h2⟩ := VMap.mem_pick.1 hm
        obtain ⟨J, x, h3, h4, h5⟩ := ha.lookup (v := v) (by rw [symbolSet_eq, hs] at h1; exact h1)
        rw [h2] at h3
        obtain rfl := Option.some.inj h3
        exact ⟨x, VMap.mem_pick.2 ⟨h1, h4⟩, h5⟩
    refine ⟨_, (make_wf hP).1, (make_wf hP).2, rfl, rfl, rfl, rfl, fun x => ?_⟩
    rw [inDom_make hP, inDom_iff ha, hs]
    refine forall_congr' fun v => ⟨fun h hv I hI => h hv I ?_, fun h hv I hI => h hv I ?_⟩
    · rw [VMap.lookup_pick (by rw [symbolSet_eq, hs]; exact hv)]
      exact hI
    · rwa [VMap.lookup_pick (by rw [symbolSet_eq, hs]; exact hv)] at hI

/-- `1 + (B / c) * [0, 1]` where the range is positive. -/
theorem ratio_ok {c : ℝ} (hc : 0 < c) {B : Itv ℝ} (hB : ∀ t, t = B.lo ∨ t = B.hi → 0 < c + t) :
    ∃ q, sdiv B c = .ok q ∧ 0 < ((Itv.point 1).add (q.mul ⟨0, 1⟩)).lo ∧
      ∀ u θ, InItv B u → 0 ≤ θ → θ ≤ 1 → InItv ((Itv.point 1).add (q.mul ⟨0, 1⟩)) (1 + u / c * θ) := by
  obtain ⟨q, q1, q2, q3⟩ := sdiv_ok B hc.ne'
  have hend : ∀ t, t = q.lo ∨ t = q.hi → 0 < 1 + t := fun t ht => by
    have : ∀ b, 0 < c + b → 0 < 1 + b / c := fun b hb => by
      have e : 1 + b / c = (c + b) / c := by field_simp
      rw [e]
      exact div_pos hb hc
    rcases q3 t ht with h | h
    · rw [h]; exact this _ (hB _ (.inl rfl))
    · rw [h]; exact this _ (hB _ (.inr rfl))
  refine ⟨q, q1, ?_, fun u θ hu h0 h1 => Itv.mem_add (Itv.mem_point 1) (Itv.mem_mul (q2 u hu) ⟨h0, h1⟩)⟩
  change 0 < 1 + (q.mul ⟨0, 1⟩).lo
  rcases mul_lo_mem q ⟨0, 1⟩ with h | h | h | h <;> rw [h]
  · simp
  · simpa using hend _ (.inl rfl)
  · simp
  · simpa using hend _ (.inr rfl)

theorem pow_lo_pos {I : Itv ℝ} (h : 0 < I.lo) (n : ℕ) : 0 < (I.pow n).lo := by
  unfold Itv.pow
  split_ifs <;> first | exact zero_lt_one | exact pow_pos h n | skip
  all_goals exact absurd h.le ‹_›

theorem requireAbove_ok {b : Itv ℝ} {l : ℝ} (hb : a.bounds ord = .ok b) (h : l ≤ (b.add a.rem).lo) : requireAbove ord a l = .ok () := by
  unfold requireAbove
  rw [bind_ok hb, if_pos h]

theorem requireAbove_error {b : Itv ℝ} {l : ℝ} (hb : a.bounds ord = .ok b) (h : (b.add a.rem).lo < l) :
    requireAbove ord a l = .error .runtimeError := by
  unfold requireAbove
  rw [bind_ok hb, if_neg (not_le.2 h)]

/-! ### Derivatives -/

/-- The derivatives of the logarithm. -/
noncomputable def logD : ℕ → ℝ → ℝ
  | 0 => Real.log
  | j + 1 => fun t => (-1) ^ j * j.factorial / t ^ (j + 1)

theorem derivs_log : Derivs (Set.Ioi 0) logD := by
  rintro (_ | j) t ht
  · refine (Real.hasDerivAt_log (ne_of_gt ht)).congr_deriv ?_
    simp [logD]
  · have ht0 : t ≠ 0 := ne_of_gt ht
    have h1 : HasDerivAt (fun t : ℝ => t ^ (j + 1)) ((j + 1 : ℕ) * t ^ j) t := by
      simpa using hasDerivAt_pow (j + 1) t
    have h2 := (h1.fun_inv (pow_ne_zero _ ht0)).const_mul ((-1) ^ j * (j.factorial : ℝ))
    have h3 : (logD (j + 1)) = fun t => (-1) ^ j * (j.factorial : ℝ) * (t ^ (j + 1))⁻¹ := by
      funext s
      simp [logD, div_eq_mul_inv]
    rw [h3]
    refine h2.congr_deriv ?_
    simp only [logD]
    rw [Nat.factorial_succ]
    push_cast
    field_simp
    ring

/-- `α (α - 1) ⋯ (α - j + 1)`. -/
noncomputable def fall (α : ℝ) : ℕ → ℝ
  | 0 => 1
  | j + 1 => fall α j * (α - j)

theorem derivs_rpow (α : ℝ) : Derivs (Set.Ioi 0) fun j t => fall α j * t ^ (α - j) := by
  intro j t ht
  have h := (Real.hasDerivAt_rpow_const (x := t) (p := α - j) (Or.inl (ne_of_gt ht))).const_mul (fall α j)
  refine h.congr_deriv ?_
  simp only [fall]
  push_cast
  rw [show α - ((j : ℝ) + 1) = α - j - 1 by ring]
  ring

theorem fact2Loop_odd (k : ℕ) : fact2Loop (2 * (k + 1) - 1) = (2 * (k + 1) - 1) * fact2Loop (2 * k - 1) := by
  cases k with
  | zero => rfl
  | succ k =>
    rw [show 2 * (k + 1 + 1) - 1 = (2 * k + 1) + 2 by omega, show 2 * (k + 1) - 1 = 2 * k + 1 by omega]
    rfl

theorem fall_half (k : ℕ) : fall (1 / 2) (k + 1) = (-1) ^ k * fact2Loop (2 * k - 1) / 2 ^ (k + 1) := by
  induction k with
  | zero => simp [fall, fact2Loop]
  | succ k ih =>
    rw [fall, ih, fact2Loop_odd, show 2 * (k + 1) - 1 = 2 * k + 1 by omega]
    push_cast
    field_simp
    ring

theorem fall_neg_half (k : ℕ) : fall (-(1 / 2)) (k + 1) = (-1) ^ (k + 1) * fact2Loop (2 * k + 1) / 2 ^ (k + 1) := by
  induction k with
  | zero => simp [fall, fact2Loop]; norm_num
  | succ k ih =>
    have e : fact2Loop (2 * (k + 1) + 1) = (2 * k + 3) * fact2Loop (2 * k + 1) := rfl
    rw [fall, ih, e]
    push_cast
    field_simp
    ring

theorem fact2_sqrt {k : ℕ} (h : k ≤ 17) : fact2 (2 * k - 1) = .ok (fact2Loop (2 * k - 1)) := by
  revert k
  decide +kernel

theorem fact2_isqrt {k : ℕ} (h : k ≤ 16) : fact2 (2 * k + 1) = .ok (fact2Loop (2 * k + 1)) := by
  revert k
  decide +kernel

theorem fact2Loop_big (k : ℕ) : 2 ^ 63 ≤ fact2Loop (2 * (k + 18) - 1) := by
  induction k with
  | zero => decide +kernel
  | succ k ih =>
    rw [show 2 * (k + 1 + 18) - 1 = 2 * ((k + 18) + 1) - 1 by omega, fact2Loop_odd]
    exact ih.trans (Nat.le_mul_of_pos_left _ (by omega))

theorem fact2_overflow {k : ℕ} (h : 18 ≤ k) (h' : k < 2 ^ 30) : fact2 (2 * k - 1) = .error .undefinedBehaviour := by
  have e : (toInt32 (2 * (k : ℤ) - 1)).toNat = 2 * k - 1 := by
    unfold toInt32
    omega
  unfold fact2
  simp only
  rw [e, if_neg]
  obtain ⟨j, rfl⟩ := Nat.exists_eq_add_of_le' h
  exact not_lt.2 (fact2Loop_big j)

theorem rpow_half_split {c v : ℝ} (hc : 0 < c) (hv : 0 < v) (k : ℕ) :
    (c * v) ^ ((1 / 2 : ℝ) - (k + 1 : ℕ)) = √c / c ^ (k + 1) * (1 / √(v ^ (2 * k + 1))) := by
  rw [Real.rpow_sub_natCast (mul_pos hc hv).ne', ← Real.sqrt_eq_rpow, Real.sqrt_mul hc.le, mul_pow]
  have h1 : √(v ^ (2 * k + 1)) = v ^ k * √v := by
    rw [show v ^ (2 * k + 1) = (v ^ k) ^ 2 * v by ring, Real.sqrt_mul (by positivity), Real.sqrt_sq (by positivity)]
  rw [h1]
  have h2 : √v * √v = v := Real.mul_self_sqrt hv.le
  have h3 : √v ≠ 0 := (Real.sqrt_pos.2 hv).ne'
  field_simp
  rw [show √v ^ 2 = v by rw [sq, h2]]
  ring

theorem rpow_neg_half_split {c v : ℝ} (hc : 0 < c) (hv : 0 < v) (k : ℕ) :
    (c * v) ^ (-(1 / 2 : ℝ) - (k + 1 : ℕ)) = (√c)⁻¹ / c ^ (k + 1) * (1 / √(v ^ (2 * k + 3))) := by
  rw [Real.rpow_sub_natCast (mul_pos hc hv).ne', Real.rpow_neg (mul_pos hc hv).le, ← Real.sqrt_eq_rpow, Real.sqrt_mul hc.le, mul_pow]
  have h1 : √(v ^ (2 * k + 3)) = v ^ (k + 1) * √v := by
    rw [show v ^ (2 * k + 3) = (v ^ (k + 1)) ^ 2 * v by ring, Real.sqrt_mul (by positivity), Real.sqrt_sq (by positivity)]
  rw [h1]
  have h3 : √v ≠ 0 := (Real.sqrt_pos.2 hv).ne'
  have h4 : √c ≠ 0 := (Real.sqrt_pos.2 hc).ne'
  field_simp

/-! ### Soundness -/

section
variable (ha : a.WF) (h62 : a.order ≤ 62) (ho : ord (a.tpol.p.syms.map varName) = a.tpol.p.syms.map varName)
  (hlin : DegLE 1 (a.tpol.toMv () : MvPolynomial String ℝ))
include ha h62 ho hlin

/-- What logarithm and roots compute first, if all values are positive. -/
theorem prologue_pos (hc : 0 < a.polyAt a.expPoint) (hpos : ∀ x, a.InDom x → ∀ y, a.Allows x y → 0 < y) :
    ∃ c B q, prologue ord a = .ok (c, B, a.order) ∧ coeff 0 (a.tpol.toMv () : MvPolynomial String ℝ) = c ∧ 0 < c ∧ requireAbove ord a 0 = .ok () ∧
      (InItv a.rem 0 → InItv B 0) ∧ (∀ x, a.InDom x → ∀ y, a.Allows x y → InItv B (y - c)) ∧ sdiv B c = .ok q ∧
      0 < ((Itv.point 1).add (q.mul ⟨0, 1⟩)).lo ∧
      ∀ u θ, InItv B u → 0 ≤ θ → θ ≤ 1 → InItv ((Itv.point 1).add (q.mul ⟨0, 1⟩)) (1 + u / c * θ) := by
  obtain ⟨c, B, b, h1, -, h3, h4, -, h6, h7, h8⟩ := prologue_ok ha h62 ho
  have hc0 : 0 < c := by rw [← h3, ← polyAt_expPoint]; exact hc
  obtain ⟨q, q1, q2, q3⟩ := ratio_ok hc0 (B := B) fun t ht => by
    obtain ⟨x, y, e1, e2, e3⟩ := (h8 hlin).1 t ht
    rw [← e3]
    exact hpos x e1 y e2
  refine ⟨c, B, q, h1, h3, hc0, requireAbove_ok h4 ?_, h6, fun x hx y hy => (h7 x hx y hy).1, q1, q2, q3⟩
  obtain ⟨x, y, e1, e2, e3⟩ := (h8 hlin).2 _ (.inl rfl)
  rw [← e3]
  exact (hpos x e1 y e2).le

theorem rlog_sound (hsimple : a.rem = ⟨0, 0⟩ ∨ a.order = 0) (hc : 0 < a.polyAt a.expPoint)
    (hpos : ∀ x, a.InDom x → ∀ y, a.Allows x y → 0 < y) : Sound₁ a (rlog ord a) fun y z => z = Real.log y := by
  obtain ⟨c, B, q, h1, h2, hc0, h3, -, h5, q1, q2, q3⟩ := prologue_pos ha h62 ho hlin hc hpos
  set k := a.order with hk
  obtain ⟨num, n1, n2, -⟩ := sdiv_ok ((Itv.point ((-1) ^ (k + 2) * (1 / (k + 1 : ℝ)))).mul (B.pow (k + 1))) (pow_ne_zero (k + 1) hc0.ne')
  have hz : ((Itv.point 1).add (q.mul ⟨0, 1⟩)).zeroIn = false := Itv.zeroIn_false_iff.2 (.inl q2)
  have hden : ∃ den, (Itv.point 1).div ((Itv.point 1).add (q.mul ⟨0, 1⟩)) = .ok den ∧
      ∀ v, InItv ((Itv.point 1).add (q.mul ⟨0, 1⟩)) v → InItv den (1 / v) := by
    unfold Itv.div
    rw [Itv.inv_ok hz]
    refine ⟨_, rfl, fun v hv => ?_⟩
    rw [div_eq_mul_inv]
    exact Itv.mem_mul (Itv.mem_point 1) (Itv.mem_inv hz hv)
  obtain ⟨den, d1, d2⟩ := hden
  obtain ⟨p, p1, p2⟩ := (GDual.computes_log (C := ℝ) (ι := Unit)).lift a.tpol ha.valid fun i => by rw [h2]; exact hc0
  have hs : p.p.syms = a.tpol.p.syms := GDual.HasSyms.log ha.valid.wf.sorted (d := a.tpol) rfl p1
  unfold rlog
  rw [bind_ok h3, bind_ok h1]
  simp only
  rw [bind_ok n1, bind_ok q1, bind_ok d1, bind_ok p1]
  refine func_sound derivs_log isOpen_Ioi Set.ordConnected_Ioi ha hlin hsimple h2 hc0 (fun x hx y hy => hpos x hx y hy) p2 hs ?_
  intro x hx y hy θ h0 h1'
  have hu := h5 x hx y hy
  have hv := q3 _ θ hu h0 h1'
  have hv0 : 0 < 1 + (y - c) / c * θ := q2.trans_le hv.1
  have := Itv.mem_mul (n2 _ (Itv.mem_mul (Itv.mem_point ((-1) ^ (k + 2) * (1 / (k + 1 : ℝ)))) (Itv.mem_pow hu (k + 1))))
    (Itv.mem_pow (d2 _ hv) (k + 1))
  rw [show logD (k + 1) (c + θ * (y - c)) / (k + 1).factorial * (y - c) ^ (k + 1) =
      (-1) ^ (k + 2) * (1 / (k + 1 : ℝ)) * (y - c) ^ (k + 1) / c ^ (k + 1) * (1 / (1 + (y - c) / c * θ)) ^ (k + 1) from ?_]
  · exact this
  · have e : c + θ * (y - c) = c * (1 + (y - c) / c * θ) := by field_simp
    rw [e]
    simp only [logD]
    generalize 1 + (y - c) / c * θ = v at hv0
    rw [Nat.factorial_succ, mul_pow, one_div_pow]
    push_cast
    have hf : (k.factorial : ℝ) ≠ 0 := by exact_mod_cast k.factorial_ne_zero
    field_simp
    ring

omit h62 ho in
/-- The part that both roots share. -/
theorem root_sound (hsimple : a.rem = ⟨0, 0⟩ ∨ a.order = 0) {α : ℚ} (hα : α.den ≠ 1) (hα' : -2147483649 < α ∧ α < 2147483648)
    (hc : 0 < a.polyAt a.expPoint) (hpos : ∀ x, a.InDom x → ∀ y, a.Allows x y → 0 < y) {c : ℝ}
    (h2 : coeff 0 (a.tpol.toMv () : MvPolynomial String ℝ) = c) {J : Itv ℝ}
    (hJ : ∀ x, a.InDom x → ∀ y, a.Allows x y → ∀ θ : ℝ, 0 ≤ θ → θ ≤ 1 →
      InItv J (fall α (a.order + 1) * (c + θ * (y - c)) ^ ((α : ℝ) - (a.order + 1 : ℕ)) / (a.order + 1).factorial * (y - c) ^ (a.order + 1))) :
    Sound₁ a (do
      let p ← a.tpol.powQ α
      let ne ← trimMap p.symbolSet a.exp
      let nd ← trimMap p.symbolSet a.dom
      make p J ne nd) fun y z => z = y ^ (α : ℝ) := by
  have hc0 : 0 < c := by rw [← h2, ← polyAt_expPoint]; exact hc
  obtain ⟨p, p1, p2⟩ := GDual.powQ_series_lift (C := ℝ) (ι := Unit) ha.valid hα' (fun h => hα h.1) fun i => Or.inl (by rw [h2]; exact hc0)
  have hs : p.p.syms = a.tpol.p.syms := GDual.HasSyms.powQ ha.valid.wf.sorted (d := a.tpol) rfl p1
  obtain ⟨ne, nd, t1, t2, t3, t4⟩ := retrim ha p2.valid hs
  obtain ⟨r, r1, r2, r3, r4, r5, r6, r7⟩ := t4 J (lo_le_hi_of_values ha fun x hx y hy => hJ x hx y hy 0 le_rfl zero_le_one)
  have p2' : IsLift (fun _ : Unit => (fun j (t : ℝ) => fall (α : ℝ) j * t ^ ((α : ℝ) - j)) 0) a.tpol p := by
    simpa [fall] using p2
  refine ⟨r, ?_, r2, by rw [r3, p2.order, ha.order], r7, fun x hx y z hy hz => ?_⟩
  · rw [bind_ok p1, bind_ok t1, bind_ok t2, r1]
  · have hz' : z = y ^ (α : ℝ) := hz
    unfold Allows polyAt
    rw [r4, r5, r6, hz']
    have := func_allows (derivs_rpow α) isOpen_Ioi Set.ordConnected_Ioi ha hlin hsimple h2 hc0 (fun x hx y hy => hpos x hx y hy) p2' hs hJ
      (t3 x) hx hy
    simpa [fall] using this

theorem powHalf_sound (h17 : a.order ≤ 17) (hsimple : a.rem = ⟨0, 0⟩ ∨ a.order = 0) (hc : 0 < a.polyAt a.expPoint)
    (hpos : ∀ x, a.InDom x → ∀ y, a.Allows x y → 0 < y) : Sound₁ a (powHalf ord a) fun y z => z = √y := by
  obtain ⟨c, B, q, h1, h2, hc0, h3, -, h5, q1, q2, q3⟩ := prologue_pos ha h62 ho hlin hc hpos
  set k := a.order with hk
  set V := (Itv.point 1).add (q.mul ⟨0, 1⟩) with hV
  have hVp := pow_lo_pos q2 (2 * k + 1)
  have hhi : ∀ v, InItv V v → ¬ (V.pow (2 * k + 1)).hi < 0 := fun v hv => not_lt.2 (by
    have := Itv.mem_pow hv (2 * k + 1)
    exact hVp.le.trans (this.1.trans this.2))
  obtain ⟨x0, y0, hx0, hy0⟩ : ∃ x y, a.InDom x ∧ a.Allows x y := ⟨_, a.polyAt a.expPoint + a.rem.lo, expPoint_inDom ha, by
    unfold Allows; rw [add_sub_cancel_left]; exact ⟨le_rfl, ha.rem⟩⟩
  have hv0 := q3 _ 0 (h5 x0 hx0 y0 hy0) le_rfl zero_le_one
  have e1 : (V.pow (2 * k + 1)).rsqrt = .ok ⟨√(V.pow (2 * k + 1)).lo, √(V.pow (2 * k + 1)).hi⟩ := if_neg (hhi _ hv0)
  have hz : (⟨√(V.pow (2 * k + 1)).lo, √(V.pow (2 * k + 1)).hi⟩ : Itv ℝ).zeroIn = false :=
    Itv.zeroIn_false_iff.2 (.inl (Real.sqrt_pos.2 hVp))
  obtain ⟨num, n1, n2, -⟩ := sdiv_ok (smul ((-1) ^ k * √c * (fact2Loop (2 * k - 1) : ℕ) / ((k + 1).factorial * 2 ^ (k + 1))) (B.pow (k + 1)))
    (pow_ne_zero (k + 1) hc0.ne')
  have hrem : ∃ R, (num.mul (Itv.point 1)).div ⟨√(V.pow (2 * k + 1)).lo, √(V.pow (2 * k + 1)).hi⟩ = .ok R ∧
      ∀ w v, InItv num w → InItv V v → InItv R (w * 1 * (√(v ^ (2 * k + 1)))⁻¹) := by
    unfold Itv.div
    rw [Itv.inv_ok hz]
    refine ⟨_, rfl, fun w v hw hv => Itv.mem_mul (Itv.mem_mul hw (Itv.mem_point 1)) (Itv.mem_inv hz ?_)⟩
    have := Itv.mem_pow hv (2 * k + 1)
    exact ⟨Real.sqrt_le_sqrt this.1, Real.sqrt_le_sqrt this.2⟩
  obtain ⟨R, R1, R2⟩ := hrem
  unfold powHalf
  rw [bind_ok h1]
  simp only
  rw [bind_ok h3, bind_ok q1, bind_ok e1, bind_ok (fact2_sqrt h17), bind_ok (factorial_ok (by omega : k + 1 ≤ 170)), bind_ok n1, bind_ok R1]
  have := root_sound ha hlin hsimple (α := 1 / 2) (by decide +kernel) (by norm_num) hc hpos h2 (J := R) ?_
  · obtain ⟨r, s1, s2, s3, s4, s5⟩ := this
    refine ⟨r, s1, s2, s3, s4, fun x hx y z hy hz => s5 x hx y z hy ?_⟩
    change z = y ^ (((1 / 2 : ℚ)) : ℝ)
    rw [show z = √y from hz, Real.sqrt_eq_rpow]
    norm_num
  · intro x hx y hy θ h0 h1'
    have hu := h5 x hx y hy
    have hv := q3 _ θ hu h0 h1'
    have hvp : 0 < 1 + (y - c) / c * θ := q2.trans_le hv.1
    have := R2 _ _ (n2 _ (Itv.mem_mul (Itv.mem_point _) (Itv.mem_pow hu (k + 1)))) hv
    rw [show (fall ((1 / 2 : ℚ) : ℝ) (k + 1) * (c + θ * (y - c)) ^ (((1 / 2 : ℚ) : ℝ) - (k + 1 : ℕ)) / (k + 1).factorial * (y - c) ^ (k + 1)) =
      (-1) ^ k * √c * (fact2Loop (2 * k - 1) : ℕ) / ((k + 1).factorial * 2 ^ (k + 1)) * (y - c) ^ (k + 1) / c ^ (k + 1) * 1 *
        (√((1 + (y - c) / c * θ) ^ (2 * k + 1)))⁻¹ from ?_]
    · exact this
    · have e : c + θ * (y - c) = c * (1 + (y - c) / c * θ) := by field_simp
      rw [e, show ((1 / 2 : ℚ) : ℝ) = 1 / 2 by norm_num, rpow_half_split hc0 hvp, fall_half]
      ring

theorem powMinusHalf_sound (h16 : a.order ≤ 16) (hrem0 : a.rem = ⟨0, 0⟩) (hc : 0 < a.polyAt a.expPoint)
    (hpos : ∀ x, a.InDom x → ∀ y, a.Allows x y → 0 < y) : Sound₁ a (powMinusHalf ord a) fun y z => z = 1 / √y := by
  obtain ⟨c, B, q, h1, h2, hc0, h3, h4, h5, q1, q2, q3⟩ := prologue_pos ha h62 ho hlin hc hpos
  have hB0 : InItv B 0 := h4 (by rw [hrem0]; exact ⟨le_rfl, le_rfl⟩)
  set k := a.order with hk
  set V := (Itv.point 1).add (q.mul ⟨0, 1⟩) with hV
  have hVp := pow_lo_pos q2 (2 * k + 3)
  have hhi : ∀ v, InItv V v → ¬ (V.pow (2 * k + 3)).hi < 0 := fun v hv => not_lt.2 (by
    have := Itv.mem_pow hv (2 * k + 3)
    exact hVp.le.trans (this.1.trans this.2))
  have hv0 := q3 _ 0 hB0 le_rfl zero_le_one
  have e1 : (V.pow (2 * k + 3)).rsqrt = .ok ⟨√(V.pow (2 * k + 3)).lo, √(V.pow (2 * k + 3)).hi⟩ := if_neg (hhi _ hv0)
  have hz : (⟨√(V.pow (2 * k + 3)).lo, √(V.pow (2 * k + 3)).hi⟩ : Itv ℝ).zeroIn = false :=
    Itv.zeroIn_false_iff.2 (.inl (Real.sqrt_pos.2 hVp))
  obtain ⟨num, n1, n2, -⟩ := sdiv_ok (smul ((-1) ^ (k + 1) * (√c)⁻¹ * (fact2Loop (2 * k + 1) : ℕ) / (k + 1).factorial * 2 ^ (k + 1)) (B.pow (k + 1)))
    (pow_ne_zero (k + 1) hc0.ne')
  have hrem : ∃ R, (num.mul (Itv.point 1)).div ⟨√(V.pow (2 * k + 3)).lo, √(V.pow (2 * k + 3)).hi⟩ = .ok R ∧
      ∀ w v, InItv num w → InItv V v → InItv R (w * 1 * (√(v ^ (2 * k + 3)))⁻¹) := by
    unfold Itv.div
    rw [Itv.inv_ok hz]
    refine ⟨_, rfl, fun w v hw hv => Itv.mem_mul (Itv.mem_mul hw (Itv.mem_point 1)) (Itv.mem_inv hz ?_)⟩
    have := Itv.mem_pow hv (2 * k + 3)
    exact ⟨Real.sqrt_le_sqrt this.1, Real.sqrt_le_sqrt this.2⟩
  obtain ⟨R, R1, R2⟩ := hrem
  unfold powMinusHalf
  rw [bind_ok h1]
  simp only
  rw [bind_ok h3, bind_ok q1, bind_ok e1, bind_ok (fact2_isqrt h16), bind_ok (factorial_ok (by omega : k + 1 ≤ 170)), bind_ok n1, bind_ok R1]
  have := root_sound ha hlin (.inl hrem0) (α := -(1 / 2)) (by decide +kernel) (by norm_num) hc hpos h2 (J := R) ?_
  · obtain ⟨r, s1, s2, s3, s4, s5⟩ := this
    refine ⟨r, s1, s2, s3, s4, fun x hx y z hy hz => s5 x hx y z hy ?_⟩
    change z = y ^ (((-(1 / 2) : ℚ)) : ℝ)
    rw [show z = 1 / √y from hz, Real.sqrt_eq_rpow, one_div, ← Real.rpow_neg (hpos x hx y hy).le]
    norm_num
  · intro x hx y hy θ h0 h1'
    have hu := h5 x hx y hy
    have hv := q3 _ θ hu h0 h1'
    have hvp : 0 < 1 + (y - c) / c * θ := q2.trans_le hv.1
    have hfull := R2 _ _ (n2 _ (Itv.mem_mul (Itv.mem_point _) (Itv.mem_pow hu (k + 1)))) hv
    have hzero := R2 _ _ (n2 _ (Itv.mem_mul (Itv.mem_point _) (Itv.mem_pow hB0 (k + 1)))) hv
    rw [zero_pow (by omega), mul_zero, zero_div, zero_mul, zero_mul] at hzero
    have := scale_mem hzero hfull (s := 1 / 4 ^ (k + 1)) (by positivity) (by
      rw [div_le_one (by positivity)]
      exact one_le_pow₀ (by norm_num))
    rw [show (fall ((-(1 / 2) : ℚ) : ℝ) (k + 1) * (c + θ * (y - c)) ^ (((-(1 / 2) : ℚ) : ℝ) - (k + 1 : ℕ)) / (k + 1).factorial * (y - c) ^ (k + 1)) =
      1 / 4 ^ (k + 1) * ((-1) ^ (k + 1) * (√c)⁻¹ * (fact2Loop (2 * k + 1) : ℕ) / (k + 1).factorial * 2 ^ (k + 1) * (y - c) ^ (k + 1) / c ^ (k + 1) * 1 *
        (√((1 + (y - c) / c * θ) ^ (2 * k + 3)))⁻¹) from ?_]
    · exact this
    · have e : c + θ * (y - c) = c * (1 + (y - c) / c * θ) := by field_simp
      rw [e, show ((-(1 / 2) : ℚ) : ℝ) = -(1 / 2) by norm_num, rpow_neg_half_split hc0 hvp, fall_neg_half,
        show (4 : ℝ) ^ (k + 1) = 2 ^ (k + 1) * 2 ^ (k + 1) by rw [← mul_pow]; norm_num]
      field_simp

end
end TM
end Audi
