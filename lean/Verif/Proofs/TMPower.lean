import Verif.Proofs.TMDivision

/-!
# Proofs: integer powers of Taylor models
-/

namespace Audi.TM

open MvPolynomial Spec

variable {K : Type} [Field K] [LinearOrder K] [IsStrictOrderedRing K] {a : TM K} {ord : List String → List String}

/-- `p` is a Taylor model of the `i`-th power, over a part of the variables of `a`. -/
structure IsPower (a p : TM K) (i : ℕ) : Prop where
  wf : p.WF
  order : p.order = a.order
  syms : ∀ s ∈ p.tpol.p.syms, s ∈ a.tpol.p.syms
  exp : ∀ e ∈ p.exp, e ∈ a.exp
  dom : ∀ e ∈ p.dom, e ∈ a.dom
  poly : EqUpTo a.order (p.tpol.toMv () : MvPolynomial String K) (a.tpol.toMv () ^ i)
  allows : ∀ x, a.InDom x → ∀ y, a.Allows x y → p.Allows x (y ^ i)

omit [IsStrictOrderedRing K] in
theorem IsPower.inDom {p : TM K} {i : ℕ} (h : IsPower a p i) {x : String → K} (hx : a.InDom x) : p.InDom x := fun e he => hx e (h.dom e he)

omit [IsStrictOrderedRing K] in
/-- Models whose maps are part of those of `a` agree with `a`. -/
theorem compatible_of_sub (ha : a.WF) {p : TM K} (he : ∀ e ∈ p.exp, e ∈ a.exp) (hd : ∀ e ∈ p.dom, e ∈ a.dom) : Compatible p a := by
  have key : ∀ {α : Type} {m : VMap α}, (m.map Prod.fst).Nodup → ∀ e ∈ m, ∀ f ∈ m, e.1 = f.1 → e.2 = f.2 := by
    intro α m hm e he f hf h
    have := List.inj_on_of_nodup_map hm he hf h
    rw [this]
  exact ⟨fun e h f hf => key ha.nodupExp e (he e h) f hf, fun e h f hf => key ha.nodupDom e (hd e h) f hf⟩

theorem isPower_one (ha : a.WF) : ∃ p, mulST 1 a = .ok p ∧ IsPower a p 1 := by
  obtain ⟨r, h1, h2, h3, h4, h5, h6, h7⟩ := remake ha (GDual.Valid.mulSG (1 : K) ha.valid) (syms_const_add ha.valid.wf.sorted)
    (Itv.lo_le_hi_mul (Itv.point 1) a.rem)
  have hp : ((GDual.mulSG (1 : K) a.tpol).toMv () : MvPolynomial String K) = a.tpol.toMv () := by
    rw [GDual.toMv_mulSG (1 : K) ha.valid]
    change C (1 : K) * _ = _
    rw [C_1, one_mul]
  refine ⟨r, h1, h2, ?_, ?_, ?_, ?_, ?_, fun x hx y hy => ?_⟩
  · rw [h3, ha.order]
    exact GDual.order_mulSG (1 : K) _
  · rw [h4]
    intro s hs
    exact (syms_const_add ha.valid.wf.sorted) ▸ hs
  · rw [h6]; exact fun _ h => h
  · rw [h7]; exact fun _ h => h
  · rw [h4, hp, pow_one]; exact fun _ _ => rfl
  · unfold Allows polyAt
    rw [h4, h5, h6, hp, pow_one]
    have := Itv.mem_mul (Itv.mem_point (1 : K)) hy
    rwa [one_mul] at this

/-- One more factor. -/
theorem isPower_succ (ha : a.WF) (ho1 : 1 ≤ a.order) (ho2 : 2 * a.order ≤ 62) (hord : Faithful ord (a.tpol.p.syms.map varName))
    (hpa : (a.tpol.toMv () : MvPolynomial String K) ≠ 0) {p : TM K} {i : ℕ} (hp : IsPower a p i)
    (ht : ∀ Q : MvPolynomial String K, DegLE a.order Q → EqUpTo a.order Q (a.tpol.toMv () ^ i) → Q ≠ 0 ∧
      ((∃ m : String →₀ ℕ, a.order < m.degree ∧ ((tiny : ℚ) : K) < |coeff m (Q * a.tpol.toMv ())|) ∨
        ∀ m : String →₀ ℕ, a.order < m.degree → coeff m (Q * a.tpol.toMv ()) = 0)) :
    ∃ r, mul ord p a = .ok r ∧ IsPower a r (i + 1) := by
  have hdeg : DegLE a.order (p.tpol.toMv () : MvPolynomial String K) := by
    rw [← hp.order, hp.wf.order]
    exact hp.wf.valid.degLE (ι := Unit) (K := K) ()
  obtain ⟨h0, h1⟩ := ht _ hdeg hp.poly
  have hmax : max p.order a.order = a.order := by rw [hp.order, max_self]
  have hpo := hp.order
  obtain ⟨r, r1, r2, r3, r4, r5, r6, r7, r8, r9⟩ := mul_parts (ord := ord) hp.wf ha (compatible_of_sub ha hp.exp hp.dom) h0 hpa (by omega) (by omega)
    (fun l h2 h3 => hord l h2 fun v hv => (List.mem_append.1 (h3 hv)).elim (fun h => by
      obtain ⟨s, hs, rfl⟩ := List.mem_map.1 h
      exact List.mem_map_of_mem (hp.syms s hs)) id) (by rw [hmax]; exact h1)
  refine ⟨r, r1, r2, by rw [r3, hmax], fun s hs => (r7 s hs).elim (hp.syms s) id, fun e he => (r8 e he).elim (hp.exp e) id,
    fun e he => (r9 e he).elim (hp.dom e) id, fun m hm => ?_, fun x hx y hy => ?_⟩
  · rw [r6, hmax, if_pos hm, pow_succ]
    exact EqUpTo.mul hp.poly (fun _ _ => rfl) m hm
  · rw [pow_succ]
    exact r5 x (hp.inDom hx) hx _ _ (hp.allows x hx y hy) hy

/-- `pow(tm, n)` for `n ≥ 2`. -/
theorem powInt_isPower (ha : a.WF) (ho1 : 1 ≤ a.order) (ho2 : 2 * a.order ≤ 62) (hord : Faithful ord (a.tpol.p.syms.map varName))
    (hpa : (a.tpol.toMv () : MvPolynomial String K) ≠ 0) {n : ℕ} (hn : 2 ≤ n)
    (ht : ∀ i, 1 ≤ i → i < n → ∀ Q : MvPolynomial String K, DegLE a.order Q → EqUpTo a.order Q (a.tpol.toMv () ^ i) → Q ≠ 0 ∧
      ((∃ m : String →₀ ℕ, a.order < m.degree ∧ ((tiny : ℚ) : K) < |coeff m (Q * a.tpol.toMv ())|) ∨
        ∀ m : String →₀ ℕ, a.order < m.degree → coeff m (Q * a.tpol.toMv ()) = 0)) :
    ∃ r, powInt ord a n = .ok r ∧ IsPower a r n := by
  obtain ⟨p, p1, p2⟩ := isPower_one ha
  have key : ∀ j, j < n → ∃ r, (List.range j).foldlM (fun (p : TM K) (_ : ℕ) => mul ord p a) p = .ok r ∧ IsPower a r (j + 1) := by
    intro j
    induction j with
    | zero => exact fun _ => ⟨p, rfl, p2⟩
    | succ j ih =>
      intro hj
      obtain ⟨r, r1, r2⟩ := ih (by omega)
      obtain ⟨q, q1, q2⟩ := isPower_succ ha ho1 ho2 hord hpa r2 (ht (j + 1) (by omega) hj)
      refine ⟨q, ?_, q2⟩
      rw [List.range_succ, List.foldlM_append, bind_ok r1, List.foldlM_cons, bind_ok q1]
      rfl
  obtain ⟨r, r1, r2⟩ := key (n - 1) (by omega)
  refine ⟨r, ?_, by rwa [Nat.sub_add_cancel (by omega)] at r2⟩
  unfold powInt
  rw [if_neg (by omega), if_neg (by omega), if_pos (by omega), bind_ok p1, show ((n : ℤ) - 1).toNat = n - 1 by omega]
  exact r1

theorem isPower_mulTS {p : TM K} {i : ℕ} (hp : IsPower a p i) : ∃ q, mulTS p 1 = .ok q ∧ IsPower a q i := by
  obtain ⟨r, h1, h2, h3, h4, h5, h6, h7⟩ := remake hp.wf (GDual.Valid.mulGS (1 : K) hp.wf.valid) rfl (Itv.lo_le_hi_mul p.rem (Itv.point 1))
  have hq : ((p.tpol.mulGS (1 : K)).toMv () : MvPolynomial String K) = p.tpol.toMv () := by
    rw [GDual.toMv_mulGS (1 : K) hp.wf.valid]
    change _ * C (1 : K) = _
    rw [C_1, mul_one]
  refine ⟨r, h1, h2, ?_, ?_, by rw [h6]; exact hp.exp, by rw [h7]; exact hp.dom, by rw [h4, hq]; exact hp.poly, fun x hx y hy => ?_⟩
  · rw [h3, ← hp.order, hp.wf.order]
    exact GDual.order_mulGS (1 : K) _
  · rw [h4]
    exact hp.syms
  · unfold Allows polyAt
    rw [h4, h5, h6, hq]
    have := Itv.mem_mul (hp.allows x hx y hy) (Itv.mem_point (1 : K))
    rwa [mul_one] at this

/-- `pow(tm, -n)` for `n ≥ 1`: powers of the reciprocal. -/
theorem powInt_neg_isPower {inv : TM K} (hinv : divST ord 1 a = .ok inv) (hi : inv.WF) {n : ℕ} (hn : 1 ≤ n)
    (hrest : 2 ≤ n → 1 ≤ inv.order ∧ 2 * inv.order ≤ 62 ∧ Faithful ord (inv.tpol.p.syms.map varName) ∧
      (inv.tpol.toMv () : MvPolynomial String K) ≠ 0 ∧
      ∀ i, 1 ≤ i → i < n → ∀ Q : MvPolynomial String K, DegLE inv.order Q → EqUpTo inv.order Q (inv.tpol.toMv () ^ i) → Q ≠ 0 ∧
      ((∃ m : String →₀ ℕ, inv.order < m.degree ∧ ((tiny : ℚ) : K) < |coeff m (Q * inv.tpol.toMv ())|) ∨
        ∀ m : String →₀ ℕ, inv.order < m.degree → coeff m (Q * inv.tpol.toMv ()) = 0)) :
    ∃ r, powInt ord a (-n) = .ok r ∧ IsPower inv r n := by
  have p2 : IsPower inv inv 1 := ⟨hi, rfl, fun _ h => h, fun _ h => h, fun _ h => h, by rw [pow_one]; exact fun _ _ => rfl,
    fun x _ y hy => by rwa [pow_one]⟩
  have key : ∀ j, j < n → ∃ r, (List.range j).foldlM (fun (p : TM K) (_ : ℕ) => do
      let q ← mulTS p 1
      div ord q a) inv = .ok r ∧ IsPower inv r (j + 1) := by
    intro j
    induction j with
    | zero => exact fun _ => ⟨inv, rfl, p2⟩
    | succ j ih =>
      intro hj
      obtain ⟨r, r1, r2⟩ := ih (by omega)
      obtain ⟨s, s1, s2⟩ := isPower_mulTS r2
      obtain ⟨h1, h2, h3, h4, h5⟩ := hrest (by omega)
      obtain ⟨q, q1, q2⟩ := isPower_succ hi h1 h2 h3 h4 s2 (h5 (j + 1) (by omega) hj)
      refine ⟨q, ?_, q2⟩
      have hstep : (do
          let q ← mulTS r 1
          div ord q a) = .ok q := by
        rw [bind_ok s1]
        unfold div
        rw [bind_ok hinv, q1]
      rw [List.range_succ, List.foldlM_append, bind_ok r1, List.foldlM_cons, bind_ok hstep]
      rfl
  obtain ⟨r, r1, r2⟩ := key (n - 1) (by omega)
  refine ⟨r, ?_, by rwa [Nat.sub_add_cancel hn] at r2⟩
  unfold powInt
  rw [if_neg (by omega), if_neg (by omega), if_neg (by omega), bind_ok hinv, show (-(-(n : ℤ)) - 1).toNat = n - 1 by omega]
  exact r1

end Audi.TM
