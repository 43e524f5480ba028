import Verif.Proofs.Functions

/-! Trigonometric and hyperbolic functions, and their inverses. -/

set_option linter.unusedSectionVars false

namespace Audi

open MvPolynomial Spec Topology Filter

namespace GDual

section generic
variable {C : Type} [CfFun C] {ι : Type} {𝕜 : Type} [NontriviallyNormedField 𝕜] [CharZero 𝕜] [Lanes C ι 𝕜] {d r : GDual C} {n : ℕ}

/-! sine and cosine -/

theorem fact_step {k : ℕ} (hk : 2 ≤ k) : (((k - 2).factorial : ℚ)) * (k * (k - 1)) = (k.factorial : ℚ) := by
  obtain ⟨j, rfl⟩ : ∃ j, k = j + 2 := ⟨k - 2, by omega⟩
  rw [Nat.add_sub_cancel, Nat.factorial_succ, Nat.factorial_succ]
  push_cast; ring

theorem eps_step {k : ℕ} (hk : 2 ≤ k) : -((-1 : ℚ) ^ ((k - 2) / 2)) = (-1) ^ (k / 2) := by
  obtain ⟨j, rfl⟩ : ∃ j, k = j + 2 := ⟨k - 2, by omega⟩
  rw [Nat.add_sub_cancel, show (j + 2) / 2 = j / 2 + 1 by omega, pow_succ]; ring

theorem trigLoop {H : ι → MvPolynomial String 𝕜} {phat2 : GDual C} (h2 : Rep n phat2 (fun i => H i ^ 2))
    (h2o : phat2.order = n) {b : ℕ → 𝕜} (start len : ℕ) (hs : 2 ≤ start)
    (hb : ∀ k, k % 2 = start % 2 → b k = eps k / k.factorial) (hb' : ∀ k, k % 2 ≠ start % 2 → b k = 0)
    (s0 : TrigSt C) (i1 : Rep n s0.taylor (fun i => psum b (H i) start)) (i2 : Rep n s0.tmp (fun i => H i ^ (start - 2)))
    (i3 : ∀ i : ι, (Lanes.lane i s0.factorial : 𝕜) = (start - 2).factorial) (i4 : s0.coeff = (-1) ^ ((start - 2) / 2)) :
    ∃ st, (List.range' start len 2).foldlM (trigStep phat2) s0 = .ok st ∧
      Rep n st.taylor (fun i => psum b (H i) (start + 2 * len)) ∧ (s0.taylor.order = n → st.taylor.order = n) := by
  obtain ⟨st, h1, h3, h5, -⟩ := foldlM_range' (step := trigStep phat2)
    (Inv := fun k s => Rep n s.taylor (fun i => psum b (H i) k) ∧ (s0.taylor.order = n → s.taylor.order = n) ∧
      Rep n s.tmp (fun i => H i ^ (k - 2)) ∧
      (∀ i : ι, (Lanes.lane i s.factorial : 𝕜) = (k - 2).factorial) ∧ s.coeff = (-1) ^ ((k - 2) / 2) ∧ k % 2 = start % 2)
    (stp := 2) two_pos len start s0 ⟨i1, id, i2, i3, i4, rfl⟩
    (by
      rintro k s hk - ⟨j1, jo, j2, j3, j4, j5⟩
      have e1 : Rep n (s.tmp.mul phat2) (fun i => H i ^ k) := (j2.mul h2 (Or.inr h2o)).congr fun i =>
        EqUpTo.of_eq (by rw [← pow_add, Nat.sub_add_cancel (by omega)])
      have e2 : ∀ i : ι, (Lanes.lane i (Cf.mul s.factorial (Cf.ofRat (k * (k - 1)))) : 𝕜) = k.factorial := fun i => by
        rw [Lanes.lane_mul, Lanes.lane_ofRat, j3, ← Rat.cast_natCast (α := 𝕜), ← Rat.cast_natCast (α := 𝕜) k.factorial, ← Rat.cast_mul]
        exact congrArg _ (fact_step (by omega))
      have e3 : -s.coeff = (-1) ^ (k / 2) := by rw [j4]; exact eps_step (by omega)
      have hk0 : Cf.isUnit (Cf.mul s.factorial (Cf.ofRat (k * (k - 1))) : C) = true := by
        rw [Lanes.isUnit_iff (ι := ι) (K := 𝕜)]
        intro i
        rw [e2]
        exact_mod_cast k.factorial_ne_zero
      obtain ⟨q, hq, -, hqr⟩ := Rep.divGS hk0
        (e1.mulSG (Cf.ofRat ((-1) ^ (k / 2))))
      refine ⟨⟨s.taylor.add q, s.tmp.mul phat2, Cf.mul s.factorial (Cf.ofRat (k * (k - 1))), (-1) ^ (k / 2)⟩, ?_, ?_,
        fun h => Rep.order_add j1 hqr (Or.inl (jo h)), e1.congr fun i => EqUpTo.of_eq (by rw [Nat.add_sub_cancel]), by rw [Nat.add_sub_cancel]; exact e2,
        by rw [Nat.add_sub_cancel], by omega⟩
      · unfold trigStep
        simp only [e3]
        rw [bind_ok hq]
      · refine (j1.add hqr).congr fun i => EqUpTo.of_eq ?_
        rw [psum_succ, psum_succ, hb k j5, hb' (k + 1) (by omega), Lanes.lane_ofRat, e2, div_eq_mul_inv,
          map_mul, eps]
        push_cast
        rw [map_zero]
        ring)
  exact ⟨st, h1, h3, h5⟩

theorem hypLoop {H : ι → MvPolynomial String 𝕜} {phat2 : GDual C} (h2 : Rep n phat2 (fun i => H i ^ 2))
    (h2o : phat2.order = n) {b : ℕ → 𝕜} (start len : ℕ) (hs : 2 ≤ start)
    (hb : ∀ k, k % 2 = start % 2 → b k = 1 / k.factorial) (hb' : ∀ k, k % 2 ≠ start % 2 → b k = 0)
    (s0 : TrigSt C) (i1 : Rep n s0.taylor (fun i => psum b (H i) start)) (i2 : Rep n s0.tmp (fun i => H i ^ (start - 2)))
    (i3 : ∀ i : ι, (Lanes.lane i s0.factorial : 𝕜) = (start - 2).factorial) :
    ∃ st, (List.range' start len 2).foldlM (hypStep phat2) s0 = .ok st ∧
      Rep n st.taylor (fun i => psum b (H i) (start + 2 * len)) ∧ (s0.taylor.order = n → st.taylor.order = n) := by
  obtain ⟨st, h1, h3, h5, -⟩ := foldlM_range' (step := hypStep phat2)
    (Inv := fun k s => Rep n s.taylor (fun i => psum b (H i) k) ∧ (s0.taylor.order = n → s.taylor.order = n) ∧
      Rep n s.tmp (fun i => H i ^ (k - 2)) ∧
      (∀ i : ι, (Lanes.lane i s.factorial : 𝕜) = (k - 2).factorial) ∧ k % 2 = start % 2)
    (stp := 2) two_pos len start s0 ⟨i1, id, i2, i3, rfl⟩
    (by
      rintro k s hk - ⟨j1, jo, j2, j3, j5⟩
      have e1 : Rep n (s.tmp.mul phat2) (fun i => H i ^ k) := (j2.mul h2 (Or.inr h2o)).congr fun i =>
        EqUpTo.of_eq (by rw [← pow_add, Nat.sub_add_cancel (by omega)])
      have e2 : ∀ i : ι, (Lanes.lane i (Cf.mul s.factorial (Cf.ofRat (k * (k - 1)))) : 𝕜) = k.factorial := fun i => by
        rw [Lanes.lane_mul, Lanes.lane_ofRat, j3, ← Rat.cast_natCast (α := 𝕜), ← Rat.cast_natCast (α := 𝕜) k.factorial, ← Rat.cast_mul]
        exact congrArg _ (fact_step (by omega))
      have hk0 : Cf.isUnit (Cf.mul s.factorial (Cf.ofRat (k * (k - 1))) : C) = true := by
        rw [Lanes.isUnit_iff (ι := ι) (K := 𝕜)]
        intro i
        rw [e2]
        exact_mod_cast k.factorial_ne_zero
      obtain ⟨q, hq, -, hqr⟩ := Rep.divGS hk0 e1
      refine ⟨⟨s.taylor.add q, s.tmp.mul phat2, Cf.mul s.factorial (Cf.ofRat (k * (k - 1))), s.coeff⟩, ?_, ?_,
        fun h => Rep.order_add j1 hqr (Or.inl (jo h)), e1.congr fun i => EqUpTo.of_eq (by rw [Nat.add_sub_cancel]), by rw [Nat.add_sub_cancel]; exact e2, by omega⟩
      · unfold hypStep
        simp only
        rw [bind_ok hq]
      · refine (j1.add hqr).congr fun i => EqUpTo.of_eq ?_
        rw [psum_succ, psum_succ, hb k j5, hb' (k + 1) (by omega), e2, one_div]
        push_cast
        rw [map_zero]
        ring)
  exact ⟨st, h1, h3, h5⟩

section
variable {H : ι → MvPolynomial String 𝕜} {phat phat2 : GDual C}

theorem cosTaylor_rep (hH : ∀ i, coeff 0 (H i) = 0) (h2 : Rep n phat2 (fun i => H i ^ 2)) (h2o : phat2.order = n) :
    ∃ r, cosTaylor n phat2 = .ok r ∧ Rep n r (fun i => psum (csC (𝕜 := 𝕜)) (H i) (n + 1)) := by
  obtain ⟨st, h3, h4, h5⟩ := trigLoop h2 h2o (b := csC (𝕜 := 𝕜)) 2 (n / 2) le_rfl
    (fun k hk => by unfold csC chC; rw [if_pos hk]; ring) (fun k hk => by unfold csC chC; rw [if_neg hk]; ring)
    ⟨ofRat 1, ofRat 1, Cf.ofRat 1, 1⟩
    ((Rep.ofRat 1).congr fun i => EqUpTo.of_eq (by rw [psum_two]; simp [csC, chC, eps]))
    ((Rep.ofRat 1).congr fun i => EqUpTo.of_eq (by simp)) (fun i => by rw [Lanes.lane_ofRat]; simp) (by simp)
  refine ⟨st.taylor, ?_, h4.congr fun i => psum_eqUpTo _ (hH i) (by omega)⟩
  unfold cosTaylor
  rw [bind_ok h3]

theorem sinTaylor_rep (hH : ∀ i, coeff 0 (H i) = 0) (h1 : Rep n phat H) (h2 : Rep n phat2 (fun i => H i ^ 2))
    (h2o : phat2.order = n) :
    ∃ r, sinTaylor n phat phat2 = .ok r ∧ (phat.order = n → r.order = n) ∧ Rep n r (fun i => psum (snC (𝕜 := 𝕜)) (H i) (n + 1)) := by
  obtain ⟨st, h3, h4, h5⟩ := trigLoop h2 h2o (b := snC (𝕜 := 𝕜)) 3 ((n - 1) / 2) (by omega)
    (fun k hk => by unfold snC shC; rw [if_pos hk]; ring) (fun k hk => by unfold snC shC; rw [if_neg hk]; ring)
    ⟨phat, phat, Cf.ofRat 1, 1⟩
    (h1.congr fun i => EqUpTo.of_eq (by rw [psum_succ, psum_two]; simp [snC, shC, eps]))
    (h1.congr fun i => EqUpTo.of_eq (by simp)) (fun i => by rw [Lanes.lane_ofRat]; simp) (by simp)
  refine ⟨st.taylor, ?_, h5, h4.congr fun i => psum_eqUpTo _ (hH i) (by omega)⟩
  unfold sinTaylor
  rw [bind_ok h3]

theorem coshTaylor_rep (hH : ∀ i, coeff 0 (H i) = 0) (h2 : Rep n phat2 (fun i => H i ^ 2)) (h2o : phat2.order = n) :
    ∃ r, coshTaylor n phat2 = .ok r ∧ Rep n r (fun i => psum (chC (𝕜 := 𝕜)) (H i) (n + 1)) := by
  obtain ⟨st, h3, h4, h5⟩ := hypLoop h2 h2o (b := chC (𝕜 := 𝕜)) 2 (n / 2) le_rfl
    (fun k hk => by unfold chC; rw [if_pos hk]) (fun k hk => by unfold chC; rw [if_neg hk])
    ⟨ofRat 1, ofRat 1, Cf.ofRat 1, 1⟩
    ((Rep.ofRat 1).congr fun i => EqUpTo.of_eq (by rw [psum_two]; simp [chC]))
    ((Rep.ofRat 1).congr fun i => EqUpTo.of_eq (by simp)) (fun i => by rw [Lanes.lane_ofRat]; simp)
  refine ⟨st.taylor, ?_, h4.congr fun i => psum_eqUpTo _ (hH i) (by omega)⟩
  unfold coshTaylor
  rw [bind_ok h3]

theorem sinhTaylor_rep (hH : ∀ i, coeff 0 (H i) = 0) (h1 : Rep n phat H) (h2 : Rep n phat2 (fun i => H i ^ 2))
    (h2o : phat2.order = n) :
    ∃ r, sinhTaylor n phat phat2 = .ok r ∧ (phat.order = n → r.order = n) ∧ Rep n r (fun i => psum (shC (𝕜 := 𝕜)) (H i) (n + 1)) := by
  obtain ⟨st, h3, h4, h5⟩ := hypLoop h2 h2o (b := shC (𝕜 := 𝕜)) 3 ((n - 1) / 2) (by omega)
    (fun k hk => by unfold shC; rw [if_pos hk]) (fun k hk => by unfold shC; rw [if_neg hk])
    ⟨phat, phat, Cf.ofRat 1, 1⟩
    (h1.congr fun i => EqUpTo.of_eq (by rw [psum_succ, psum_two]; simp [shC]))
    (h1.congr fun i => EqUpTo.of_eq (by simp)) (fun i => by rw [Lanes.lane_ofRat]; simp)
  refine ⟨st.taylor, ?_, h5, h4.congr fun i => psum_eqUpTo _ (hH i) (by omega)⟩
  unfold sinhTaylor
  rw [bind_ok h3]

end


variable (𝕜) in
/-- The four outputs in terms of the series; common to all six functions. -/
theorem trigParts (hd : d.Valid) : ∃ (p0 : C) (c s : GDual C), d.constantCf = .ok p0 ∧
    (∀ i : ι, (Lanes.lane i p0 : 𝕜) = coeff 0 (d.toMv i)) ∧
    cosTaylor d.order ((d.subGS p0).mul (d.subGS p0)) = .ok c ∧
    sinTaylor d.order (d.subGS p0) ((d.subGS p0).mul (d.subGS p0)) = .ok s ∧ s.order = d.order ∧
    Rep d.order c (fun i : ι => psum (csC (𝕜 := 𝕜)) (hat (d.toMv i)) (d.order + 1)) ∧
    Rep d.order s (fun i : ι => psum (snC (𝕜 := 𝕜)) (hat (d.toMv i)) (d.order + 1)) := by
  obtain ⟨p0, hp0⟩ := constantCf_isOk d
  have hph := rep_hat (ι := ι) (K := 𝕜) hd hp0
  have hpo : (d.subGS p0).order = d.order := rfl
  have h2 : Rep d.order ((d.subGS p0).mul (d.subGS p0)) (fun i : ι => hat (d.toMv i) ^ 2) :=
    (hph.mul hph (Or.inl hpo)).congr fun i => EqUpTo.of_eq (sq _).symm
  have h2o : ((d.subGS p0).mul (d.subGS p0)).order = d.order := hph.order_mul hph (Or.inl hpo)
  obtain ⟨c, hc, hcr⟩ := cosTaylor_rep (fun i => coeff_zero_hat' _) h2 h2o
  obtain ⟨s, hs, hso, hsr⟩ := sinTaylor_rep (fun i => coeff_zero_hat' _) hph h2 h2o
  exact ⟨p0, c, s, hp0, lane_constantCf hd hp0, hc, hs, hso hpo, hcr, hsr⟩

variable (𝕜) in
theorem hypParts (hd : d.Valid) : ∃ (p0 : C) (c s : GDual C), d.constantCf = .ok p0 ∧
    (∀ i : ι, (Lanes.lane i p0 : 𝕜) = coeff 0 (d.toMv i)) ∧
    coshTaylor d.order ((d.subGS p0).mul (d.subGS p0)) = .ok c ∧
    sinhTaylor d.order (d.subGS p0) ((d.subGS p0).mul (d.subGS p0)) = .ok s ∧ s.order = d.order ∧
    Rep d.order c (fun i : ι => psum (chC (𝕜 := 𝕜)) (hat (d.toMv i)) (d.order + 1)) ∧
    Rep d.order s (fun i : ι => psum (shC (𝕜 := 𝕜)) (hat (d.toMv i)) (d.order + 1)) := by
  obtain ⟨p0, hp0⟩ := constantCf_isOk d
  have hph := rep_hat (ι := ι) (K := 𝕜) hd hp0
  have hpo : (d.subGS p0).order = d.order := rfl
  have h2 : Rep d.order ((d.subGS p0).mul (d.subGS p0)) (fun i : ι => hat (d.toMv i) ^ 2) :=
    (hph.mul hph (Or.inl hpo)).congr fun i => EqUpTo.of_eq (sq _).symm
  have h2o : ((d.subGS p0).mul (d.subGS p0)).order = d.order := hph.order_mul hph (Or.inl hpo)
  obtain ⟨c, hc, hcr⟩ := coshTaylor_rep (fun i => coeff_zero_hat' _) h2 h2o
  obtain ⟨s, hs, hso, hsr⟩ := sinhTaylor_rep (fun i => coeff_zero_hat' _) hph h2 h2o
  exact ⟨p0, c, s, hp0, lane_constantCf hd hp0, hc, hs, hso hpo, hcr, hsr⟩

theorem psum_comb (α β : 𝕜) (b b' : ℕ → 𝕜) (P : MvPolynomial String 𝕜) (n : ℕ) :
    EqUpTo n (MvPolynomial.C α * psum b (hat P) (n + 1) + MvPolynomial.C β * psum b' (hat P) (n + 1))
      (compPoly n (fun j => α * b j + β * b' j) P) := by
  refine EqUpTo.of_eq ?_
  unfold psum compPoly hat
  rw [Finset.mul_sum, Finset.mul_sum, ← Finset.sum_add_distrib]
  refine Finset.sum_congr rfl fun j _ => ?_
  rw [map_add, map_mul, map_mul]; ring

/-- Functions with `S' = Co`, `Co' = -S` as the sine and the cosine. -/
structure TrigLike (S Co : 𝕜 → 𝕜) : Prop where
  dS : ∀ t, HasDerivAt S (Co t) t
  dC : ∀ t, HasDerivAt Co (-S t) t
  S0 : S 0 = 0
  C0 : Co 0 = 1
  Sadd : ∀ x y, S (x + y) = S x * Co y + Co x * S y
  Cadd : ∀ x y, Co (x + y) = Co x * Co y - S x * S y

/-- Functions with `S' = Co`, `Co' = S` as the hyperbolic sine and cosine. -/
structure HypLike (S Co : 𝕜 → 𝕜) : Prop where
  dS : ∀ t, HasDerivAt S (Co t) t
  dC : ∀ t, HasDerivAt Co (S t) t
  S0 : S 0 = 0
  C0 : Co 0 = 1
  Sadd : ∀ x y, S (x + y) = S x * Co y + Co x * S y
  Cadd : ∀ x y, Co (x + y) = Co x * Co y + S x * S y

section like
variable {S Co : 𝕜 → 𝕜}

theorem TrigLike.taylorS (h : TrigLike S Co) (c : 𝕜) (m : ℕ) :
    IsTaylor₁ c m S (fun j => S c * csC j + Co c * snC j) := by
  have := isTaylor₁_trigLike (c := c) (m := m) h.dS h.dC 1 0
  simpa using this

theorem TrigLike.taylorC (h : TrigLike S Co) (c : 𝕜) (m : ℕ) :
    IsTaylor₁ c m Co (fun j => Co c * csC j + (-S c) * snC j) := by
  have := isTaylor₁_trigLike (c := c) (m := m) h.dS h.dC 0 1
  simpa using this

theorem HypLike.taylorS (h : HypLike S Co) (c : 𝕜) (m : ℕ) :
    IsTaylor₁ c m S (fun j => S c * chC j + Co c * shC j) := by
  have := isTaylor₁_hypLike (c := c) (m := m) h.dS h.dC 1 0
  simpa using this

theorem HypLike.taylorC (h : HypLike S Co) (c : 𝕜) (m : ℕ) :
    IsTaylor₁ c m Co (fun j => Co c * chC j + S c * shC j) := by
  have := isTaylor₁_hypLike (c := c) (m := m) h.dS h.dC 0 1
  simpa using this

theorem sinAndCos_liftK (h : TrigLike S Co) (hs : ∀ (i : ι) (c : C), (Lanes.lane i (CfFun.sin c) : 𝕜) = S (Lanes.lane i c))
    (hc : ∀ (i : ι) (c : C), (Lanes.lane i (CfFun.cos c) : 𝕜) = Co (Lanes.lane i c)) (hd : d.Valid) :
    ∃ s c, sinAndCos d = .ok (s, c) ∧ sin d = .ok s ∧ cos d = .ok c ∧
    IsLift (fun _ : ι => S) d s ∧ IsLift (fun _ : ι => Co) d c := by
  obtain ⟨p0, c, s, hp0, hl, hc', hs', hso, hcr, hsr⟩ := trigParts (ι := ι) 𝕜 hd
  refine ⟨(c.mulSG (CfFun.sin p0)).add (s.mulSG (CfFun.cos p0)), (c.mulSG (CfFun.cos p0)).sub (s.mulSG (CfFun.sin p0)),
    ?_, ?_, ?_, isLift_of_rep ?_ (((hcr.mulSG _).add (hsr.mulSG _)).congr fun i => ?_) (fun i => h.taylorS _ _),
    isLift_of_rep ?_ (((hcr.mulSG _).sub (hsr.mulSG _)).congr fun i => ?_) (fun i => h.taylorC _ _)⟩
  · unfold sinAndCos; rw [bind_ok hp0, bind_ok hc', bind_ok hs']
  · unfold sin; rw [bind_ok hp0, bind_ok hc', bind_ok hs']
  · unfold cos; rw [bind_ok hp0, bind_ok hc', bind_ok hs']
  · exact Rep.order_add (hcr.mulSG _) (hsr.mulSG _) (Or.inr (by rw [order_mulSG, hso]))
  · rw [hs, hc, hl]
    exact psum_comb _ _ _ _ _ _
  · exact Rep.order_sub (hcr.mulSG _) (hsr.mulSG _) (Or.inr (by rw [order_mulSG, hso]))
  · rw [hs, hc, hl, sub_eq_add_neg, ← neg_mul, ← map_neg]
    exact psum_comb _ _ _ _ _ _

theorem sinhAndCosh_liftK (h : HypLike S Co) (hs : ∀ (i : ι) (c : C), (Lanes.lane i (CfFun.sinh c) : 𝕜) = S (Lanes.lane i c))
    (hc : ∀ (i : ι) (c : C), (Lanes.lane i (CfFun.cosh c) : 𝕜) = Co (Lanes.lane i c)) (hd : d.Valid) :
    ∃ s c, sinhAndCosh d = .ok (s, c) ∧ sinh d = .ok s ∧
    cosh d = .ok c ∧ IsLift (fun _ : ι => S) d s ∧ IsLift (fun _ : ι => Co) d c := by
  obtain ⟨p0, c, s, hp0, hl, hc', hs', hso, hcr, hsr⟩ := hypParts (ι := ι) 𝕜 hd
  refine ⟨(c.mulSG (CfFun.sinh p0)).add (s.mulSG (CfFun.cosh p0)), (c.mulSG (CfFun.cosh p0)).add (s.mulSG (CfFun.sinh p0)),
    ?_, ?_, ?_, isLift_of_rep ?_ (((hcr.mulSG _).add (hsr.mulSG _)).congr fun i => ?_) (fun i => h.taylorS _ _),
    isLift_of_rep ?_ (((hcr.mulSG _).add (hsr.mulSG _)).congr fun i => ?_) (fun i => h.taylorC _ _)⟩
  · unfold sinhAndCosh; rw [bind_ok hp0, bind_ok hc', bind_ok hs']
  · unfold sinh; rw [bind_ok hp0, bind_ok hc', bind_ok hs']
  · unfold cosh; rw [bind_ok hp0, bind_ok hc', bind_ok hs']
  · exact Rep.order_add (hcr.mulSG _) (hsr.mulSG _) (Or.inr (by rw [order_mulSG, hso]))
  · rw [hs, hc, hl]
    exact psum_comb _ _ _ _ _ _
  · exact Rep.order_add (hcr.mulSG _) (hsr.mulSG _) (Or.inr (by rw [order_mulSG, hso]))
  · rw [hs, hc, hl]
    exact psum_comb _ _ _ _ _ _

end like

/-! tangents -/

theorem compPoly_hat (n : ℕ) (b : ℕ → 𝕜) (P : MvPolynomial String 𝕜) : compPoly n b (hat P) = psum b (hat P) (n + 1) := by
  unfold compPoly psum
  rw [coeff_zero_hat']
  simp

/-- Expansion of a quotient of two series at 0 evaluated at `F - F a`. -/
theorem taylor_ratio {n : ℕ} {g h : 𝕜 → 𝕜} {τ bg bh : ℕ → 𝕜} {a : String → 𝕜} {F : (String → 𝕜) → 𝕜}
    {P : MvPolynomial String 𝕜} (hF : IsTaylor a n F P) (hg : IsTaylor₁ 0 n g bg) (hh : IsTaylor₁ 0 n h bh)
    (h0 : bh 0 ≠ 0) (hs : PowerSeries.mk τ * PowerSeries.mk bh = PowerSeries.mk bg) :
    IsTaylor a n (fun x => g (F x - F a) / h (F x - F a)) (psum τ (hat P) (n + 1)) := by
  have h1 : IsTaylor a n (fun x => F x - F a) (hat P) := by
    have := hF.sub (IsTaylor.const (a := a) (m := n) (F a))
    rwa [hF.val] at this ⊢
  have h2 := h1.comp (g := g) (b := bg) (by rw [sub_self]; exact hg)
  have h3 := h1.comp (g := h) (b := bh) (by rw [sub_self]; exact hh)
  refine h2.div_of_mul h3 (by rw [coeff_zero_compPoly]; exact h0) ?_
  have h4 := compPoly_mul (m := n) (PowerSeries.mk τ) (PowerSeries.mk bh) (hat P)
  rw [hs] at h4
  simp only [PowerSeries.coeff_mk] at h4
  rw [← compPoly_hat]
  exact h4.symm

theorem thC_odd {k : ℕ} (hk : 1 ≤ k) :
    (thC (2 * k - 1) : 𝕜) = ((bernoulli (2 * k) * 4 ^ k * (4 ^ k - 1) / (2 * k).factorial : ℚ) : 𝕜) := by
  unfold thC thQ
  rw [Nat.sub_add_cancel (by omega), if_neg (by omega), add_zero]
  have : (4 : ℚ) ^ (2 * k) - 2 ^ (2 * k) = 4 ^ k * (4 ^ k - 1) := by
    rw [pow_mul 2 2 k, pow_mul 4 2 k, show (4 : ℚ) ^ 2 = 4 * 4 by norm_num, show (2 : ℚ) ^ 2 = 4 by norm_num, mul_pow]; ring
  rw [this]; congr 1; ring

theorem thC_one : (thC 1 : 𝕜) = 1 := by
  have := thC_odd (𝕜 := 𝕜) (k := 1) le_rfl
  norm_num [Nat.factorial, bernoulli_two] at this
  exact this

theorem tnC_odd {k : ℕ} (hk : 1 ≤ k) : (tnC (2 * k - 1) : 𝕜) = (-1) ^ (k - 1) * thC (2 * k - 1) := by
  unfold tnC eps
  rw [show (2 * k - 1) / 2 = k - 1 by omega]

theorem tnC_even {k : ℕ} (h : k % 2 = 0) : (tnC k : 𝕜) = 0 := by
  unfold tnC; rw [thC_even h, mul_zero]

theorem fact_step2 (k : ℕ) : ((2 * k).factorial : ℚ) * ((2 * k + 1) * (2 * k + 2)) = ((2 * (k + 1)).factorial : ℚ) := by
  rw [show 2 * (k + 1) = 2 * k + 2 by ring, Nat.factorial_succ, Nat.factorial_succ]; push_cast; ring

theorem tanLoop_rep {H : ι → MvPolynomial String 𝕜} {phat phat2 : GDual C} (hH : ∀ i, coeff 0 (H i) = 0)
    (h1 : Rep n phat H) (h1o : phat.order = n) (h2 : Rep n phat2 (fun i => H i ^ 2)) (h2o : phat2.order = n) :
    Rep n ((List.range' 2 ((n + 1) / 2 - 1)).foldl (tanStep phat2) ⟨phat, phat, 24, 16⟩).taylor
      (fun i => psum (tnC (𝕜 := 𝕜)) (H i) (n + 1)) ∧
    ((List.range' 2 ((n + 1) / 2 - 1)).foldl (tanStep phat2) ⟨phat, phat, 24, 16⟩).taylor.order = n := by
  obtain ⟨h3, h4, -⟩ := foldl_range' (step := tanStep phat2)
    (Inv := fun k s => Rep n s.taylor (fun i => psum (tnC (𝕜 := 𝕜)) (H i) (2 * k - 1)) ∧ s.taylor.order = n ∧
      Rep n s.phat (fun i => H i ^ (2 * k - 3)) ∧ s.factorial = ((2 * k).factorial : ℚ) ∧ s.fourK = (-1) ^ k * 4 ^ k)
    (stp := 1) one_pos ((n + 1) / 2 - 1) 2 (⟨phat, phat, 24, 16⟩ : TanSt C)
    ⟨h1.congr fun i => EqUpTo.of_eq (by
        rw [show 2 * 2 - 1 = 2 + 1 by norm_num, psum_succ, psum_two, tnC_even (k := 0) rfl, tnC_even (k := 2) rfl,
          show (tnC 1 : 𝕜) = 1 by have := tnC_odd (𝕜 := 𝕜) (k := 1) le_rfl; simpa [thC_one] using this]
        simp), h1o,
      h1.congr fun i => EqUpTo.of_eq (by simp), by norm_num [Nat.factorial], by norm_num⟩
    (by
      rintro k s hk - ⟨j1, j2, j3, j4, j5⟩
      have e1 : Rep n (s.phat.mul phat2) (fun i => H i ^ (2 * k - 1)) := (j3.mul h2 (Or.inr h2o)).congr fun i =>
        EqUpTo.of_eq (by rw [← pow_add]; congr 1; omega)
      refine ⟨?_, Rep.order_add j1 (e1.mulSG _) (Or.inl j2), e1.congr fun i => EqUpTo.of_eq rfl, ?_, ?_⟩
      · refine (j1.add (e1.mulSG _)).congr fun i => EqUpTo.of_eq ?_
        rw [show 2 * (k + 1) - 1 = 2 * k - 1 + 1 + 1 by omega, psum_succ, psum_succ, tnC_even (k := 2 * k - 1 + 1) (by omega),
          Lanes.lane_ofRat, tnC_odd (by omega), thC_odd (by omega), j4, j5, map_zero, zero_mul, add_zero]
        congr 3
        obtain ⟨j, rfl⟩ : ∃ j, k = j + 1 := ⟨k - 1, by omega⟩
        rw [abs_mul, abs_pow, abs_neg, abs_one, one_pow, one_mul, abs_of_pos (by positivity), Nat.add_sub_cancel, pow_succ]
        push_cast; ring
      · change s.factorial * _ = _
        rw [j4, fact_step2]
      · change s.fourK * _ = _
        rw [j5, pow_succ, pow_succ]; ring)
  exact ⟨h3.congr fun i => psum_eqUpTo _ (hH i) (by omega), h4⟩

theorem tanhLoop_rep {H : ι → MvPolynomial String 𝕜} {phat phat2 : GDual C} (hH : ∀ i, coeff 0 (H i) = 0)
    (h1 : Rep n phat H) (h1o : phat.order = n) (h2 : Rep n phat2 (fun i => H i ^ 2)) (h2o : phat2.order = n) :
    Rep n ((List.range' 2 ((n + 1) / 2 - 1)).foldl (tanhStep phat2) ⟨phat, phat, 24, 16⟩).taylor
      (fun i => psum (thC (𝕜 := 𝕜)) (H i) (n + 1)) ∧
    ((List.range' 2 ((n + 1) / 2 - 1)).foldl (tanhStep phat2) ⟨phat, phat, 24, 16⟩).taylor.order = n := by
  obtain ⟨h3, h4, -⟩ := foldl_range' (step := tanhStep phat2)
    (Inv := fun k s => Rep n s.taylor (fun i => psum (thC (𝕜 := 𝕜)) (H i) (2 * k - 1)) ∧ s.taylor.order = n ∧
      Rep n s.phat (fun i => H i ^ (2 * k - 3)) ∧ s.factorial = ((2 * k).factorial : ℚ) ∧ s.fourK = 4 ^ k)
    (stp := 1) one_pos ((n + 1) / 2 - 1) 2 (⟨phat, phat, 24, 16⟩ : TanSt C)
    ⟨h1.congr fun i => EqUpTo.of_eq (by
        rw [show 2 * 2 - 1 = 2 + 1 by norm_num, psum_succ, psum_two, thC_even (n := 0) rfl, thC_even (n := 2) rfl,
          thC_one]
        simp), h1o,
      h1.congr fun i => EqUpTo.of_eq (by simp), by norm_num [Nat.factorial], by norm_num⟩
    (by
      rintro k s hk - ⟨j1, j2, j3, j4, j5⟩
      have e1 : Rep n (s.phat.mul phat2) (fun i => H i ^ (2 * k - 1)) := (j3.mul h2 (Or.inr h2o)).congr fun i =>
        EqUpTo.of_eq (by rw [← pow_add]; congr 1; omega)
      refine ⟨?_, Rep.order_add j1 (e1.mulSG _) (Or.inl j2), e1.congr fun i => EqUpTo.of_eq rfl, ?_, ?_⟩
      · refine (j1.add (e1.mulSG _)).congr fun i => EqUpTo.of_eq ?_
        rw [show 2 * (k + 1) - 1 = 2 * k - 1 + 1 + 1 by omega, psum_succ, psum_succ, thC_even (n := 2 * k - 1 + 1) (by omega),
          Lanes.lane_ofRat, thC_odd (by omega), j4, j5, map_zero, zero_mul, add_zero]
      · change s.factorial * _ = _
        rw [j4, fact_step2]
      · change s.fourK * _ = _
        rw [j5, pow_succ])
  exact ⟨h3.congr fun i => psum_eqUpTo _ (hH i) (by omega), h4⟩

theorem coeff_zero_psum {b : ℕ → 𝕜} (P : MvPolynomial String 𝕜) (n : ℕ) : coeff 0 (psum b (hat P) (n + 1)) = b 0 := by
  rw [← compPoly_hat, coeff_zero_compPoly]

section like
variable {S Co T : 𝕜 → 𝕜}

theorem tan_liftK (hSC : TrigLike S Co) (hT0 : ∀ x, T x = S x / Co x)
    (ht : ∀ (i : ι) (c : C), Co (Lanes.lane i c) ≠ 0 → (Lanes.lane i (CfFun.tan c) : 𝕜) = T (Lanes.lane i c))
    (hok0 : ∀ c : C, CfFun.tanOk c = true ↔ ∀ i : ι, Co (Lanes.lane i c : 𝕜) ≠ 0) (hd : d.Valid)
    (h : ∀ i : ι, Co (coeff 0 (d.toMv i : MvPolynomial String 𝕜)) ≠ 0) :
    ∃ r, tan d = .ok r ∧ IsLift (fun _ : ι => T) d r := by
  obtain ⟨p0, hp0⟩ := constantCf_isOk d
  have hl : ∀ i : ι, (Lanes.lane i p0 : 𝕜) = coeff 0 (d.toMv i) := lane_constantCf hd hp0
  have hok : CfFun.tanOk p0 = true := (hok0 p0).mpr fun i => by rw [hl]; exact h i
  have hph := rep_hat (ι := ι) (K := 𝕜) hd hp0
  have hpo : (d.subGS p0).order = d.order := rfl
  have h2 : Rep d.order ((d.subGS p0).mul (d.subGS p0)) (fun i : ι => hat (d.toMv i) ^ 2) :=
    (hph.mul hph (Or.inl hpo)).congr fun i => EqUpTo.of_eq (sq _).symm
  have h2o : ((d.subGS p0).mul (d.subGS p0)).order = d.order := hph.order_mul hph (Or.inl hpo)
  obtain ⟨hT, hTo⟩ := tanLoop_rep (fun i => coeff_zero_hat' _) hph hpo h2 h2o
  set Ts := ((List.range' 2 ((d.order + 1) / 2 - 1)).foldl (tanStep ((d.subGS p0).mul (d.subGS p0)))
    ⟨d.subGS p0, d.subGS p0, 24, 16⟩).taylor with hTsdef
  have hden := (hT.mulSG (CfFun.tan p0)).subSG (Cf.ofRat 1)
  have htan : ∀ i : ι, (Lanes.lane i (CfFun.tan p0) : 𝕜) = T (coeff 0 (d.toMv i)) := fun i => by
    rw [ht _ _ (by rw [hl]; exact h i), hl]
  have ht0 : (tnC 0 : 𝕜) = 0 := tnC_even rfl
  obtain ⟨r, hr, hro, R, hR, hRQ⟩ := div_rep (hT.addSG (CfFun.tan p0)) hden
    (by change (mulSG _ Ts).order = _; rw [order_mulSG, hTo])
    (fun i => by
      rw [Lanes.lane_ofRat, coeff_sub, coeff_C_mul, coeff_zero_psum, ht0]; simp)
  refine ⟨r, ?_, hR.valid, hro, fun i F a hF => ?_⟩
  · unfold tan
    rw [bind_ok hp0, bind_ok (guardFinite_true hok)]
    exact hr
  · have hv := hF.val
    have hTt := taylor_ratio (τ := tnC (𝕜 := 𝕜)) hF (by simpa [hSC.S0, hSC.C0] using hSC.taylorS 0 d.order) (by simpa [hSC.S0, hSC.C0] using hSC.taylorC 0 d.order)
      (by simp [csC, chC, eps]) tnC_series
    have hnum := (IsTaylor.const (a := a) (m := d.order) (T (F a))).add hTt
    have hdd := (IsTaylor.const (a := a) (m := d.order) 1).sub (hTt.const_mul (T (F a)))
    have hq := hnum.div_of_mul hdd (R := R i) (by
        rw [coeff_sub, coeff_C_mul, coeff_zero_psum, ht0]; simp) (by
      have := hRQ i
      rw [Lanes.lane_ofRat, htan, ← hv] at this
      simpa using this)
    refine (hq.congr_poly (hR.eq i).symm).congr_fun ?_
    have hca : Co (F a) ≠ 0 := by rw [hv]; exact h i
    have c1 : ∀ᶠ x in 𝓝 a, Co (F x) ≠ 0 :=
      (ContinuousAt.comp (f := F) (g := Co) (hSC.dC _).continuousAt hF.cont).eventually_ne hca
    have c2 : ∀ᶠ x in 𝓝 a, Co (F x - F a) ≠ 0 :=
      (ContinuousAt.comp (f := fun x => F x - F a) (g := Co) (hSC.dC _).continuousAt
        (hF.cont.sub continuousAt_const)).eventually_ne (by simp [hSC.C0])
    filter_upwards [c1, c2] with x hx hx2
    have e1 : Co (F x) = Co (F a) * Co (F x - F a) - S (F a) * S (F x - F a) := by
      rw [← hSC.Cadd]; congr 1; ring
    have e2 : S (F x) = S (F a) * Co (F x - F a) + Co (F a) * S (F x - F a) := by
      rw [← hSC.Sadd]; congr 1; ring
    rw [hT0 (F a), hT0 (F x), e2]
    have e3 : Co (F a) * Co (F x - F a) - S (F a) * S (F x - F a) ≠ 0 := by rw [← e1]; exact hx
    rw [e1]
    have e4 : 1 - S (F a) / Co (F a) * (S (F x - F a) / Co (F x - F a)) =
        (Co (F a) * Co (F x - F a) - S (F a) * S (F x - F a)) /
          (Co (F a) * Co (F x - F a)) := by field_simp
    rw [e4]
    field_simp

theorem tan_undefK (hok0 : ∀ c : C, CfFun.tanOk c = true ↔ ∀ i : ι, Co (Lanes.lane i c : 𝕜) ≠ 0) (hd : d.Valid)
    (h : ¬ ∀ i : ι, Co (coeff 0 (d.toMv i : MvPolynomial String 𝕜)) ≠ 0) : tan d = .error .nonFinite := by
  obtain ⟨p0, hp0⟩ := constantCf_isOk d
  have hok : ¬ CfFun.tanOk p0 = true := fun hc => h fun i => by
    rw [← lane_constantCf hd hp0]; exact (hok0 p0).mp hc i
  unfold tan
  rw [bind_ok hp0, bind_error (guardFinite_false hok)]

theorem tanh_liftK (hSC : HypLike S Co) (hT0 : ∀ x, T x = S x / Co x)
    (ht : ∀ (i : ι) (c : C), Co (Lanes.lane i c) ≠ 0 → (Lanes.lane i (CfFun.tanh c) : 𝕜) = T (Lanes.lane i c)) (hd : d.Valid)
    (h : ∀ i : ι, Co (coeff 0 (d.toMv i : MvPolynomial String 𝕜)) ≠ 0) :
    ∃ r, tanh d = .ok r ∧ IsLift (fun _ : ι => T) d r := by
  obtain ⟨p0, hp0⟩ := constantCf_isOk d
  have hl : ∀ i : ι, (Lanes.lane i p0 : 𝕜) = coeff 0 (d.toMv i) := lane_constantCf hd hp0
  have hph := rep_hat (ι := ι) (K := 𝕜) hd hp0
  have hpo : (d.subGS p0).order = d.order := rfl
  have h2 : Rep d.order ((d.subGS p0).mul (d.subGS p0)) (fun i : ι => hat (d.toMv i) ^ 2) :=
    (hph.mul hph (Or.inl hpo)).congr fun i => EqUpTo.of_eq (sq _).symm
  have h2o : ((d.subGS p0).mul (d.subGS p0)).order = d.order := hph.order_mul hph (Or.inl hpo)
  obtain ⟨hT, hTo⟩ := tanhLoop_rep (fun i => coeff_zero_hat' _) hph hpo h2 h2o
  set Ts := ((List.range' 2 ((d.order + 1) / 2 - 1)).foldl (tanhStep ((d.subGS p0).mul (d.subGS p0)))
    ⟨d.subGS p0, d.subGS p0, 24, 16⟩).taylor with hTsdef
  have hden := (hT.mulSG (CfFun.tanh p0)).addSG (Cf.ofRat 1)
  have htan : ∀ i : ι, (Lanes.lane i (CfFun.tanh p0) : 𝕜) = T (coeff 0 (d.toMv i)) := fun i => by
    rw [ht _ _ (by rw [hl]; exact h i), hl]
  have ht0 : (thC 0 : 𝕜) = 0 := thC_even rfl
  obtain ⟨r, hr, hro, R, hR, hRQ⟩ := div_rep (hT.addSG (CfFun.tanh p0)) hden
    (by change (mulSG _ Ts).order = _; rw [order_mulSG, hTo])
    (fun i => by
      rw [Lanes.lane_ofRat, coeff_add, coeff_C_mul, coeff_zero_psum, ht0]; simp)
  refine ⟨r, ?_, hR.valid, hro, fun i F a hF => ?_⟩
  · unfold tanh
    rw [bind_ok hp0]
    exact hr
  · have hv := hF.val
    have hTt := taylor_ratio (τ := thC (𝕜 := 𝕜)) hF (by simpa [hSC.S0, hSC.C0] using hSC.taylorS 0 d.order) (by simpa [hSC.S0, hSC.C0] using hSC.taylorC 0 d.order)
      (by simp [chC]) thC_series
    have hnum := (IsTaylor.const (a := a) (m := d.order) (T (F a))).add hTt
    have hdd := (IsTaylor.const (a := a) (m := d.order) 1).add (hTt.const_mul (T (F a)))
    have hq := hnum.div_of_mul hdd (R := R i) (by
        rw [coeff_add, coeff_C_mul, coeff_zero_psum, ht0]; simp) (by
      have := hRQ i
      rw [Lanes.lane_ofRat, htan, ← hv] at this
      simpa using this)
    refine (hq.congr_poly (hR.eq i).symm).congr_fun ?_
    have p1 : Co (F a) ≠ 0 := by rw [hv]; exact h i
    have c1 : ∀ᶠ x in 𝓝 a, Co (F x) ≠ 0 :=
      (ContinuousAt.comp (f := F) (g := Co) (hSC.dC _).continuousAt hF.cont).eventually_ne p1
    have c2 : ∀ᶠ x in 𝓝 a, Co (F x - F a) ≠ 0 :=
      (ContinuousAt.comp (f := fun x => F x - F a) (g := Co) (hSC.dC _).continuousAt
        (hF.cont.sub continuousAt_const)).eventually_ne (by simp [hSC.C0])
    filter_upwards [c1, c2] with x p3 p2
    have e1 : Co (F x) = Co (F a) * Co (F x - F a) + S (F a) * S (F x - F a) := by
      rw [← hSC.Cadd]; congr 1; ring
    have e2 : S (F x) = S (F a) * Co (F x - F a) + Co (F a) * S (F x - F a) := by
      rw [← hSC.Sadd]; congr 1; ring
    simp only [hT0]
    have e3 : Co (F a) * Co (F x - F a) + S (F a) * S (F x - F a) ≠ 0 := by
      rw [← e1]; exact p3
    rw [e1, e2]
    have e4 : 1 + S (F a) / Co (F a) * (S (F x - F a) / Co (F x - F a)) =
        (Co (F a) * Co (F x - F a) + S (F a) * S (F x - F a)) /
          (Co (F a) * Co (F x - F a)) := by field_simp
    rw [e4]
    field_simp

end like

end generic

/-! Real coefficients -/

variable {C : Type} [CfFun C] {ι : Type} [Lanes C ι ℝ] {d r : GDual C} {n : ℕ}

theorem trigLike_real : TrigLike Real.sin Real.cos :=
  ⟨Real.hasDerivAt_sin, Real.hasDerivAt_cos, Real.sin_zero, Real.cos_zero, Real.sin_add, Real.cos_add⟩

theorem hypLike_real : HypLike Real.sinh Real.cosh :=
  ⟨Real.hasDerivAt_sinh, Real.hasDerivAt_cosh, Real.sinh_zero, Real.cosh_zero, Real.sinh_add, Real.cosh_add⟩

theorem sinAndCos_lift [LanesFun C ι] (hd : d.Valid) : ∃ s c, sinAndCos d = .ok (s, c) ∧ sin d = .ok s ∧ cos d = .ok c ∧
    IsLift (fun _ : ι => Real.sin) d s ∧ IsLift (fun _ : ι => Real.cos) d c :=
  sinAndCos_liftK trigLike_real LanesFun.lane_sin LanesFun.lane_cos hd

theorem sinhAndCosh_lift [LanesFun C ι] (hd : d.Valid) : ∃ s c, sinhAndCosh d = .ok (s, c) ∧ sinh d = .ok s ∧
    cosh d = .ok c ∧ IsLift (fun _ : ι => Real.sinh) d s ∧ IsLift (fun _ : ι => Real.cosh) d c :=
  sinhAndCosh_liftK hypLike_real LanesFun.lane_sinh LanesFun.lane_cosh hd

theorem computes_sin [LanesFun C ι] : Computes (C := C) (ι := ι) sin Real.sin (fun _ => True) where
  lift d hd _ := by
    obtain ⟨s, c, -, h1, -, h2, -⟩ := sinAndCos_lift (ι := ι) hd
    exact ⟨s, h1, h2⟩
  undef d _ h := absurd (fun _ => trivial) h

theorem computes_cos [LanesFun C ι] : Computes (C := C) (ι := ι) cos Real.cos (fun _ => True) where
  lift d hd _ := by
    obtain ⟨s, c, -, -, h1, -, h2⟩ := sinAndCos_lift (ι := ι) hd
    exact ⟨c, h1, h2⟩
  undef d _ h := absurd (fun _ => trivial) h

theorem computes_sinh [LanesFun C ι] : Computes (C := C) (ι := ι) sinh Real.sinh (fun _ => True) where
  lift d hd _ := by
    obtain ⟨s, c, -, h1, -, h2, -⟩ := sinhAndCosh_lift (ι := ι) hd
    exact ⟨s, h1, h2⟩
  undef d _ h := absurd (fun _ => trivial) h

theorem computes_cosh [LanesFun C ι] : Computes (C := C) (ι := ι) cosh Real.cosh (fun _ => True) where
  lift d hd _ := by
    obtain ⟨s, c, -, -, h1, -, h2⟩ := sinhAndCosh_lift (ι := ι) hd
    exact ⟨c, h1, h2⟩
  undef d _ h := absurd (fun _ => trivial) h

theorem computes_tan [LanesFun C ι] : Computes (C := C) (ι := ι) tan Real.tan (fun x => Real.cos x ≠ 0) where
  lift d hd h := tan_liftK trigLike_real Real.tan_eq_sin_div_cos LanesFun.lane_tan LanesFun.tanOk_iff hd h
  undef d hd h := tan_undefK LanesFun.tanOk_iff hd h

theorem computes_tanh [LanesFun C ι] : Computes (C := C) (ι := ι) tanh Real.tanh (fun _ => True) where
  lift d hd _ := tanh_liftK hypLike_real Real.tanh_eq_sinh_div_cosh (fun i c _ => LanesFun.lane_tanh i c) hd
    fun i => (Real.cosh_pos _).ne'
  undef d _ h := absurd (fun _ => trivial) h

end GDual
end Audi
