import Verif.Proofs.Substitution

/-! Evaluation of expressions commutes with substitutions that keep the constant terms. -/

namespace Audi

open MvPolynomial Spec GDual

variable {C : Type} [CfFun C] {ι : Type} [Lanes C ι ℝ] [LanesFun C ι] {m n : ℕ} {σ σ' : String → GDual C}

theorem good_poly (hσ : ∀ s, (σ s).Valid ∧ (σ s).order ≤ n ∧ ((σ s).order = n ∨ IsConst ι (σ s))) (s : String) :
    Good n (fun _ : ι => 0) (fun i x => MvPolynomial.eval x ((σ s).toMv i)) (σ s) :=
  ⟨(hσ s).1, (hσ s).2.1, (hσ s).2.2, fun i => by simpa using isTaylor_poly (0 : String → ℝ) n ((σ s).toMv i)⟩

/-- If the arguments `σ'` are obtained from the arguments `σ` by a substitution without constant terms, up to degree `m`, then the result of the evaluation too. -/
theorem Expr.eval_natural (hmn : m ≤ n) (hσ : ∀ s, (σ s).Valid ∧ (σ s).order ≤ n ∧ ((σ s).order = n ∨ IsConst ι (σ s)))
    (hσ' : ∀ s, (σ' s).Valid ∧ (σ' s).order ≤ m ∧ ((σ' s).order = m ∨ IsConst ι (σ' s))) {q : ι → String → MvPolynomial String ℝ} (hq : ∀ i s, coeff 0 (q i s) = 0)
    (h : ∀ (i : ι) s, EqUpTo m ((σ' s).toMv i) (aeval (q i) ((σ s).toMv i))) (e : Expr C) (he : e.FnOrder n)
    (hd : ∀ i : ι, e.Dom i fun s => coeff 0 ((σ s).toMv i : MvPolynomial String ℝ)) :
    ∃ r r', e.eval σ = .ok r ∧ e.eval σ' = .ok r' ∧ Good n (fun _ : ι => 0) (fun i x => e.sem i fun s => MvPolynomial.eval x ((σ s).toMv i)) r ∧
      Good m (fun _ : ι => 0) (fun i x => e.sem i fun s => MvPolynomial.eval x ((σ' s).toMv i)) r' ∧ ∀ i : ι, EqUpTo m (r'.toMv i) (aeval (q i) (r.toMv i)) := by
  have hq' : ∀ i s, q i s ∈ idealOfVars String ℝ := fun i s => mem_ideal_iff.2 (hq i s)
  have hc0 : ∀ (i : ι) s, coeff 0 ((σ' s).toMv i : MvPolynomial String ℝ) = coeff 0 ((σ s).toMv i) := fun i s => by
    rw [h i s 0 (by simp), coeff_zero_aeval (hq i)]
  have hev : ∀ (τ : String → GDual C) (i : ι) s, MvPolynomial.eval (0 : String → ℝ) ((τ s).toMv i) = coeff 0 ((τ s).toMv i) := fun τ i s => by
    rw [eval_zero, constantCoeff_eq]
  obtain ⟨r, hr, gr⟩ := Expr.eval_good (good_poly hσ) e he fun i => by simpa only [hev] using hd i
  obtain ⟨r', hr', gr'⟩ := Expr.eval_good (good_poly hσ') e (e.fnOrder_mono he hmn) fun i => by simpa only [hev, hc0] using hd i
  refine ⟨r, r', hr, hr', gr, gr', fun i => ?_⟩
  obtain ⟨P, hP⟩ := Expr.subst (m := n) i e (hd i)
  have h1 := (gr.taylor i).unique (hP.out (fun s => (good_poly hσ s).taylor i) fun s => hev σ i s)
  have h2 : EqUpTo m (r'.toMv i) (aeval (fun s => (σ' s).toMv i - MvPolynomial.C (coeff 0 ((σ s).toMv i))) P) := by
    have h3 : ∀ s, IsTaylor (0 : String → ℝ) n (fun x => MvPolynomial.eval x ((σ' s).toMv i)) ((σ' s).toMv i : MvPolynomial String ℝ) := fun s => by
      simpa using isTaylor_poly (0 : String → ℝ) n ((σ' s).toMv i : MvPolynomial String ℝ)
    exact (gr'.taylor i).unique ((hP.out h3 fun s => by rw [hev, hc0]).mono hmn)
  refine h2.trans (EqUpTo.trans ?_ ((h1.mono hmn).aeval (hq' i)).symm)
  have h4 : aeval (q i) (aeval (fun s => (σ s).toMv i - MvPolynomial.C (coeff 0 ((σ s).toMv i : MvPolynomial String ℝ))) P) =
      aeval (fun s => aeval (q i) ((σ s).toMv i) - MvPolynomial.C (coeff 0 ((σ s).toMv i : MvPolynomial String ℝ))) P := by
    rw [comp_aeval_apply]
    simp [algebraMap_eq]
  rw [h4]
  refine EqUpTo.aeval_congr (fun s => mem_ideal_iff.2 ?_) (fun s => mem_ideal_iff.2 ?_) (fun s => (h i s).sub (EqUpTo.refl _)) P
  · rw [coeff_sub, hc0, coeff_C, if_pos rfl, sub_self]
  · rw [coeff_sub, coeff_zero_aeval (hq i), coeff_C, if_pos rfl, sub_self]

/-! ### Without restriction of the order

The coefficients computed by `atan` depend on the constant part of the argument and not on its order, even where they are wrong. -/

/-- The values `r` (at the order `n`) and `r'` (at the order `m`) of an expression: the second is obtained by the substitution `q`. -/
structure Nt (m n : ℕ) (q : ι → String → MvPolynomial String ℝ) (v : ι → ℝ) (r r' : GDual C) : Prop where
  valid : r.Valid
  le : r.order ≤ n
  order : r.order = n ∨ IsConst ι r
  valid' : r'.Valid
  le' : r'.order ≤ m
  order' : r'.order = m ∨ IsConst ι r'
  val : ∀ i, coeff 0 (r.toMv i : MvPolynomial String ℝ) = v i
  eq : ∀ i : ι, EqUpTo m (r'.toMv i) (aeval (q i) (r.toMv i))

variable {q : ι → String → MvPolynomial String ℝ}

theorem Nt.val' {v : ι → ℝ} {r r' : GDual C} (h : Nt m n q v r r') (hq : ∀ i s, coeff 0 (q i s) = 0) (i : ι) :
    coeff 0 (r'.toMv i : MvPolynomial String ℝ) = v i := by
  rw [h.eq i 0 (by simp), coeff_zero_aeval (hq i), h.val]

theorem Nt.eval (hmn : m ≤ n) (hq : ∀ i s, coeff 0 (q i s) = 0) {v : String → ι → ℝ} (h : ∀ s, Nt m n q (v s) (σ s) (σ' s)) (e : Expr C) (he : e.FnOrder n)
    (hd : ∀ i : ι, e.Dom i fun s => v s i) : ∃ r r', e.eval σ = .ok r ∧ e.eval σ' = .ok r' ∧ Nt m n q (fun i => e.sem i fun s => v s i) r r' := by
  obtain ⟨r, r', hr, hr', g, g', h1⟩ := Expr.eval_natural hmn (fun s => ⟨(h s).valid, (h s).le, (h s).order⟩) (fun s => ⟨(h s).valid', (h s).le', (h s).order'⟩) hq
    (fun i s => (h s).eq i) e he fun i => by simpa only [(h _).val] using hd i
  refine ⟨r, r', hr, hr', g.valid, g.le, g.order, g'.valid, g'.le, g'.order, fun i => ?_, h1⟩
  rw [← (g.taylor i).val]
  congr 1
  funext s
  rw [eval_zero, constantCoeff_eq, (h s).val]

theorem foldl_rel' {α β : Type} {r : β → β → Prop} {f g : β → α → β} {a b : β} {l : List α} (h : r a b) (h' : ∀ x ∈ l, ∀ c c', r c c' → r (f c x) (g c' x)) :
    r (l.foldl f a) (l.foldl g b) := by
  induction l generalizing a b with
  | nil => exact h
  | cons x l ih => exact ih (h' x (by simp) a b h) fun y hy => h' y (by simp [hy])

theorem lane_atanOdd_congr {bin : ℕ → ℕ → ℕ} {p p' : C} {i : ι} (h : (Lanes.lane i p : ℝ) = Lanes.lane i p') (k : ℕ) :
    (Lanes.lane i (GDual.atanOdd bin p k) : ℝ) = Lanes.lane i (GDual.atanOdd bin p' k) := by
  unfold GDual.atanOdd
  refine (foldl_rel' (r := fun a b : GDual.AtanIn C => (Lanes.lane i a.binom : ℝ) = Lanes.lane i b.binom ∧ (Lanes.lane i a.f0 : ℝ) = Lanes.lane i b.f0 ∧
    (Lanes.lane i a.cfi : ℝ) = Lanes.lane i b.cfi) ?_ ?_).1
  · exact ⟨rfl, by rw [Lanes.lane_mul, Lanes.lane_mul, h], rfl⟩
  · rintro j - a b ⟨h1, h2, h3⟩
    refine ⟨?_, ?_, ?_⟩ <;> simp only [Lanes.lane_add, Lanes.lane_mul, Lanes.lane_neg, h, h1, h2, h3]

theorem lane_atanEven_congr {bin : ℕ → ℕ → ℕ} {p p' : C} {i : ι} (h : (Lanes.lane i p : ℝ) = Lanes.lane i p') (k : ℕ) :
    (Lanes.lane i (GDual.atanEven bin p k) : ℝ) = Lanes.lane i (GDual.atanEven bin p' k) := by
  unfold GDual.atanEven
  refine (foldl_rel' (r := fun a b : GDual.AtanIn C => (Lanes.lane i a.binom : ℝ) = Lanes.lane i b.binom ∧ (Lanes.lane i a.f0 : ℝ) = Lanes.lane i b.f0 ∧
    (Lanes.lane i a.cfi : ℝ) = Lanes.lane i b.cfi) ?_ ?_).1
  · exact ⟨rfl, h, rfl⟩
  rintro j - a b ⟨h1, h2, h3⟩
  refine ⟨?_, ?_, ?_⟩ <;> simp only [Lanes.lane_add, Lanes.lane_mul, Lanes.lane_neg, h, h1, h2, h3]

theorem atanB_congr_lane {bin : ℕ → ℕ → ℕ} {p p' : C} {i : ι} (h : (Lanes.lane i p : ℝ) = Lanes.lane i p') (k : ℕ) : GDual.atanB bin p i k = GDual.atanB bin p' i k := by
  unfold GDual.atanB
  rw [h, lane_atanOdd_congr h, lane_atanEven_congr h]

theorem psum_zero_right (b : ℕ → ℝ) (N : ℕ) : psum b 0 (N + 1) = MvPolynomial.C (b 0) := by
  induction N with
  | zero => exact psum_one _ _
  | succ N ih => rw [psum_succ, ih]; simp

omit [LanesFun C ι] in
/-- A power series of a gdual up to the order `n`, also when the gdual is a constant of a smaller order. -/
theorem rep_psum {d r : GDual C} {b : ι → ℕ → ℝ} (hr : r.order = d.order) (h : Rep d.order r fun i : ι => psum (b i) (hat (d.toMv i)) (d.order + 1))
    (ho : d.order = n ∨ IsConst ι d) (i : ι) : EqUpTo n (r.toMv i) (psum (b i) (hat (d.toMv i)) (n + 1)) := by
  rcases ho with ho | ho
  · subst ho
    exact h.eq i
  · have h0 : hat (d.toMv i : MvPolynomial String ℝ) = 0 := by
      unfold hat
      rw [ho i, coeff_C, if_pos rfl, sub_self]
    have h1 := h.eq i
    simp only [h0, psum_zero_right] at h1 ⊢
    refine EqUpTo.of_eq (h1.eq_of_degLE (fun E hE => Valid.degLE (K := ℝ) h.valid i E (by omega)) fun E hE => ?_)
    rw [coeff_C, if_neg]
    rintro rfl
    simp at hE

theorem Nt.atan (hmn : m ≤ n) (hq : ∀ i s, coeff 0 (q i s) = 0) (bin : ℕ → ℕ → ℕ) {v : ι → ℝ} {d d' : GDual C} (h : Nt m n q v d d') :
    ∃ r r', GDual.atanWith bin d = .ok r ∧ GDual.atanWith bin d' = .ok r' ∧ Nt m n q (fun i => Real.arctan (v i)) r r' := by
  obtain ⟨r, p, hp, hr, ho, hR⟩ := GDual.atanWith_rep (ι := ι) bin h.valid
  obtain ⟨r', p', hp', hr', ho', hR'⟩ := GDual.atanWith_rep (ι := ι) bin h.valid'
  have hl : ∀ i : ι, (Lanes.lane i p : ℝ) = v i := fun i => (lane_constantCf h.valid hp i).trans (h.val i)
  have hl' : ∀ i : ι, (Lanes.lane i p' : ℝ) = v i := fun i => (lane_constantCf h.valid' hp' i).trans (h.val' hq i)
  set b : ι → ℕ → ℝ := fun i k => GDual.atanB bin p i k * (1 + v i ^ 2)⁻¹ ^ k with hb
  have e1 := rep_psum (b := b) ho (by simpa only [h.val] using hR) h.order
  have e2 := rep_psum (b := b) ho' (by simpa only [h.val' hq, fun i k => atanB_congr_lane (bin := bin) ((hl i).trans (hl' i).symm) k, hb] using hR') h.order'
  have hconst : ∀ {d r : GDual C} {N : ℕ}, IsConst ι d → r.Valid → (∀ i : ι, EqUpTo N (r.toMv i) (psum (b i) (hat (d.toMv i)) (N + 1))) → r.order ≤ N → IsConst ι r := by
    intro d r N hd hv h1 hN i
    have h0 : hat (d.toMv i : MvPolynomial String ℝ) = 0 := by
      unfold hat
      rw [hd i, coeff_C, if_pos rfl, sub_self]
    have h2 := h1 i
    rw [h0, psum_zero_right] at h2
    have h3 : (r.toMv i : MvPolynomial String ℝ) = MvPolynomial.C (b i 0) := by
      refine h2.eq_of_degLE (fun E hE => Valid.degLE (K := ℝ) hv i E (by omega)) fun E hE => ?_
      rw [coeff_C, if_neg]
      rintro rfl
      simp at hE
    rw [h3, coeff_C, if_pos rfl]
  refine ⟨r, r', hr, hr', hR.valid, ho.trans_le h.le, h.order.imp ho.trans fun hc => hconst hc hR.valid e1 (ho.trans_le h.le), hR'.valid, ho'.trans_le h.le',
    h.order'.imp ho'.trans fun hc => hconst hc hR'.valid e2 (ho'.trans_le h.le'), fun i => ?_, fun i => ?_⟩
  · rw [e1 i 0 (by simp), GDual.coeff_zero_psum, hb]
    simp [GDual.atanB, hl]
  · have hq' : ∀ s, q i s ∈ idealOfVars String ℝ := fun s => mem_ideal_iff.2 (hq i s)
    refine (e2 i).trans (EqUpTo.trans ?_ (((e1 i).mono hmn).aeval hq').symm)
    have h3 : aeval (q i) (psum (b i) (hat (d.toMv i)) (n + 1)) = psum (b i) (aeval (q i) (hat (d.toMv i))) (n + 1) := by
      unfold psum
      simp [map_sum, algebraMap_eq]
    rw [h3]
    refine EqUpTo.trans (psum_eqUpTo (b i) (coeff_zero_hat' _) (N := n + 1) (by omega)).symm ?_
    unfold psum
    refine EqUpTo.sum _ fun k _ => (EqUpTo.refl _).mul (EqUpTo.pow ?_ k)
    unfold hat
    rw [map_sub, algHom_C, algebraMap_eq, h.val' hq, h.val]
    exact (h.eq i).sub (EqUpTo.refl _)

/-- Evaluation commutes with substitutions without constant terms, at all orders. -/
theorem Expr.natural (hmn : m ≤ n) (hq : ∀ i s, coeff 0 (q i s) = 0) {v : String → ι → ℝ} (h : ∀ s, Nt m n q (v s) (σ s) (σ' s)) (e : Expr C)
    (hd : ∀ i : ι, e.Dom i fun s => v s i) : ∃ r r', e.eval σ = .ok r ∧ e.eval σ' = .ok r' ∧ Nt m n q (fun i => e.sem i fun s => v s i) r r' := by
  -- one node
  have one : ∀ {v1 v2 : ι → ℝ} {a a' b b' : GDual C}, Nt m n q v1 a a' → Nt m n q v2 b b' → ∀ e : Expr C, e.FnOrder n →
      (∀ i : ι, e.Dom i fun s => if s = "a" then v1 i else v2 i) → ∃ r r', (e.eval fun s => if s = "a" then a else b) = .ok r ∧
        (e.eval fun s => if s = "a" then a' else b') = .ok r' ∧ Nt m n q (fun i => e.sem i fun s => if s = "a" then v1 i else v2 i) r r' := by
    intro v1 v2 a a' b b' ha hb e he hd
    obtain ⟨r, r', hr, hr', hn⟩ := Nt.eval (σ := fun s => if s = "a" then a else b) (σ' := fun s => if s = "a" then a' else b') (v := fun s i => if s = "a" then v1 i else v2 i)
      hmn hq (fun s => by by_cases hs : s = "a" <;> simp only [hs, if_true, if_false] <;> assumption) e he hd
    exact ⟨r, r', hr, hr', hn⟩
  induction e with
  | var s => exact ⟨_, _, rfl, rfl, h s⟩
  | const c => exact Nt.eval hmn hq h (.const c) trivial hd
  | bin op e1 e2 ih1 ih2 =>
    obtain ⟨a, a', ha, ha', h1⟩ := ih1 fun i => (hd i).1
    obtain ⟨b, b', hb, hb', h2⟩ := ih2 fun i => (hd i).2.1
    obtain ⟨r, r', hr, hr', hn⟩ := one h1 h2 (.bin op (.var "a") (.var "b")) ⟨trivial, trivial⟩ fun i => ⟨trivial, trivial, (hd i).2.2⟩
    refine ⟨r, r', ?_, ?_, hn⟩
    · simp only [Expr.eval, ha, hb]; exact hr
    · simp only [Expr.eval, ha', hb']; exact hr'
  | left op c e ih =>
    obtain ⟨a, a', ha, ha', h1⟩ := ih fun i => (hd i).1
    obtain ⟨r, r', hr, hr', hn⟩ := one h1 h1 (.left op c (.var "a")) trivial fun i => ⟨trivial, (hd i).2⟩
    refine ⟨r, r', ?_, ?_, hn⟩
    · simp only [Expr.eval, ha]; exact hr
    · simp only [Expr.eval, ha']; exact hr'
  | right op e c ih =>
    obtain ⟨a, a', ha, ha', h1⟩ := ih fun i => (hd i).1
    obtain ⟨r, r', hr, hr', hn⟩ := one h1 h1 (.right op (.var "a") c) trivial fun i => ⟨trivial, (hd i).2⟩
    refine ⟨r, r', ?_, ?_, hn⟩
    · simp only [Expr.eval, ha]; exact hr
    · simp only [Expr.eval, ha']; exact hr'
  | pow e1 e2 ih1 ih2 =>
    obtain ⟨a, a', ha, ha', h1⟩ := ih1 fun i => (hd i).1
    obtain ⟨b, b', hb, hb', h2⟩ := ih2 fun i => (hd i).2.1
    obtain ⟨r, r', hr, hr', hn⟩ := one h1 h2 (.pow (.var "a") (.var "b")) ⟨trivial, trivial⟩ fun i => ⟨trivial, trivial, (hd i).2.2⟩
    refine ⟨r, r', ?_, ?_, hn⟩
    · simp only [Expr.eval, ha, hb]; exact hr
    · simp only [Expr.eval, ha', hb']; exact hr'
  | fn f e ih =>
    obtain ⟨a, a', ha, ha', h1⟩ := ih fun i => (hd i).1
    have plain : f.MaxOrder n → ∃ r r', (Expr.fn f e).eval σ = .ok r ∧ (Expr.fn f e).eval σ' = .ok r' ∧ Nt m n q (fun i => (Expr.fn f e).sem i fun s => v s i) r r' := fun hf => by
      obtain ⟨r, r', hr, hr', hn⟩ := one h1 h1 (.fn f (.var "a")) ⟨trivial, hf⟩ fun i => ⟨trivial, (hd i).2⟩
      refine ⟨r, r', ?_, ?_, hn⟩
      · simp only [Expr.eval, ha]; exact hr
      · simp only [Expr.eval, ha']; exact hr'
    have asn : (∀ i : ι, |e.sem i fun s => v s i| < 1) → ∃ r r', GDual.asin a = .ok r ∧ GDual.asin a' = .ok r' ∧ Nt m n q (fun i => Real.arcsin (e.sem i fun s => v s i)) r r' := fun hd => by
      have hpos : ∀ i : ι, 0 < 1 - (e.sem i fun s => v s i) * (e.sem i fun s => v s i) := fun i => by
        have := abs_lt.1 (hd i)
        nlinarith
      obtain ⟨r, r', hr, hr', hn⟩ := one h1 h1 (.bin .div (.var "a") (.fn .sqrt (.left .sub (Cf.ofRat 1) (.bin .mul (.var "a") (.var "a")))))
        ⟨trivial, ⟨trivial, trivial⟩, trivial⟩ fun i => by
          have h1 := hpos i
          refine ⟨trivial, ⟨⟨⟨trivial, trivial, trivial⟩, trivial⟩, ?_⟩, ?_⟩
          · change 0 < (Lanes.lane i (Cf.ofRat 1 : C) : ℝ) - _
            rw [Lanes.lane_ofRat]
            simpa [Expr.sem, Op.real] using h1
          · change √((Lanes.lane i (Cf.ofRat 1 : C) : ℝ) - _) ≠ 0
            rw [Lanes.lane_ofRat]
            exact (Real.sqrt_pos.2 (by simpa [Expr.sem, Op.real] using h1)).ne'
      obtain ⟨t, t', ht, ht', hnt⟩ := hn.atan hmn hq GDual.binomialU32
      have key : ∀ (a t : GDual C), ((Expr.bin .div (.var "a") (.fn .sqrt (.left .sub (Cf.ofRat 1) (.bin .mul (.var "a") (.var "a")))) : Expr C).eval fun s => if s = "a" then a else a) = .ok t →
          GDual.asin a = GDual.atanWith GDual.binomialU32 t := by
        intro a t h
        simp only [ite_self] at h
        simp only [Expr.eval, Op.run, Op.runL, Fn.run] at h
        unfold GDual.asin GDual.asinWith
        cases hs : GDual.sqrt ((a.mul a).subSG (Cf.ofRat 1)) with
        | error er => simp [bind, Except.bind, hs] at h
        | ok s =>
          simp only [bind, Except.bind, hs] at h ⊢
          rw [h]
      refine ⟨t, t', (key _ _ hr).trans ht, (key _ _ hr').trans ht', ?_⟩
      convert hnt using 2 with i
      have h2 := abs_lt.1 (hd i)
      rw [Real.arcsin_eq_arctan ⟨h2.1, h2.2⟩]
      simp [Expr.sem, Op.real, Fn.real, Lanes.lane_ofRat, sq]
    cases f with
    | atan =>
      obtain ⟨r, r', hr, hr', hn⟩ := h1.atan hmn hq GDual.binomialU32
      refine ⟨r, r', ?_, ?_, hn⟩
      · simp only [Expr.eval, ha]; exact hr
      · simp only [Expr.eval, ha']; exact hr'
    | asin =>
      obtain ⟨r, r', hr, hr', hn⟩ := asn fun i => (hd i).2
      refine ⟨r, r', ?_, ?_, hn⟩
      · simp only [Expr.eval, ha]; exact hr
      · simp only [Expr.eval, ha']; exact hr'
    | acos =>
      obtain ⟨r, r', hr, hr', hn⟩ := asn fun i => (hd i).2
      obtain ⟨t, t', ht, ht', hnt⟩ := one hn hn (.left .sub (Cf.mul (Cf.ofRat (1 / 2)) CfFun.pi) (.var "a")) trivial fun i => ⟨trivial, trivial⟩
      refine ⟨t, t', ?_, ?_, ?_⟩
      · simp only [Expr.eval, ha]
        change GDual.acosWith _ _ = _
        unfold GDual.acosWith
        change GDual.asinWith _ _ = _ at hr
        rw [bind_ok hr]
        exact ht
      · simp only [Expr.eval, ha']
        change GDual.acosWith _ _ = _
        unfold GDual.acosWith
        change GDual.asinWith _ _ = _ at hr'
        rw [bind_ok hr']
        exact ht'
      · convert hnt using 2 with i
        simp [Expr.sem, Op.real, Fn.real, Lanes.lane_ofRat, Lanes.lane_mul, LanesFun.lane_pi, Real.arccos]
        ring
    | _ => exact plain trivial

end Audi
