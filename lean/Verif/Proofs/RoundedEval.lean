import Verif.Proofs.RoundedExpr
import Verif.Proofs.PolyOps

/-! Rounding errors of evaluation. -/

set_option linter.unusedSectionVars false

namespace Audi

open MvPolynomial Spec

variable {K : Type} [Field K] [LinearOrder K] [IsStrictOrderedRing K] {R : Rounding K}

/-- A product of `d` factors computed with `d - 1` roundings. -/
def Rounding.Fac (R : Rounding K) (d : ℕ) (c x : K) : Prop := (d = 0 ∧ c = 1 ∧ x = 1) ∨ (0 < d ∧ R.Near (d - 1) c x |x|)

theorem Rounding.Fac.mul {d d' : ℕ} {c c' : Fl R} {x x' : K} (h : R.Fac d c.val x) (h' : R.Fac d' c'.val x') :
    R.Fac (d + d') (Cf.mul c c').val (x * x') := by
  have hm : (Cf.mul c c').val = R.rnd (c.val * c'.val) := rfl
  rw [hm]
  rcases h with ⟨rfl, h1, rfl⟩ | ⟨h0, h⟩
  · rw [h1, one_mul, c'.repr, one_mul, Nat.zero_add]; exact h'
  rcases h' with ⟨rfl, h1, rfl⟩ | ⟨h0', h'⟩
  · rw [h1, mul_one, c.repr, mul_one, Nat.add_zero]; exact Or.inr ⟨h0, h⟩
  refine Or.inr ⟨by omega, ?_⟩
  have := (h.mul h').rnd
  rw [← abs_mul] at this
  exact this.mono (by omega)

theorem Rounding.Fac.npow (c : Fl R) (n : ℕ) : R.Fac n (Cf.npow c n).val (c.val ^ n) := by
  induction n with
  | zero =>
    refine Or.inl ⟨rfl, ?_, by simp⟩
    change R.rnd ((1 : ℚ) : K) = 1
    rw [Rat.cast_one, R.rnd_one]
  | succ n ih =>
    rw [Cf.npow, pow_succ]
    exact ih.mul (Or.inr ⟨one_pos, Rounding.Near.refl R 0 c.val⟩)

theorem Rounding.Fac.monoVal (w : String → Fl R) (ss : List String) (e : List ℕ) (h : e.length = ss.length) :
    R.Fac (Poly.keyDegree e) (Poly.monoVal w ss e).val (Poly.monoVal (fun s => (w s).val) ss e) := by
  induction ss generalizing e with
  | nil =>
    obtain rfl := List.length_eq_zero_iff.mp h
    refine Or.inl ⟨rfl, ?_, ?_⟩
    · change R.rnd ((1 : ℚ) : K) = 1
      rw [Rat.cast_one, R.rnd_one]
    · exact Rat.cast_one
  | cons s ss ih =>
    cases e with
    | nil => simp at h
    | cons k ks =>
      have h1 := (Rounding.Fac.npow (w s) k).mul (ih ks (by simpa using h))
      have h2 : ∀ n, Cf.npow ((w s).val) n = (w s).val ^ n := fun n => by
        induction n with
        | zero => exact (Rat.cast_one (α := K)).trans (pow_zero _).symm
        | succ n ih => rw [Cf.npow, ih, pow_succ]; rfl
      have h3 : Poly.monoVal (fun s => (w s).val) (s :: ss) (k :: ks) = (w s).val ^ k * Poly.monoVal (fun s => (w s).val) ss ks := by
        rw [Poly.monoVal, h2]; rfl
      rw [h3]
      exact h1

theorem abs_eval_monomial (x : String → K) (E : String →₀ ℕ) :
    eval (fun s => |x s|) (monomial E (1 : K)) = |eval x (monomial E (1 : K))| := by
  rw [eval_monomial, eval_monomial, one_mul, one_mul, Finsupp.prod, Finsupp.prod, Finset.abs_prod]
  exact Finset.prod_congr rfl fun s _ => (abs_pow _ _).symm

theorem eval_eq_sum (x : String → K) (A : MvPolynomial String K) (S : Finset (String →₀ ℕ)) (h : A.support ⊆ S) :
    eval x A = ∑ E ∈ S, coeff E A * eval x (monomial E (1 : K)) := by
  rw [← Finset.sum_subset h fun E _ hE => by rw [notMem_support_iff.mp hE, zero_mul], eval_eq]
  exact Finset.sum_congr rfl fun E _ => by rw [eval_monomial, one_mul]; rfl

namespace Poly
variable {p : Poly (Fl R)}

theorem val_foldl_add (l : List (Fl R)) (z : Fl R) : (l.foldl Cf.add z).val = l.foldl (fun acc x => R.rnd (acc + x.val)) z.val := by
  induction l generalizing z with
  | nil => rfl
  | cons x l ih => rw [List.foldl_cons, List.foldl_cons, ih]; rfl

/-- The products that `evaluate` adds up. -/
noncomputable def summand (p : Poly (Fl R)) (w : String → Fl R) (t : List ℕ × Fl R) : Fl R := Cf.mul t.2 (monoVal w p.syms t.1)

theorem near_summand (hp : p.WF) (w : String → Fl R) {t : List ℕ × Fl R} (ht : t ∈ p.terms) {k : ℕ} {x X : K} (h : R.Near k (p.cof (toExp p.syms t.1)) x X) :
    R.Near (k + keyDegree t.1) (p.summand w t).val (x * eval (fun s => (w s).val) (monomial (toExp p.syms t.1) (1 : K)))
      (X * eval (fun s => |(w s).val|) (monomial (toExp p.syms t.1) (1 : K))) := by
  have hc : p.cof (toExp p.syms t.1) = t.2.val := by rw [cof_toExp hp (hp.len t ht), tc_of_mem hp.nodup ht]
  rw [hc] at h
  have hl := lane_monoVal (C := K) (ι := Unit) (K := K) (fun s => (w s).val) p.syms t.1 ()
  change monoVal (fun s => (w s).val) p.syms t.1 = eval (fun s => (w s).val) (monomial (toExp p.syms t.1) (1 : K)) at hl
  have hf := Rounding.Fac.monoVal w p.syms t.1 (hp.len t ht)
  rw [hl] at hf
  have hv : (p.summand w t).val = R.rnd (t.2.val * (monoVal w p.syms t.1).val) := rfl
  rw [hv, abs_eval_monomial]
  rcases hf with ⟨h0, h1, h2⟩ | ⟨h0, h1⟩
  · rw [h1, h2, h0, mul_one, mul_one, abs_one, mul_one, t.2.repr]
    exact h
  · exact ((h.mul h1).rnd).mono (by omega)

/-- `evaluate` against the values of two polynomials. -/
theorem near_evaluate (hp : p.WF) {A B : MvPolynomial String K} {k n : ℕ} (hn : ∀ t ∈ p.terms, keyDegree t.1 ≤ n)
    (h : ∀ E, R.Near k (p.cof E) (coeff E A) (coeff E B)) {dict : List (String × Fl R)} {c : Fl R} (hc : p.evaluate dict = .ok c) :
    R.Near (k + n + (p.terms.length - 1)) c.val (eval (fun s => ((dict.lookup s).getD Cf.zero).val) A)
      (eval (fun s => |((dict.lookup s).getD Cf.zero).val|) B) := by
  classical
  unfold evaluate at hc
  split_ifs at hc with h1
  injection hc with hc
  subst hc
  set w : String → Fl R := fun s => (dict.lookup s).getD Cf.zero with hw
  change R.Near _ ((p.terms.map fun t => p.summand w t).foldl Cf.add Cf.zero).val _ _
  rw [val_foldl_add]
  have hz : (Cf.zero : Fl R).val = 0 := by
    change R.rnd ((0 : ℚ) : K) = 0
    rw [Rat.cast_zero, R.rnd_zero]
  rw [hz]
  set S : Finset (String →₀ ℕ) := A.support ∪ B.support ∪ (p.terms.map fun t => toExp p.syms t.1).toFinset with hS
  rw [eval_eq_sum _ A S (by intro E hE; simp [hS, mem_support_iff.mp hE]), eval_eq_sum _ B S (by intro E hE; simp [hS, mem_support_iff.mp hE])]
  -- the summands as a function of the monomial
  have hinj : ∀ t ∈ p.terms, ∀ t' ∈ p.terms, toExp p.syms t.1 = toExp p.syms t'.1 → t = t' := fun t ht t' ht' he => by
    have := toExp_inj hp.ndsyms (hp.len t ht) (hp.len t' ht') he
    exact key_inj hp.nodup ht ht' this
  set f : (String →₀ ℕ) → K := fun E => ((p.terms.filter fun t => toExp p.syms t.1 = E).map fun t => (p.summand w t).val).sum with hf
  have hft : ∀ t ∈ p.terms, f (toExp p.syms t.1) = (p.summand w t).val := fun t ht => by
    have : (p.terms.filter fun t' => toExp p.syms t'.1 = toExp p.syms t.1) = p.terms.filter fun t' => t'.1 = t.1 := by
      refine List.filter_congr fun t' ht' => ?_
      have : toExp p.syms t'.1 = toExp p.syms t.1 ↔ t'.1 = t.1 := ⟨fun he => by rw [hinj t' ht' t ht he], fun he => by rw [he]⟩
      simp [this]
    rw [hf]
    simp only
    rw [this, filter_key hp.nodup ht]
    simp
  have hf0 : ∀ E, (∀ t ∈ p.terms, toExp p.syms t.1 ≠ E) → f E = 0 := fun E hE => by
    rw [hf]
    simp only
    rw [List.filter_eq_nil_iff.mpr (fun t ht => by simpa using hE t ht)]
    rfl
  have hnear : ∀ E ∈ S, R.Near (k + n) (f E) (coeff E A * eval (fun s => (w s).val) (monomial E (1 : K))) (coeff E B * eval (fun s => |(w s).val|) (monomial E (1 : K))) := fun E _ => by
    by_cases hE : ∃ t ∈ p.terms, toExp p.syms t.1 = E
    · obtain ⟨t, ht, rfl⟩ := hE
      rw [hft t ht]
      exact (near_summand hp w ht (h _)).mono (by have := hn t ht; omega)
    · push Not at hE
      rw [hf0 E hE]
      have hc0 : p.cof E = 0 := by
        by_contra hne
        obtain ⟨t, ht, hte⟩ := cof_ne_zero hne
        exact hE t ht hte
      have h2 := h E
      rw [hc0] at h2
      have h3 := h2.mul (Rounding.Near.refl R 0 (eval (fun s => (w s).val) (monomial E (1 : K))))
      rw [zero_mul] at h3
      rw [abs_eval_monomial]
      exact h3.mono (by omega)
  have hnd : (p.terms.map fun t => toExp p.syms t.1).Nodup := by
    refine List.Nodup.map_on (fun t ht t' ht' he => hinj t ht t' ht' he) ?_
    exact List.Nodup.of_map _ hp.nodup
  have hsum : ∀ g : K → K, g 0 = 0 → (p.terms.map fun t => g (p.summand w t).val).sum = ∑ E ∈ S, g (f E) := fun g hg => by
    rw [← Finset.sum_subset (s₁ := (p.terms.map fun t => toExp p.syms t.1).toFinset) (by intro E hE; simp only [hS, Finset.mem_union]; exact Or.inr hE)
      fun E _ hE => by
        rw [hf0 E (fun t ht hte => hE (List.mem_toFinset.mpr (List.mem_map.mpr ⟨t, ht, hte⟩))), hg],
      List.sum_toFinset _ hnd, List.map_map]
    congr 1
    refine List.map_congr_left fun t ht => ?_
    simp only [Function.comp]
    rw [hft t ht]
  have h4 := Rounding.Near.sum S hnear
  have h5 := R.rsum_zero_err (p.terms.map fun t => p.summand w t)
  rw [List.map_map, List.map_map, List.length_map] at h5
  have e1 := hsum id rfl
  have e2 := hsum (fun x => |x|) abs_zero
  simp only [id] at e1
  have e1' : (p.terms.map (Fl.val ∘ fun t => p.summand w t)).sum = ∑ E ∈ S, f E := e1
  have e2' : (p.terms.map ((fun x : Fl R => |x.val|) ∘ fun t => p.summand w t)).sum = ∑ E ∈ S, |f E| := e2
  rw [e1', e2'] at h5
  refine ⟨?_, h4.2⟩
  set T := ∑ E ∈ S, coeff E B * eval (fun s => |(w s).val|) (monomial E (1 : K))
  have h6 : ∑ E ∈ S, |f E| ≤ (1 + R.u) ^ (k + n) * T := by
    rw [Finset.mul_sum]
    exact Finset.sum_le_sum fun E hE => (hnear E hE).abs_le
  have h7 := mul_le_mul_of_nonneg_left h6 (show 0 ≤ (1 + R.u) ^ (p.terms.length - 1) - 1 by linarith [R.one_le_pow (p.terms.length - 1)])
  have h8 := h4.1
  have h9 : ((1 + R.u) ^ (k + n + (p.terms.length - 1)) - 1) * T =
      ((1 + R.u) ^ (p.terms.length - 1) - 1) * ((1 + R.u) ^ (k + n) * T) + ((1 + R.u) ^ (k + n) - 1) * T := by rw [pow_add]; ring
  rw [h9]
  refine le_trans ?_ (add_le_add (h5.trans h7) h8)
  refine le_trans (le_of_eq ?_) (abs_add_le _ _)
  congr 1
  ring

end Poly
end Audi
