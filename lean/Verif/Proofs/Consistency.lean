import Verif.Spec.Consistency
import Verif.Proofs.RoundedSeries
import Verif.Proofs.Expr
import Mathlib.Analysis.Asymptotics.Lemmas
import Mathlib.Analysis.Calculus.Deriv.Inv
import Mathlib.Analysis.Calculus.FDeriv.Pow

/-! Limits of gduals with rounded coefficients as the rounding errors tend to 0, with errors of the size of the unit roundoff. -/

set_option linter.unusedSectionVars false

namespace Audi

open MvPolynomial Spec Filter Topology GDual Asymptotics

variable {A : ℕ}

/-- Unit roundoff tending to 0. -/
def toExact (A : ℕ) : Filter (Arith A) := comap (fun S => S.R.u) (𝓝 0)

theorem tendsto_u : Tendsto (fun S : Arith A => S.R.u) (toExact A) (𝓝 0) := tendsto_comap

theorem tendsto_pow_u (k : ℕ) : Tendsto (fun S : Arith A => (1 + S.R.u) ^ k - 1) (toExact A) (𝓝 0) := by
  have := ((tendsto_const_nhds (x := (1 : ℝ))).add (tendsto_u (A := A))).pow k
  simpa using this.sub_const 1

theorem eventually_toExact {p : Arith A → Prop} (h : ∀ᶠ S in toExact A, p S) : ∃ δ > 0, ∀ S : Arith A, S.R.u ≤ δ → p S := by
  rw [toExact, eventually_comap, Metric.eventually_nhds_iff] at h
  obtain ⟨ε, h0, h⟩ := h
  refine ⟨ε / 2, half_pos h0, fun S hS => h (y := S.R.u) ?_ S rfl⟩
  rw [Real.dist_eq, sub_zero, abs_of_nonneg S.R.u_nonneg]
  linarith

/-- Real numbers that tend to `X`, with errors of the size of the unit roundoff. -/
def Lin (x : Arith A → ℝ) (X : ℝ) : Prop := (fun S => x S - X) =O[toExact A] fun S => S.R.u

theorem isBigO_pow_u (k : ℕ) : (fun S : Arith A => (1 + S.R.u) ^ k - 1) =O[toExact A] fun S => S.R.u := by
  have h : DifferentiableAt ℝ (fun t : ℝ => (1 + t) ^ k) 0 := by fun_prop
  have h1 := h.isBigO_sub.comp_tendsto (tendsto_u (A := A))
  simpa [Function.comp_def] using h1

namespace Lin
variable {x y : Arith A → ℝ} {X Y : ℝ}

theorem tendsto (h : Lin x X) : Tendsto x (toExact A) (𝓝 X) := by
  have := (IsBigO.trans_tendsto h tendsto_u).add_const X
  simpa using this

theorem const (X : ℝ) : Lin (A := A) (fun _ => X) X := by
  unfold Lin
  simp only [sub_self]
  exact isBigO_zero _ _

theorem add (hx : Lin x X) (hy : Lin y Y) : Lin (fun S => x S + y S) (X + Y) :=
  (IsBigO.add hx hy).congr_left fun S => by ring

theorem neg (hx : Lin x X) : Lin (fun S => -x S) (-X) := (IsBigO.neg_left hx).congr_left fun S => by ring

theorem sub (hx : Lin x X) (hy : Lin y Y) : Lin (fun S => x S - y S) (X - Y) :=
  (IsBigO.sub hx hy).congr_left fun S => by ring

theorem mul (hx : Lin x X) (hy : Lin y Y) : Lin (fun S => x S * y S) (X * Y) := by
  have h1 : (fun S => x S * (y S - Y)) =O[toExact A] fun S => (1 : ℝ) * S.R.u := (hx.tendsto.isBigO_one ℝ).mul hy
  have h2 : (fun S => (x S - X) * Y) =O[toExact A] fun S => S.R.u := by
    simpa [mul_comm] using IsBigO.const_mul_left hx Y
  simp only [one_mul] at h1
  exact (h1.add h2).congr_left fun S => by ring

/-- A function that is differentiable at the limit. -/
theorem comp {F : ℝ → ℝ} (hx : Lin x X) (hF : DifferentiableAt ℝ F X) : Lin (fun S => F (x S)) (F X) :=
  IsBigO.trans (hF.isBigO_sub.comp_tendsto hx.tendsto) hx

theorem div (hx : Lin x X) (hy : Lin y Y) (h0 : Y ≠ 0) : Lin (fun S => x S / y S) (X / Y) := by
  simp only [div_eq_mul_inv]
  exact hx.mul (hy.comp (F := fun t => t⁻¹) (differentiableAt_inv h0))

theorem sum {ι : Type} (s : Finset ι) {x : ι → Arith A → ℝ} {X : ι → ℝ} (h : ∀ i ∈ s, Lin (x i) (X i)) : Lin (fun S => ∑ i ∈ s, x i S) (∑ i ∈ s, X i) := by
  have := IsBigO.sum (A := fun i S => x i S - X i) (s := s) (l := toExact A) (g := fun S => S.R.u) h
  exact this.congr_left fun S => by rw [Finset.sum_apply, Finset.sum_sub_distrib]

theorem congr' (hx : Lin x X) (h : ∀ᶠ S in toExact A, x S = y S) : Lin y X :=
  IsBigO.congr' hx (h.mono fun S hS => by simp only [hS]) (Eventually.of_forall fun _ => rfl)

theorem congr (hx : Lin x X) (h : ∀ S, x S = y S) : Lin y X := hx.congr' (Eventually.of_forall h)

end Lin

/-- A sequence with a relative error of some roundings. -/
theorem lin_of_err {x y : Arith A → ℝ} {X Y : ℝ} {k : ℕ} (hx : Lin x X) (hY : Tendsto y (toExact A) (𝓝 Y)) {c : Arith A → ℝ}
    (h : ∀ᶠ S in toExact A, |c S - x S| ≤ ((1 + S.R.u) ^ k - 1) * y S) : Lin c X := by
  have h1 : (fun S => ((1 + S.R.u) ^ k - 1) * y S) =O[toExact A] fun S => S.R.u * (1 : ℝ) := (isBigO_pow_u k).mul (hY.isBigO_one ℝ)
  simp only [mul_one] at h1
  have h2 : (fun S => c S - x S) =O[toExact A] fun S => S.R.u := by
    refine IsBigO.trans (IsBigO.of_bound 1 ?_) h1
    filter_upwards [h] with S hS
    rw [one_mul, Real.norm_eq_abs, Real.norm_eq_abs]
    exact hS.trans (le_abs_self _)
  exact (h2.add hx).congr_left fun S => by ring

/-- Numbers of the formats tending to a real number, with errors of the size of the unit roundoff. -/
def Apx (x : (S : Arith A) → Fl S.R) (X : ℝ) : Prop := Lin (fun S => (x S).val) X

theorem lin_rnd {x : Arith A → ℝ} {X : ℝ} (h : Lin x X) : Lin (fun S => S.R.rnd (x S)) X :=
  lin_of_err (k := 1) h h.tendsto.abs (Eventually.of_forall fun S => by simpa using S.R.err (x S))

namespace Apx
variable {x y : (S : Arith A) → Fl S.R} {X Y : ℝ}

theorem round (X : ℝ) : Apx (A := A) (fun S => Fl.round S.R X) X := lin_rnd (Lin.const _)

theorem ofRat (q : ℚ) : Apx (A := A) (fun _ => Cf.ofRat q) (Cf.ofRat q) := round _

theorem add (hx : Apx x X) (hy : Apx y Y) : Apx (fun S => Cf.add (x S) (y S)) (Cf.add X Y) := lin_rnd (Lin.add hx hy)

theorem sub (hx : Apx x X) (hy : Apx y Y) : Apx (fun S => Cf.sub (x S) (y S)) (Cf.sub X Y) := lin_rnd (Lin.sub hx hy)

theorem mul (hx : Apx x X) (hy : Apx y Y) : Apx (fun S => Cf.mul (x S) (y S)) (Cf.mul X Y) := lin_rnd (Lin.mul hx hy)

theorem div (hx : Apx x X) (hy : Apx y Y) (h0 : Y ≠ 0) : Apx (fun S => Cf.div (x S) (y S)) (Cf.div X Y) := lin_rnd (Lin.div hx hy h0)

theorem neg (hx : Apx x X) : Apx (fun S => Cf.neg (x S)) (Cf.neg X) := Lin.neg hx

theorem tendsto (hx : Apx x X) : Tendsto (fun S => (x S).val) (toExact A) (𝓝 X) := Lin.tendsto hx

theorem ne_zero (hx : Apx x X) (h : X ≠ 0) : ∀ᶠ S in toExact A, (x S).val ≠ 0 := (Lin.tendsto hx).eventually_ne h

/-- A function of the library. -/
theorem fn {f : (S : Arith A) → Fl S.R → Fl S.R} {F : ℝ → ℝ} {D : ℝ → Prop} (hx : Apx x X) (hF : DifferentiableAt ℝ F X) (hD : ∀ᶠ t in 𝓝 X, D t)
    (he : ∀ S (t : Fl S.R), D t.val → |(f S t).val - F t.val| ≤ ((1 + S.R.u) ^ A - 1) * |F t.val|) : Apx (fun S => f S (x S)) (F X) := by
  have h1 : Lin (fun S => F (x S).val) (F X) := Lin.comp hx hF
  exact lin_of_err (k := A) h1 h1.tendsto.abs ((hx.tendsto.eventually hD).mono fun S hS => he S _ hS)

end Apx

theorem Arith.acc_err (S : Arith A) {a b : ℝ} (h : |a - b| ≤ ((1 + S.R.u) ^ S.libm.acc - 1) * |b|) : |a - b| ≤ ((1 + S.R.u) ^ A - 1) * |b| :=
  h.trans (mul_le_mul_of_nonneg_right (by linarith [S.R.pow_mono S.acc_le]) (abs_nonneg _))

/-- Gduals with rounded coefficients tending to a gdual with real coefficients. -/
structure Ap (g : (S : Arith A) → GDual (Fl S.R)) (G : GDual ℝ) : Prop where
  valid : ∀ᶠ S in toExact A, (g S).Valid
  order : ∀ᶠ S in toExact A, (g S).order = G.order
  limit : G.Valid
  coef : ∀ E : String →₀ ℕ, Lin (fun S => (g S).p.cof E) (coeff E (G.toMv ()))

/-- Results tending to a result; `Rel` says what this means for the values. -/
def RR {σ : Arith A → Type} {τ : Type} (Rel : ((S : Arith A) → σ S) → τ → Prop) (g : (S : Arith A) → Res (σ S)) (G : Res τ) : Prop :=
  ∃ g' G', Rel g' G' ∧ G = .ok G' ∧ ∀ᶠ S in toExact A, g S = .ok (g' S)

section RR
variable {σ σ' : Arith A → Type} {τ τ' : Type} {Rel : ((S : Arith A) → σ S) → τ → Prop} {Rel' : ((S : Arith A) → σ' S) → τ' → Prop}

theorem RR.pure {g : (S : Arith A) → σ S} {G : τ} (h : Rel g G) : RR Rel (fun S => .ok (g S)) (.ok G) := ⟨g, G, h, rfl, Eventually.of_forall fun _ => rfl⟩

theorem RR.bind {g : (S : Arith A) → Res (σ S)} {G : Res τ} {f : (S : Arith A) → σ S → Res (σ' S)} {F : τ → Res τ'} (h : RR Rel g G)
    (hf : ∀ g' G', Rel g' G' → RR Rel' (fun S => f S (g' S)) (F G')) : RR Rel' (fun S => g S >>= f S) (G >>= F) := by
  obtain ⟨g', G', h1, rfl, h2⟩ := h
  obtain ⟨r, R, h3, h4, h5⟩ := hf g' G' h1
  refine ⟨r, R, h3, h4, ?_⟩
  filter_upwards [h2, h5] with S h6 h7
  rw [h6]
  exact h7

theorem RR.congr {g k : (S : Arith A) → Res (σ S)} {G : Res τ} (h : RR Rel g G) (he : ∀ᶠ S in toExact A, k S = g S) : RR Rel k G := by
  obtain ⟨g', G', h1, h2, h3⟩ := h
  refine ⟨g', G', h1, h2, ?_⟩
  filter_upwards [he, h3] with S h4 h5
  rw [h4, h5]

theorem RR.foldlM {step : (S : Arith A) → σ S → ℕ → Res (σ S)} {Step : τ → ℕ → Res τ} (l : List ℕ)
    (h : ∀ s t, ∀ i ∈ l, Rel s t → RR Rel (fun S => step S (s S) i) (Step t i)) {s : (S : Arith A) → σ S} {t : τ} (h0 : Rel s t) :
    RR Rel (fun S => l.foldlM (step S) (s S)) (l.foldlM Step t) := by
  induction l generalizing s t with
  | nil => exact RR.pure h0
  | cons i l ih =>
    simp only [List.foldlM_cons]
    exact (h s t i (by simp) h0).bind fun g' G' hg => ih (fun s t j hj => h s t j (by simp [hj])) hg

theorem rel_foldl {step : (S : Arith A) → σ S → ℕ → σ S} {Step : τ → ℕ → τ} (l : List ℕ)
    (h : ∀ s t, ∀ i ∈ l, Rel s t → Rel (fun S => step S (s S) i) (Step t i)) {s : (S : Arith A) → σ S} {t : τ} (h0 : Rel s t) :
    Rel (fun S => l.foldl (step S) (s S)) (l.foldl Step t) := by
  induction l generalizing s t with
  | nil => exact h0
  | cons i l ih => exact ih (fun s t j hj => h s t j (by simp [hj])) (h s t i (by simp) h0)

end RR

namespace Ap
variable {g h : (S : Arith A) → GDual (Fl S.R)} {G H : GDual ℝ} {x : (S : Arith A) → Fl S.R} {X : ℝ}

theorem congr {k : (S : Arith A) → GDual (Fl S.R)} (hg : Ap g G) (he : ∀ᶠ S in toExact A, k S = g S) : Ap k G where
  valid := by filter_upwards [he, hg.valid] with S h1 h2; rw [h1]; exact h2
  order := by filter_upwards [he, hg.order] with S h1 h2; rw [h1]; exact h2
  limit := hg.limit
  coef E := (hg.coef E).congr' (by filter_upwards [he] with S h1; rw [h1])

theorem const (hx : Apx x X) (n : ℕ) : Ap (fun S => ofCfOrder (x S) n) (ofCfOrder X n) where
  valid := Eventually.of_forall fun _ => valid_ofCfOrder _ _
  order := Eventually.of_forall fun _ => rfl
  limit := valid_ofCfOrder _ _
  coef E := by
    have h1 : (ofCfOrder X n).toMv () = (MvPolynomial.C X : MvPolynomial String ℝ) := toMv_ofCfOrder X n ()
    rw [h1, coeff_C]
    change Lin (fun S => (Poly.const (x S)).cof E) _
    simp only [Poly.cof_const]
    split_ifs
    · exact hx
    · exact Lin.const _

theorem add (hg : Ap g G) (hh : Ap h H) : Ap (fun S => (g S).add (h S)) (G.add H) where
  valid := by filter_upwards [hg.valid, hh.valid] with S h1 h2; exact h1.add h2
  order := by filter_upwards [hg.order, hh.order] with S h1 h2; exact congrArg₂ max h1 h2
  limit := hg.limit.add hh.limit
  coef E := by
    rw [toMv_add hg.limit hh.limit, coeff_add]
    refine (lin_rnd ((hg.coef E).add (hh.coef E))).congr' ?_
    filter_upwards [hg.valid, hh.valid] with S h1 h2
    exact (Poly.cof_add h1.wf h2.wf E).symm

theorem neg (hg : Ap g G) : Ap (fun S => (g S).neg) G.neg where
  valid := by filter_upwards [hg.valid] with S h1; exact Close.valid_neg h1
  order := by filter_upwards [hg.order] with S h1; exact h1
  limit := Valid.neg (ι := Unit) (K := ℝ) hg.limit
  coef E := by
    have h1 : (G.neg.toMv () : MvPolynomial String ℝ) = -G.toMv () := toMv_neg (ι := Unit) (K := ℝ) G ()
    rw [h1, coeff_neg]
    exact (hg.coef E).neg.congr fun S => (Poly.cof_neg _ E).symm

theorem sub (hg : Ap g G) (hh : Ap h H) : Ap (fun S => (g S).sub (h S)) (G.sub H) := hg.add hh.neg

theorem mul (hg : Ap g G) (hh : Ap h H) : Ap (fun S => (g S).mul (h S)) (G.mul H) where
  valid := by filter_upwards [hg.valid, hh.valid] with S h1 h2; exact h1.mul h2
  order := by filter_upwards [hg.order, hh.order] with S h1 h2; exact congrArg₂ max h1 h2
  limit := hg.limit.mul hh.limit
  coef E := by
    classical
    by_cases hE : E.degree ≤ max G.order H.order
    · have h1 := toMv_mul hg.limit hh.limit (ι := Unit) (K := ℝ) () E hE
      rw [h1, coeff_mul]
      refine lin_of_err (k := 0 + 0 + 2 ^ E.degree) (Lin.sum _ fun d _ => (hg.coef d.1).mul (hh.coef d.2))
        (tendsto_finsetSum (Finset.antidiagonal E) fun d _ => (hg.coef d.1).tendsto.abs.mul (hh.coef d.2).tendsto.abs) ?_
      filter_upwards [hg.valid, hh.valid, hg.order, hh.order] with S v1 v2 o1 o2
      refine (Poly.near_truncMul (x := (g S).p.cof) (X := fun d => |(g S).p.cof d|) (y := (h S).p.cof) (Y := fun d => |(h S).p.cof d|) v1.wf v2.wf
        (n := max (g S).order (h S).order) (by rw [o1, o2]; exact hE) (fun d _ => Rounding.Near.refl _ 0 _) (fun d _ => Rounding.Near.refl _ 0 _)
        Nat.one_le_two_pow (Or.inl (card_antidiagonal_le E))).1
    · have h1 : coeff E ((G.mul H).toMv () : MvPolynomial String ℝ) = 0 := (hg.limit.mul hh.limit).degLE (K := ℝ) () E (by exact lt_of_not_ge hE)
      rw [h1]
      refine (Lin.const _).congr' ?_
      filter_upwards [hg.valid, hh.valid, hg.order, hh.order] with S v1 v2 o1 o2
      refine (cof_eq_zero_of_order (v1.mul v2) ?_).symm
      change max (g S).order (h S).order < _
      rw [o1, o2]
      exact lt_of_not_ge hE

theorem addSG (hx : Apx x X) (hg : Ap g G) : Ap (fun S => (g S).addSG (x S)) (G.addSG X) := by
  have h := (const hx 0).add hg
  refine ⟨?_, hg.order, ?_, h.coef⟩
  · filter_upwards [hg.valid] with S h1; exact Valid.addSG _ h1
  · exact Valid.addSG _ hg.limit

theorem addGS (hx : Apx x X) (hg : Ap g G) : Ap (fun S => (g S).addGS (x S)) (G.addGS X) := addSG hx hg

theorem subGS (hx : Apx x X) (hg : Ap g G) : Ap (fun S => (g S).subGS (x S)) (G.subGS X) := by
  have h := hg.sub (const hx 0)
  refine ⟨?_, hg.order, ?_, h.coef⟩
  · filter_upwards [h.valid] with S h1
    exact ⟨h1.wf, fun t ht => (h1.deg t ht).trans (max_le le_rfl (Nat.zero_le _))⟩
  · exact ⟨h.limit.wf, fun t ht => (h.limit.deg t ht).trans (max_le le_rfl (Nat.zero_le _))⟩

theorem subSG (hx : Apx x X) (hg : Ap g G) : Ap (fun S => (g S).subSG (x S)) (G.subSG X) := by
  have h := (const hx 0).sub hg
  refine ⟨?_, hg.order, ?_, h.coef⟩
  · filter_upwards [h.valid] with S h1
    exact ⟨h1.wf, fun t ht => (h1.deg t ht).trans (max_le (Nat.zero_le _) le_rfl)⟩
  · exact ⟨h.limit.wf, fun t ht => (h.limit.deg t ht).trans (max_le (Nat.zero_le _) le_rfl)⟩

theorem mulSG (hx : Apx x X) (hg : Ap g G) : Ap (fun S => (g S).mulSG (x S)) (G.mulSG X) :=
  ((const hx G.order).mul hg).congr (by filter_upwards [hg.order] with S h1; rw [GDual.mulSG, h1])

theorem mulGS (hx : Apx x X) (hg : Ap g G) : Ap (fun S => (g S).mulGS (x S)) (G.mulGS X) :=
  (hg.mul (const hx G.order)).congr (by filter_upwards [hg.order] with S h1; rw [GDual.mulGS, h1])

theorem ofCf (hx : Apx x X) : Ap (fun S => GDual.ofCf (x S)) (GDual.ofCf X) := const hx 0

theorem ofRat (q : ℚ) : Ap (A := A) (fun _ => GDual.ofRat q) (GDual.ofRat q) := ofCf (Apx.ofRat q)

theorem divGS (hx : Apx x X) (h0 : X ≠ 0) (hg : Ap g G) : RR Ap (fun S => (g S).divGS (x S)) (G.divGS X) := by
  have h1 : Cf.isUnit X = true := by simpa [Cf.isUnit] using h0
  refine ⟨_, _, mulGS ((Apx.ofRat 1).div hx h0) hg, divGS_eq h1, ?_⟩
  filter_upwards [hx.ne_zero h0] with S h2
  exact divGS_eq (by simpa [Cf.isUnit] using h2)

/-- The constant term. -/
theorem constantCf (hg : Ap g G) : RR Apx (fun S => (g S).constantCf) G.constantCf ∧ G.constantCf = .ok (coeff 0 (G.toMv ())) := by
  choose p hp using fun S => constantCf_isOk (g S)
  obtain ⟨P, hP⟩ := constantCf_isOk G
  have hP' : P = coeff 0 (G.toMv ()) := lane_constantCf (ι := Unit) (K := ℝ) hg.limit hP ()
  rw [← hP']
  refine ⟨⟨p, P, ?_, hP, Eventually.of_forall hp⟩, hP⟩
  rw [hP']
  refine (hg.coef 0).congr' ?_
  filter_upwards [hg.valid] with S h1
  exact (val_constantCf h1 (hp S)).symm

/-- A computation that begins with the constant term. -/
theorem bind_constantCf {σ : Arith A → Type} {τ : Type} {Rel : ((S : Arith A) → σ S) → τ → Prop} {f : (S : Arith A) → Fl S.R → Res (σ S)}
    {F : ℝ → Res τ} (hg : Ap g G) (hf : ∀ p : (S : Arith A) → Fl S.R, Apx p (coeff 0 (G.toMv ())) → RR Rel (fun S => f S (p S)) (F (coeff 0 (G.toMv ())))) :
    RR Rel (fun S => (g S).constantCf >>= f S) (G.constantCf >>= F) := by
  obtain ⟨⟨p, P, h1, h2, h3⟩, h4⟩ := hg.constantCf
  rw [h4] at h2
  injection h2 with h2
  subst h2
  obtain ⟨r, R, h5, h6, h7⟩ := hf p h1
  refine ⟨r, R, h5, by rw [h4]; exact h6, ?_⟩
  filter_upwards [h3, h7] with S h8 h9
  rw [h8]
  exact h9

/-- The order may be taken to be that of the limit. -/
theorem fixed {σ : Arith A → Type} {τ : Type} {Rel : ((S : Arith A) → σ S) → τ → Prop} (f : (S : Arith A) → GDual (Fl S.R) → Res (σ S)) {F : Res τ}
    (hg : Ap g G) (h : ∀ q : (S : Arith A) → Poly (Fl S.R), Ap (fun S => ⟨q S, G.order⟩) G → RR Rel (fun S => f S ⟨q S, G.order⟩) F) :
    RR Rel (fun S => f S (g S)) F := by
  have he : ∀ᶠ S in toExact A, (⟨(g S).p, G.order⟩ : GDual (Fl S.R)) = g S := by
    filter_upwards [hg.order] with S h1
    rw [← h1]
  refine (h (fun S => (g S).p) (hg.congr he)).congr ?_
  filter_upwards [he] with S h1
  rw [h1]

end Ap

theorem RR.guard {σ : Arith A → Type} {τ : Type} {Rel : ((S : Arith A) → σ S) → τ → Prop} {b : Arith A → Bool} {B : Bool} {f : (S : Arith A) → Res (σ S)}
    {F : Res τ} (hb : ∀ᶠ S in toExact A, b S = true) (hB : B = true) (h : RR Rel f F) :
    RR Rel (fun S => guardFinite (b S) >>= fun _ => f S) (guardFinite B >>= fun _ => F) := by
  obtain ⟨r, R, h1, h2, h3⟩ := h
  refine ⟨r, R, h1, by rw [hB]; exact h2, ?_⟩
  filter_upwards [hb, h3] with S h4 h5
  rw [h4]
  exact h5

/-! Constant terms of gduals with real coefficients. -/

/-- The constant term. -/
noncomputable def c0 (G : GDual ℝ) : ℝ := coeff 0 (G.toMv ())

section c0
variable {G H : GDual ℝ}

theorem c0_add (hG : G.Valid) (hH : H.Valid) : c0 (G.add H) = c0 G + c0 H := by
  rw [c0, toMv_add hG hH, coeff_add]; rfl

theorem c0_sub (hG : G.Valid) (hH : H.Valid) : c0 (G.sub H) = c0 G - c0 H := by
  rw [c0, toMv_sub hG hH, coeff_sub]; rfl

theorem c0_mul (hG : G.Valid) (hH : H.Valid) : c0 (G.mul H) = c0 G * c0 H := by
  have h := toMv_mul hG hH (ι := Unit) (K := ℝ) () 0 (by simp)
  rw [c0, h]
  exact (constantCoeff (σ := String) (R := ℝ)).map_mul (G.toMv ()) (H.toMv ())

theorem c0_mulSG (x : ℝ) (hG : G.Valid) : c0 (G.mulSG x) = x * c0 G := by
  rw [c0, toMv_mulSG x hG, coeff_C_mul]; rfl

theorem c0_mulGS (x : ℝ) (hG : G.Valid) : c0 (G.mulGS x) = c0 G * x := by
  rw [c0, toMv_mulGS x hG, mul_comm, coeff_C_mul, mul_comm]; rfl

theorem c0_addSG (x : ℝ) (hG : G.Valid) : c0 (G.addSG x) = x + c0 G := by
  rw [c0, toMv_addSG x hG, coeff_add, coeff_zero_C]; rfl

theorem c0_subSG (x : ℝ) (hG : G.Valid) : c0 (G.subSG x) = x - c0 G := by
  rw [c0, toMv_subSG x hG, coeff_sub, coeff_zero_C]; rfl

theorem c0_subGS (x : ℝ) (hG : G.Valid) : c0 (G.subGS x) = c0 G - x := by
  rw [c0, toMv_subGS x hG, coeff_sub, coeff_zero_C]; rfl

theorem c0_ofCf (x : ℝ) : c0 (ofCf x) = x := by
  rw [c0, toMv_ofCf, coeff_zero_C]; rfl

theorem ofRat_real (q : ℚ) : (Cf.ofRat q : ℝ) = (q : ℝ) := rfl

/-- The constant term of a function of a gdual. -/
theorem c0_fn {f : Fn} {r : GDual ℝ} (hG : G.Valid) (hm : f.MaxOrder G.order) (h : f.Dom (c0 G)) (hr : f.run G = .ok r) : c0 r = f.real (c0 G) := by
  obtain ⟨r', h1, h2, -⟩ := Fn.lift (ι := Unit) f hG hm fun _ => h
  rw [hr] at h1
  injection h1 with h1
  subst h1
  have h3 := h2.taylor () _ 0 (isTaylor_poly 0 G.order (G.toMv ()))
  have h4 := h3.val
  rw [c0, ← h4]
  congr 1
  have h5 := (isTaylor_poly (0 : String → ℝ) G.order (G.toMv ())).val
  exact h5

end c0
end Audi
