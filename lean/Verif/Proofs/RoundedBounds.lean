import Verif.Model.RoundedBounds
import Verif.Proofs.RoundedFn
import Verif.Proofs.BernsteinWidth

/-!
# Proofs: the Bernstein patch with rounding

Three computations side by side: with rounding, exact, and exact with the absolute values of the coefficients over a box of absolute values. Each entry of the
first differs from that of the second by the error of some roundings relative to that of the third (`Rounding.Near`).
-/

namespace Audi.Bounding

open Rounding

/-- The loop of `matmul` for one entry. -/
def dot {K : Type} [Zero K] [Add K] [Mul K] (p : ℕ) (a b : ℕ → K) : K := (List.range p).foldl (fun c k => c + a k * b k) 0

theorem matmul_dot {K : Type} [Zero K] [Add K] [Mul K] {m p n : ℕ} (hm : 0 < m) (hp : 0 < p) (f g : ℕ → ℕ → K) :
    matmul (Mat.ofFn m p f) (Mat.ofFn p n g) = .ok (Mat.ofFn m n fun i j => dot p (f i) fun k => g k j) := by
  unfold matmul
  rw [bind_ok (cols_ofFn g hp), bind_ok (cols_ofFn f hm), length_ofFn]
  refine mapM_range m _ _ fun i hi => mapM_range n _ _ fun j hj => ?_
  have : ∀ q, q ≤ p → (List.range q).foldlM (fun (c : K) (k : ℕ) => do
      let a ← (Mat.ofFn m p f).at i k
      let b ← (Mat.ofFn p n g).at k j
      Except.ok (ε := Exn) (c + a * b)) 0 = .ok (dot q (f i) fun k => g k j) := by
    intro q
    induction q with
    | zero => intro _; rfl
    | succ q ih =>
      intro hq
      rw [List.range_succ, List.foldlM_append, bind_ok (ih (by omega)), List.foldlM_cons, bind_ok (at_ofFn f hi (by omega)),
        bind_ok (at_ofFn g (by omega) hj)]
      simp [dot, List.range_succ, pure, Except.pure, bind, Except.bind]
  exact this p le_rfl

variable {R : Rounding ℝ}

theorem val_zero : (0 : Fl R).val = 0 := rfl

theorem val_one : (1 : Fl R).val = 1 := rfl

theorem near_add {k : ℕ} {a b : Fl R} {x y X Y : ℝ} (h : R.Near k a.val x X) (h' : R.Near k b.val y Y) : R.Near (k + 1) (a + b).val (x + y) (X + Y) :=
  (h.add h').rnd

theorem near_sub {k : ℕ} {a b : Fl R} {x y X Y : ℝ} (h : R.Near k a.val x X) (h' : R.Near k b.val y Y) : R.Near (k + 1) (a - b).val (x - y) (X + Y) := by
  have := (h.add h'.neg).rnd
  rw [← sub_eq_add_neg, ← sub_eq_add_neg] at this
  exact this

theorem near_mul {k l : ℕ} {a b : Fl R} {x y X Y : ℝ} (h : R.Near k a.val x X) (h' : R.Near l b.val y Y) : R.Near (k + l + 1) (a * b).val (x * y) (X * Y) :=
  (h.mul h').rnd

/-- More errors, of `a` roundings. -/
theorem Near.step {k a : ℕ} {c d x X : ℝ} (h : R.Near k c x X) (hd : |d - c| ≤ ((1 + R.u) ^ a - 1) * |c|) : R.Near (k + a) d x X := by
  refine ⟨?_, h.2⟩
  have h1 := R.one_le_pow a
  have h2 : |d - x| ≤ |d - c| + |c - x| := by
    have := abs_add_le (d - c) (c - x)
    rwa [sub_add_sub_cancel] at this
  have h3 : ((1 + R.u) ^ a - 1) * |c| ≤ ((1 + R.u) ^ a - 1) * ((1 + R.u) ^ k * X) := mul_le_mul_of_nonneg_left h.abs_le (by linarith)
  have h4 : ((1 + R.u) ^ (k + a) - 1) * X = ((1 + R.u) ^ k - 1) * X + ((1 + R.u) ^ a - 1) * ((1 + R.u) ^ k * X) := by rw [pow_add]; ring
  rw [h4]
  linarith [h.1]

theorem Near.pow {k : ℕ} {c x X : ℝ} (h : R.Near k c x X) (i : ℕ) : R.Near (i * k) (c ^ i) (x ^ i) (X ^ i) := by
  induction i with
  | zero => simpa using Near.refl R 0 (1 : ℝ)
  | succ i ih =>
    rw [pow_succ, pow_succ, pow_succ, Nat.succ_mul]
    exact ih.mul h

theorem near_pow [FlPow R] {k : ℕ} {a : Fl R} {x X : ℝ} (h : R.Near k a.val x X) (i : ℕ) : R.Near (i * k + FlPow.acc R) (a ^ i).val (x ^ i) (X ^ i) :=
  Near.step (Near.pow h i) (FlPow.pow_err a i)

theorem near_natCast (n : ℕ) : R.Near 1 ((n : Fl R)).val (n : ℝ) n := by
  have := (Near.refl R 0 (n : ℝ)).rnd
  rwa [Nat.abs_cast] at this

theorem near_inv_natCast (hu : R.u ≤ 1 / 2) (n : ℕ) : R.Near 4 (1 / (n : Fl R)).val (1 / (n : ℝ)) (1 / n) := by
  have h : R.Rel (0 + 1) (R.rnd (n : ℝ)) (n : ℝ) := (Rel.refl R _).rnd
  have h2 := h.inv.rnd.near hu
  rw [abs_of_nonneg (by positivity), ← one_div, ← one_div] at h2
  exact h2

theorem near_dot {k l p : ℕ} {a b : ℕ → Fl R} {x y X Y : ℕ → ℝ} (h : ∀ q, q < p → R.Near k (a q).val (x q) (X q)) (h' : ∀ q, q < p → R.Near l (b q).val (y q) (Y q)) :
    R.Near (k + l + 1 + p) (dot p a b).val (dot p x y) (dot p X Y) := by
  have : ∀ q, q ≤ p → R.Near (k + l + 1 + q) (dot q a b).val (dot q x y) (dot q X Y) := by
    intro q
    induction q with
    | zero => intro _; exact Near.zero R _
    | succ q ih =>
      intro hq
      have e : ∀ {K : Type} [Zero K] [Add K] [Mul K] (a b : ℕ → K), dot (q + 1) a b = dot q a b + a q * b q := fun a b => by
        simp [dot, List.range_succ]
      rw [e, e, e, ← Nat.add_assoc]
      exact near_add (ih (by omega)) ((near_mul (h q hq) (h' q hq)).mono (by omega))
  exact this p le_rfl

/-- Three matrices of the same size, the entries with the error of `k` roundings. -/
def MNear (R : Rounding ℝ) (k m n : ℕ) (A : Mat (Fl R)) (B C : Mat ℝ) : Prop :=
  ∃ f g h, A = Mat.ofFn m n f ∧ B = Mat.ofFn m n g ∧ C = Mat.ofFn m n h ∧ ∀ i, i < m → ∀ j, j < n → R.Near k (f i j).val (g i j) (h i j)

/-- Three computations that return such matrices. -/
def RNear (R : Rounding ℝ) (k m n : ℕ) (A : Res (Mat (Fl R))) (B C : Res (Mat ℝ)) : Prop :=
  ∃ a b c, A = .ok a ∧ B = .ok b ∧ C = .ok c ∧ MNear R k m n a b c

theorem RNear.mono {k l m n : ℕ} {A : Res (Mat (Fl R))} {B C : Res (Mat ℝ)} (h : RNear R k m n A B C) (hkl : k ≤ l) : RNear R l m n A B C := by
  obtain ⟨a, b, c, h1, h2, h3, f, g, e, h4, h5, h6, h7⟩ := h
  exact ⟨a, b, c, h1, h2, h3, f, g, e, h4, h5, h6, fun i hi j hj => (h7 i hi j hj).mono hkl⟩

theorem RNear.bind {k l m n m' n' : ℕ} {A : Res (Mat (Fl R))} {B C : Res (Mat ℝ)} (h : RNear R k m n A B C) {F : Mat (Fl R) → Res (Mat (Fl R))}
    {G H : Mat ℝ → Res (Mat ℝ)} (hs : ∀ a b c, MNear R k m n a b c → RNear R l m' n' (F a) (G b) (H c)) :
    RNear R l m' n' (A >>= F) (B >>= G) (C >>= H) := by
  obtain ⟨a, b, c, h1, h2, h3, h4⟩ := h
  rw [bind_ok h1, bind_ok h2, bind_ok h3]
  exact hs a b c h4

theorem mnear_matmul {k l m p n : ℕ} (hm : 0 < m) (hp : 0 < p) {A A' : Mat (Fl R)} {B B' C C' : Mat ℝ} (h : MNear R k m p A B C) (h' : MNear R l p n A' B' C') :
    RNear R (k + l + 1 + p) m n (matmul A A') (matmul B B') (matmul C C') := by
  obtain ⟨f, g, e, rfl, rfl, rfl, h1⟩ := h
  obtain ⟨f', g', e', rfl, rfl, rfl, h2⟩ := h'
  exact ⟨_, _, _, matmul_dot hm hp _ _, matmul_dot hm hp _ _, matmul_dot hm hp _ _, _, _, _, rfl, rfl, rfl,
    fun i hi j hj => near_dot (fun q hq => h1 i hi q hq) fun q hq => h2 q hq j hj⟩

theorem mnear_transpose {k m n : ℕ} (hm : 0 < m) {A : Mat (Fl R)} {B C : Mat ℝ} (h : MNear R k m n A B C) :
    RNear R k n m (transpose A) (transpose B) (transpose C) := by
  obtain ⟨f, g, e, rfl, rfl, rfl, h1⟩ := h
  exact ⟨_, _, _, transpose_ofFn hm f, transpose_ofFn hm g, transpose_ofFn hm e, _, _, _, rfl, rfl, rfl, fun i hi j hj => h1 j hj i hi⟩

variable {md : List ℕ} {d : ℕ}

theorem rnear_getD [FlPow R] (hd : d < md.length) {k N : ℕ} (hN : md.getD d 0 ≤ N) {t : Fl R} {x X : ℝ} (h : R.Near k t.val x X) :
    RNear R (N * k + FlPow.acc R) (md.getD d 0 + 1) (md.getD d 0 + 1) (getD md d t) (getD md d x) (getD md d X) := by
  unfold getD
  rw [bind_ok (degAt_ok hd), bind_ok (degAt_ok hd), bind_ok (degAt_ok hd)]
  refine ⟨_, _, _, rfl, rfl, rfl, _, _, _, rfl, rfl, rfl, fun i hi j hj => ?_⟩
  split_ifs with h1 h2
  · have := Near.refl R (N * k + FlPow.acc R) (1 : ℝ)
    rwa [abs_one] at this
  · exact (near_pow h i).mono (Nat.add_le_add_right (Nat.mul_le_mul_right _ (by omega)) _)
  · exact Near.zero R _

theorem rnear_getPascal (hd : d < md.length) :
    RNear R 1 (md.getD d 0 + 1) (md.getD d 0 + 1) (getPascal md d) (getPascal md d) (getPascal md d) := by
  unfold getPascal
  rw [bind_ok (degAt_ok hd), bind_ok (degAt_ok hd)]
  refine ⟨_, _, _, rfl, rfl, rfl, _, _, _, rfl, rfl, rfl, fun i hi j hj => ?_⟩
  split_ifs with h1
  · exact near_natCast _
  · exact Near.zero R _

theorem rnear_getDAcc (hu : R.u ≤ 1 / 2) (hd : d < md.length) (hn : md.getD d 0 ≤ 62) :
    RNear R 4 (md.getD d 0 + 1) (md.getD d 0 + 1) (getDAcc md d) (getDAcc md d) (getDAcc md d) := by
  have h0 : ¬ (((List.range (md.getD d 0 + 1)).any fun k => binomial (md.getD d 0) k = 0) = true) := by
    simp only [List.any_eq_true, List.mem_range, decide_eq_true_eq, not_exists, not_and]
    intro k hk
    rw [binomial_small (by omega) hn]
    exact (Nat.choose_pos (by omega)).ne'
  have : md[d]? = some (md.getD d 0) := by simp [List.getD, hd]
  unfold getDAcc
  rw [this]
  simp only [if_neg h0]
  refine ⟨_, _, _, rfl, rfl, rfl, _, _, _, rfl, rfl, rfl, fun i hi j hj => ?_⟩
  split_ifs with h1
  · exact near_inv_natCast hu _
  · exact Near.zero R _

/-- An interval with rounded ends, the exact interval, and the interval of the magnitudes. -/
structure INear (R : Rounding ℝ) (I : Itv (Fl R)) (J M : Itv ℝ) : Prop where
  lo : R.Rel 1 I.lo.val J.lo
  hi : R.Rel 1 I.hi.val J.hi
  mlo : M.lo = |J.lo|
  mhi : M.hi = 2 * |J.lo| + |J.hi|

theorem INear.lo_eq_zero {I : Itv (Fl R)} {J M : Itv ℝ} (h : INear R I J M) : I.lo = 0 ↔ J.lo = 0 := by
  obtain ⟨t, h1, h2, -⟩ := h.lo
  have ht : 0 < t := (Rel.pos_pow R 1).trans_le h2
  constructor
  · intro h0
    rw [h0, val_zero] at h1
    exact (mul_eq_zero.1 h1.symm).resolve_right ht.ne'
  · intro h0
    refine Fl.val_injective ?_
    rw [h1, h0, MulZeroClass.zero_mul, val_zero]

theorem rnear_getQ [FlPow R] (hu : R.u ≤ 1 / 2) (hd : d < md.length) {N : ℕ} (hN : md.getD d 0 ≤ N)
    {dF : List (String × Itv (Fl R))} {dX dM : List (String × Itv ℝ)} {sF sX sM : String} {I : Itv (Fl R)} {J M : Itv ℝ}
    (hF : dF[d]? = some (sF, I)) (hX : dX[d]? = some (sX, J)) (hM : dM[d]? = some (sM, M)) (h : INear R I J M) :
    RNear R (10 * N + 2 * FlPow.acc R + 6) (md.getD d 0 + 1) (md.getD d 0 + 1) (getQ md dF d) (getQ md dX d) (getQ md dM d) := by
  have hM0 : M.lo = 0 ↔ J.lo = 0 := by rw [h.mlo, abs_eq_zero]
  have nlo := h.lo.near hu
  have nhi := h.hi.near hu
  unfold getQ
  rw [if_pos hd, if_pos hd, if_pos hd, hF, hX, hM]
  simp only
  by_cases h0 : J.lo = 0
  · rw [if_pos h0, if_pos (h.lo_eq_zero.2 h0), if_pos (hM0.2 h0)]
    have e : M.hi = |J.hi| := by rw [h.mhi, h0]; simp
    rw [e]
    exact (rnear_getD hd hN nhi).mono (by omega)
  · rw [if_neg h0, if_neg (mt h.lo_eq_zero.1 h0), if_neg (mt hM0.1 h0)]
    have ht : R.Near 6 ((I.hi - I.lo) / I.lo).val ((J.hi - J.lo) / J.lo) ((M.hi - M.lo) / M.lo) := by
      have h1 := near_sub nhi nlo
      have h2 := (h1.mul (h.lo.inv.near hu)).rnd
      rw [abs_inv] at h2
      have e : (M.hi - M.lo) / M.lo = (|J.hi| + |J.lo|) * |J.lo|⁻¹ := by rw [h.mhi, h.mlo, div_eq_mul_inv]; ring
      rw [e, div_eq_mul_inv]
      have e2 : ((I.hi - I.lo) / I.lo).val = R.rnd ((I.hi - I.lo).val * I.lo.val⁻¹) := by rw [← div_eq_mul_inv]; rfl
      rw [e2]
      exact h2
    have hlo : R.Near 2 I.lo.val J.lo M.lo := by rw [h.mlo]; exact nlo
    refine (rnear_getD hd hN ht).bind fun D2 D2' D2'' n1 => ?_
    refine (rnear_getPascal hd).bind fun P P' P'' n2 => ?_
    refine (rnear_getD hd hN hlo).bind fun D1 D1' D1'' n3 => ?_
    refine (mnear_transpose (by omega) n2).bind fun T T' T'' n4 => ?_
    refine (mnear_matmul (by omega) (by omega) n1 n4).bind fun U U' U'' n5 => ?_
    refine (mnear_matmul (by omega) (by omega) n5 n3).mono ?_
    omega

/-- Number of columns and rows when the loop reaches dimension `d`, before and after cycling. -/
theorem rnear_cycle {k : ℕ} (hd : d < md.length) {A : Mat (Fl R)} {B C : Mat ℝ} (h : MNear R k (md.getD d 0 + 1) (restSize md d) A B C) :
    RNear R k ((rot md (d + 1)).headD 0 + 1) (restSize md (d + 1)) (cycle A md d) (cycle B md d) (cycle C md d) := by
  obtain ⟨f, g, e, rfl, rfl, rfl, h1⟩ := h
  rcases Nat.lt_or_ge md.length 2 with hlt | hge
  · have hone : md.length = 1 := by omega
    obtain rfl : d = 0 := by omega
    obtain ⟨m, rfl⟩ := List.length_eq_one_iff.1 hone
    rw [cycle_one hone (by omega), cycle_one hone (by omega), cycle_one hone (by omega)]
    refine ⟨_, _, _, rfl, rfl, rfl, f, g, e, ?_, ?_, ?_, ?_⟩ <;> simp [rot, restSize] at h1 ⊢
    exact h1
  · obtain ⟨T, hT⟩ := head_tail hd hge
    have hprod := prod_rot hd
    rw [hT, List.map_cons, List.prod_cons] at hprod
    have hrest : restSize md d = (md.getD ((d + 1) % md.length) 0 + 1) * (T.map (· + 1)).prod := by
      rw [restSize, rot_cons hd, List.tail_cons, hT]; simp
    have hsz : (rot md (d + 1)).headD 0 + 1 = md.getD ((d + 1) % md.length) 0 + 1 ∧ restSize md (d + 1) = (T.map (· + 1)).prod * (md.getD d 0 + 1) := by
      rw [restSize, rot_succ hd, hT]
      simp
    rw [hsz.1, hsz.2, hrest, cycle_ofFn hd hge rfl rfl hprod, cycle_ofFn hd hge rfl rfl hprod, cycle_ofFn hd hge rfl rfl hprod]
    refine ⟨_, _, _, rfl, rfl, rfl, _, _, _, rfl, rfl, rfl, fun i hi j hj => ?_⟩
    unfold cycled
    have hS : 0 < (T.map (· + 1)).prod := List.prod_pos (by simp)
    refine h1 _ (Nat.div_lt_of_lt_mul hj) _ ?_
    rw [hrest]
    have hm := Nat.mod_lt j hS
    calc i + (md.getD ((d + 1) % md.length) 0 + 1) * (j % (T.map (· + 1)).prod)
        < (md.getD ((d + 1) % md.length) 0 + 1) + (md.getD ((d + 1) % md.length) 0 + 1) * (j % (T.map (· + 1)).prod) := by omega
      _ = (md.getD ((d + 1) % md.length) 0 + 1) * (j % (T.map (· + 1)).prod + 1) := by ring
      _ ≤ _ := Nat.mul_le_mul_left _ hm

/-- A loop over the dimensions that adds `c` roundings in each. -/
theorem rnear_loop {c k : ℕ} {sF : Mat (Fl R) → ℕ → Res (Mat (Fl R))} {sX sM : Mat ℝ → ℕ → Res (Mat ℝ)}
    (hs : ∀ d, d < md.length → ∀ k A B C, MNear R k (md.getD d 0 + 1) (restSize md d) A B C →
      RNear R (k + c) ((rot md (d + 1)).headD 0 + 1) (restSize md (d + 1)) (sF A d) (sX B d) (sM C d))
    {A : Mat (Fl R)} {B C : Mat ℝ} (h : MNear R k (md.headD 0 + 1) (md.tail.map (· + 1)).prod A B C) :
    RNear R (k + md.length * c) (md.headD 0 + 1) (md.tail.map (· + 1)).prod ((List.range md.length).foldlM sF A) ((List.range md.length).foldlM sX B)
      ((List.range md.length).foldlM sM C) := by
  have key : ∀ d, d ≤ md.length → RNear R (k + d * c) ((rot md d).headD 0 + 1) (restSize md d) ((List.range d).foldlM sF A) ((List.range d).foldlM sX B)
      ((List.range d).foldlM sM C) := by
    intro d
    induction d with
    | zero =>
      intro _
      refine ⟨A, B, C, rfl, rfl, rfl, ?_⟩
      rw [restSize, rot_zero]
      simpa using h
    | succ d ih =>
      intro hd
      have hd' : d < md.length := hd
      rw [List.range_succ, List.foldlM_append, List.foldlM_append, List.foldlM_append]
      refine (ih (by omega)).bind fun A B C hn => ?_
      simp only [List.foldlM_cons, List.foldlM_nil, bind_pure]
      rw [rot_cons hd', List.headD_cons] at hn
      exact (hs d hd' _ A B C hn).mono (by rw [Nat.succ_mul]; omega)
  have := key md.length le_rfl
  rwa [restSize, rot_length] at this

theorem rnear_lambdaStep [FlPow R] (hu : R.u ≤ 1 / 2) (hd : d < md.length) {N : ℕ} (hN : ∀ m ∈ md, m ≤ N) (hdeg : ∀ m ∈ md, m ≤ 62)
    {dF : List (String × Itv (Fl R))} {dX dM : List (String × Itv ℝ)} {sF sX sM : String} {I : Itv (Fl R)} {J M : Itv ℝ}
    (hF : dF[d]? = some (sF, I)) (hX : dX[d]? = some (sX, J)) (hM : dM[d]? = some (sM, M)) (h : INear R I J M)
    {k : ℕ} {A : Mat (Fl R)} {B C : Mat ℝ} (hA : MNear R k (md.getD d 0 + 1) (restSize md d) A B C) :
    RNear R (k + (12 * N + 2 * FlPow.acc R + 14)) ((rot md (d + 1)).headD 0 + 1) (restSize md (d + 1)) (lambdaStep md dF A d) (lambdaStep md dX B d)
      (lambdaStep md dM C d) := by
  have hm : md.getD d 0 ∈ md := by rw [getD_getElem hd]; exact List.getElem_mem hd
  have h1 := hN _ hm
  have h2 := hdeg _ hm
  unfold lambdaStep
  refine (rnear_getDAcc hu hd h2).bind fun D D' D'' n1 => ?_
  refine (rnear_getQ hu hd h1 hF hX hM h).bind fun Q Q' Q'' n2 => ?_
  refine (mnear_matmul (by omega) (by omega) n1 n2).bind fun T T' T'' n3 => ?_
  refine (mnear_matmul (by omega) (by omega) n3 hA).bind fun U U' U'' n4 => ?_
  refine (rnear_cycle hd n4).mono ?_
  omega

theorem rnear_patchStep (hd : d < md.length) {N : ℕ} (hN : ∀ m ∈ md, m ≤ N) {k : ℕ} {A : Mat (Fl R)} {B C : Mat ℝ}
    (hA : MNear R k (md.getD d 0 + 1) (restSize md d) A B C) :
    RNear R (k + (N + 3)) ((rot md (d + 1)).headD 0 + 1) (restSize md (d + 1)) (patchStep md A d) (patchStep md B d) (patchStep md C d) := by
  have hm : md.getD d 0 ∈ md := by rw [getD_getElem hd]; exact List.getElem_mem hd
  have h1 := hN _ hm
  unfold patchStep
  refine (rnear_getPascal hd).bind fun D D' D'' n1 => ?_
  refine (mnear_matmul (by omega) (by omega) n1 hA).bind fun U U' U'' n4 => ?_
  refine (rnear_cycle hd n4).mono ?_
  omega

/-! ### The coefficient matrix -/

section map
variable {α β : Type} (φ : α → β)

theorem foldlM_natural {σ τ ι : Type} (ψ : σ → τ) {f : σ → ι → Res σ} {g : τ → ι → Res τ} (h : ∀ s x, g (ψ s) x = (f s x).map ψ) (l : List ι) (s : σ) :
    l.foldlM g (ψ s) = (l.foldlM f s).map ψ := by
  induction l generalizing s with
  | nil => rfl
  | cons x l ih =>
    rw [List.foldlM_cons, List.foldlM_cons, h]
    cases f s x with
    | error e => rfl
    | ok s' => exact ih s'

theorem getCoefficient_map [Zero α] [Zero β] (h0 : φ 0 = 0) (comb : List ℕ) (coeffs : List α) (exps : List (List ℕ)) :
    getCoefficient comb (coeffs.map φ) exps = (getCoefficient comb coeffs exps).map φ := by
  induction exps generalizing coeffs with
  | nil => cases coeffs <;> simp [getCoefficient, Except.map, h0]
  | cons e es ih =>
    cases coeffs with
    | nil =>
      have := ih []
      simp only [List.map_nil] at this ⊢
      rw [getCoefficient, getCoefficient]
      split_ifs
      · rfl
      · exact this
    | cons c cs =>
      rw [List.map_cons, getCoefficient, getCoefficient]
      split_ifs
      · rfl
      · exact ih cs

theorem set_map (A : Mat α) (i j : ℕ) (v : α) : Mat.set (A.map (List.map φ)) i j (φ v) = (A.set i j v).map (List.map (List.map φ)) := by
  unfold Mat.set
  rw [List.getElem?_map]
  cases A[i]? with
  | none => rfl
  | some row =>
    simp only [Option.map_some, List.length_map]
    split_ifs
    · simp [Except.map, List.map_set]
    · rfl

theorem getNdim_map (coeffs : List α) (exps : List (List ℕ)) : getNdim (coeffs.map φ) exps = getNdim coeffs exps := by
  cases coeffs <;> cases exps <;> simp [getNdim]

theorem getAMatrix_map [Zero α] [Zero β] (h0 : φ 0 = 0) (coeffs : List α) (exps : List (List ℕ)) :
    getAMatrix (coeffs.map φ) exps = (getAMatrix coeffs exps).map (List.map (List.map φ)) := by
  unfold getAMatrix
  rw [getNdim_map]
  cases getNdim coeffs exps with
  | error e => rfl
  | ok n =>
    cases hm : getMaxDegrees exps n with
    | error e => simp [bind, Except.bind, hm, Except.map]
    | ok md =>
      simp only [bind, Except.bind, hm]
      have e : ∀ m n, List.replicate m (List.replicate n (0 : β)) = (List.replicate m (List.replicate n (0 : α))).map (List.map φ) := fun m n => by
        simp [h0]
      rw [e]
      refine foldlM_natural (List.map (List.map φ)) (fun A comb => ?_) _ _
      rw [getCoefficient_map φ h0]
      cases getCoefficient comb coeffs exps with
      | error e => rfl
      | ok c => exact set_map φ A _ _ c

end map

theorem mnear_map {m n : ℕ} {A : Mat (Fl R)} {B C : Mat ℝ} {g : ℕ → ℕ → ℝ} (hB : A.map (List.map Fl.val) = B) (hC : A.map (List.map fun x => |x.val|) = C)
    (hg : B = Mat.ofFn m n g) : MNear R 0 m n A B C := by
  subst hB hC
  have hl : A.length = m := by simpa [length_ofFn] using congrArg List.length hg
  have hr : ∀ i (h : i < A.length), A[i].length = n := by
    intro i h
    have h' : i < m := hl ▸ h
    have := congrArg (fun L : Mat ℝ => (L.getD i []).length) hg
    simpa [Mat.ofFn, List.getD, h, h'] using this
  have hf : A = Mat.ofFn m n fun i j => (A.getD i []).getD j 0 := by
    refine List.ext_getElem (by simp [Mat.ofFn, hl]) fun i h1 h2 => ?_
    refine List.ext_getElem (by simp [Mat.ofFn, hr]) fun j h3 h4 => ?_
    simp [Mat.ofFn, List.getD, h1, h3]
  refine ⟨_, fun i j => ((A.getD i []).getD j 0).val, fun i j => |((A.getD i []).getD j 0).val|, hf, ?_, ?_, fun i _ j _ => Near.refl R 0 _⟩
  · conv_lhs => rw [hf]
    simp [Mat.ofFn, Function.comp_def]
  · conv_lhs => rw [hf]
    simp [Mat.ofFn, Function.comp_def]

/-- The patch with rounding, the exact one, and the one of the magnitudes. -/
theorem patch_rounded [FlPow R] (hu : R.u ≤ 1 / 2) {coeffs : List (Fl R)} {exps : List (List ℕ)} {n N : ℕ} (hn : 1 ≤ n) (hl : coeffs.length = exps.length)
    (hne : exps ≠ []) (hw : ∀ e ∈ exps, e.length = n) (hnd : exps.Nodup) (hdeg : ∀ e ∈ exps, ∀ k ∈ e, k ≤ 62) (hN : ∀ e ∈ exps, ∀ k ∈ e, k ≤ N)
    {dF : List (String × Itv (Fl R))} {dX dM : List (String × Itv ℝ)} (hF : dF.length = n) (hX : dX.length = n) (hM : dM.length = n)
    (hd : ∀ d (h1 : d < dF.length) (h2 : d < dX.length) (h3 : d < dM.length), INear R dF[d].2 dX[d].2 dM[d].2) :
    ∃ m c, 0 < m ∧ 0 < c ∧ RNear R (n * (13 * N + 2 * FlPow.acc R + 17)) m c (bernsteinPatch coeffs exps dF) (bernsteinPatch (coeffs.map Fl.val) exps dX)
      (bernsteinPatch (coeffs.map fun x => |x.val|) exps dM) := by
  obtain ⟨md, h1, h2, h3, h4⟩ := getMaxDegrees_ok hn hne hw
  have hb : ∀ e ∈ exps, Below md e := fun e he => below_of_getD ((hw e he).trans h2.symm) fun k hk => h3 e he k (h2 ▸ hk)
  have hatt : ∀ m ∈ md, ∃ e ∈ exps, m ∈ e := by
    intro m hm
    obtain ⟨k, hk, rfl⟩ := List.getElem_of_mem hm
    obtain ⟨e, he, hek⟩ := h4 k (h2 ▸ hk)
    have hke : k < e.length := by rw [hw e he, ← h2]; exact hk
    rw [getD_getElem hk, getD_getElem hke] at hek
    exact ⟨e, he, hek ▸ List.getElem_mem hke⟩
  have hdeg' : ∀ m ∈ md, m ≤ 62 := fun m hm => by
    obtain ⟨e, he, hme⟩ := hatt m hm
    exact hdeg e he m hme
  have hN' : ∀ m ∈ md, m ≤ N := fun m hm => by
    obtain ⟨e, he, hme⟩ := hatt m hm
    exact hN e he m hme
  have hmd : md ≠ [] := by rintro rfl; simp at h2; omega
  have hA : RNear R 0 (md.headD 0 + 1) (md.tail.map (· + 1)).prod (getAMatrix coeffs exps) (getAMatrix (coeffs.map Fl.val) exps)
      (getAMatrix (coeffs.map fun x => |x.val|) exps) := by
    have hX : getAMatrix (coeffs.map Fl.val) exps = .ok (Mat.ofFn (md.headD 0 + 1) (md.tail.map (· + 1)).prod (aEntry md (coeffs.map Fl.val) exps)) := by
      obtain ⟨m0, ms, rfl⟩ := List.exists_cons_of_ne_nil hmd
      exact getAMatrix_ok (by simpa using hl) hne hw hnd h1 h2 hb
    have eX := getAMatrix_map (Fl.val (R := R)) val_zero coeffs exps
    have eM := getAMatrix_map (fun x : Fl R => |x.val|) (by simp [val_zero]) coeffs exps
    cases hF : getAMatrix coeffs exps with
    | error e => rw [hF, hX] at eX; cases eX
    | ok A =>
      rw [hF] at eX eM
      have : A.map (List.map Fl.val) = Mat.ofFn (md.headD 0 + 1) (md.tail.map (· + 1)).prod (aEntry md (coeffs.map Fl.val) exps) := by
        rw [hX] at eX
        exact (Except.ok.inj eX).symm
      exact ⟨A, _, _, rfl, eX, eM, mnear_map rfl rfl this⟩
  refine ⟨md.headD 0 + 1, (md.tail.map (· + 1)).prod, by omega,
    List.prod_pos fun a ha => by obtain ⟨b, -, rfl⟩ := List.mem_map.1 ha; omega, ?_⟩
  have hlX : (coeffs.map Fl.val).length = exps.length := by simpa using hl
  have hlM : (coeffs.map fun x => |x.val|).length = exps.length := by simpa using hl
  unfold bernsteinPatch baseLambda
  rw [bind_ok (getNdim_ok hl hne hw), bind_ok (getNdim_ok hl hne hw), bind_ok (getNdim_ok hlX hne hw), bind_ok (getNdim_ok hlX hne hw),
    bind_ok (getNdim_ok hlM hne hw), bind_ok (getNdim_ok hlM hne hw)]
  have hL : RNear R (0 + md.length * (12 * N + 2 * FlPow.acc R + 14)) (md.headD 0 + 1) (md.tail.map (· + 1)).prod
      (do let A ← getAMatrix coeffs exps; let maxDegrees ← getMaxDegrees exps n; (List.range n).foldlM (lambdaStep maxDegrees dF) A)
      (do let A ← getAMatrix (coeffs.map Fl.val) exps; let maxDegrees ← getMaxDegrees exps n; (List.range n).foldlM (lambdaStep maxDegrees dX) A)
      (do let A ← getAMatrix (coeffs.map fun x => |x.val|) exps; let maxDegrees ← getMaxDegrees exps n; (List.range n).foldlM (lambdaStep maxDegrees dM) A) := by
    refine hA.bind fun A B C hn => ?_
    rw [bind_ok h1, bind_ok h1, bind_ok h1, ← h2]
    refine rnear_loop (fun d hdm k A B C hABC => ?_) hn
    have d1 : d < dF.length := by omega
    have d2 : d < dX.length := by omega
    have d3 : d < dM.length := by omega
    exact rnear_lambdaStep hu hdm hN' hdeg' (List.getElem?_eq_getElem d1) (List.getElem?_eq_getElem d2) (List.getElem?_eq_getElem d3) (hd d d1 d2 d3) hABC
  refine (hL.bind fun A B C hn => ?_).mono (l := n * (13 * N + 2 * FlPow.acc R + 17)) (k := 0 + md.length * (12 * N + 2 * FlPow.acc R + 14) + md.length * (N + 3)) ?_
  · rw [bind_ok h1, bind_ok h1, bind_ok h1, ← h2]
    exact rnear_loop (fun d hdm k A B C hABC => rnear_patchStep hdm hN' hABC) hn
  · rw [h2, zero_add, ← Nat.mul_add]
    exact Nat.mul_le_mul_left _ (by omega)

end Audi.Bounding
