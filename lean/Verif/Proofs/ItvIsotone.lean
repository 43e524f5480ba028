import Verif.Proofs.TMAsin
import Verif.Proofs.Interval

/-!
# Proofs: operations of intervals are isotone

Intervals within given ones have results within theirs.
-/

namespace Audi
namespace Itv

open Spec

/-- `a` is not empty and lies in `b`. -/
def Inside {K : Type} [LE K] (a b : Itv K) : Prop := b.lo ≤ a.lo ∧ a.lo ≤ a.hi ∧ a.hi ≤ b.hi

section
variable {K : Type} [Field K] [LinearOrder K] [IsStrictOrderedRing K] {a b c d r : Itv K} {x : K}

omit [Field K] [IsStrictOrderedRing K] in
theorem Inside.mem (h : Inside a b) (hx : InItv a x) : InItv b x := ⟨h.1.trans hx.1, hx.2.trans h.2.2⟩

omit [Field K] [IsStrictOrderedRing K] in
theorem Inside.lo_mem (h : Inside a b) : InItv a a.lo := ⟨le_rfl, h.2.1⟩

omit [Field K] [IsStrictOrderedRing K] in
theorem Inside.hi_mem (h : Inside a b) : InItv a a.hi := ⟨h.2.1, le_rfl⟩

omit [Field K] [IsStrictOrderedRing K] in
theorem Inside.refl (h : a.lo ≤ a.hi) : Inside a a := ⟨le_rfl, h, le_rfl⟩

omit [Field K] [IsStrictOrderedRing K] in
theorem Inside.refl_of_mem (h : InItv a x) : Inside a a := .refl (h.1.trans h.2)

omit [Field K] [IsStrictOrderedRing K] in
theorem inside_of_forall (ha : a.lo ≤ a.hi) (h : ∀ x, InItv a x → InItv b x) : Inside a b :=
  ⟨(h _ ⟨le_rfl, ha⟩).1, ha, (h _ ⟨ha, le_rfl⟩).2⟩

omit [IsStrictOrderedRing K] [Field K] in
theorem Inside.of_mem (h1 : InItv b a.lo) (h2 : InItv b a.hi) (h3 : a.lo ≤ a.hi) : Inside a b := ⟨h1.1, h3, h2.2⟩

omit [IsStrictOrderedRing K] [Field K] in
theorem Inside.point (x : K) : Inside (point x) (point x) := ⟨le_rfl, le_rfl, le_rfl⟩

theorem Inside.unit : Inside (⟨0, 1⟩ : Itv K) ⟨0, 1⟩ := ⟨le_rfl, zero_le_one, le_rfl⟩

theorem Inside.add (h : Inside a b) (h' : Inside c d) : Inside (a.add c) (b.add d) :=
  ⟨add_le_add h.1 h'.1, add_le_add h.2.1 h'.2.1, add_le_add h.2.2 h'.2.2⟩

theorem Inside.sub (h : Inside a b) (h' : Inside c d) : Inside (a.sub c) (b.sub d) :=
  ⟨sub_le_sub h.1 h'.2.2, sub_le_sub h.2.1 h'.2.1, sub_le_sub h.2.2 h'.1⟩

theorem Inside.neg (h : Inside a b) : Inside a.neg b.neg := ⟨neg_le_neg h.2.2, neg_le_neg h.2.1, neg_le_neg h.1⟩

theorem Inside.mul (h : Inside a b) (h' : Inside c d) : Inside (a.mul c) (b.mul d) := by
  have e : ∀ {x y}, InItv a x → InItv c y → InItv (b.mul d) (x * y) := fun hx hy => mem_mul (h.mem hx) (h'.mem hy)
  have h1 := e h.lo_mem h'.lo_mem
  have h2 := e h.lo_mem h'.hi_mem
  have h3 := e h.hi_mem h'.lo_mem
  have h4 := e h.hi_mem h'.hi_mem
  exact ⟨le_min (le_min h1.1 h2.1) (le_min h3.1 h4.1), lo_le_hi_mul a c, max_le (max_le h1.2 h2.2) (max_le h3.2 h4.2)⟩

theorem Inside.pow (h : Inside a b) (n : ℕ) : Inside (a.pow n) (b.pow n) := by
  have e : ∀ {x}, InItv a x → InItv (b.pow n) (x ^ n) := fun hx => mem_pow (h.mem hx) n
  have h1 := e h.lo_mem
  have h2 := e h.hi_mem
  refine ⟨?_, lo_le_hi_pow h.2.1 n, ?_⟩
  · conv_rhs => unfold Itv.pow
    split_ifs with h3 h4 h5 h6
    · rw [h3]; simp [Itv.pow]
    · exact h1.1
    · exact h1.1
    · exact h2.1
    · have := e (x := 0) ⟨(not_le.1 h5).le, (not_le.1 h6).le⟩
      rw [zero_pow h3] at this
      exact this.1
  · conv_lhs => unfold Itv.pow
    split_ifs with h3 h4 h5 h6
    · rw [h3]; simp [Itv.pow]
    · exact h2.2
    · exact h2.2
    · exact h1.2
    · exact max_le h1.2 h2.2

theorem Inside.inv (h : Inside a b) (hr : b.inv = .ok r) : ∃ r', a.inv = .ok r' ∧ Inside r' r := by
  have hz : b.zeroIn = false := by
    unfold Itv.inv at hr
    split_ifs at hr with hz
    exact Bool.eq_false_iff.2 hz
  rw [inv_ok hz] at hr
  injection hr with hr
  subst hr
  have hz' : a.zeroIn = false := by
    rw [zeroIn_false_iff] at hz ⊢
    exact hz.imp (fun h' => h'.trans_le h.1) fun h' => h.2.2.trans_lt h'
  exact ⟨_, inv_ok hz', (mem_inv hz (h.mem h.hi_mem)).1, (mem_inv hz' h.lo_mem).1, (mem_inv hz (h.mem h.lo_mem)).2⟩

theorem Inside.div (h : Inside a b) (h' : Inside c d) (hr : b.div d = .ok r) : ∃ r', a.div c = .ok r' ∧ Inside r' r := by
  unfold Itv.div at hr ⊢
  obtain ⟨q, q1, hr⟩ := bind_ok_iff.1 hr
  injection hr with hr
  subst hr
  obtain ⟨q', e1, e2⟩ := h'.inv q1
  exact ⟨_, by rw [bind_ok e1], h.mul e2⟩

theorem Inside.smul (h : Inside a b) (s : K) : Inside (TM.smul s a) (TM.smul s b) := (Inside.point s).mul h

theorem Inside.sdiv (h : Inside a b) {s : K} (hr : TM.sdiv b s = .ok r) : ∃ r', TM.sdiv a s = .ok r' ∧ Inside r' r := h.div (.point s) hr

end

variable {a b c d r : Itv ℝ} {x : ℝ}

theorem Inside.rexp (h : Inside a b) : Inside a.rexp b.rexp := .of_mem (mem_rexp (h.mem h.lo_mem)) (mem_rexp (h.mem h.hi_mem)) (mem_rexp h.lo_mem).2

theorem Inside.rsinh (h : Inside a b) : Inside a.rsinh b.rsinh := .of_mem (mem_rsinh (h.mem h.lo_mem)) (mem_rsinh (h.mem h.hi_mem)) (mem_rsinh h.lo_mem).2

theorem Inside.ratan (h : Inside a b) : Inside a.ratan b.ratan := .of_mem (mem_ratan (h.mem h.lo_mem)) (mem_ratan (h.mem h.hi_mem)) (mem_ratan h.lo_mem).2

theorem Inside.rcosh (h : Inside a b) : Inside a.rcosh b.rcosh := by
  have e : ∀ {x}, InItv a x → InItv b.rcosh (Real.cosh x) := fun hx => mem_rcosh (h.mem hx)
  have h1 := e h.lo_mem
  have h2 := e h.hi_mem
  refine ⟨?_, (mem_rcosh h.lo_mem).1.trans (mem_rcosh h.lo_mem).2, ?_⟩
  · conv_rhs => unfold Itv.rcosh
    split_ifs with h3 h4
    · exact h1.1
    · exact h2.1
    · have := e (x := 0) ⟨(not_le.1 h3).le, (not_le.1 h4).le⟩
      rw [Real.cosh_zero] at this
      exact this.1
  · conv_lhs => unfold Itv.rcosh
    split_ifs with h3 h4
    · exact h2.2
    · exact h1.2
    · exact max_le h1.2 h2.2

theorem inside_image (f : ℝ → ℝ) (hf : ∀ x, |f x| ≤ 1) (h : Inside a b) :
    Inside (⟨sInf (f '' Set.Icc a.lo a.hi), sSup (f '' Set.Icc a.lo a.hi)⟩ : Itv ℝ) ⟨sInf (f '' Set.Icc b.lo b.hi), sSup (f '' Set.Icc b.lo b.hi)⟩ := by
  have hs : f '' Set.Icc a.lo a.hi ⊆ f '' Set.Icc b.lo b.hi := Set.image_mono (Set.Icc_subset_Icc h.1 h.2.2)
  have hn : (f '' Set.Icc a.lo a.hi).Nonempty := ⟨_, a.lo, ⟨le_rfl, h.2.1⟩, rfl⟩
  have hb : ∀ c d, BddBelow (f '' Set.Icc c d) := fun c d => ⟨-1, by rintro _ ⟨t, -, rfl⟩; exact (abs_le.1 (hf t)).1⟩
  have ha : ∀ c d, BddAbove (f '' Set.Icc c d) := fun c d => ⟨1, by rintro _ ⟨t, -, rfl⟩; exact (abs_le.1 (hf t)).2⟩
  exact ⟨csInf_le_csInf (hb _ _) hn hs, csInf_le_csSup hn (hb _ _) (ha _ _), csSup_le_csSup (ha _ _) hn hs⟩

theorem Inside.rsin (h : Inside a b) : Inside a.rsin b.rsin := inside_image _ Real.abs_sin_le_one h

theorem Inside.rcos (h : Inside a b) : Inside a.rcos b.rcos := inside_image _ Real.abs_cos_le_one h

theorem Inside.rsqrt (h : Inside a b) (hx : InItv a x) (h0 : 0 ≤ x) (hr : b.rsqrt = .ok r) : ∃ r', a.rsqrt = .ok r' ∧ Inside r' r := by
  unfold Itv.rsqrt at hr ⊢
  split_ifs at hr with h1
  injection hr with hr
  subst hr
  exact ⟨_, if_neg (not_lt.2 (h0.trans hx.2)), Real.sqrt_le_sqrt h.1, Real.sqrt_le_sqrt h.2.1, Real.sqrt_le_sqrt h.2.2⟩

theorem Inside.sinCond (h : Inside a b) (k : ℕ) : Inside (TM.sinCond k a) (TM.sinCond k b) := by
  unfold TM.sinCond
  simp only
  split_ifs
  exacts [h.rcos.neg, h.rsin.neg, h.rcos, h.rsin]

theorem Inside.cosCond (h : Inside a b) (k : ℕ) : Inside (TM.cosCond k a) (TM.cosCond k b) := by
  unfold TM.cosCond
  simp only
  split_ifs
  exacts [h.rsin.neg, h.rcos.neg, h.rsin, h.rcos]

theorem Inside.sinhCond (h : Inside a b) (k : ℕ) : Inside (TM.sinhCond k a) (TM.sinhCond k b) := by
  unfold TM.sinhCond
  split_ifs
  exacts [h.rcosh, h.rsinh]

theorem Inside.coshCond (h : Inside a b) (k : ℕ) : Inside (TM.coshCond k a) (TM.coshCond k b) := by
  unfold TM.coshCond
  split_ifs
  exacts [h.rsinh, h.rcosh]

theorem Inside.thetaArg (h : Inside a b) (c : ℝ) : Inside (TM.thetaArg c a) (TM.thetaArg c b) := (Inside.point c).add (h.mul .unit)

theorem Inside.trigRem (h : Inside a b) (h' : Inside c d) (f : ℝ) (k : ℕ) : Inside (TM.trigRem f c a k) (TM.trigRem f d b k) :=
  ((Inside.point _).mul h').mul (h.pow _)

theorem Inside.atanRem (h : Inside a b) (k : ℕ) : Inside (TM.atanRem a k) (TM.atanRem b k) :=
  (((Inside.point _).mul (h.pow _)).mul ((Inside.unit.mul h).ratan.rcos.pow _)).mul
    ((Inside.point _).mul ((Inside.unit.mul h).ratan.add (.point _))).rsin

theorem Inside.oneMinusSq (h : Inside a b) : Inside (TM.oneMinusSq a) (TM.oneMinusSq b) := (Inside.point 1).sub (h.mul h)

theorem Inside.asinD1 (h : Inside a b) (h0 : InItv a 0) (hr : TM.asinD1 b = .ok r) : ∃ r', TM.asinD1 a = .ok r' ∧ Inside r' r := by
  unfold TM.asinD1 at hr ⊢
  obtain ⟨s, s1, hr⟩ := bind_ok_iff.1 hr
  have h1 := TM.mem_oneMinusSq h0 h0
  obtain ⟨s', e1, e2⟩ := h.oneMinusSq.rsqrt h1 (by norm_num) s1
  obtain ⟨r', f1, f2⟩ := (Inside.point 1).div e2 hr
  exact ⟨r', by rw [bind_ok e1, f1], f2⟩

theorem Inside.asinD2 (h : Inside a b) (hr : TM.asinD2 b = .ok r) : ∃ r', TM.asinD2 a = .ok r' ∧ Inside r' r :=
  (h.mul (h.oneMinusSq.pow 2)).div (h.oneMinusSq.pow 3) hr

theorem Inside.asinDPair (h : Inside a b) (h0 : InItv a 0) (n : ℕ) {p : Itv ℝ × Itv ℝ} (hr : TM.asinDPair b n = .ok p) :
    ∃ p', TM.asinDPair a n = .ok p' ∧ Inside p'.1 p.1 ∧ Inside p'.2 p.2 := by
  induction n generalizing p with
  | zero =>
    unfold TM.asinDPair at hr ⊢
    obtain ⟨d1, e1, hr⟩ := bind_ok_iff.1 hr
    obtain ⟨d2, e2, hr⟩ := bind_ok_iff.1 hr
    injection hr with hr
    subst hr
    obtain ⟨d1', f1, g1⟩ := h.asinD1 h0 e1
    obtain ⟨d2', f2, g2⟩ := h.asinD2 e2
    exact ⟨_, by rw [bind_ok f1, bind_ok f2], g1, g2⟩
  | succ n ih =>
    unfold TM.asinDPair at hr ⊢
    obtain ⟨⟨u, v⟩, e1, hr⟩ := bind_ok_iff.1 hr
    simp only at hr
    obtain ⟨q, e2, hr⟩ := bind_ok_iff.1 hr
    injection hr with hr
    subst hr
    obtain ⟨⟨u', v'⟩, f1, g1, g2⟩ := ih e1
    obtain ⟨q', f2, g3⟩ := (Inside.point 1).div h.oneMinusSq e2
    refine ⟨_, by rw [bind_ok f1]; simp only; rw [bind_ok f2], g2, ?_⟩
    exact g3.mul ((((Inside.point _).mul h).mul g2).add ((Inside.point _).mul g1))

theorem Inside.asinDerivative (h : Inside a b) (h0 : InItv a 0) (n : ℕ) (hr : TM.asinDerivative b (n + 1) = .ok r) :
    ∃ r', TM.asinDerivative a (n + 1) = .ok r' ∧ Inside r' r := by
  cases n with
  | zero => exact h.asinD1 h0 hr
  | succ n =>
    unfold TM.asinDerivative at hr ⊢
    obtain ⟨p, e1, hr⟩ := bind_ok_iff.1 hr
    injection hr with hr
    subst hr
    obtain ⟨p', f1, -, f2⟩ := h.asinDPair h0 n e1
    exact ⟨_, by simp only; rw [bind_ok f1], f2⟩

end Itv
end Audi
