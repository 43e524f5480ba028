import Verif.Proofs.ItvIsotone

/-!
# Proofs: sizes of intervals
-/

namespace Audi.Itv

open Spec

variable {K : Type} [Field K] [LinearOrder K] [IsStrictOrderedRing K] {a b c r : Itv K} {ε δ μ s x : K}

/-- The largest absolute value. -/
def mag (a : Itv K) : K := max |a.lo| |a.hi|

/-- Both ends are at most `ε` in absolute value. -/
def Small (ε : K) (a : Itv K) : Prop := |a.lo| ≤ ε ∧ |a.hi| ≤ ε

theorem mag_nonneg (a : Itv K) : 0 ≤ a.mag := (abs_nonneg a.lo).trans (le_max_left _ _)

theorem Small.nonneg (h : Small ε a) : 0 ≤ ε := (abs_nonneg _).trans h.1

theorem Small.mono (h : Small ε a) (hε : ε ≤ δ) : Small δ a := ⟨h.1.trans hε, h.2.trans hε⟩

theorem small_mag (a : Itv K) : Small a.mag a := ⟨le_max_left _ _, le_max_right _ _⟩

theorem Inside.small (h : Inside a b) : Small b.mag a :=
  ⟨(abs_le_max_abs_abs h.1 (h.2.1.trans h.2.2)), abs_le_max_abs_abs (h.1.trans h.2.1) h.2.2⟩

theorem small_point (x : K) : Small |x| (point x) := ⟨le_rfl, le_rfl⟩

theorem Small.add (h : Small ε a) (h' : Small δ b) : Small (ε + δ) (a.add b) :=
  ⟨(abs_add_le _ _).trans (add_le_add h.1 h'.1), (abs_add_le _ _).trans (add_le_add h.2 h'.2)⟩

theorem Small.sub (h : Small ε a) (h' : Small δ b) : Small (ε + δ) (a.sub b) :=
  ⟨(abs_sub _ _).trans (add_le_add h.1 h'.2), (abs_sub _ _).trans (add_le_add h.2 h'.1)⟩

theorem Small.mul (h : Small ε a) (h' : Small δ b) : Small (ε * δ) (a.mul b) := by
  have e : ∀ {x y : K}, |x| ≤ ε → |y| ≤ δ → -(ε * δ) ≤ x * y ∧ x * y ≤ ε * δ := fun {x y} hx hy => by
    rw [← abs_le, abs_mul]
    exact mul_le_mul hx hy (abs_nonneg _) h.nonneg
  have h1 := e h.1 h'.1
  have h2 := e h.1 h'.2
  have h3 := e h.2 h'.1
  have h4 := e h.2 h'.2
  refine ⟨abs_le.2 ⟨le_min (le_min h1.1 h2.1) (le_min h3.1 h4.1), ?_⟩, abs_le.2 ⟨?_, max_le (max_le h1.2 h2.2) (max_le h3.2 h4.2)⟩⟩
  · exact (min_le_left _ _).trans ((min_le_left _ _).trans h1.2)
  · exact h1.1.trans ((le_max_left _ _).trans (le_max_left _ _))

theorem Small.smul (h : Small ε a) (s : K) : Small (|s| * ε) (TM.smul s a) := (small_point s).mul h

theorem Small.pow (h : Small ε a) (n : ℕ) : Small (ε ^ n) (a.pow n) := by
  have e : ∀ {x : K}, |x| ≤ ε → |x ^ n| ≤ ε ^ n := fun hx => by
    rw [abs_pow]
    exact pow_le_pow_left₀ (abs_nonneg _) hx n
  unfold Itv.pow
  split_ifs with h1 h2 h3 h4
  · rw [h1]
    exact ⟨by simp, by simp⟩
  · exact ⟨e h.1, e h.2⟩
  · exact ⟨e h.1, e h.2⟩
  · exact ⟨e h.2, e h.1⟩
  · refine ⟨by rw [abs_zero]; exact pow_nonneg h.nonneg n, ?_⟩
    rcases max_choice (a.lo ^ n) (a.hi ^ n) with k | k
    · simp only [k]; exact e h.1
    · simp only [k]; exact e h.2

theorem Small.div (h : Small ε a) (hb : b.inv = .ok c) (hr : a.div b = .ok r) : Small (ε * c.mag) r := by
  unfold Itv.div at hr
  rw [bind_ok hb] at hr
  injection hr with hr
  exact hr ▸ h.mul (small_mag c)

theorem Small.sdiv (h : Small ε a) (hr : TM.sdiv a s = .ok r) : Small (ε * |s⁻¹|) r := by
  have hr' : a.div (point s) = .ok r := hr
  have hi : ∃ c, (point s).inv = .ok c := by
    unfold Itv.div at hr'
    obtain ⟨c, h1, -⟩ := bind_ok_iff.1 hr'
    exact ⟨c, h1⟩
  obtain ⟨c, h1⟩ := hi
  have h2 := h.div h1 hr'
  unfold Itv.inv at h1
  split_ifs at h1
  injection h1 with h1
  rw [← h1] at h2
  simpa [mag, point] using h2

/-- A quotient by a part of an interval. -/
theorem Small.div_inside {d : Itv K} {q e : Itv K} (h : Small ε a) (hb : Inside b d) (hd : e.div d = .ok q) (hr : a.div b = .ok r) :
    ∃ c, d.inv = .ok c ∧ Small (ε * c.mag) r := by
  unfold Itv.div at hd hr
  obtain ⟨c, c1, -⟩ := bind_ok_iff.1 hd
  obtain ⟨c', c2, c3⟩ := hb.inv c1
  rw [bind_ok c2] at hr
  injection hr with hr
  exact ⟨c, c1, hr ▸ h.mul c3.small⟩

end Audi.Itv
