import Verif.Proofs.TMCentre
import Verif.Spec.TMExpr

/-!
# Proofs: expressions of Taylor models
-/

namespace Audi
namespace TM

open MvPolynomial Spec GDual Filter Topology

variable {m : ℕ} {E : String → ℝ} {D R : String → Itv ℝ} {F G : (String → ℝ) → ℝ} {t u r : TM ℝ} {ord : List String → List String}

theorem roundQ_int (n : ℤ) : roundQ n = n := by
  unfold roundQ
  split_ifs
  · rw [Int.floor_eq_iff]
    constructor <;> linarith
  · rw [Int.ceil_eq_iff]
    constructor <;> linarith

theorem truncQ_int {n z : ℤ} (h : truncQ n = .ok z) : z = n ∧ -(2 ^ 31) ≤ n ∧ n < 2 ^ 31 := by
  unfold truncQ at h
  simp only [Int.floor_intCast, Int.ceil_intCast, ite_self] at h
  split_ifs at h with hr
  injection h with h
  exact ⟨h.symm, hr⟩

/-- `pow(tm, α)` for an exponent that is a multiple of 1/2. -/
theorem Centred.powT (hord : ∀ l, (ord l).Perm l) (hm : m ≤ 31) (h : Centred m E D F t) (ho : 1 ≤ t.order) {α : ℚ} (h0 : α ≠ 0)
    (h2 : (α * 2).den = 1) (hr : TM.powT ord (1 / 2 ^ 52) t α = .ok r) :
    (Fn.powQ α).Dom (F (pt E)) ∧ Centred m E D (fun x => F x ^ (α : ℝ)) r := by
  obtain ⟨z, hz⟩ : ∃ z : ℤ, α * 2 = z := ⟨(α * 2).num, (Rat.den_eq_one_iff _).1 h2 |>.symm⟩
  unfold TM.powT at hr
  obtain ⟨_, -, hr⟩ := bind_ok_iff.1 hr
  split_ifs at hr with c1 c2 c3 c4
  · obtain ⟨k1, k2, -⟩ := h.powHalf hord (by omega) hr
    subst c1
    refine ⟨⟨by norm_num, by norm_num, .inl k1⟩, k2.congr' fun x => ?_⟩
    rw [Real.sqrt_eq_rpow]
    norm_num
  · obtain ⟨k1, k2, -⟩ := h.powMinusHalf hord (by omega) hr
    subst c2
    refine ⟨⟨by norm_num, by norm_num, .inl k1⟩, k2.congr' fun x => ?_⟩
    norm_num
  · have hα : α = (roundQ α : ℤ) := by
      generalize roundQ α = n at c3 ⊢
      have h1 : |(z - 2 * n : ℤ)| < 1 := by
        have : (|((z - 2 * n : ℤ) : ℚ)| : ℚ) < 1 := by
          have e : ((z - 2 * n : ℤ) : ℚ) = 2 * (α - n) := by push_cast; linarith
          rw [e, abs_mul]
          norm_num at c3 ⊢
          linarith
        exact_mod_cast this
      have h3 : z = 2 * n := by have := Int.abs_lt_one_iff.1 h1; omega
      rw [h3] at hz
      push_cast at hz
      linarith
    generalize roundQ α = n at hα
    subst hα
    obtain ⟨i, i1, hr'⟩ := bind_ok_iff.1 hr
    obtain ⟨rfl, i2, i3⟩ := truncQ_int i1
    have hn : i ≠ 0 := by
      rintro rfl
      exact h0 rfl
    obtain ⟨k1, k2⟩ := h.powInt hord hm ho hn hr'
    refine ⟨⟨?_, ?_, .inr ⟨by simp, ?_⟩⟩, k2.congr' fun x => ?_⟩
    · have : (-2147483649 : ℤ) < i := by omega
      exact_mod_cast this
    · have : i < (2147483648 : ℤ) := by omega
      exact_mod_cast this
    · by_cases hi : 0 ≤ i
      · exact .inl (by exact_mod_cast hi)
      · exact .inr (k1 (by omega))
    · simp only [Rat.cast_intCast]
      rw [Real.rpow_intCast]
  · obtain ⟨i, i1, hr⟩ := bind_ok_iff.1 hr
    obtain ⟨s, s1, hr⟩ := bind_ok_iff.1 hr
    rw [hz] at i1
    obtain ⟨rfl, i2, i3⟩ := truncQ_int i1
    have hα : α = (i : ℚ) / 2 := by linarith
    have hodd : Odd i := by
      rw [← Int.not_even_iff_odd]
      rintro ⟨n, hn⟩
      apply c3
      have : α = (n : ℤ) := by
        rw [hα, hn]
        push_cast
        ring
      rw [this, roundQ_int, sub_self, abs_zero]
      norm_num
    have hi : i ≠ 0 := by
      rintro rfl
      exact absurd hodd (by decide)
    obtain ⟨-, k2⟩ := h.powInt hord hm ho hi s1
    obtain ⟨l1, l2, -⟩ := k2.powHalf hord (by omega) hr
    have hpos : 0 < F (pt E) := hodd.zpow_pos_iff.1 l1
    refine ⟨⟨?_, ?_, .inl hpos⟩, l2.congr ?_⟩
    · have : (-2147483649 : ℚ) * 2 < i := by
        have : (-2147483649 : ℤ) * 2 < i := by omega
        exact_mod_cast this
      linarith
    · have : (i : ℚ) < 2147483648 * 2 := by
        have : i < (2147483648 : ℤ) * 2 := by omega
        exact_mod_cast this
      linarith
    · filter_upwards [h.cont.eventually (lt_mem_nhds hpos)] with x hx
      rw [Real.sqrt_eq_rpow, ← Real.rpow_intCast, ← Real.rpow_mul hx.le, hα]
      congr 1
      push_cast
      ring

theorem Centred.fnTM (hord : ∀ l, (ord l).Perm l) (hm : m ≤ 31) (h : Centred m E D F t) (f : Fn) (hmax : f.MaxOrder m) (hg : f.GoodExponent)
    (ho : f.Multiplies → 1 ≤ t.order) (hr : f.runTM ord t = .ok r) : f.Dom (F (pt E)) ∧ Centred m E D (fun x => f.real (F x)) r := by
  have key : ∀ {o : Res (TM ℝ)} {H : (String → ℝ) → ℝ}, (∃ r, o = .ok r ∧ Centred m E D H r ∧ r.order = t.order) → o = .ok r → Centred m E D H r := by
    rintro o H ⟨r', r1, r2, -⟩ r3
    rw [r1] at r3
    injection r3 with r3
    exact r3 ▸ r2
  cases f with
  | exp => exact ⟨trivial, key (h.rexp hord (by omega)) hr⟩
  | log => exact ⟨(h.rlog hord (by omega) hr).1, (h.rlog hord (by omega) hr).2.1⟩
  | sqrt => exact ⟨(h.powHalf hord (by omega) hr).1, (h.powHalf hord (by omega) hr).2.1⟩
  | cbrt => exact absurd hr (by simp [Fn.runTM])
  | sin => exact ⟨trivial, key (h.rsin hord (by omega)) hr⟩
  | cos => exact ⟨trivial, key (h.rcos hord (by omega)) hr⟩
  | tan => exact h.rtan hord hm (ho trivial) hr
  | sinh => exact ⟨trivial, key (h.rsinh hord (by omega)) hr⟩
  | cosh => exact ⟨trivial, key (h.rcosh hord (by omega)) hr⟩
  | tanh => exact ⟨trivial, h.rtanh hord hm (ho trivial) hr⟩
  | asinh => exact ⟨trivial, h.rasinh hord hm (ho trivial) hr⟩
  | acosh => exact h.racosh hord hm (ho trivial) hr
  | atanh => exact h.ratanh hord hm (ho trivial) hr
  | atan => exact ⟨trivial, (h.ratan hord hmax (ho trivial) hr).1⟩
  | asin => exact ⟨(h.rasin hord hmax (ho trivial) hr).1, (h.rasin hord hmax (ho trivial) hr).2.1⟩
  | acos => exact ⟨(h.racos hord hmax (ho trivial) hr).1, (h.racos hord hmax (ho trivial) hr).2.1⟩
  | neg => exact ⟨trivial, key h.neg hr⟩
  | powQ α => exact h.powT hord hm (ho trivial) hg.1 hg.2 hr
  | powInt z =>
    obtain ⟨h1, h2⟩ := h.powInt hord hm (ho trivial) hg.1 hr
    refine ⟨⟨hg.2, ?_⟩, h2⟩
    by_cases h0 : 0 ≤ z
    · exact .inl h0
    · exact .inr (h1 (by omega))
  | powBase q => exact absurd hr (by simp [Fn.runTM])

/-- A variable. -/
theorem Centred.var_ok {s : String} (hm : m < UINT_MAX - 10) (hs : ∃ c, s.toList.head? = some c ∧ c ≠ 'd') (hv : InItv (D s) (E s)) (h0 : InItv (R s) 0) :
    ∃ r, (Expr.var s : Expr ℝ).runTM ord E D R m = .ok r ∧ Centred m E D (fun x => x ("d" ++ s)) r ∧ r.order = m := by
  obtain ⟨g, g1, g2, g3⟩ := Expr.run_good (ι := Unit) (C := ℝ) (m := m) (p := fun _ => pt E) (v := E) hm
    (fun _ s => congrArg E (varName_d s)) (.var s) hs fun _ => trivial
  change GDual.mk3 (E s) s m = .ok g at g1
  have hsy := GDual.syms_mk3 g1
  have hp : Parts g (R s) [(s, E s)] [(s, D s)] := by
    refine ⟨g2.valid, ?_, ?_, ?_, ?_, h0.1.trans h0.2⟩
    · rw [hsy]
      exact fun s' hs' => ⟨s, List.mem_singleton.1 hs'⟩
    · rw [hsy]
      simp [varName_d]
    · rw [hsy]
      simp [varName_d]
    · intro e he
      rw [List.mem_singleton] at he
      subst he
      exact ⟨_, List.mem_cons_self, hv⟩
  refine ⟨_, ?_, ⟨(make_wf hp).2, fun e he => ?_, fun e he => ?_, g2, h0⟩, g3 rfl⟩
  · change (do let g ← GDual.mk3 (E s) s m; TM.make g (R s) [(s, E s)] [(s, D s)]) = _
    rw [bind_ok g1]
    exact (make_wf hp).1
  · rw [List.mem_singleton] at he
    rw [he]
  · rw [List.mem_singleton] at he
    rw [he]

theorem Centred.var {s : String} (hm : m < UINT_MAX - 10) (hs : ∃ c, s.toList.head? = some c ∧ c ≠ 'd') (h0 : InItv (R s) 0)
    (hr : (Expr.var s : Expr ℝ).runTM ord E D R m = .ok r) : Centred m E D (fun x => x ("d" ++ s)) r ∧ r.order = m := by
  have hv : InItv (D s) (E s) := by
    change (do let g ← GDual.mk3 (E s) s m; TM.make g (R s) [(s, E s)] [(s, D s)]) = _ at hr
    obtain ⟨g, -, hr⟩ := bind_ok_iff.1 hr
    unfold TM.make at hr
    obtain ⟨_, h1, -⟩ := bind_ok_iff.1 hr
    obtain ⟨-, h2, -⟩ := checkInput_ok.1 h1
    obtain ⟨x, x1, x2⟩ := h2 (s, D s) List.mem_cons_self
    obtain rfl : E s = x := by simpa [List.lookup] using x1
    exact x2
  obtain ⟨r', r1, r2⟩ := Centred.var_ok (ord := ord) hm hs hv h0
  rw [hr] at r1
  injection r1 with r1
  exact r1 ▸ r2

/-- Evaluation of an expression, when it returns. -/
theorem runTM_centred (hord : ∀ l, (ord l).Perm l) (hm : m ≤ 31) (hR : ∀ s, InItv (R s) 0) :
    ∀ e : Expr ℝ, e.Legal m → e.Proper ord E D R m → ∀ r, e.runTM ord E D R m = .ok r →
      e.Dom () E ∧ Centred m E D (fun x => e.sem () fun s => x ("d" ++ s)) r := by
  have hU : m < UINT_MAX - 10 := by
    have : (31 : ℕ) < UINT_MAX - 10 := by decide
    omega
  have hE : (fun s => pt E ("d" ++ s)) = E := funext fun s => congrArg E (varName_d s)
  have key : ∀ {o : Res (TM ℝ)} {H : (String → ℝ) → ℝ} {P : TM ℝ → Prop} {r : TM ℝ}, (∃ r, o = .ok r ∧ Centred m E D H r ∧ P r) → o = .ok r →
      Centred m E D H r := by
    rintro o H P r ⟨r', r1, r2, -⟩ r3
    rw [r1] at r3
    injection r3 with r3
    exact r3 ▸ r2
  intro e
  induction e with
  | var s => exact fun hl _ r hr => ⟨trivial, (Centred.var hU hl (hR s) hr).1⟩
  | const c =>
    intro _ _ r hr
    injection hr with hr
    exact ⟨trivial, hr ▸ Centred.ofConst c⟩
  | bin op e1 e2 ih1 ih2 =>
    intro hl hp r hr
    change (do op.runTM ord (← e1.runTM ord E D R m) (← e2.runTM ord E D R m)) = _ at hr
    obtain ⟨a, a1, hr⟩ := bind_ok_iff.1 hr
    obtain ⟨b, b1, hr⟩ := bind_ok_iff.1 hr
    obtain ⟨a2, a3⟩ := ih1 hl.1 hp.1 a a1
    obtain ⟨b2, b3⟩ := ih2 hl.2 hp.2.1 b b1
    have ho := hp.2.2
    cases op with
    | add => exact ⟨⟨a2, b2, trivial⟩, key (a3.add b3) hr⟩
    | sub => exact ⟨⟨a2, b2, trivial⟩, key (a3.sub b3) hr⟩
    | mul => exact ⟨⟨a2, b2, trivial⟩, key (a3.mul hord hm b3 (by have := ho trivial a b a1 b1; omega)) hr⟩
    | div =>
      obtain ⟨h1, h2⟩ := a3.div hord hm b3 (by have := ho trivial a b a1 b1; omega) hr
      rw [hE] at h1
      exact ⟨⟨a2, b2, h1⟩, h2⟩
  | left op c e ih =>
    intro hl hp r hr
    change (do op.runTML ord c (← e.runTM ord E D R m)) = _ at hr
    obtain ⟨a, a1, hr⟩ := bind_ok_iff.1 hr
    obtain ⟨a2, a3⟩ := ih hl hp a a1
    cases op with
    | add => exact ⟨⟨a2, trivial⟩, key (a3.addST c) hr⟩
    | sub => exact ⟨⟨a2, trivial⟩, key (a3.subST c) hr⟩
    | mul => exact ⟨⟨a2, trivial⟩, key (a3.mulST c) hr⟩
    | div =>
      obtain ⟨h1, h2, -⟩ := a3.divST hord (by omega) c hr
      rw [hE] at h1
      exact ⟨⟨a2, h1⟩, h2⟩
  | right op e c ih =>
    intro hl hp r hr
    change (do op.runTMR (← e.runTM ord E D R m) c) = _ at hr
    obtain ⟨a, a1, hr⟩ := bind_ok_iff.1 hr
    obtain ⟨a2, a3⟩ := ih hl hp a a1
    cases op with
    | add => exact ⟨⟨a2, trivial⟩, key (a3.addTS c) hr⟩
    | sub => exact ⟨⟨a2, trivial⟩, key (a3.subTS c) hr⟩
    | mul => exact ⟨⟨a2, trivial⟩, key (a3.mulTS c) hr⟩
    | div =>
      have hc : c ≠ 0 := by
        rintro rfl
        change TM.divTS a 0 = _ at hr
        unfold TM.divTS at hr
        obtain ⟨_, -, hr⟩ := bind_ok_iff.1 hr
        obtain ⟨_, hr, -⟩ := bind_ok_iff.1 hr
        exact sdiv_zero hr
      exact ⟨⟨a2, hc⟩, key (a3.divTS hc) hr⟩
  | fn f e ih =>
    intro hl hp r hr
    change (do f.runTM ord (← e.runTM ord E D R m)) = _ at hr
    obtain ⟨a, a1, hr⟩ := bind_ok_iff.1 hr
    obtain ⟨a2, a3⟩ := ih hl.1 hp.1 a a1
    obtain ⟨h1, h2⟩ := a3.fnTM hord hm f hl.2 hp.2.1 (fun hf => hp.2.2 hf a a1) hr
    rw [hE] at h1
    exact ⟨⟨a2, h1⟩, h2⟩
  | pow e1 e2 => exact fun _ _ r hr => absurd hr (by simp [Expr.runTM])

end TM
end Audi
