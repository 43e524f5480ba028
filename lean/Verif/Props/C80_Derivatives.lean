import Verif.Proofs.Deriv
import Verif.Props.C21_AD
import Verif.Props.C13_Terms

/-!
# C80: the rules of differentiation

`partial` of a computed expression agrees with the expression obtained by symbolic differentiation (`Expr.deriv`, Spec/Deriv.lean), computed on the same
gduals, in all terms which the truncated polynomial determines.
-/

namespace Audi

open MvPolynomial Spec GDual Filter Topology

variable {C : Type} [CfFun C] {ι : Type} [Lanes C ι ℝ] [LanesFun C ι]

/-- Differentiating symbolically, by the variables of a list. -/
def Expr.derivs {C : Type} [Cf C] (l : List String) (e : Expr C) : Expr C := l.foldl (fun e s => e.deriv s) e

/-- The gdual computed for the derived expression. -/
theorem deriv_step {v : String → C} {m : ℕ} (hm : m < UINT_MAX - 10) (e : Expr C) (hl : e.Legal m) (hp : e.PowOk)
    (hd : ∀ i : ι, e.Dom i fun s => Lanes.lane i (v s)) (s : String) {r : GDual C} (hr : e.run v m = .ok r) :
    ∃ r', (e.deriv s).run v m = .ok r' ∧ r'.Valid ∧ r'.order ≤ m ∧
      ∀ n, n < m → ∀ i : ι, EqUpTo n (pderiv ("d" ++ s) (r.toMv i : MvPolynomial String ℝ)) (r'.toMv i) := by
  classical
  let p : ι → String → ℝ := fun i => Function.extend (fun s => "d" ++ s) (fun s => Lanes.lane i (v s)) 0
  have hpv : ∀ (i : ι) (s : String), p i ("d" ++ s) = Lanes.lane i (v s) := fun i s => d_append_injective.extend_apply _ _ s
  obtain ⟨r0, hr0, hg, -⟩ := Expr.run_good hm hpv e hl hd
  rw [hr] at hr0; injection hr0 with hr0; subst hr0
  obtain ⟨r', hr', hg', -⟩ := Expr.run_good hm hpv (e.deriv s) (e.deriv_legal s hl) fun i => e.deriv_dom i s hp (hd i)
  refine ⟨r', hr', hg'.valid, hg'.le, fun n hn i => ?_⟩
  have hT := (hg.taylor i).mono (show n + 1 ≤ m from hn)
  obtain ⟨F', h1, h2⟩ := hT.2.2 ("d" ++ s)
  refine h2.unique (((hg'.taylor i).mono hn.le).congr_fun ?_)
  have hev : ∀ᶠ x in 𝓝 (p i), e.Dom i fun s => x ("d" ++ s) := by
    have hc : Continuous fun (x : String → ℝ) (s : String) => x ("d" ++ s) := continuous_pi fun s => continuous_apply _
    have h3 : e.Dom i fun s => p i ("d" ++ s) := by simp only [hpv]; exact hd i
    exact hc.continuousAt.eventually (e.continuousAt_dom i h3).2
  filter_upwards [h1, hev] with x hx hdx
  have h3 := e.hasPartialAt i s hdx
  have h4 : ∀ w, (fun u => Function.update x ("d" ++ s) w ("d" ++ u)) = Function.update (fun u => x ("d" ++ u)) s w := fun w => by
    funext u
    by_cases hu : u = s
    · subst hu; simp
    · rw [Function.update_of_ne hu, Function.update_of_ne fun h => hu (d_append_injective h)]
  unfold HasPartialAt at h3 hx
  simp only [h4] at hx
  exact h3.unique hx

/-- **C80 (partial).** Let `e` be an expression and `v` a point of its domain. Then `e` and the expression `e'` obtained from it by differentiating symbolically by the variables
of a list can be computed on the gduals `gdual(v s, s, m)`, with results `r` and `r'`; applying `partial` for the variables of the list to `r` gives
a gdual `q` of the same order; and `q - r'` has no terms of degree less than or equal to `m` minus the number of differentiations: `extract_terms` of these degrees gives 0. (Terms of higher degrees are unknown to `q`, see
`C80_top_degree_counterexample`.)

Restrictions: the order is at most 30 if `atan`, `asin` or `acos` occurs (finding 1); exponents that are lowered by the differentiation stay integers of 32 bits (`PowOk`). -/
theorem C80_derivatives_partial {v : String → C} {m : ℕ} (hm : m < UINT_MAX - 10) (e : Expr C) (hl : e.Legal m) (hd : ∀ i : ι, e.Dom i fun s => Lanes.lane i (v s))
    (l : List String) (hs : ∀ s ∈ l, ∃ c, s.toList.head? = some c ∧ c ≠ 'd') (hp : ∀ j < l.length, (e.derivs (l.take j)).PowOk) :
    ∃ r r' q, e.run v m = .ok r ∧ (e.derivs l).run v m = .ok r' ∧ iterPartial l r = .ok q ∧ q.getOrder = r.getOrder ∧
      ∀ k, k + l.length ≤ m → k ≤ (q.sub r').getOrder → ∃ z, (q.sub r').extractTerms k = .ok z ∧ z.eq (ofCf Cf.zero) = true := by
  have key : ∀ (l : List String) (e : Expr C), e.Legal m → (∀ i : ι, e.Dom i fun s => Lanes.lane i (v s)) →
      (∀ s ∈ l, ∃ c, s.toList.head? = some c ∧ c ≠ 'd') → (∀ j < l.length, (e.derivs (l.take j)).PowOk) →
      ∀ r q : GDual C, e.run v m = .ok r → r.Valid → q.Valid → ∀ n ≤ m, (∀ i : ι, EqUpTo n (q.toMv i : MvPolynomial String ℝ) (r.toMv i)) →
        ∃ r' q', (e.derivs l).run v m = .ok r' ∧ r'.Valid ∧ iterPartial l q = .ok q' ∧ q'.Valid ∧ q'.order = q.order ∧
          ∀ k, k + l.length ≤ n → ∀ i : ι, EqUpTo k (q'.toMv i : MvPolynomial String ℝ) (r'.toMv i) := by
    intro l
    induction l with
    | nil => exact fun e _ _ _ _ r q hr hrv hq n _ h => ⟨r, q, hr, hrv, rfl, hq, rfl, fun k hk i => (h i).mono (by simpa using hk)⟩
    | cons s l ih =>
      intro e hl hd hs hp r q hr hrv hq n hn h
      have hp0 : e.PowOk := hp 0 (Nat.succ_pos _)
      obtain ⟨r1, h1, h2, h3, h4⟩ := deriv_step hm e hl hp0 hd s hr
      obtain ⟨q1, hq1⟩ : ∃ q1, q.partial' s = .ok q1 := ⟨_, partial_ok.2 ⟨hs s List.mem_cons_self, rfl⟩⟩
      have hq1v := hq.partial' hq1
      have ho : q1.order = q.order := by rw [(partial_ok.1 hq1).2]
      have hp' : ∀ j < l.length, ((e.deriv s).derivs (l.take j)).PowOk := fun j hj => hp (j + 1) (Nat.succ_lt_succ hj)
      rcases Nat.eq_zero_or_pos n with rfl | hn0
      · have := ih (e.deriv s) (e.deriv_legal s hl) (fun i => e.deriv_dom i s hp0 (hd i)) (fun u hu => hs u (List.mem_cons_of_mem _ hu)) hp' r1 r1 h1 h2 h2 0 (Nat.zero_le _)
          (fun i => EqUpTo.refl _)
        obtain ⟨r', -, g1, g2, -⟩ := this
        obtain ⟨q', g3, g4, g5⟩ : ∃ q', iterPartial l q1 = .ok q' ∧ q'.Valid ∧ q'.order = q1.order := by
          have hl' : ∀ u ∈ l, ∃ c, u.toList.head? = some c ∧ c ≠ 'd' := fun u hu => hs u (List.mem_cons_of_mem _ hu)
          clear * - hl' hq1v
          induction l generalizing q1 with
          | nil => exact ⟨q1, rfl, hq1v, rfl⟩
          | cons u l ih =>
            obtain ⟨q2, hq2⟩ : ∃ q2, q1.partial' u = .ok q2 := ⟨_, partial_ok.2 ⟨hl' u List.mem_cons_self, rfl⟩⟩
            obtain ⟨q', a, b, c⟩ := ih q2 (hq1v.partial' hq2) fun w hw => hl' w (List.mem_cons_of_mem _ hw)
            refine ⟨q', (bind_ok hq2 _).trans a, b, c.trans ?_⟩
            rw [(partial_ok.1 hq2).2]
        exact ⟨r', q', g1, g2, (bind_ok hq1 _).trans g3, g4, g5.trans ho, fun k hk => absurd hk (by simp)⟩
      · obtain ⟨n, rfl⟩ : ∃ j, n = j + 1 := ⟨n - 1, by omega⟩
        obtain ⟨r', q', g1, g2, g3, g4, g5, g6⟩ := ih (e.deriv s) (e.deriv_legal s hl) (fun i => e.deriv_dom i s hp0 (hd i))
          (fun u hu => hs u (List.mem_cons_of_mem _ hu)) hp' r1 q1 h1 h2 hq1v n (by omega) fun i => by
            rw [toMv_partial hq hq1]
            exact ((h i).pderiv _).trans (h4 n (by omega) i)
        exact ⟨r', q', g1, g2, (bind_ok hq1 _).trans g3, g4, g5.trans ho, fun k hk i => g6 k (by rw [List.length_cons] at hk; omega) i⟩
  classical
  let p : ι → String → ℝ := fun i => Function.extend (fun s => "d" ++ s) (fun s => Lanes.lane i (v s)) 0
  have hpv : ∀ (i : ι) (s : String), p i ("d" ++ s) = Lanes.lane i (v s) := fun i s => d_append_injective.extend_apply _ _ s
  obtain ⟨r, hr, hg, -⟩ := Expr.run_good hm hpv e hl hd
  obtain ⟨r', q, g1, g2, g3, g4, g5, g6⟩ := key l e hl hd hs hp r r hr hg.valid hg.valid m le_rfl fun i => EqUpTo.refl _
  refine ⟨r, r', q, hr, g1, g3, g5, fun k hk hko => ?_⟩
  have hsv : (q.sub r').Valid := Valid.sub (ι := ι) (K := ℝ) g4 g2
  have hz := C14_extract_terms (ι := ι) (K := ℝ) hsv k
  obtain ⟨z, hz1, hz2, hz3⟩ := hz.2 hko
  refine ⟨z, hz1, (Poly.eq_iff (ι := ι) (K := ℝ) hz2.wf (valid_ofCf _).wf).2 fun i => ?_⟩
  refine Eq.trans ?_ (toMv_ofCf (Cf.zero : C) i).symm
  rw [Poly.lane_zero, map_zero]
  ext u
  refine (hz3 i u).trans ?_
  split_ifs with hu
  · rw [toMv_sub g4 g2, coeff_sub, g6 k hk i u hu.le, sub_self, coeff_zero]
  · rw [coeff_zero]

/-- The second derivatives of `sqrt(x) * pow(y, -3)` at `x = 1, y = 2`. -/
example : ∃ e : Expr ℝ, e = .bin .mul (.fn .sqrt (.var "x")) (.fn (.powInt (-3)) (.var "y")) ∧ e.Legal 50 ∧
    (∀ i : Unit, e.Dom i fun s => Lanes.lane i (if s = "x" then 1 else 2 : ℝ)) ∧
    (∀ s ∈ ["x", "y"], ∃ c, s.toList.head? = some c ∧ c ≠ 'd') ∧ ∀ j < ["x", "y"].length, (e.derivs (["x", "y"].take j)).PowOk := by
  refine ⟨_, rfl, by simp [Expr.Legal, Fn.MaxOrder], fun i => ?_, by simp, fun j hj => ?_⟩
  · simp [Expr.Dom, Expr.sem, Fn.Dom, Op.Dom, Lanes.lane]
  · have : j = 0 ∨ j = 1 := by simp at hj; omega
    rcases this with rfl | rfl
    · simp [Expr.derivs, Expr.PowOk]
    · simp [Expr.derivs, Expr.deriv, Fn.deriv, Expr.PowOk]

/-- **C80 (counterexample, terms of the top degree).** At every order, `partial(exp(x), x)` is not `exp(x)`: the term of degree `m` is missing. -/
theorem C80_top_degree_counterexample (m : ℕ) (hm : m < UINT_MAX - 10) : ∃ x r q : GDual ℝ, GDual.mk3 0 "x" m = .ok x ∧ x.exp = .ok r ∧ r.partial' "x" = .ok q ∧
    q.eq r = false := by
  classical
  have hpv : ∀ (i : Unit) (s : String), (fun (_ : Unit) (_ : String) => (0 : ℝ)) i ("d" ++ s) = Lanes.lane i ((fun _ => 0 : String → ℝ) s) := fun _ _ => rfl
  obtain ⟨r, hr, hg, ho⟩ := Expr.run_good (ι := Unit) (p := fun _ _ => 0) (v := fun _ => (0 : ℝ)) hm hpv (.fn .exp (.var "x")) ⟨⟨'x', by decide, by decide⟩, trivial⟩ fun _ => ⟨trivial, trivial⟩
  obtain ⟨x, hx, hr⟩ := bind_ok_iff.1 hr
  have hx' : GDual.mk3 0 "x" m = .ok x := hx
  obtain ⟨q, hq⟩ : ∃ q, r.partial' "x" = .ok q := ⟨_, partial_ok.2 ⟨⟨'x', by decide, by decide⟩, rfl⟩⟩
  refine ⟨x, r, q, hx', hr, hq, ?_⟩
  have ho' : r.order = m := ho rfl
  have hqv := hg.valid.partial' hq
  rw [Bool.eq_false_iff]
  intro h
  have h1 := (Poly.eq_iff (ι := Unit) (K := ℝ) hqv.wf hg.valid.wf).1 h ()
  have h2 : q.toMv () = (r.toMv () : MvPolynomial String ℝ) := h1
  rw [toMv_partial hg.valid hq] at h2
  have h3 := (hg.taylor ()).pds_eq (List.replicate m "dx") (by simp)
  have h4 : pds (List.replicate m "dx") (fun x : String → ℝ => Real.exp (x "dx")) (fun _ => 0) = 1 := by
    have h5 : ∀ k, pds (List.replicate k "dx") (fun x : String → ℝ => Real.exp (x "dx")) = fun x => Real.exp (x "dx") := fun k => by
      induction k with
      | zero => rfl
      | succ k ih =>
        rw [List.replicate_succ, pds]
        have : pd "dx" (fun x : String → ℝ => Real.exp (x "dx")) = fun x => Real.exp (x "dx") := funext fun x => by simp [pd]
        rw [this, ih]
    rw [h5]; exact Real.exp_zero
  have h6 := h3.symm.trans h4
  rw [← h2] at h6
  have h7 : (List.replicate m "dx").foldl (fun Q s => pderiv s Q) (pderiv ("d" ++ "x") (r.toMv () : MvPolynomial String ℝ)) =
      (List.replicate (m + 1) "dx").foldl (fun Q s => pderiv s Q) (r.toMv ()) := by rw [List.replicate_succ, List.foldl_cons]; rfl
  rw [h7, coeff_zero_foldl_pderiv] at h6
  have h8 : coeff (countExp (List.replicate (m + 1) "dx")) (r.toMv () : MvPolynomial String ℝ) = 0 := by
    refine (hg.valid.degLE (K := ℝ) ()) _ ?_
    rw [length_countExp, List.length_replicate, ho']
    exact Nat.lt_succ_self m
  rw [h8, zero_mul] at h6
  exact zero_ne_one h6

end Audi
