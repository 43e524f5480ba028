import Verif.Props.C01_Invariant
import Verif.Props.C21_AD
import Verif.Props.C78_Symbols
import Verif.Props.C92_Naturality
import Mathlib.Data.Nat.Choose.Basic

/-!
# C82: the number of terms

The memory a gdual needs is bounded by the number of monomials of degree at most the order in its symbols, a binomial coefficient, and this bound is attained.
-/

namespace Audi

open Spec GDual

/-- The vectors of `n` exponents with sum at most `m`. -/
def expVecs : ℕ → ℕ → Finset (List ℕ)
  | 0, _ => {[]}
  | n + 1, m => (Finset.range (m + 1)).biUnion fun h => (expVecs n (m - h)).image (h :: ·)

theorem mem_expVecs {n m : ℕ} {e : List ℕ} : e ∈ expVecs n m ↔ e.length = n ∧ e.sum ≤ m := by
  induction n generalizing m e with
  | zero => cases e <;> simp [expVecs]
  | succ n ih =>
    cases e with
    | nil => simp [expVecs]
    | cons h t =>
      simp only [expVecs, Finset.mem_biUnion, Finset.mem_range, Finset.mem_image, List.length_cons, List.sum_cons, List.cons.injEq, ih]
      constructor
      · rintro ⟨h', h1, t', ⟨h2, h3⟩, rfl, rfl⟩
        omega
      · rintro ⟨h1, h2⟩
        exact ⟨h, by omega, t, ⟨by omega, by omega⟩, rfl, rfl⟩

theorem card_expVecs (n m : ℕ) : (expVecs n m).card = (n + m).choose n := by
  induction n generalizing m with
  | zero => simp [expVecs]
  | succ n ih =>
    rw [expVecs, Finset.card_biUnion]
    · have h1 : ∀ h ∈ Finset.range (m + 1), ((expVecs n (m - h)).image (h :: ·)).card = (n + (m + 1 - 1 - h)).choose n := fun h _ => by
        rw [Finset.card_image_of_injective _ (List.cons_injective), ih]; rfl
      rw [Finset.sum_congr rfl h1, Finset.sum_range_reflect fun j => (n + j).choose n]
      clear h1 ih
      induction m with
      | zero => simp
      | succ m ih =>
        rw [Finset.sum_range_succ, ih, show n + 1 + (m + 1) = (n + (m + 1)) + 1 by omega, Nat.choose_succ_succ',
          show n + 1 + m = n + (m + 1) by omega]
        omega
    · intro a _ b _ hab
      rw [Function.onFun, Finset.disjoint_left]
      intro e he he'
      obtain ⟨t, -, rfl⟩ := Finset.mem_image.1 he
      obtain ⟨t', -, h⟩ := Finset.mem_image.1 he'
      exact hab (List.cons.inj h).1.symm

section
variable {C : Type} [CfOrd C] {ι : Type} {K : Type} [Field K] [Lanes C ι K]

theorem terms_le {C : Type} [Cf C] {d : GDual C} (h : d.Valid) : d.p.terms.length ≤ (d.symbolSetSize + d.getOrder).choose d.getOrder := by
  rw [show (d.symbolSetSize + d.getOrder).choose d.getOrder = (d.symbolSetSize + d.getOrder).choose d.symbolSetSize from
    Nat.choose_symm_of_eq_add (Nat.add_comm _ _), ← card_expVecs, ← List.length_map (·.1), ← List.toFinset_card_of_nodup h.wf.nodup]
  refine Finset.card_le_card fun e he => ?_
  obtain ⟨t, ht, rfl⟩ := List.mem_map.1 (List.mem_toFinset.1 he)
  exact mem_expVecs.2 ⟨h.wf.len t ht, h.deg t ht⟩

include ι K in
/-- **C82.** Every gdual obtained with the operations of the class has at most `binomial(n + m, m)` terms, `n` being the number of its symbols and `m` its order. -/
theorem C82_number_of_terms {d : GDual C} (h : Reachable d) : d.p.terms.length ≤ (d.symbolSetSize + d.getOrder).choose d.getOrder :=
  terms_le (h.valid (ι := ι) (K := K))

end

section
variable {C : Type} [CfFun C] {ι : Type} [Lanes C ι ℝ] [LanesFun C ι]

/-- **C82.** The value of an expression with at most `n` different variables, of order `m`, has at most `binomial(n + m, m)` terms, whatever the number of operations.
All orders and all functions; `Legal 0` only asks that the names of the variables are accepted. -/
theorem C82_expression {v : String → C} {m : ℕ} (hm : m < UINT_MAX - 10) (e : Expr C) (hl : e.Legal 0)
    (hd : ∀ i : ι, e.Dom i fun s => Lanes.lane i (v s)) (xs : List String) (hxs : ∀ s ∈ e.vars, s ∈ xs) :
    ∃ r, e.run v m = .ok r ∧ r.p.terms.length ≤ (xs.length + m).choose m := by
  obtain ⟨r, -, hr, -, h, -⟩ := C92_order (ι := ι) le_rfl hm e hl hd
  obtain ⟨hv, ho, -⟩ := h ""
  replace ho : r.getOrder ≤ m := ho
  refine ⟨r, hr, (terms_le hv).trans ?_⟩
  have h1 := C78_expression_subset_partial hr
  have h2 : r.symbolSetSize ≤ xs.length := by
    have h3 : r.symbolSet.Nodup := h1.1.imp fun h => ne_of_lt h
    have h4 := h3.subperm (l₂ := xs) fun s hs => hxs s (h1.2 s hs)
    have h5 := h4.length_le
    unfold GDual.symbolSet at h5
    rwa [List.length_map] at h5
  calc (r.symbolSetSize + r.getOrder).choose r.getOrder = (r.symbolSetSize + r.getOrder).choose r.symbolSetSize :=
        Nat.choose_symm_of_eq_add (Nat.add_comm _ _)
    _ ≤ (r.symbolSetSize + m).choose r.symbolSetSize := Nat.choose_le_choose _ (by omega)
    _ = (r.symbolSetSize + m).choose m := (Nat.choose_symm_of_eq_add (Nat.add_comm _ _)).symm
    _ ≤ _ := Nat.choose_le_choose _ (by omega)

end

/-- The sum of the variables. -/
def sumVars (s : String) : List String → Expr ℝ
  | [] => .var s
  | t :: l => .bin .add (.var s) (sumVars t l)

theorem sem_sumVars (s : String) (l : List String) (x : String → ℝ) : (sumVars s l).sem () x = ((s :: l).map x).sum := by
  induction l generalizing s with
  | nil => simp [sumVars, Expr.sem]
  | cons t l ih => rw [sumVars, Expr.sem, ih]; simp [Expr.sem, Op.real]

theorem pds_exp_sum {xs : List String} (hx : xs.Nodup) (l : List String) (hl : ∀ s ∈ l, s ∈ xs) (x : String → ℝ) :
    pds l (fun x => Real.exp (xs.map x).sum) x = Real.exp (xs.map x).sum := by
  induction l with
  | nil => rfl
  | cons s l ih =>
    have h : pd s (fun x : String → ℝ => Real.exp (xs.map x).sum) = fun x => Real.exp (xs.map x).sum := by
      funext x
      have h1 : ∀ t : ℝ, (xs.map (Function.update x s t)).sum = t - x s + (xs.map x).sum := fun t => by
        have hs := hl s (List.mem_cons_self ..)
        clear ih hl
        induction xs with
        | nil => simp at hs
        | cons a xs ih =>
          rw [List.map_cons, List.map_cons, List.sum_cons, List.sum_cons]
          by_cases ha : a = s
          · subst ha
            have h2 : xs.map (Function.update x a t) = xs.map x := List.map_congr_left fun b hb => Function.update_of_ne (fun h : b = a => (List.nodup_cons.1 hx).1 (h ▸ hb)) ..
            rw [h2, Function.update_self]; ring
          · rw [ih (List.nodup_cons.1 hx).2 ((List.mem_cons.1 hs).resolve_left fun h => ha h.symm), Function.update_of_ne ha]; ring
      unfold pd
      simp only [h1]
      have h2 : HasDerivAt (fun t : ℝ => Real.exp (t - x s + (xs.map x).sum)) (Real.exp (x s - x s + (xs.map x).sum) * 1) (x s) :=
        (((hasDerivAt_id (x s)).sub_const (x s)).add_const _).exp
      rw [h2.deriv]; simp
    rw [pds, h]
    exact ih fun t ht => hl t (List.mem_cons_of_mem _ ht)

theorem count_flatMap_replicate {us : List String} (hu : us.Nodup) {e : List ℕ} (he : e.length = us.length) :
    us.map (fun u => ((us.zip e).flatMap fun p => List.replicate p.2 p.1).count u) = e := by
  induction us generalizing e with
  | nil => simp [List.length_eq_zero_iff.1 he]
  | cons a us ih =>
    cases e with
    | nil => simp at he
    | cons k e =>
      obtain ⟨ha, hu⟩ := List.nodup_cons.1 hu
      have h0 : ((us.zip e).flatMap fun p => List.replicate p.2 p.1).count a = 0 := List.count_eq_zero.2 fun h => by
        obtain ⟨p, hp, hp'⟩ := List.mem_flatMap.1 h
        exact ha ((List.mem_replicate.1 hp').2 ▸ (List.of_mem_zip (a := p.1) (b := p.2) hp).1)
      rw [List.map_cons, List.zip_cons_cons, List.flatMap_cons, List.count_append, h0, List.count_replicate_self, Nat.add_zero]
      congr 1
      refine Eq.trans (List.map_congr_left fun u hu => ?_) (ih hu (by simpa using he))
      rw [List.count_append, List.count_replicate, if_neg (by simpa using fun h : a = u => ha (h ▸ hu)), Nat.zero_add]

theorem length_flatMap_replicate {us : List String} {e : List ℕ} (he : e.length = us.length) :
    ((us.zip e).flatMap fun p => List.replicate p.2 p.1).length = e.sum := by
  induction us generalizing e with
  | nil => simp [List.length_eq_zero_iff.1 he]
  | cons a us ih =>
    cases e with
    | nil => simp at he
    | cons k e =>
      rw [List.zip_cons_cons, List.flatMap_cons, List.length_append, ih (by simpa using he), List.length_replicate, List.sum_cons]

/-- **C82 (sharpness).** The bound is attained for any number of variables and any order: `exp(x1 + ... + xn)` has `binomial(n + m, m)` terms. -/
theorem C82_attained {s : String} {l : List String} (hx : (s :: l).Nodup) (hn : ∀ x ∈ s :: l, ∃ c, x.toList.head? = some c ∧ c ≠ 'd') {m : ℕ} (h1 : 1 ≤ m)
    (hm : m < UINT_MAX - 10) (v : String → ℝ) :
    ∃ r, (Expr.fn .exp (sumVars s l)).run v m = .ok r ∧ r.symbolSetSize = (s :: l).length ∧ r.getOrder = m ∧
      r.p.terms.length = ((s :: l).length + m).choose m := by
  have hleg : ∀ (s : String) (l : List String), (∀ x ∈ s :: l, ∃ c, x.toList.head? = some c ∧ c ≠ 'd') → (sumVars s l).Legal m := fun s l h => by
    induction l generalizing s with
    | nil => exact h s (by simp)
    | cons t l ih => exact ⟨h s (by simp), ih t fun x hx => h x (List.mem_cons_of_mem _ hx)⟩
  have hdom : ∀ (s : String) (l : List String), (sumVars s l).Dom () v := fun s l => by
    induction l generalizing s with
    | nil => trivial
    | cons t l ih => exact ⟨trivial, ih t, trivial⟩
  have hfull : (sumVars s l).full = true := by cases l <;> simp [sumVars, Expr.full]
  have hfree : ∀ (s : String) (l : List String), (sumVars s l).BaseFree := fun s l => by
    induction l generalizing s with
    | nil => trivial
    | cons t l ih => exact ⟨trivial, ih t⟩
  have hvars : ∀ (s : String) (l : List String), (sumVars s l).vars = s :: l := fun s l => by
    induction l generalizing s with
    | nil => rfl
    | cons t l ih => simp only [sumVars, Expr.vars, ih]; rfl
  have hL : (Expr.fn .exp (sumVars s l)).Legal m := ⟨hleg s l hn, trivial⟩
  have hD : ∀ i : Unit, (Expr.fn .exp (sumVars s l)).Dom i v := fun _ => ⟨hdom s l, trivial⟩
  obtain ⟨r, hr, hv, -, ho, hder, -⟩ := C21_ad_partial (ι := Unit) hm _ hL hD
  have ho : r.getOrder = m := ho hfull
  obtain ⟨r', hr', hsort, hsym⟩ := C78_expression_partial (ι := Unit) hm h1 _ hL (show (Expr.fn .exp (sumVars s l)).BaseFree from hfree s l) hD
  rw [hr] at hr'; injection hr' with hr'; subst hr'
  have hsub := Expr.run_subSyms _ hr
  have hvars' : (Expr.fn .exp (sumVars s l)).vars = s :: l := hvars s l
  have hsize : r.symbolSetSize = (s :: l).length := by
    have h3 : r.symbolSet.Nodup := hsort.imp fun h => ne_of_lt h
    have h4 := ((List.perm_ext_iff_of_nodup h3 hx).2 fun t => by rw [hsym t, hvars']).length_eq
    unfold GDual.symbolSet at h4
    rwa [List.length_map] at h4
  refine ⟨r, hr, hsize, ho, le_antisymm (by have := terms_le hv; rwa [hsize, ho] at this) ?_⟩
  have hnd : r.p.syms.Nodup := hv.wf.sorted.imp fun h => ne_of_lt h
  rw [show ((s :: l).length + m).choose m = (r.symbolSetSize + m).choose r.symbolSetSize by
    rw [hsize]; exact Nat.choose_symm_of_eq_add (Nat.add_comm _ _), ← card_expVecs]
  calc (expVecs r.symbolSetSize m).card ≤ (r.p.terms.map (·.1)).toFinset.card := Finset.card_le_card fun e he => ?_
    _ ≤ (r.p.terms.map (·.1)).length := List.toFinset_card_le _
    _ = _ := List.length_map _
  obtain ⟨he1, he2⟩ := mem_expVecs.1 he
  choose f hf1 hf2 using fun (u : String) (hu : u ∈ r.p.syms) => List.mem_map.1 (hsub.sub u hu)
  let L := (r.p.syms.zip e).flatMap fun p => List.replicate p.2 p.1
  have hL1 : ∀ u ∈ L, u ∈ r.p.syms := fun u hu => by
    obtain ⟨p, hp, hp'⟩ := List.mem_flatMap.1 hu
    rw [(List.mem_replicate.1 hp').2]
    exact (List.of_mem_zip (a := p.1) (b := p.2) hp).1
  let g : List String := L.pmap f hL1
  have hg : g.map (fun s => "d" ++ s) = L := by
    rw [List.map_pmap]
    refine (List.pmap_congr_left (q := fun u => u ∈ r.p.syms) (g := fun u _ => u) (H₂ := hL1) _ fun u _ h1 _ => hf2 u h1).trans ?_
    simp
  have hgl : g.length ≤ r.getOrder := by
    rw [List.length_pmap, length_flatMap_replicate he1, ho]; exact he2
  obtain ⟨c, hc, hlane⟩ := hder g hgl fun t ht => hL1 _ (by rw [← hg]; exact List.mem_map_of_mem ht)
  rw [hg, count_flatMap_replicate hnd he1] at hc
  have hne : c ≠ 0 := by
    have h2 := hlane ()
    have h3 : (Expr.fn .exp (sumVars s l)).sem () = fun x => Real.exp ((s :: l).map x).sum := funext fun x => by
      rw [Expr.sem, sem_sumVars]; rfl
    rw [h3, pds_exp_sum hx g fun t ht => ?_] at h2
    · change c = _ at h2
      rw [h2]; exact (Real.exp_pos _).ne'
    · obtain ⟨u, hu, rfl⟩ := List.mem_pmap.1 ht
      rw [← hvars']; exact hf1 _ _
  rw [List.mem_toFinset]
  by_contra hcon
  have hnone : r.p.find? e = none := by
    unfold Poly.find?
    rw [Option.map_eq_none_iff, List.find?_eq_none]
    intro t ht h
    exact hcon (List.mem_map.2 ⟨t, ht, by simpa using h⟩)
  unfold GDual.getDerivative GDual.findCf at hc
  rw [hnone, if_neg (by unfold expSum; change ¬ _ > r.getOrder; rw [ho]; omega), if_neg (by simpa using he1)] at hc
  injection hc with hc
  apply hne
  rw [← hc]
  exact (Lanes.lane_mul (C := ℝ) () _ _).trans (by rw [Poly.lane_zero, zero_mul])

/-- Also for `atan`, far beyond the orders at which its coefficients are right. -/
example : ∃ r, (Expr.fn .atan (.var "x")).run (fun _ => (1 : ℝ)) 1000 = .ok r ∧ r.p.terms.length ≤ (1 + 1000).choose 1000 :=
  C82_expression (ι := Unit) (v := fun _ => (1 : ℝ)) (m := 1000) (by decide) (.fn .atan (.var "x")) ⟨⟨'x', by decide, by decide⟩, show 0 ≤ 30 by decide⟩ (fun _ => ⟨trivial, trivial⟩) ["x"] fun s hs => by simpa [Expr.vars] using hs

/-- Three variables at order 5: 56 terms. -/
example : ∃ r, (Expr.fn .exp (sumVars "x" ["y", "z"])).run (fun _ => (1 : ℝ)) 5 = .ok r ∧ r.p.terms.length = 56 := by
  obtain ⟨r, h1, -, -, h2⟩ := C82_attained (s := "x") (l := ["y", "z"]) (by decide) (by decide) (m := 5) (by decide) (by decide) fun _ => 1
  exact ⟨r, h1, h2⟩

end Audi
