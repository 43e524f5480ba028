import Verif.Proofs.Combinations
import Verif.Proofs.GDualOps
import Verif.Proofs.PolyOps
import Verif.Proofs.Functions
import Mathlib.Data.List.Perm.Basic

/-!
# Proofs: `get_poly`, `get_ndim`, `get_max_degrees`
-/

namespace Audi.Bounding

theorem within_replicate {n : ℕ} {D : ℤ} {e : List ℕ} : Within (List.replicate n D) e ↔ e.length = n ∧ ∀ k ∈ e, (k : ℤ) ≤ D := by
  induction n generalizing e with
  | zero =>
    constructor
    · intro h; cases h; simp
    · rintro ⟨h, -⟩
      rw [List.length_eq_zero_iff] at h
      subst h; exact List.Forall₂.nil
  | succ n ih =>
    cases e with
    | nil =>
      constructor
      · intro h; cases h
      · rintro ⟨h, -⟩; simp at h
    | cons k ks =>
      rw [List.replicate_succ]
      simp only [Within] at ih ⊢
      rw [List.forall₂_cons, ih]
      simp only [List.length_cons, Nat.add_right_cancel_iff, List.mem_cons, forall_eq_or_imp]
      tauto

theorem mem_polyCombs {n deg : ℕ} (hn : 1 ≤ n) {e : List ℕ} : e ∈ polyCombs n deg ↔ e.length = n ∧ e.sum ≤ deg := by
  unfold polyCombs
  by_cases h1 : n = 1
  · subst h1
    simp only [if_pos, List.mem_map, List.mem_range]
    constructor
    · rintro ⟨i, hi, rfl⟩
      exact ⟨rfl, by simpa using Nat.lt_succ_iff.1 hi⟩
    · rintro ⟨hl, hs⟩
      obtain ⟨i, rfl⟩ := List.length_eq_one_iff.1 hl
      exact ⟨i, by simpa using Nat.lt_succ_of_le hs, rfl⟩
  · rw [if_neg h1, if_pos (by omega)]
    obtain ⟨cap, hcap, -, hinv⟩ := combInv_generate (limits := List.replicate n (deg : ℤ)) (by
      intro h; rw [List.replicate_eq_nil_iff] at h; omega) true
    rw [(List.mem_replicate.1 hcap).2] at hinv
    rw [hinv.mem, within_replicate]
    constructor
    · rintro ⟨⟨hl, -⟩, hs⟩
      exact ⟨hl, by exact_mod_cast hs rfl⟩
    · rintro ⟨hl, hs⟩
      exact ⟨⟨hl, fun k hk => by exact_mod_cast (List.le_sum_of_mem hk).trans hs⟩, fun _ => by exact_mod_cast hs⟩

theorem sorted_polyCombs (n deg : ℕ) : (polyCombs n deg).Pairwise (· < ·) := by
  unfold polyCombs
  split_ifs with h1 h2
  · rw [List.pairwise_map]
    exact List.pairwise_lt_range.imp fun h => List.Lex.rel h
  · obtain ⟨_, _, _, hinv⟩ := combInv_generate (limits := List.replicate n (deg : ℤ)) (by
      intro h; rw [List.replicate_eq_nil_iff] at h; omega) true
    exact hinv.sorted
  · exact List.Pairwise.nil

section
variable {C : Type} [Cf C] {ι : Type} {K : Type} [Field K] [Lanes C ι K]

include ι K in
theorem beq_zero_iff (c : C) : Cf.beq c Cf.zero = Cf.isZero c := by
  rw [Bool.eq_iff_iff, Lanes.beq_iff (ι := ι) (K := K), Lanes.isZero_iff (ι := ι) (K := K)]
  simp only [Poly.lane_zero]

include ι K in
theorem foldlM_getPoly {d : GDual C} (hd : d.Valid) (L : List (List ℕ)) (hL : ∀ e ∈ L, e.length = d.symbolSetSize ∧ e.sum ≤ d.order)
    (acc : List C × List (List ℕ)) :
    L.foldlM (fun (acc : List C × List (List ℕ)) (exps : List ℕ) => do
      let cf ← d.findCf exps
      Except.ok (ε := Exn) (if !Cf.beq cf Cf.zero then (acc.1 ++ [cf], acc.2 ++ [exps]) else acc)) acc =
    .ok (acc.1 ++ L.filterMap d.p.find?, acc.2 ++ L.filter fun e => (d.p.find? e).isSome) := by
  induction L generalizing acc with
  | nil => simp [pure, Except.pure]
  | cons e L ih =>
    have he := hL e List.mem_cons_self
    have hf : d.findCf e = .ok ((d.p.find? e).getD Cf.zero) := by
      unfold GDual.findCf GDual.expSum
      rw [if_neg (by omega), if_neg (by simpa using he.1)]
      cases d.p.find? e <;> rfl
    rw [List.foldlM_cons, bind_ok hf]
    simp only [bind, Except.bind]
    have := fun acc => ih (fun e he => hL e (List.mem_cons_of_mem _ he)) acc
    simp only [bind, Except.bind] at this
    rw [this]
    cases hs : d.p.find? e with
    | none =>
      have hz : Cf.isZero (Cf.zero : C) = true := (Lanes.isZero_iff (ι := ι) (K := K) _).2 fun i => Poly.lane_zero i
      simp [hs, beq_zero_iff (ι := ι) (K := K), hz]
    | some c =>
      have hz : Cf.isZero c = false := hd.wf.nz _ (Poly.mem_of_find? hs)
      simp [hs, beq_zero_iff (ι := ι) (K := K), hz]

theorem zip_filterMap {α β : Type} (f : α → Option β) (L : List α) :
    (L.filter fun e => (f e).isSome).zip (L.filterMap f) = L.filterMap fun e => (f e).map fun c => (e, c) := by
  induction L with
  | nil => rfl
  | cons a L ih =>
    cases h : f a <;> simp [h, ih]

include ι K in
theorem getPoly_spec {d : GDual C} (hd : d.Valid) (hs : 1 ≤ d.symbolSetSize) :
    ∃ coeffs exps, getPoly d = .ok (coeffs, exps) ∧ coeffs.length = exps.length ∧ (exps.zip coeffs).Perm d.p.terms ∧
      exps.Pairwise (· < ·) := by
  have hdeg : d.degree ≤ d.order := Poly.degree_le hd.deg
  have hL : ∀ e ∈ polyCombs d.symbolSetSize d.degree, e.length = d.symbolSetSize ∧ e.sum ≤ d.order := fun e he =>
    ⟨((mem_polyCombs hs).1 he).1, ((mem_polyCombs hs).1 he).2.trans hdeg⟩
  refine ⟨(polyCombs d.symbolSetSize d.degree).filterMap d.p.find?,
    (polyCombs d.symbolSetSize d.degree).filter fun e => (d.p.find? e).isSome, ?_, ?_, ?_, (sorted_polyCombs _ _).filter _⟩
  · unfold getPoly
    rw [bind_ok (foldlM_getPoly (ι := ι) (K := K) hd _ hL _)]
    simp
  · generalize polyCombs d.symbolSetSize d.degree = L
    induction L with
    | nil => rfl
    | cons a L ih => cases h : d.p.find? a <;> simp [h, ih]
  · rw [zip_filterMap]
    refine (List.perm_ext_iff_of_nodup ?_ hd.wf.nodup.of_map).2 fun x => ?_
    · refine List.Nodup.filterMap ?_ ((sorted_polyCombs _ _).imp fun h => ne_of_lt h)
      intro a a' b hb hb'
      simp only [Option.mem_def, Option.map_eq_some_iff] at hb hb'
      obtain ⟨_, _, rfl⟩ := hb
      obtain ⟨_, _, h⟩ := hb'
      exact (congrArg Prod.fst h).symm
    · obtain ⟨e, c⟩ := x
      simp only [List.mem_filterMap, Option.map_eq_some_iff, Prod.mk.injEq]
      constructor
      · rintro ⟨a, -, c', h, rfl, rfl⟩
        exact Poly.mem_of_find? h
      · intro h
        exact ⟨e, (mem_polyCombs hs).2 ⟨hd.wf.len _ h, Poly.le_degree h⟩, c, Poly.find?_eq_some_of_mem hd.wf h, rfl, rfl⟩

end

theorem getPoly_no_symbols {C : Type} [Cf C] {d : GDual C} (hs : d.symbolSetSize = 0) : getPoly d = .ok ([], []) := by
  unfold getPoly polyCombs
  rw [hs]
  rfl

/-! ### Dimension and degrees -/

theorem getNdim_ok {K : Type} {coeffs : List K} {exps : List (List ℕ)} {n : ℕ} (hl : coeffs.length = exps.length) (hne : exps ≠ [])
    (hw : ∀ e ∈ exps, e.length = n) : getNdim coeffs exps = .ok n := by
  cases exps with
  | nil => exact absurd rfl hne
  | cons e0 es =>
    cases coeffs with
    | nil => simp at hl
    | cons c cs =>
      unfold getNdim
      have h0 := hw e0 List.mem_cons_self
      simp only [hl, ne_eq, not_true, if_false]
      rw [if_pos, h0]
      simp only [List.all_eq_true, decide_eq_true_eq]
      exact fun e he => (hw e he).trans h0.symm

/-- The degrees: for each dimension the largest exponent. -/
theorem foldl_zipWith_max {n : ℕ} (exps : List (List ℕ)) (hw : ∀ e ∈ exps, e.length = n) (acc : List ℕ) (ha : acc.length = n) :
    (exps.foldl (fun md row => List.zipWith max md row) acc).length = n ∧
    ∀ k (_ : k < n), (exps.foldl (fun md row => List.zipWith max md row) acc).getD k 0 =
      exps.foldl (fun m row => max m (row.getD k 0)) (acc.getD k 0) := by
  induction exps generalizing acc with
  | nil => exact ⟨ha, fun _ _ => rfl⟩
  | cons e es ih =>
    have he := hw e List.mem_cons_self
    have hl : (List.zipWith max acc e).length = n := by simp [ha, he]
    obtain ⟨h1, h2⟩ := ih (fun e he => hw e (List.mem_cons_of_mem _ he)) _ hl
    refine ⟨h1, fun k hk => ?_⟩
    rw [List.foldl_cons, h2 k hk, List.foldl_cons]
    congr 1
    simp [List.getD, List.getElem?_zipWith, List.getElem?_eq_getElem (ha.symm ▸ hk : k < acc.length),
      List.getElem?_eq_getElem (he.symm ▸ hk : k < e.length)]

theorem le_foldl_max_nat {α : Type} (f : α → ℕ) (L : List α) (a : ℕ) :
    (∀ x ∈ L, f x ≤ L.foldl (fun m x => max m (f x)) a) ∧ a ≤ L.foldl (fun m x => max m (f x)) a ∧
    (L.foldl (fun m x => max m (f x)) a = a ∨ ∃ x ∈ L, f x = L.foldl (fun m x => max m (f x)) a) := by
  induction L generalizing a with
  | nil => simp
  | cons y L ih =>
    obtain ⟨h1, h2, h3⟩ := ih (max a (f y))
    simp only [List.foldl_cons, List.mem_cons, forall_eq_or_imp, exists_eq_or_imp]
    refine ⟨⟨(le_max_right _ _).trans h2, h1⟩, (le_max_left _ _).trans h2, ?_⟩
    rcases h3 with h3 | h3
    · rcases max_choice a (f y) with h | h
      · left; rw [h3, h]
      · right; left; rw [h3, h]
    · exact Or.inr (Or.inr h3)

theorem getMaxDegrees_ok {exps : List (List ℕ)} {n : ℕ} (hn : 1 ≤ n) (hne : exps ≠ []) (hw : ∀ e ∈ exps, e.length = n) :
    ∃ md, getMaxDegrees exps n = .ok md ∧ md.length = n ∧
      (∀ e ∈ exps, ∀ k (_ : k < n), e.getD k 0 ≤ md.getD k 0) ∧ ∀ k (_ : k < n), ∃ e ∈ exps, e.getD k 0 = md.getD k 0 := by
  have key : ∀ md : List ℕ, (∀ k (_ : k < n), md.getD k 0 = exps.foldl (fun m row => max m (row.getD k 0)) 0) →
      (∀ e ∈ exps, ∀ k (_ : k < n), e.getD k 0 ≤ md.getD k 0) ∧ ∀ k (_ : k < n), ∃ e ∈ exps, e.getD k 0 = md.getD k 0 := by
    intro md h
    refine ⟨fun e he k hk => ?_, fun k hk => ?_⟩
    · rw [h k hk]; exact (le_foldl_max_nat (fun row : List ℕ => row.getD k 0) exps 0).1 e he
    · rw [h k hk]
      obtain ⟨e0, he0⟩ := List.exists_mem_of_ne_nil exps hne
      obtain ⟨h1, -, h3⟩ := le_foldl_max_nat (fun row : List ℕ => row.getD k 0) exps 0
      rcases h3 with h3 | ⟨x, hx, h3⟩
      · refine ⟨e0, he0, ?_⟩
        have := h1 e0 he0
        rw [h3] at this ⊢
        omega
      · exact ⟨x, hx, h3⟩
  unfold getMaxDegrees
  by_cases h1 : n = 1
  · subst h1
    simp only [gt_iff_lt, lt_irrefl, if_false, if_true]
    have hh : ∀ (L : List (List ℕ)) (_ : ∀ e ∈ L, e.length = 1) (a : ℕ), L.foldl (fun md row => row.foldl max md) a =
        L.foldl (fun m row => max m (row.getD 0 0)) a := by
      intro L hL
      induction L with
      | nil => intro a; rfl
      | cons e es ih =>
        intro a
        obtain ⟨i, rfl⟩ := List.length_eq_one_iff.1 (hL e List.mem_cons_self)
        rw [List.foldl_cons, List.foldl_cons, ih fun e he => hL e (List.mem_cons_of_mem _ he)]
        rfl
    refine ⟨_, rfl, rfl, key _ fun k hk => ?_⟩
    obtain rfl : k = 0 := by omega
    exact hh exps hw 0
  · rw [if_pos (by omega)]
    cases exps with
    | nil => exact absurd rfl hne
    | cons e0 es =>
      have h0 := hw e0 List.mem_cons_self
      obtain ⟨g1, g2⟩ := foldl_zipWith_max (e0 :: es) hw (List.replicate e0.length 0) (by simpa using h0)
      refine ⟨_, if_pos ?_, g1, key _ fun k hk => ?_⟩
      · simp only [List.all_eq_true, decide_eq_true_eq]
        exact fun e he => (hw e he).trans h0.symm
      · rw [g2 k hk]
        congr 1
        simp [List.getD, h0, hk]

end Audi.Bounding
