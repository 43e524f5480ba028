import Verif.Proofs.Exact
import Verif.Props.C67_Rounding

/-! # C106: computations with integers are exact -/

set_option linter.unusedSectionVars false

namespace Audi
open GDual Spec

/-- From rational to real numbers. -/
theorem cfHom_cast : CfHom (fun q : ℚ => (q : ℝ)) where
  ofRat q := rfl
  add a b := Rat.cast_add a b
  mul a b := Rat.cast_mul a b
  neg a := Rat.cast_neg a
  div a b _ := Rat.cast_div a b
  isZero a := by simp [Cf.isZero]

theorem CfHom.mk3 {C D : Type} [Cf C] [Cf D] {f : C → D} (h : CfHom f) {c : C} {s : String} {m : ℕ} {r : GDual C} (hr : GDual.mk3 c s m = .ok r) : GDual.mk3 (f c) s m = .ok (r.mapG f) := by
  obtain ⟨h1, h2, rfl⟩ := GDual.mk3_ok.mp hr
  refine GDual.mk3_ok.mpr ⟨h1, h2, ?_⟩
  simp only [GDual.mapG, ← h.padd, h.const]
  congr 2
  split_ifs
  · rfl
  · simp [Poly.var, Poly.mapP, mapT, Cf.one, h.ofRat]

theorem AExpr.run_cast {v : String → ℚ} {m : ℕ} {e : AExpr ℚ} (hl : e.Legal fun _ => True) {r : GDual ℚ} (hr : e.run v m = .ok r) :
    (e.map fun q : ℚ => (q : ℝ)).run (fun s => (v s : ℝ)) m = .ok (r.mapG fun q : ℚ => (q : ℝ)) := by
  have h := cfHom_cast
  induction e generalizing r with
  | var s => exact h.mk3 hr
  | const c =>
    cases hr
    exact congrArg Except.ok (h.ofCfOrder c 0)
  | bin op e1 e2 h1 h2 =>
    obtain ⟨a, ha, hr⟩ := bind_ok_iff.mp hr
    obtain ⟨b, hb, hr⟩ := bind_ok_iff.mp hr
    cases hr
    refine bind_ok_iff.mpr ⟨_, h1 hl.1 ha, bind_ok_iff.mpr ⟨_, h2 hl.2 hb, congrArg Except.ok ?_⟩⟩
    cases op
    · exact h.gadd a b
    · exact h.gsub a b
    · exact h.gmul a b
  | left op c e h1 =>
    obtain ⟨a, ha, hr⟩ := bind_ok_iff.mp hr
    cases hr
    refine bind_ok_iff.mpr ⟨_, h1 hl ha, congrArg Except.ok ?_⟩
    cases op
    · exact h.addSG c a
    · exact h.subSG c a
    · exact h.mulSG c a
  | right op e c h1 =>
    obtain ⟨a, ha, hr⟩ := bind_ok_iff.mp hr
    cases hr
    refine bind_ok_iff.mpr ⟨_, h1 hl ha, congrArg Except.ok ?_⟩
    cases op
    · exact h.addGS a c
    · exact h.subGS a c
    · exact h.mulGS a c
  | divc e c h1 => exact absurd trivial hl.2
  | neg e h1 =>
    obtain ⟨a, ha, hr⟩ := bind_ok_iff.mp hr
    cases hr
    exact bind_ok_iff.mpr ⟨_, h1 hl ha, congrArg Except.ok (h.gneg a)⟩

theorem AExpr.map_map {A B C : Type} (f : A → B) (g : B → C) (e : AExpr A) : (e.map f).map g = e.map fun c => g (f c) := by
  induction e <;> simp_all [AExpr.map]

theorem AExpr.legal_nodiv {A B : Type} (f : A → B) {P : B → Prop} {e : AExpr A} (h : e.Legal fun _ => True) : (e.map f).Legal P := by
  induction e with
  | var s => exact h
  | const c => trivial
  | bin op e1 e2 h1 h2 => exact ⟨h1 h.1, h2 h.2⟩
  | left op c e h1 => exact h1 h
  | right op e c h1 => exact h1 h
  | divc e c h1 => exact absurd trivial h.2
  | neg e h1 => exact h1 h

theorem find?_mem {C : Type} {p : Poly C} {e : List ℕ} {c : C} (h : p.find? e = some c) : ∃ x ∈ p.terms, x.2 = c := by
  unfold Poly.find? at h
  obtain ⟨x, hx, rfl⟩ := Option.map_eq_some_iff.mp h
  exact ⟨x, List.mem_of_find?_eq_some hx, rfl⟩

theorem findCf_fits {a : GDual ℚ} {B : ℕ} (ha : Fits B a.p.terms) {k : List ℕ} {c : ℚ} (hc : a.findCf k = .ok c) :
    IsInt c ∧ |c| ≤ B ∧ (a.mapG toD).findCf k = .ok (toD c) := by
  unfold findCf at hc ⊢
  split_ifs at hc with h1 h2
  rw [if_neg (show ¬ expSum k > (a.mapG toD).order from h1), if_neg (show ¬ k.length ≠ (a.mapG toD).symbolSetSize from h2)]
  have hfind : (a.mapG toD).p.find? k = (a.p.find? k).map toD := find?_mapP toD a.p k
  rw [hfind]
  cases hp : a.p.find? k with
  | none =>
    rw [hp] at hc
    cases hc
    exact ⟨⟨0, by simp [Cf.zero, Cf.ofRat]⟩, by simp [Cf.zero, Cf.ofRat], rfl⟩
  | some x =>
    rw [hp] at hc
    cases hc
    obtain ⟨y, hy, rfl⟩ := find?_mem hp
    exact ⟨ha.ints y hy, (abs_le_norm1 hy).trans ha.norm, rfl⟩

theorem IsInt.natCast (n : ℕ) : IsInt (n : ℚ) := ⟨n, by simp⟩

theorem prod_factorial_cast (k : List ℕ) : (k.map fun j => (Nat.factorial j : ℚ)).prod = ((k.map Nat.factorial).prod : ℕ) := by
  induction k with
  | nil => simp
  | cons j k ih => simp [ih]

theorem getDerivative_fits {a : GDual ℚ} {B : ℕ} (ha : Fits B a.p.terms) (hB : 1 ≤ B) {k : List ℕ} (hM : (k.map Nat.factorial).prod * B ≤ 2 ^ 53) {c : ℚ} (hc : a.getDerivative k = .ok c) :
    IsInt c ∧ |c| ≤ maxZ ∧ (a.mapG toD).getDerivative k = .ok (toD c) := by
  unfold getDerivative at *
  obtain ⟨x, hx, hc⟩ := bind_ok_iff.mp hc
  obtain ⟨h1, h2, h3⟩ := findCf_fits ha hx
  cases hc
  rw [prod_factorial_cast]
  set P := (k.map Nat.factorial).prod
  have hP : 1 ≤ P := List.one_le_prod_of_one_le fun j hj => by
    obtain ⟨i, -, rfl⟩ := List.mem_map.mp hj
    exact Nat.factorial_pos i
  have hM' : (P : ℚ) * B ≤ maxZ := by unfold maxZ; exact_mod_cast hM
  have hP' : (1 : ℚ) ≤ P := by exact_mod_cast hP
  have hB' : (1 : ℚ) ≤ B := by exact_mod_cast hB
  have h4 : |(P : ℚ)| ≤ maxZ := by rw [abs_of_nonneg (by linarith)]; nlinarith
  have h5 : |x| ≤ maxZ := by nlinarith
  have h6 : (Cf.mul x (Cf.ofRat (P : ℚ)) : ℚ) = x * P := by simp [Cf.mul, Cf.ofRat]
  refine ⟨by rw [h6]; exact h1.mul (.natCast P), ?_, bind_ok_iff.mpr ⟨_, h3, congrArg Except.ok ?_⟩⟩
  · rw [h6, abs_mul, abs_of_nonneg (show (0 : ℚ) ≤ P by linarith), mul_comm]
    exact (mul_le_mul_of_nonneg_left h2 (by linarith)).trans hM'
  · rw [h6]
    exact toD_mul h1 (.natCast P) h5 h4

variable {v : String → ℤ} {m : ℕ} {e : AExpr ℤ}

/-- **C106.** Let `e` be an expression of `+`, `-`, `*` and unary minus with integer constants, and let the number `size` (the value of the expression with `max 1 |c|` for each constant `c`, `|v s| + 1` for each variable `s`, and sums for differences) be at
most 2^53. On `double` gduals at integers the evaluation makes no rounding error: all coefficients are integers of absolute value at most `size`, and each derivative read from the result is exactly the derivative of the real function, an integer, if `size` times the factorials is at
most 2^53. -/
theorem C106_derivatives (hm : m < UINT_MAX - 10) (hl : e.Legal fun _ => True) (hM : e.size v ≤ 2 ^ 53) :
    ∃ r, (e.map dbl).run (fun s => dbl (v s)) m = .ok r ∧ r.getOrder ≤ m ∧ ((e.map fun c : ℤ => (c : ℝ)).toExpr.full = true → r.getOrder = m) ∧
      (∀ t ∈ r.p.terms, ∃ n : ℤ, t.2.v = .fin n ∧ n.natAbs ≤ e.size v) ∧
      ∀ l : List String, l.length ≤ r.getOrder → (∀ s ∈ l, "d" ++ s ∈ r.p.syms) →
        ((r.p.syms.map fun u => (l.map fun s => "d" ++ s).count u).map Nat.factorial).prod * e.size v ≤ 2 ^ 53 →
        ∃ (c : XF .binary64) (n : ℤ), r.getDerivative (r.p.syms.map fun u => (l.map fun s => "d" ++ s).count u) = .ok c ∧ c.v = .fin n ∧
          (n : ℝ) = pds l ((e.map fun c : ℤ => (c : ℝ)).toExpr.sem ()) fun s => (v s : ℝ) := by
  obtain ⟨a, ha, hr, hf⟩ := AExpr.toD_run (v := v) hm hl hM
  have hcast := AExpr.run_cast (AExpr.legal_nodiv _ hl) ha
  rw [AExpr.map_map] at hcast
  have e1 : (e.map fun c : ℤ => (((c : ℚ)) : ℝ)) = e.map fun c : ℤ => (c : ℝ) := by simp only [Rat.cast_intCast]
  have e2 : (fun s => (((v s : ℤ) : ℚ) : ℝ)) = fun s => (v s : ℝ) := by funext s; exact Rat.cast_intCast _
  rw [e1, e2, AExpr.run_toExpr] at hcast
  have hla : (e.map fun c : ℤ => (c : ℝ)).Legal fun c => c = 0 := AExpr.legal_nodiv _ hl
  obtain ⟨a', ha', -, hoa, hfa, hda, -⟩ := C21_ad_partial (C := ℝ) (ι := Unit) (v := fun s => (v s : ℝ)) hm (e.map fun c : ℤ => (c : ℝ)).toExpr
    (AExpr.legal_toExpr hla m) fun _ => AExpr.dom_toExpr hla _
  obtain rfl : a.mapG (fun q : ℚ => (q : ℝ)) = a' := by rw [hcast] at ha'; injection ha'
  refine ⟨a.mapG toD, hr, hoa, hfa, fun t ht => ?_, fun l hle hmem hP => ?_⟩
  · obtain ⟨x, hx, rfl⟩ := List.mem_map.mp ht
    obtain ⟨n, hn⟩ := hf.ints x hx
    have hb := (abs_le_norm1 hx).trans hf.norm
    refine ⟨n, ?_, ?_⟩
    · rw [← hn]
      exact toD_v (hf.ints x hx) (hf.abs_le hM hx)
    · rw [hn, ← Int.cast_abs, Int.abs_eq_natAbs, Int.cast_natCast] at hb
      exact_mod_cast hb
  · obtain ⟨c, hc, hc'⟩ := hda l hle hmem
    set k := (a.mapG toD).p.syms.map fun u => (l.map fun s => "d" ++ s).count u
    have hk : (a.mapG fun q : ℚ => (q : ℝ)).getDerivative k = .ok c := hc
    obtain ⟨x, hx⟩ : ∃ x, a.getDerivative k = .ok x := by
      unfold getDerivative at hk ⊢
      obtain ⟨y, hy, -⟩ := bind_ok_iff.mp hk
      unfold findCf at hy
      split_ifs at hy with h1 h2
      obtain ⟨z, hz⟩ := findCf_isOk (d := a) (e := k) (not_lt.mp h1) (not_not.mp h2)
      exact ⟨_, bind_ok_iff.mpr ⟨z, hz, rfl⟩⟩
    obtain ⟨h1, h2, h3⟩ := getDerivative_fits hf AExpr.one_le_size hP hx
    obtain ⟨n, rfl⟩ := h1
    refine ⟨_, n, h3, toD_v ⟨n, rfl⟩ h2, ?_⟩
    have h4 := hc' ()
    refine Eq.trans ?_ h4
    have h5 : (a.mapG fun q : ℚ => (q : ℝ)).getDerivative k = .ok ((n : ℚ) : ℝ) := by
      unfold getDerivative at hx ⊢
      obtain ⟨y, hy, hz⟩ := bind_ok_iff.mp hx
      have h6 := cfHom_cast.findCf a k
      rw [hy] at h6
      refine bind_ok_iff.mpr ⟨_, h6, congrArg Except.ok ?_⟩
      have h7 : (Cf.mul y (Cf.ofRat ((k.map fun j => (Nat.factorial j : ℚ)).prod)) : ℚ) = n := by injection hz
      rw [← h7, cfHom_cast.mul, cfHom_cast.ofRat]
    rw [hk] at h5
    injection h5 with h5
    rw [h5]
    exact (Rat.cast_intCast n).symm

/-! ### `evaluate` -/

section
variable {W : ℕ} {x : String → ℤ}

theorem toD_npow {n : ℤ} (hn : n.natAbs ≤ W) (hW : 1 ≤ W) {k : ℕ} (hM : W ^ k ≤ 2 ^ 53) :
    Cf.npow (dbl n) k = toD (Cf.npow (n : ℚ) k) ∧ IsInt (Cf.npow (n : ℚ) k) ∧ |Cf.npow (n : ℚ) k| ≤ (W ^ k : ℕ) := by
  have h0 : |(n : ℚ)| ≤ W := by
    rw [← Int.cast_abs, Int.abs_eq_natAbs, Int.cast_natCast]
    exact_mod_cast hn
  induction k with
  | zero => exact ⟨rfl, ⟨1, by simp [Cf.npow, Cf.one, Cf.ofRat]⟩, by simp [Cf.npow, Cf.one, Cf.ofRat]⟩
  | succ k ih =>
    have h1 : W ^ k ≤ W ^ (k + 1) := Nat.pow_le_pow_right hW (Nat.le_succ k)
    have h2 : W ≤ W ^ (k + 1) := Nat.le_self_pow (Nat.succ_ne_zero k) W
    obtain ⟨h3, h4, h5⟩ := ih (h1.trans hM)
    have h6 : |Cf.npow (n : ℚ) k| ≤ maxZ := h5.trans (by unfold maxZ; exact_mod_cast h1.trans hM)
    have h7 : |(n : ℚ)| ≤ maxZ := h0.trans (by unfold maxZ; exact_mod_cast h2.trans hM)
    refine ⟨?_, h4.mul ⟨n, rfl⟩, ?_⟩
    · change Cf.mul (Cf.npow (dbl n) k) (dbl n) = _
      rw [h3]
      exact toD_mul h4 ⟨n, rfl⟩ h6 h7
    · change |Cf.npow (n : ℚ) k * n| ≤ _
      rw [abs_mul, pow_succ]
      push_cast at h5 ⊢
      exact mul_le_mul h5 h0 (abs_nonneg _) (by positivity)

theorem toD_monoVal (hx : ∀ s, (x s).natAbs ≤ W) (hW : 1 ≤ W) {ss : List String} {k : List ℕ} (hM : W ^ k.sum ≤ 2 ^ 53) :
    Poly.monoVal (fun s => dbl (x s)) ss k = toD (Poly.monoVal (fun s => (x s : ℚ)) ss k) ∧ IsInt (Poly.monoVal (fun s => (x s : ℚ)) ss k) ∧
      |Poly.monoVal (fun s => (x s : ℚ)) ss k| ≤ (W ^ k.sum : ℕ) := by
  have hone : IsInt (Cf.one : ℚ) ∧ |(Cf.one : ℚ)| ≤ 1 := ⟨⟨1, by simp [Cf.one, Cf.ofRat]⟩, by simp [Cf.one, Cf.ofRat]⟩
  induction ss generalizing k with
  | nil => exact ⟨rfl, hone.1, hone.2.trans (by exact_mod_cast Nat.one_le_pow _ _ hW)⟩
  | cons s ss ih =>
    cases k with
    | nil => exact ⟨rfl, hone.1, hone.2.trans (by exact_mod_cast Nat.one_le_pow _ _ hW)⟩
    | cons j k =>
      rw [List.sum_cons, pow_add] at hM ⊢
      have h1 : 1 ≤ W ^ j := Nat.one_le_pow _ _ hW
      have h2 : 1 ≤ W ^ k.sum := Nat.one_le_pow _ _ hW
      have h3 : W ^ j ≤ 2 ^ 53 := (Nat.le_mul_of_pos_right _ h2).trans hM
      have h4 : W ^ k.sum ≤ 2 ^ 53 := (Nat.le_mul_of_pos_left _ h1).trans hM
      obtain ⟨a1, a2, a3⟩ := toD_npow (hx s) hW h3
      obtain ⟨b1, b2, b3⟩ := ih h4
      refine ⟨?_, a2.mul b2, ?_⟩
      · simp only [Poly.monoVal]
        rw [a1, b1]
        exact toD_mul a2 b2 (a3.trans (by unfold maxZ; exact_mod_cast h3)) (b3.trans (by unfold maxZ; exact_mod_cast h4))
      · change |Cf.npow (x s : ℚ) j * Poly.monoVal (fun s => (x s : ℚ)) ss k| ≤ _
        rw [abs_mul]
        push_cast at a3 b3 ⊢
        exact mul_le_mul a3 b3 (abs_nonneg _) (by positivity)

theorem toD_foldl {l : List ℚ} {q : ℚ} (hl : ∀ y ∈ l, IsInt y) (hq : IsInt q) (hM : |q| + (l.map fun y => |y|).sum ≤ maxZ) :
    (l.map toD).foldl Cf.add (toD q) = toD (l.foldl Cf.add q) ∧ IsInt (l.foldl Cf.add q) ∧ |l.foldl Cf.add q| ≤ |q| + (l.map fun y => |y|).sum := by
  induction l generalizing q with
  | nil => exact ⟨rfl, hq, by simp⟩
  | cons y l ih =>
    have h0 : 0 ≤ (l.map fun y => |y|).sum := List.sum_nonneg fun z hz => by
      obtain ⟨w, -, rfl⟩ := List.mem_map.mp hz
      exact abs_nonneg w
    simp only [List.map_cons, List.sum_cons, List.foldl_cons] at hM ⊢
    have hy := hl y (by simp)
    have h1 := abs_nonneg q
    have h2 := abs_nonneg y
    have h3 := abs_add_le q y
    obtain ⟨h4, h5, h6⟩ := ih (q := q + y) (fun z hz => hl z (List.mem_cons_of_mem _ hz)) (hq.add hy) (by linarith)
    rw [toD_add hq hy (by linarith) (by linarith)]
    exact ⟨h4, h5, h6.trans (by linarith)⟩

theorem lookup_map {A B : Type} (f : A → B) (dict : List (String × A)) (s : String) : (dict.map fun y => (y.1, f y.2)).lookup s = (dict.lookup s).map f := by
  induction dict with
  | nil => rfl
  | cons y t ih =>
    obtain ⟨u, c⟩ := y
    simp only [List.map_cons, List.lookup]
    cases s == u <;> simp [ih]

theorem evaluate_fits {a : GDual ℚ} {B : ℕ} (ha : Fits B a.p.terms) (hd : ∀ t ∈ a.p.terms, t.1.sum ≤ a.order) (hB : 1 ≤ B) (hW : 1 ≤ W) {dict : List (String × ℤ)} (hx : ∀ y ∈ dict, y.2.natAbs ≤ W)
    (hM : B * W ^ a.order ≤ 2 ^ 53) (hs : ∀ s ∈ a.p.syms, s ∈ dict.map Prod.fst) :
    ∃ n : ℤ, a.evaluate (dict.map fun y => (y.1, (y.2 : ℚ))) = .ok (n : ℚ) ∧ ∃ c, (a.mapG toD).evaluate (dict.map fun y => (y.1, dbl y.2)) = .ok c ∧ c.v = .fin n := by
  set x : String → ℤ := fun s => (dict.lookup s).getD 0 with hxdef
  have hxW : ∀ s, (x s).natAbs ≤ W := fun s => by
    simp only [hxdef]
    cases h : dict.lookup s with
    | none => simp
    | some z =>
      have : (s, z) ∈ dict := by
        clear hx hs hM hxdef x
        induction dict with
        | nil => simp at h
        | cons y t ih =>
          obtain ⟨u, c⟩ := y
          simp only [List.lookup] at h
          by_cases hu : s == u
          · rw [hu] at h
            simp only [Option.some.injEq] at h
            rw [beq_iff_eq] at hu
            simp [hu, h]
          · simp only [hu] at h
            exact List.mem_cons_of_mem _ (ih h)
      exact hx _ this
  have hsome : ∀ s ∈ a.p.syms, (dict.lookup s).isSome = true := fun s hsm => by
    have := hs s hsm
    clear hx hs hM hxdef hxW x
    induction dict with
    | nil => simp at this
    | cons y t ih =>
      obtain ⟨u, c⟩ := y
      simp only [List.lookup]
      by_cases hu : s == u
      · simp [hu]
      · simp only [hu]
        refine ih ?_
        simp only [List.map_cons, List.mem_cons] at this
        rcases this with h | h
        · rw [h] at hu; simp at hu
        · exact h
  have hone : 1 ≤ W ^ a.order := Nat.one_le_pow _ _ hW
  have hBM : B ≤ 2 ^ 53 := (Nat.le_mul_of_pos_right _ hone).trans hM
  have hWM : W ^ a.order ≤ 2 ^ 53 := (Nat.le_mul_of_pos_left _ hB).trans hM
  have hterm : ∀ t ∈ a.p.terms, W ^ t.1.sum ≤ 2 ^ 53 := fun t ht => (Nat.pow_le_pow_right hW (hd t ht)).trans hWM
  have hval : ∀ t ∈ a.p.terms, Cf.mul (toD t.2) (Poly.monoVal (fun s => dbl (x s)) a.p.syms t.1) = toD (Cf.mul t.2 (Poly.monoVal (fun s => (x s : ℚ)) a.p.syms t.1)) ∧
      IsInt (Cf.mul t.2 (Poly.monoVal (fun s => (x s : ℚ)) a.p.syms t.1)) ∧ |Cf.mul t.2 (Poly.monoVal (fun s => (x s : ℚ)) a.p.syms t.1)| ≤ |t.2| * (W ^ a.order : ℕ) := fun t ht => by
    obtain ⟨h1, h2, h3⟩ := toD_monoVal hxW hW (ss := a.p.syms) (hterm t ht)
    refine ⟨?_, (ha.ints t ht).mul h2, ?_⟩
    · rw [h1]
      exact toD_mul (ha.ints t ht) h2 (ha.abs_le hBM ht) (h3.trans (by unfold maxZ; exact_mod_cast hterm t ht))
    · change |t.2 * _| ≤ _
      rw [abs_mul]
      exact mul_le_mul_of_nonneg_left (h3.trans (by exact_mod_cast Nat.pow_le_pow_right hW (hd t ht))) (abs_nonneg _)
  set l := a.p.terms.map fun t => (Cf.mul t.2 (Poly.monoVal (fun s => (x s : ℚ)) a.p.syms t.1) : ℚ) with hldef
  have hsum : (l.map fun y => |y|).sum ≤ norm1 a.p.terms * (W ^ a.order : ℕ) := by
    rw [norm1, ← List.sum_map_mul_right, hldef, List.map_map]
    exact List.sum_le_sum fun t ht => (hval t ht).2.2
  have hsum' : |(0 : ℚ)| + (l.map fun y => |y|).sum ≤ maxZ := by
    rw [abs_zero, zero_add]
    refine hsum.trans ((mul_le_mul_of_nonneg_right ha.norm (Nat.cast_nonneg _)).trans ?_)
    unfold maxZ
    exact_mod_cast hM
  obtain ⟨h1, ⟨n, hn⟩, h3⟩ := toD_foldl (fun y hy => by obtain ⟨t, ht, rfl⟩ := List.mem_map.mp hy; exact (hval t ht).2.1) ⟨0, by simp⟩ hsum'
  have e1 : (fun s => ((dict.map fun y => (y.1, (y.2 : ℚ))).lookup s).getD Cf.zero) = fun s => (x s : ℚ) := by
    funext s
    rw [lookup_map]
    simp only [hxdef]
    cases dict.lookup s <;> simp [Cf.zero, Cf.ofRat]
  have e2 : (fun s => ((dict.map fun y => (y.1, dbl y.2)).lookup s).getD Cf.zero) = fun s => dbl (x s) := by
    funext s
    rw [lookup_map]
    simp only [hxdef]
    cases dict.lookup s with
    | none => exact XF.ext (congrArg rnd64 (show (0 : ℚ) = ((0 : ℤ) : ℚ) by simp))
    | some z => rfl
  refine ⟨n, ?_, toD (n : ℚ), ?_, toD_v ⟨n, rfl⟩ (by rw [← hn]; exact h3.trans hsum')⟩
  · unfold GDual.evaluate Poly.evaluate
    rw [if_pos (List.all_eq_true.mpr fun s hs' => by rw [lookup_map, Option.isSome_map]; exact hsome s hs'), e1, ← hn]
    exact congrArg (fun z : ℚ => Except.ok (l.foldl Cf.add z)) (by simp [Cf.zero, Cf.ofRat])
  · unfold GDual.evaluate Poly.evaluate
    rw [if_pos (List.all_eq_true.mpr fun s hs' => by rw [lookup_map, Option.isSome_map]; exact hsome s hs'), e2, ← hn, ← h1]
    refine congrArg Except.ok (congrArg (fun z => List.foldl Cf.add (toD 0) z) ?_)
    rw [hldef]
    change (mapT toD a.p.terms).map _ = _
    rw [mapT, List.map_map, List.map_map]
    exact List.map_congr_left fun t ht => (hval t ht).1

theorem AExpr.run_deg (hm : m < UINT_MAX - 10) (hl : e.Legal fun _ => True) {a : GDual ℚ} (ha : (e.map fun c : ℤ => (c : ℚ)).run (fun s => (v s : ℚ)) m = .ok a) :
    (∀ t ∈ a.p.terms, t.1.sum ≤ a.order) ∧ a.order ≤ m := by
  have hcast := AExpr.run_cast (AExpr.legal_nodiv _ hl) ha
  rw [AExpr.run_toExpr] at hcast
  have hla : ((e.map fun c : ℤ => (c : ℚ)).map fun q : ℚ => (q : ℝ)).Legal fun c => c = 0 := by rw [AExpr.map_map]; exact AExpr.legal_nodiv _ hl
  obtain ⟨a', ha', hv, hoa, -⟩ := C21_ad_partial (C := ℝ) (ι := Unit) (v := fun s => (((v s : ℤ) : ℚ) : ℝ)) hm _ (AExpr.legal_toExpr hla m) fun _ => AExpr.dom_toExpr hla _
  obtain rfl : a.mapG (fun q : ℚ => (q : ℝ)) = a' := by rw [hcast] at ha'; injection ha'
  exact ⟨fun t ht => hv.deg (t.1, (t.2 : ℝ)) (List.mem_map_of_mem (f := fun x : List ℕ × ℚ => (x.1, (x.2 : ℝ))) ht), hoa⟩

/-- **C106.** `evaluate` at integers makes no rounding error either: it returns the value of the exact Taylor polynomial `a`, an integer, if `size` times the power of the largest absolute value of the integers (or one), the exponent being the order, is at most 2^53. -/
theorem C106_evaluate (hm : m < UINT_MAX - 10) (hl : e.Legal fun _ => True) (hW : 1 ≤ W) {dict : List (String × ℤ)} (hx : ∀ y ∈ dict, y.2.natAbs ≤ W) (hM : e.size v * W ^ m ≤ 2 ^ 53) :
    ∃ a r, (e.map fun c : ℤ => (c : ℚ)).run (fun s => (v s : ℚ)) m = .ok a ∧ (e.map dbl).run (fun s => dbl (v s)) m = .ok r ∧
      ((∀ s ∈ r.p.syms, s ∈ dict.map Prod.fst) → ∃ n : ℤ, a.evaluate (dict.map fun y => (y.1, (y.2 : ℚ))) = .ok (n : ℚ) ∧ ∃ c, r.evaluate (dict.map fun y => (y.1, dbl y.2)) = .ok c ∧ c.v = .fin n) := by
  have hWm : 1 ≤ W ^ m := Nat.one_le_pow _ _ hW
  have hM1 : e.size v ≤ 2 ^ 53 := (Nat.le_mul_of_pos_right _ hWm).trans hM
  obtain ⟨a, ha, hr, hf⟩ := AExpr.toD_run (v := v) hm hl hM1
  obtain ⟨hd, ho'⟩ := AExpr.run_deg hm hl ha
  refine ⟨a, a.mapG toD, ha, hr, fun hs => evaluate_fits hf hd AExpr.one_le_size hW hx ?_ hs⟩
  exact (Nat.mul_le_mul_left _ (Nat.pow_le_pow_right hW ho')).trans hM

end

theorem round64_bound : rnd64 (2 ^ 53 + 1) = .fin (2 ^ 53) := by
  have h1 : Int.log 2 |(2 ^ 53 + 1 : ℚ)| = 53 := by
    rw [show |(2 ^ 53 + 1 : ℚ)| = ((2 ^ 53 + 1 : ℕ) : ℚ) by rw [abs_of_pos (by norm_num)]; norm_num, Int.log_natCast]
    have : Nat.log 2 (2 ^ 53 + 1) = 53 := (Nat.log_eq_iff (Or.inl (by norm_num))).mpr ⟨by norm_num, by norm_num⟩
    rw [this]
    rfl
  have h2 : nearest 53 (2 ^ 53 + 1 : ℚ) = 2 ^ 53 := by
    have h3 : lastDigit 53 (2 ^ 53 + 1 : ℚ) = 1 := by rw [lastDigit, h1]; norm_num
    have h4 : ⌊(2 ^ 53 + 1 : ℚ) / 2 ^ (1 : ℤ)⌋ = 2 ^ 52 := by
      rw [Int.floor_eq_iff]
      norm_num
    rw [nearest, h3, nearestInt, h4]
    norm_num
    exact ⟨2251799813685248, by norm_num⟩
  have h5 : round64 (2 ^ 53 + 1) = 2 ^ 53 := by
    rw [round64, if_neg, h2]
    rw [not_lt, abs_of_pos (by norm_num)]
    exact (zpow_le_one_of_nonpos₀ (by norm_num) (by norm_num)).trans (by norm_num)
  rw [rnd64, h5, if_pos]
  rw [abs_of_pos (by norm_num)]
  exact pow_lt_pow_right₀ (by norm_num) (by norm_num)

theorem run_constants {X Y : XF .binary64} {v : String → XF .binary64} (z1 : Cf.isZero X = false) (z2 : Cf.isZero Y = false) (z3 : Cf.isZero (Cf.add Y X) = false) :
    (AExpr.right .add (.const X) Y).run v 1 = .ok ⟨⟨[], [([], Cf.add Y X)]⟩, 0⟩ := by
  refine bind_ok_iff.mpr ⟨_, rfl, ?_⟩
  simp [AOp.runR, GDual.ofCf, GDual.addGS, Poly.const, Poly.add, Poly.addSymbols, Poly.insertTerms, Poly.insertTerm, mergeSyms, reindex, z1, z2, z3]

/-- The bound 2^53 cannot be larger: the expression `2^53 + 1`, of size 2^53 + 1, gives 2^53 on `double`. -/
theorem C106_bound : ∃ (e : AExpr ℤ) (r : GDual (XF .binary64)) (c : XF .binary64), e = .right .add (.const (2 ^ 53)) 1 ∧ e.size (fun _ => 0) = 2 ^ 53 + 1 ∧ e.Legal (fun _ => True) ∧
    (e.map dbl).run (fun _ => dbl 0) 1 = .ok r ∧ r.constantCf = .ok c ∧ c.v = .fin (2 ^ 53) := by
  have hx : (dbl (2 ^ 53)).v = .fin (2 ^ 53) := by
    have := toD_v (q := ((2 ^ 53 : ℤ) : ℚ)) ⟨_, rfl⟩ (by rw [abs_of_pos (by norm_num)]; norm_num)
    rw [show (2 ^ 53 : ℚ) = ((2 ^ 53 : ℤ) : ℚ) by norm_num]
    exact this
  have h1 : (dbl 1).v = .fin 1 := by
    have := toD_v (q := ((1 : ℤ) : ℚ)) ⟨_, rfl⟩ (by norm_num)
    rw [show (1 : ℚ) = ((1 : ℤ) : ℚ) by norm_num]
    exact this
  have hs : (Cf.add (dbl 1) (dbl (2 ^ 53))).v = .fin (2 ^ 53) := by
    rw [XF.add_fin h1 hx, add_comm]
    exact round64_bound
  have z1 : Cf.isZero (dbl (2 ^ 53)) = false := (XF.isZero_false _).mpr (by rw [hx]; norm_num)
  have z2 : Cf.isZero (dbl 1) = false := (XF.isZero_false _).mpr (by rw [h1]; norm_num)
  have z3 : Cf.isZero (Cf.add (dbl 1) (dbl (2 ^ 53))) = false := (XF.isZero_false _).mpr (by rw [hs]; norm_num)
  refine ⟨_, ⟨⟨[], [([], Cf.add (dbl 1) (dbl (2 ^ 53)))]⟩, 0⟩, _, rfl, by decide, trivial, ?_, rfl, hs⟩
  exact run_constants z1 z2 z3

/-- `x * x * y - 3 * x` at `x = 1000`, `y = -7`. -/
example : ∃ r, ((AExpr.bin .sub (.bin .mul (.bin .mul (.var "x") (.var "x")) (.var "y")) (.left .mul 3 (.var "x"))).map dbl).run
    (fun s => dbl (if s = "x" then 1000 else -7)) 3 = .ok r ∧ r.getOrder ≤ 3 := by
  obtain ⟨r, h1, h2, -⟩ := C106_derivatives (v := fun s => if s = "x" then 1000 else -7) (m := 3)
    (e := AExpr.bin .sub (.bin .mul (.bin .mul (.var "x") (.var "x")) (.var "y")) (.left .mul 3 (.var "x"))) (by decide)
    ⟨⟨⟨⟨'x', rfl, by decide⟩, ⟨'x', rfl, by decide⟩⟩, ⟨'y', rfl, by decide⟩⟩, ⟨'x', rfl, by decide⟩⟩ (by decide)
  exact ⟨r, h1, h2⟩

/-- `x * x` at `x = 1000`, evaluated at `dx = 5`. -/
example : ∃ a r, ((AExpr.bin .mul (.var "x") (.var "x")).map fun c : ℤ => (c : ℚ)).run (fun _ => ((1000 : ℤ) : ℚ)) 2 = .ok a ∧
    ((AExpr.bin .mul (.var "x") (.var "x")).map dbl).run (fun _ => dbl 1000) 2 = .ok r ∧ ((∀ s ∈ r.p.syms, s ∈ ["dx"]) →
      ∃ n : ℤ, a.evaluate [("dx", ((5 : ℤ) : ℚ))] = .ok (n : ℚ) ∧ ∃ c, r.evaluate [("dx", dbl 5)] = .ok c ∧ c.v = .fin n) :=
  C106_evaluate (v := fun _ => 1000) (m := 2) (e := .bin .mul (.var "x") (.var "x")) (W := 5) (dict := [("dx", 5)]) (by decide)
    ⟨⟨'x', rfl, by decide⟩, ⟨'x', rfl, by decide⟩⟩ (by decide) (by decide) (by decide)

end Audi
