import Verif.Proofs.GDualOps
import Mathlib.Algebra.MvPolynomial.PDeriv

/-! Factorials and iterated partial derivatives of polynomials. -/

namespace Audi

open MvPolynomial

/-- Product of the factorials of the exponents. -/
def multiFact {σ : Type*} (e : σ →₀ ℕ) : ℕ := e.prod fun _ k => k.factorial

theorem multiFact_split {σ : Type*} [DecidableEq σ] (e : σ →₀ ℕ) (s : σ) :
    multiFact e = (e s).factorial * multiFact (e.erase s) := by
  unfold multiFact
  rw [← Finsupp.mul_prod_erase' e s _ (by simp)]

theorem multiFact_add_single {σ : Type*} [DecidableEq σ] (e : σ →₀ ℕ) (s : σ) :
    multiFact (e + Finsupp.single s 1) = multiFact e * (e s + 1) := by
  rw [multiFact_split _ s, multiFact_split e s]
  have h1 : (e + Finsupp.single s 1).erase s = e.erase s := by
    ext u
    by_cases hu : u = s
    · subst hu; simp
    · simp [Finsupp.erase_ne hu]
  rw [h1, Finsupp.add_apply, Finsupp.single_eq_same, Nat.factorial_succ]
  ring

theorem multiFact_zero {σ : Type*} : multiFact (0 : σ →₀ ℕ) = 1 := by simp [multiFact]

theorem multiFact_toExp {ss : List String} (h : ss.Nodup) {e : List ℕ} (he : e.length = ss.length) :
    multiFact (toExp ss e) = (e.map Nat.factorial).prod := by
  induction ss generalizing e with
  | nil =>
    rw [List.length_nil, List.length_eq_zero_iff] at he
    simp [he, toExp, multiFact_zero]
  | cons s ss ih =>
    cases e with
    | nil => simp at he
    | cons k ks =>
      rw [multiFact_split _ s, toExp_apply h]
      rw [List.nodup_cons] at h
      have h1 : (toExp (s :: ss) (k :: ks)).erase s = toExp ss ks := by
        ext u
        by_cases hu : u = s
        · subst hu
          rw [Finsupp.erase_same, toExp_apply h.2, expOf_of_notMem h.1]
        · rw [Finsupp.erase_ne hu]
          simp [toExp, hu]
      rw [h1, ih h.2 (by simpa using he)]
      simp [expOf]

/-- Counting exponent of a list of variables. -/
noncomputable def countExp {σ : Type*} (l : List σ) : σ →₀ ℕ := (l.map fun s => Finsupp.single s 1).sum

theorem countExp_apply {σ : Type*} [DecidableEq σ] (l : List σ) (s : σ) : countExp l s = l.count s := by
  induction l with
  | nil => simp [countExp]
  | cons t l ih =>
    have : countExp (t :: l) = Finsupp.single t 1 + countExp l := by simp [countExp]
    rw [this, Finsupp.add_apply, ih, List.count_cons, Finsupp.single_apply]
    by_cases h : t = s <;> simp [h, add_comm]

theorem coeff_foldl_pderiv {σ : Type*} [DecidableEq σ] {K : Type*} [CommSemiring K] (l : List σ) (P : MvPolynomial σ K)
    (e : σ →₀ ℕ) :
    coeff e (l.foldl (fun Q s => pderiv s Q) P) * (multiFact e : K) =
      coeff (e + countExp l) P * (multiFact (e + countExp l) : K) := by
  induction l generalizing P with
  | nil => simp [countExp]
  | cons s l ih =>
    have : countExp (s :: l) = countExp l + Finsupp.single s 1 := by
      simp [countExp, add_comm]
    rw [List.foldl_cons, ih, this, ← add_assoc, multiFact_add_single, coeff_pderiv]
    push_cast
    ring

/-- Constant coefficient of an iterated partial derivative. -/
theorem coeff_zero_foldl_pderiv {σ : Type*} [DecidableEq σ] {K : Type*} [CommSemiring K] (l : List σ)
    (P : MvPolynomial σ K) :
    coeff 0 (l.foldl (fun Q s => pderiv s Q) P) = coeff (countExp l) P * (multiFact (countExp l) : K) := by
  have := coeff_foldl_pderiv l P 0
  rwa [multiFact_zero, Nat.cast_one, mul_one, zero_add] at this

end Audi
