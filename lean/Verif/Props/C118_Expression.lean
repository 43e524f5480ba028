import Verif.Props.C118_Text
import Verif.Props.C82_AllFunctions

/-! # C118: the text of the values of expressions -/

namespace Audi.Io

open Archive

variable {C : Type} [CfFun C] [AbsFn C] {ι : Type} [Lanes C ι ℝ] [LanesFun C ι]

/-- **C118 for expressions.** `info` of the value of an expression on variables of order `m`, with all the functions of the library, has the lines of the polynomial, the order and the degree; the order it shows is at
most `m`, the degree it shows is at most the order it shows. -/
theorem C118_all {text : Poly C → Str} (ht : ∀ p, '\n' ∉ text p) {v : String → C} {m : ℕ} (hm : m < UINT_MAX - 10) (e : LExpr C) (hA : e.NoAbs ∨ AbsLaw C ι) (hl : e.Legal 0)
    (hd : ∀ i : ι, e.Dom i fun s => Lanes.lane i (v s)) :
    ∃ r n k, e.run v m = .ok r ∧ k ≤ n ∧ n ≤ m ∧ (info text r).splitOn '\n' = [text r.p, "Order: ".toList ++ natChars n, "Degree: ".toList ++ natChars k, []] := by
  obtain ⟨r, hr, hv, ho, -, -⟩ := e.run_nt (ι := ι) hm hA hl hd
  exact ⟨r, r.getOrder, r.degree, hr, Poly.degree_le hv.deg, ho, C118_info_lines (ht _)⟩

/-- The hypotheses of `C118_all` are met. -/
example : ∃ r n k, (LExpr.fn .abs (.fn (.base .asin) (.var "y")) : LExpr ℝ).run (fun _ => 1 / 2) 50 = .ok r ∧ k ≤ n ∧ n ≤ 50 ∧
    (info (fun _ => "p".toList) r).splitOn '\n' = ["p".toList, "Order: ".toList ++ natChars n, "Degree: ".toList ++ natChars k, []] := by
  refine C118_all (ι := Unit) (text := fun _ => "p".toList) (fun _ => by decide) (v := fun _ => (1 / 2 : ℝ)) (m := 50) (by decide) (.fn .abs (.fn (.base .asin) (.var "y"))) (.inr absLaw_real)
    ⟨⟨⟨'y', by decide, by decide⟩, Nat.zero_le _⟩, trivial⟩ fun _ => ⟨⟨trivial, ?_⟩, ?_⟩
  · change |(1 / 2 : ℝ)| < 1
    rw [abs_lt]
    norm_num
  · change Real.arcsin (1 / 2 : ℝ) ≠ 0
    exact (Real.arcsin_pos.2 (by norm_num)).ne'

end Audi.Io
