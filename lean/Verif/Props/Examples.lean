import Verif.Proofs.GDualOps

/-! Concrete gduals over `ℚ` used by the examples beside the theorems. -/

namespace Audi.Ex

/-- `gdual(2, "x", 3)`. -/
def x : GDual ℚ := ⟨⟨["dx"], [([1], 1), ([0], 2)]⟩, 3⟩
/-- `gdual(5, "y", 3)`. -/
def y : GDual ℚ := ⟨⟨["dy"], [([1], 1), ([0], 5)]⟩, 3⟩
/-- A gdual of order 1. -/
def z : GDual ℚ := ⟨⟨["dz"], [([1], 1), ([0], 1)]⟩, 1⟩

theorem x_eq : GDual.mk3 (2 : ℚ) "x" 3 = .ok x := by decide +kernel
theorem y_eq : GDual.mk3 (5 : ℚ) "y" 3 = .ok y := by decide +kernel
theorem z_eq : GDual.mk3 (1 : ℚ) "z" 1 = .ok z := by decide +kernel
theorem x_valid : x.Valid := GDual.valid_mk3 (ι := Unit) (K := ℚ) x_eq
theorem y_valid : y.Valid := GDual.valid_mk3 (ι := Unit) (K := ℚ) y_eq
theorem z_valid : z.Valid := GDual.valid_mk3 (ι := Unit) (K := ℚ) z_eq

/-- `x * y`. -/
def xy : GDual ℚ := x.mul y
theorem xy_valid : xy.Valid := x_valid.mul y_valid

end Audi.Ex
