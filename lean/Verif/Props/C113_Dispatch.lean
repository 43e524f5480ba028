import Verif.Model.PyVec

/-!
# C107 and C113: which calls raise a `TypeError`

Python finds the C++ function at run time, from the types of the arguments. A `TypeError` means that none was found.
-/

namespace Audi

theorem PyV.lift_ne (r : Res (GDual ℝ)) : PyV.lift r ≠ .error .typeError := by
  cases r <;> simp [PyV.lift]

/-- **C107 (dispatch).** The operators `+`, `-`, `*`, `/` and `**` never raise a `TypeError`, for all combinations of numbers and `gdual_double`; a function raises one exactly if the module does not have it. -/
theorem C107_dispatch (op : Op) (f : Fn) (a b : PyV) : PyV.bin op a b ≠ .error .typeError ∧ PyV.pow a b ≠ .error .typeError ∧
    (PyV.fn f a = .error .typeError ↔ f.InModule = false) := by
  refine ⟨?_, ?_, ?_⟩
  · cases a <;> cases b <;> simp only [PyV.bin, PyV.method, PyV.rmethod]
    · unfold PyV.numOp
      split <;> try split_ifs
      all_goals simp
    all_goals exact PyV.lift_ne _
  · cases a <;> cases b <;> simp only [PyV.pow, PyV.powMethod, PyV.rpowMethod]
    · unfold PyV.numPow
      split_ifs <;> simp
    · split
      · exact PyV.lift_ne _
      · simp
    · split
      · exact PyV.lift_ne _
      · simp
    · exact PyV.lift_ne _
  · cases a <;> simp only [PyV.fn] <;> cases h : f.InModule <;> simp
    · split_ifs <;> simp
    · exact PyV.lift_ne _

variable {n : ℕ}

theorem PyW.lift_ne (r : Res (GDual (VecN n ℝ))) : PyW.lift r ≠ .error .typeError := by
  cases r <;> simp [PyW.lift]

theorem PyW.map_ne {r : PyRes PyV} (h : r ≠ .error .typeError) : r.map (PyW.base (n := n)) ≠ .error .typeError := by
  cases r with
  | ok a => simp [Except.map]
  | error e => exact fun h' => h (by injection h' with h'; rw [h'])

/-- One of the two objects is a `gdual_double`, the other one a `gdual_vdouble`. -/
def Spec.Mixed : PyW n → PyW n → Prop
  | .gv _, .base (.gd _) => True
  | .base (.gd _), .gv _ => True
  | _, _ => False

/-- **C113 (dispatch).** The operators `+`, `-`, `*`, `/` and `**` raise a `TypeError` exactly if a `gdual_double` meets a `gdual_vdouble`, for all combinations of numbers, `gdual_double` and `gdual_vdouble`; a
function raises one exactly if the module does not have it. -/
theorem C113_dispatch (op : Op) (f : Fn) (a b : PyW n) : (PyW.bin op a b = .error .typeError ↔ Spec.Mixed a b) ∧ (PyW.pow a b = .error .typeError ↔ Spec.Mixed a b) ∧
    (PyW.fn f a = .error .typeError ↔ f.InModule = false) := by
  have no : ∀ {r : PyRes (PyW n)} {P : Prop}, r ≠ .error .typeError → ¬ P → (r = .error .typeError ↔ P) := fun h h' => ⟨fun e => absurd e h, fun e => absurd e h'⟩
  refine ⟨?_, ?_, ?_⟩
  · rcases a with (x | a) | a <;> rcases b with (y | b) | b
    case base.num.base.num => exact no (PyW.map_ne (C107_dispatch op f (.num x) (.num y)).1) nofun
    case base.gd.base.gd => exact no (PyW.map_ne (C107_dispatch op f (.gd a) (.gd b)).1) nofun
    case base.gd.base.num => exact no (PyW.map_ne (C107_dispatch op f (.gd a) (.num y)).1) nofun
    case base.num.base.gd => exact no (PyW.map_ne (C107_dispatch op f (.num x) (.gd b)).1) nofun
    case base.num.gv => exact no (PyW.lift_ne _) nofun
    case gv.base.num => exact no (PyW.lift_ne _) nofun
    case gv.gv => exact no (PyW.lift_ne _) nofun
    all_goals exact ⟨fun _ => trivial, fun _ => rfl⟩
  · rcases a with (x | a) | a <;> rcases b with (y | b) | b
    case base.num.base.num => exact no (PyW.map_ne (C107_dispatch op f (.num x) (.num y)).2.1) nofun
    case base.gd.base.gd => exact no (PyW.map_ne (C107_dispatch op f (.gd a) (.gd b)).2.1) nofun
    case base.gd.base.num => exact no (PyW.map_ne (C107_dispatch op f (.gd a) (.num y)).2.1) nofun
    case base.num.base.gd => exact no (PyW.map_ne (C107_dispatch op f (.num x) (.gd b)).2.1) nofun
    case base.num.gv =>
      refine no ?_ nofun
      simp only [PyW.pow]
      split
      · exact PyW.lift_ne _
      · simp
    case gv.base.num =>
      refine no ?_ nofun
      simp only [PyW.pow]
      split
      · exact PyW.lift_ne _
      · simp
    case gv.gv => exact no (PyW.lift_ne _) nofun
    all_goals exact ⟨fun _ => trivial, fun _ => rfl⟩
  · cases a with
    | base a =>
      have h := (C107_dispatch op f a a).2.2
      refine ⟨fun e => h.1 ?_, fun e => ?_⟩
      · by_contra hne
        exact PyW.map_ne hne e
      · change (PyV.fn f a).map PyW.base = _
        rw [h.2 e]; rfl
    | gv d =>
      simp only [PyW.fn]
      cases h : f.InModule <;> simp
      exact PyW.lift_ne _

/-- Both kinds of functions exist: `exp`, and the power with a fixed exponent, which is an operator in Python. -/
example : Fn.InModule .exp = true ∧ Fn.InModule (.powQ 2) = false := ⟨rfl, rfl⟩

/-- Mixed and other arguments. -/
example (a : GDual (VecN 2 ℝ)) (b : GDual ℝ) : Spec.Mixed (.gv a) (.base (.gd b)) ∧ ¬ Spec.Mixed (.gv a) (.base (.num 1)) := ⟨trivial, nofun⟩

end Audi
