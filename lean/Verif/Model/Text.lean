import Verif.Model.Io
import Verif.Model.Archive

/-!
# Model of the text of gduals and of exceptions

The text of a polynomial is written by obake (`obake::series` and its functions) and is a parameter here. Strings are lists of characters (Model/Io.lean), unsigned numbers are written in decimal (`Archive.natChars`).
-/

namespace Audi.Io

variable {C : Type} [Cf C]

/-- `info` (gdual.hpp:730-737); `text` is the output of the polynomial. -/
def info (text : Poly C → Str) (d : GDual C) : Str :=
  let ss := text d.p ++ "\n".toList
  let ss := ss ++ "Order: ".toList ++ Archive.natChars d.getOrder ++ "\n".toList
  ss ++ "Degree: ".toList ++ Archive.natChars d.degree ++ "\n".toList

/-- The stream operator (gdual.hpp:751-755), also `__repr__` in Python (expose_gdual.hpp:68-73); `terms` is the output of the terms of the polynomial. -/
def streamGDual (terms : Poly C → Str) (os : Str) (d : GDual C) : Str := os ++ terms d.p

/-- `_repr_latex_` in Python (expose_gdual.hpp:74-82); `tex` is the LaTeX output of the polynomial, the sum is of unsigned numbers of 32 bits. -/
def reprLatex (tex : Poly C → Str) (d : GDual C) : Str :=
  let retval := tex d.p
  let retval := retval ++ ("+\\mathcal{O}\\left(".toList ++ Archive.natChars ((d.getOrder + 1) % 2 ^ 32) ++ "\\right) \\]".toList)
  "\\[ ".toList ++ retval

/-- The message of an exception made by `audi_throw` with a description (exceptions.hpp:62-79). -/
def exMessage (func file : Str) (line : ℕ) (desc : Str) : Str :=
  "\nfunction: ".toList ++ func ++ "\nwhere: ".toList ++ file ++ ", ".toList ++ Archive.natChars line ++ "\nwhat: ".toList ++ desc ++ "\n".toList

end Audi.Io
