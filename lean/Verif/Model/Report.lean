import Verif.Model.ConInfo
import Verif.Model.ProfileOutput

/-!
# The printed constraint report   (`altro/constraints/constraint.cpp`, `al_solver.hpp`)

Strings are lists of characters.  How a number is turned into characters (`precision` significant digits, `std::ostream`) is
the parameter `num`.
-/

namespace Altro.Report
open Altro.Profile (padLeft dec)

/-- The character at which two lines are separated. -/
def newline : Char := '\n'

/-- `violation.format(format)` with `IOFormat(precision, 0, ", ", "", "", "", "[", "]")` (constraint.cpp:13-14).  Eigen
(not in this repository) prints a column vector row by row.  The column is aligned, so every entry is padded to the width of
the longest; the row separator is empty, but before each row but the first there are as many spaces as the suffix `"]"` has
characters; the separator `", "` is for entries of one row and is never printed. -/
def vectorText {K : Type*} (num : K → List Char) (v : List K) : List Char :=
  let w := (v.map fun a => (num a).length).foldl max 0
  ['['] ++ [' '].intercalate (v.map fun a => padLeft w (num a)) ++ [']']

/-- `ConstraintInfo::ToString(precision)` (constraint.cpp:12-15). -/
def infoText {K : Type*} (num : K → List Char) (c : ConInfo K) : List Char :=
  c.label.toList ++ " at index ".toList ++ dec c.index ++ ": ".toList ++ vectorText num c.violation

/-- `PrintViolations` (al_solver.hpp:68-74), given what `GetConstraintInfo` returned: the lines, each ended by a newline. -/
def reportText {K : Type*} (num : K → List Char) (l : List (ConInfo K)) : List Char :=
  ("Got ".toList ++ dec l.length ++ " constraints".toList ++ [newline]) ++
    l.flatMap fun c => infoText num c ++ [newline]

end Altro.Report
