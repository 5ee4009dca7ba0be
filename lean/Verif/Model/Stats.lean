import Verif.Model.Arith

/-!
# `SolverStats`   (`altro/common/solver_stats.hpp`, `altro/common/solver_stats.cpp`)
-/

namespace Altro

/-- The data vectors registered with the logger by `DefaultLogger` (solver_stats.cpp:80-114). -/
inductive Col where
  | cost | viol | dJ | grad | alpha | reg | z | pen
  deriving DecidableEq, Repr

/-- `SolverStats` (solver_stats.hpp:44-190): counters, `len_`, and the vectors reachable through `floats_`. -/
structure Stats (F : Type) where
  initialCost : F
  inner : ℕ
  outer : ℕ
  total : ℕ
  len : ℕ
  col : Col → List F

namespace Stats
variable {F : Type} [Arith F]

/-- A freshly constructed object (solver_stats.hpp:46-61, 186). -/
def new : Stats F := { initialCost := 0, inner := 0, outer := 0, total := 0, len := 0, col := fun _ => [] }

/-- `std::vector<double>::resize(k)`: truncates, or pads with zeros. -/
def resize (k : ℕ) (l : List F) : List F := l.take k ++ List.replicate (k - l.length) 0

/-- `v.back() = x` (undefined behaviour on an empty vector; the vectors have `len_ ≥ 1` elements at every call,
`Props.C54`). -/
def setBack (l : List F) (x : F) : List F := l.dropLast ++ [x]

/-- `v.back()`; see `setBack` for the empty case. -/
def back (l : List F) : F := l.getLastD 0

/-- `v.rbegin()[1]`, the element before the last. -/
def back2 (l : List F) : F := back l.dropLast

/-- `NewIteration` (solver_stats.cpp:54-66). -/
def newIteration (s : Stats F) : Stats F :=
  let len := s.len + 1
  { s with
    len := len
    col := fun c =>
      let v := resize len (s.col c)
      setBack v (if len > 1 then back2 v else 0) }

/-- `SetData` (solver_stats.hpp:192-203) for a title registered in `floats_` (`some c`) or not (`none`: the
integer columns `"iters"`, `"iter_al"`, and unknown titles). -/
def log (s : Stats F) (t : Option Col) (x : F) : Stats F :=
  let s1 := if s.len = 0 then s.newIteration else s
  match t with
  | none => s1
  | some c => { s1 with col := fun c' => if c' = c then setBack (s1.col c) x else s1.col c' }

/-- `Reset` (solver_stats.cpp:31-52): the data part (verbosity, output file and header frequency are set from the
options; see `Model.Logger`). -/
def reset (_ : Stats F) : Stats F := new

end Stats
end Altro
