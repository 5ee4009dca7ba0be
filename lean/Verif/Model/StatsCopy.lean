import Verif.Model.StatsMove

/-!
# Copying `SolverStats`   (`altro/common/solver_stats.hpp:44-190`)

The class declares no special member, so a copy is made member by member.  `auto stats = solver.GetStats()`
(`altro/ilqr/ilqr.hpp:159-160`, `altro/augmented_lagrangian/al_solver.hpp:42-43`) makes one.  The vectors are copied, and so
are the pointers in `floats_` (solver_stats.hpp:186), which still lead to the vectors of the original.
-/

namespace Altro
namespace StatsMove

variable {F : Type} [Arith F]

/-- `SolverStats j(i)`: the implicit copy constructor. -/
def copy (h : Heap F) (i j : ℕ) : Except Err (Heap F) :=
  match h i, h j with
  | .live o, .free => .ok (put h j o)
  | _, _ => .error .undefined

/-- A call, or a copy of the first object made as the second. -/
inductive CopyOp (F : Type) where
  | call (op : Op F)
  | copy (i j : ℕ)

def stepC (h : Heap F) : CopyOp F → Except Err (Heap F)
  | .call op => step h op
  | .copy i j => copy h i j

/-- A history of calls and copies; it ends at the first undefined behaviour. -/
def runC (h : Heap F) : List (CopyOp F) → Except Err (Heap F)
  | [] => .ok h
  | op :: ops => (stepC h op).bind fun h => runC h ops

end StatsMove
end Altro
