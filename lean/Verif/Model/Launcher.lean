import Verif.Model.Tasks

/-!
# The work launcher of the benchmarks and the thread pool tests   (`perf/task_launcher.hpp`)

The same loop as in the solver, without the assertion and without the increment of the last index.
-/

namespace Altro
namespace Launch
open Tasks

/-- `Launcher` (task_launcher.hpp:71-75): the counts of the work items and the indices. -/
structure Launcher where
  counts : List ℕ
  inds : List ℤ
  deriving DecidableEq

/-- Constructor (task_launcher.hpp:23-31).  `none`: the loop is still running after `fuel` rounds. -/
def new (r : ℚ → ℚ) (fuel N : ℕ) (nthreads : ℤ) : Option Launcher :=
  (rawInds r fuel N nthreads).map fun l => ⟨List.replicate N 0, l⟩

/-- `Kernel` on item `i` (task_launcher.hpp:12-15). -/
def kernel (c : List ℕ) (i : ℤ) : Except Err (List ℕ) := do
  let a ← vread c i
  vwrite c i (a + 1)

/-- The loop of `WorkBlock` (task_launcher.hpp:33-37), `r` rounds from `start`. -/
def workLoop (start : ℤ) : ℕ → List ℕ → Except Err (List ℕ)
  | 0, c => .ok c
  | r + 1, c => do
    let c ← workLoop start r c
    kernel c (start + r)

/-- `WorkBlock(start, stop)`. -/
def workBlock (c : List ℕ) (b : ℤ × ℤ) : Except Err (List ℕ) := workLoop b.1 (b.2 - b.1).toNat c

/-- Run tasks one after the other; the pool runs those made by `CreateTasks` (task_launcher.hpp:39-52) in some order. -/
def runAll : List (ℤ × ℤ) → List ℕ → Except Err (List ℕ)
  | [], c => .ok c
  | b :: l, c => do
    let c ← workBlock c b
    runAll l c

/-- `SumCounts` (task_launcher.hpp:63-69). -/
def sumCounts (c : List ℕ) : ℕ := c.foldl (fun a b => a + b) 0

end Launch
end Altro
