import Verif.Model.Float
import Verif.Model.Problem

/-!
# Assignment of knot points to tasks   (`altro/ilqr/ilqr.hpp:183-203,258-272,699-751`)

`double` arithmetic is rational arithmetic followed by a rounding `r`; `r = f64` is the hardware, `r = id` exact
arithmetic.  C++ `int` is unbounded.
-/

namespace Altro
namespace Tasks

/-- C `round`: nearest integer, halves away from zero. -/
def cround (q : ℚ) : ℤ := if 0 ≤ q then ⌊q + 1 / 2⌋ else -⌊-q + 1 / 2⌋

/-- The loop of `DefaultTaskAssignment` (ilqr.hpp:745-747) from `val`.  It need not terminate in C++ (negative step); here
it makes at most `fuel` rounds and `none` means that it is still running. -/
def assignLoop (r : ℚ → ℚ) (N : ℕ) (step : ℚ) : ℕ → ℚ → Option (List ℤ)
  | 0, _ => none
  | fuel + 1, val =>
    if val ≤ N then (assignLoop r N step fuel (r (val + step))).map (cround val :: ·) else some []

/-- The indices pushed by the loop (ilqr.hpp:741-747).  With `ntasks = 0` the step is infinity or NaN, the loop makes one
round. -/
def rawInds (r : ℚ → ℚ) (fuel N : ℕ) (ntasks : ℤ) : Option (List ℤ) :=
  if ntasks = 0 then some [0] else assignLoop r N (r (N / ntasks)) fuel 0

/-- Add one to the last element (ilqr.hpp:750). -/
def incLast : List ℤ → List ℤ
  | [] => []
  | [a] => [a + 1]
  | a :: b :: l => a :: incLast (b :: l)

/-- `DefaultTaskAssignment` (ilqr.hpp:740-751). -/
def defaultAssignment (r : ℚ → ℚ) (fuel N : ℕ) (nthreads tasksPerThread : ℤ) : Option (Except Err (List ℤ)) :=
  match rawInds r fuel N (nthreads * tasksPerThread) with
  | none => none
  | some l =>
    match l.getLast? with
    | none => some (.error .undefined)
    | some b => some (if b = N then .ok (incLast l) else .error .assertion)

/-- The options that matter here (solver_options.hpp:55-56) and what `hardware_concurrency` returns. -/
structure Opts where
  nthreads : ℤ
  tasksPerThread : ℤ
  hw : ℕ

/-- `SolverOptions::NumThreads` (solver_options.hpp:59-64). -/
def Opts.numThreads (o : Opts) : ℤ := if o.nthreads = -1 then o.hw else max o.nthreads 1

/-- The parallel part of the solver state. -/
structure St where
  /-- `N_` -/
  N : ℕ
  /-- `work_inds_` -/
  inds : List ℤ
  /-- `custom_work_assignment_` -/
  custom : Bool
  /-- `tasks_`: the pair `(start, stop)` captured by each lambda -/
  tasks : List (ℤ × ℤ)
  /-- `pool_.NumThreads()` -/
  pool : ℕ
  deriving DecidableEq

/-- A solver before its first `LaunchThreads`. -/
def St.fresh (N : ℕ) : St := ⟨N, [], false, [], 0⟩

/-- `NumTasks` (ilqr.hpp:203): `size_t` minus one, converted to `int`. -/
def St.numTasks (s : St) : ℤ := s.inds.length - 1

/-- `ShouldRedoTaskAssignment` (ilqr.hpp:699-705). -/
def shouldRedo (o : Opts) (s : St) : Bool := !(s.custom || decide (s.numTasks = o.numThreads * o.tasksPerThread))

/-- `GetTaskAssignment` (ilqr.hpp:183-188). -/
def getTaskAssignment (r : ℚ → ℚ) (fuel : ℕ) (o : Opts) (s : St) : Option (Except Err St) :=
  if shouldRedo o s then
    match defaultAssignment r fuel s.N o.numThreads o.tasksPerThread with
    | none => none
    | some (.error e) => some (.error e)
    | some (.ok l) => some (.ok { s with inds := l })
  else some (.ok s)

/-- The loop that makes the tasks (ilqr.hpp:726-731). -/
def blocks (l : List ℤ) : List (ℤ × ℤ) := l.zip l.tail

/-- `LaunchThreads` (ilqr.hpp:707-738). -/
def launchThreads (r : ℚ → ℚ) (fuel : ℕ) (o : Opts) (s : St) : Option (Except Err St) :=
  let n := o.numThreads
  if s.pool = 0 ∧ n = 1 then some (.ok s)
  else if 0 < s.N ∧ (n ≠ s.pool ∨ shouldRedo o s = true) then
    match getTaskAssignment r fuel o s with
    | none => none
    | some (.error e) => some (.error e)
    | some (.ok s1) => some (.ok { s1 with tasks := blocks s1.inds, pool := if 1 < n then n.toNat else 0 })
  else some (.ok s)

/-- The comparison loop of `SetTaskAssignment` (ilqr.hpp:263-268). -/
def isSorted : List ℤ → Bool
  | [] => true
  | [_] => true
  | a :: b :: l => decide (a < b) && isSorted (b :: l)

/-- `SetTaskAssignment` (ilqr.hpp:258-272).  The first three assertions look at the old `work_inds_`; `back()` of an empty
vector is undefined. -/
def setTaskAssignment (inds : List ℤ) (s : St) : Except Err St :=
  match s.inds.getLast?, s.inds.head? with
  | some b, some f =>
    if b = s.N + 1 ∧ f = 0 ∧ 2 ≤ s.inds.length ∧ isSorted inds = true then
      .ok { s with inds := inds, custom := true }
    else .error .assertion
  | _, _ => .error .undefined

/-- The blocks `UpdateExpansions` runs (ilqr.hpp:354-366). -/
def usedBlocks (s : St) : List (ℤ × ℤ) := if s.pool ≤ 1 then [(0, s.N + 1)] else s.tasks

end Tasks
end Altro
