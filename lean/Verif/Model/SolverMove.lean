import Verif.Model.Tasks

/-!
# Moving solvers   (`altro/ilqr/ilqr.hpp:56-71,237-239,583,788-813`, `altro/augmented_lagrangian/al_solver.hpp:35-38,230-249,417-424`)

Several augmented Lagrangian solvers, each with its iLQR solver inside.  `AugmentedLagrangianiLQR` declares no special
member and `iLQR` declares a move constructor only, so solvers can be move-constructed, and neither copied nor assigned.
An identifier stands for one object (its `this`) and is not used again.  `A` is the type of pointers to `ALCost` objects.
Statistics are `Model.StatsMove`; the other members are moved or copied like `costs_` and `N_`.
-/

namespace Altro
namespace SolverMove
variable {A : Type}

/-- `max_violation_callback_` (ilqr.hpp:809): the initial one, the lambda of `InitializeFromProblem` with the captured
`this` (al_solver.hpp:247), or what a move leaves (empty in the implementations; calling it throws). -/
inductive Callback where
  | zero
  | violationOf (this : ℕ)
  | moved
  deriving DecidableEq

/-- The members that matter here. -/
structure Obj (A : Type) where
  /-- `ilqr_solver_.N_` -/
  N : ℤ
  /-- `costs_` -/
  costs : List A
  /-- `max_violation_.size()` -/
  maxViol : ℕ
  /-- `ilqr_solver_.max_violation_callback_` -/
  cb : Callback
  /-- the task assignment of `ilqr_solver_` -/
  tasks : Tasks.St

/-- What is at an identifier. -/
inductive Cell (A : Type) where
  | free
  | live (o : Obj A)
  | dead

abbrev Heap (A : Type) := ℕ → Cell A

def put (h : Heap A) (i : ℕ) (c : Cell A) : Heap A := fun k => if k = i then c else h k

/-- `AugmentedLagrangianiLQR(N)` (al_solver.hpp:35). -/
def blank (N : ℕ) : Obj A := ⟨N, [], N + 1, .zero, .fresh N⟩

/-- `InitializeFromProblem` (al_solver.hpp:239-249) called on object `i`; `cs` are the costs `BuildAugLagProblem` makes,
one for each knot point of a complete problem, which has at most the solver's number of segments
(`CopyFromProblem`, ilqr.hpp:100). -/
def init (h : Heap A) (i : ℕ) (cs : List A) : Except Err (Heap A) :=
  match h i with
  | .live o => do
    assertThat (decide ((o.costs ++ cs).length = cs.length))
    assertThat (decide ((cs.length : ℤ) ≤ o.N + 1))
    pure (put h i (.live { o with costs := o.costs ++ cs, maxViol := cs.length, cb := .violationOf i }))
  | _ => .error .undefined

/-- What the implicit move constructor of `AugmentedLagrangianiLQR` makes, with the move constructor of `iLQR`
(ilqr.hpp:58-71): the callback is moved as it is; `custom_work_assignment_`, `tasks_`, `work_inds_` and `pool_` are not
mentioned, so the new solver has none. -/
def movedTo (o : Obj A) : Obj A := { o with tasks := .fresh o.tasks.N }

/-- What it leaves: numbers and the task assignment stay, the vectors and the callback are empty. -/
def movedFrom (o : Obj A) : Obj A := { o with costs := [], maxViol := 0, cb := .moved }

/-- Things that are done to solvers. -/
inductive Op (A : Type) where
  | construct (i N : ℕ)
  | init (i : ℕ) (cs : List A)
  | move (i j : ℕ)
  | destroy (i : ℕ)

def step (h : Heap A) : Op A → Except Err (Heap A)
  | .construct i N => match h i with
    | .free => .ok (put h i (.live (blank N)))
    | _ => .error .undefined
  | .init i cs => init h i cs
  | .move i j => match h i, h j with
    | .live o, .free => .ok (put (put h i (.live (movedFrom o))) j (.live (movedTo o)))
    | _, _ => .error .undefined
  | .destroy i => match h i with
    | .live _ => .ok (put h i .dead)
    | _ => .error .undefined

def run (h : Heap A) : List (Op A) → Except Err (Heap A)
  | [] => .ok h
  | op :: l => do
    let h ← step h op
    run h l

def empty : Heap A := fun _ => .free

/-- `GetMaxViolation` (al_solver.hpp:417-424) on object `i`: the costs whose violations it combines. -/
def getMaxViolation (h : Heap A) (i : ℕ) : Except Err (List A) :=
  match h i with
  | .live o =>
    if (o.N + 1).toNat ≤ o.costs.length ∧ (o.N + 1).toNat ≤ o.maxViol then .ok (o.costs.take (o.N + 1).toNat)
    else .error .undefined
  | _ => .error .undefined

/-- The violation logged by every iteration of object `j` (ilqr.hpp:583): the costs it is about; `[]` for the constant
zero. -/
def logged (h : Heap A) (j : ℕ) : Except Err (List A) :=
  match h j with
  | .live o => match o.cb with
    | .zero => .ok []
    | .violationOf a => getMaxViolation h a
    | .moved => .error .thrown
  | _ => .error .undefined

/-- `return solver_al;` at the end of `UnicycleProblem::MakeALSolver` (examples/problems/unicycle.hpp:110-120): the
compiler may make the local variable `i` the result `j` itself, or move it and destroy it.  The first is no operation:
`i = j`. -/
def returned (i : ℕ) (elide : Bool) (j : ℕ) (N : ℕ) (cs : List A) : List (Op A) :=
  if elide then [.construct j N, .init j cs] else [.construct i N, .init i cs, .move i j, .destroy i]

end SolverMove
end Altro
