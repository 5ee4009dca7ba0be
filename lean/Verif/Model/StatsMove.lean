import Verif.Model.Stats
import Verif.Model.Problem

/-!
# Moving `SolverStats`   (`altro/common/solver_stats.hpp:44-203`, `altro/common/solver_stats.cpp:9-78`)

`Model.Stats` is one object that nobody moves.  Here are several objects: each has its own vectors, and the map `floats_`
that leads to *some* object's vectors.  The class declares no special member, so its move constructor and move assignment
are the implicit ones: member by member (solver_stats.hpp:44-190).  The move constructor of `iLQR` calls it
(`altro/ilqr/ilqr.hpp:60`).

An object identifier stands for one object during its lifetime and is never used again, so addresses are not recycled.
A vector or map that was moved from is empty: the standard says so for the move constructor of `std::vector`; it leaves
the state of the `std::unordered_map` unspecified and empty is what the implementations do.  The logger, the timer and
the options are not in this model.
-/

namespace Altro
namespace StatsMove

/-- `SolverStats` with `floats_` as pointers: `ptr c = some i` if the title of column `c` is mapped to the address of the
vector for `c` in object `i`, and `none` if the title is not in the map. -/
structure Obj (F : Type) where
  initialCost : F
  inner : ℕ
  outer : ℕ
  total : ℕ
  len : ℕ
  vec : Col → List F
  ptr : Col → Option ℕ

/-- What is at an identifier. -/
inductive Cell (F : Type) where
  | free
  | live (o : Obj F)
  | dead

abbrev Heap (F : Type) := ℕ → Cell F

/-- The columns, for the loops over `floats_`. -/
def cols : List Col := [.cost, .viol, .dJ, .grad, .alpha, .reg, .z, .pen]

variable {F : Type} [Arith F]

/-- No object yet. -/
def empty : Heap F := fun _ => .free

def isLive (h : Heap F) (i : ℕ) : Bool := match h i with | .live _ => true | _ => false

def put (h : Heap F) (i : ℕ) (o : Obj F) : Heap F := fun k => if k = i then .live o else h k

/-- `SolverStats()` (solver_stats.hpp:46-61; `SetPtr`, solver_stats.cpp:11-14, in `DefaultLogger`, :80-114). -/
def fresh (i : ℕ) : Obj F :=
  { initialCost := 0, inner := 0, outer := 0, total := 0, len := 0, vec := fun _ => [], ptr := fun _ => some i }

/-- What a move leaves behind: the numbers are copied, the vectors and the map become empty. -/
def movedFrom (o : Obj F) : Obj F := { o with vec := fun _ => [], ptr := fun _ => none }

/-- `for (auto& kv : floats_) { f(*kv.second); }` through the map of `o`.  A pointer into a destroyed object makes it
undefined. -/
def through (o : Obj F) (f : List F → List F) (h : Heap F) : Except Err (Heap F) :=
  if cols.all (fun c => match o.ptr c with | none => true | some p => isLive h p) then
    .ok fun k => match h k with
      | .live q => .live { q with vec := fun c => if o.ptr c = some k then f (q.vec c) else q.vec c }
      | x => x
  else .error .undefined

/-- The body of the loop in `NewIteration` (solver_stats.cpp:56-65). -/
def advance (len : ℕ) (v : List F) : List F :=
  let v := Stats.resize len v
  Stats.setBack v (if len > 1 then Stats.back2 v else 0)

/-- `NewIteration` (solver_stats.cpp:54-66) called on object `i`. -/
def newIteration (h : Heap F) (i : ℕ) : Except Err (Heap F) :=
  match h i with
  | .live o =>
    let o := { o with len := o.len + 1 }
    through o (advance o.len) (put h i o)
  | _ => .error .undefined

/-- The assignment in `SetData` (solver_stats.hpp:199-202) called on object `i`: `back()` of an empty vector is undefined. -/
def setData (h : Heap F) (i : ℕ) (t : Option Col) (x : F) : Except Err (Heap F) :=
  match h i, t with
  | .live _, none => .ok h
  | .live o, some c =>
    match o.ptr c with
    | none => .ok h
    | some p =>
      match h p with
      | .live q =>
        if q.vec c = [] then .error .undefined
        else .ok (put h p { q with vec := fun c' => if c' = c then Stats.setBack (q.vec c) x else q.vec c' })
      | _ => .error .undefined
  | _, _ => .error .undefined

/-- `Log` (solver_stats.hpp:132-136), `SetData` (:192-203) called on object `i`. -/
def log (h : Heap F) (i : ℕ) (t : Option Col) (x : F) : Except Err (Heap F) :=
  match h i with
  | .live o => if o.len = 0 then (newIteration h i).bind fun h => setData h i t x else setData h i t x
  | _ => .error .undefined

/-- `Reset` (solver_stats.cpp:31-52) called on object `i`. -/
def reset (h : Heap F) (i : ℕ) : Except Err (Heap F) :=
  match h i with
  | .live o =>
    let o := { o with initialCost := 0, inner := 0, outer := 0, total := 0, len := 0 }
    through o (fun _ => []) (put h i o)
  | _ => .error .undefined

/-- The public counters are members that the solvers assign directly (ilqr.hpp:298, 580-581, 631; al_solver.hpp:362). -/
def count (h : Heap F) (i : ℕ) (ic : F) (inner outer total : ℕ) : Except Err (Heap F) :=
  match h i with
  | .live o => .ok (put h i { o with initialCost := ic, inner := inner, outer := outer, total := total })
  | _ => .error .undefined

/-- Default construction. -/
def construct (h : Heap F) (i : ℕ) : Except Err (Heap F) :=
  match h i with
  | .free => .ok (put h i (fresh i))
  | _ => .error .undefined

/-- `SolverStats j(std::move(i))`: the implicit move constructor. -/
def move (h : Heap F) (i j : ℕ) : Except Err (Heap F) :=
  match h i, h j with
  | .live o, .free => .ok (put (put h i (movedFrom o)) j o)
  | _, _ => .error .undefined

/-- `j = std::move(i)` for different objects: the implicit move assignment. -/
def assign (h : Heap F) (i j : ℕ) : Except Err (Heap F) :=
  match h i, h j with
  | .live o, .live _ => if i = j then .error .undefined else .ok (put (put h i (movedFrom o)) j o)
  | _, _ => .error .undefined

def destroy (h : Heap F) (i : ℕ) : Except Err (Heap F) :=
  match h i with
  | .live _ => .ok fun k => if k = i then .dead else h k
  | _ => .error .undefined

/-- One call, with the object it is made on. -/
inductive Op (F : Type) where
  | construct (i : ℕ)
  | move (i j : ℕ)
  | destroy (i : ℕ)
  | log (i : ℕ) (t : Option Col) (x : F)
  | newIteration (i : ℕ)
  | reset (i : ℕ)
  | count (i : ℕ) (ic : F) (inner outer total : ℕ)

def step (h : Heap F) : Op F → Except Err (Heap F)
  | .construct i => construct h i
  | .move i j => move h i j
  | .destroy i => destroy h i
  | .log i t x => log h i t x
  | .newIteration i => newIteration h i
  | .reset i => reset h i
  | .count i ic a b c => count h i ic a b c

/-- A history of calls; it ends at the first undefined behaviour. -/
def run (h : Heap F) : List (Op F) → Except Err (Heap F)
  | [] => .ok h
  | op :: ops => (step h op).bind fun h => run h ops

/-- The vectors read from object `i`. -/
def read (h : Heap F) (i : ℕ) : Option (Col → List F) := match h i with | .live o => some o.vec | _ => none

end StatsMove
end Altro
