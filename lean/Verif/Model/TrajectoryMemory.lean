import Verif.Model.Trajectory

/-!
# Trajectory objects in memory   (`altro/common/trajectory.hpp`)

A trajectory holds one `std::vector` of knot points (trajectory.hpp:156), that is, a pointer to a block of elements; here
the pointer is the number of the block, and the capacity is not kept.  Blocks are allocated and freed as by `std::vector`,
with numbers that are never used twice.  `State(k)`, `Control(k)`, `GetKnotPoint(k)`, `operator[]` and the iterators
(trajectory.hpp:80-98) give pointers into the block, kept under names.  The knot points themselves are values (what
copying and moving does to a knot point is `Model/KnotData.lean`).
-/

namespace Altro
namespace TrajMem

/-- The memory: the elements of the allocated blocks, the block of each trajectory object (`none` inside: no block), and
the pointers to knot points (block and position). -/
structure Mem (α : Type) where
  bufs : ℕ → Option (List α)
  objs : ℕ → Option (Option ℕ)
  refs : ℕ → Option (ℕ × ℕ)
  next : ℕ

variable {α : Type}

/-- Change a function at one place. -/
def upd {β : Type} (f : ℕ → β) (i : ℕ) (b : β) : ℕ → β := fun k => if k = i then b else f k

namespace Mem

def empty : Mem α := ⟨fun _ => none, fun _ => none, fun _ => none, 0⟩

/-- The object with an identifier. -/
def obj (s : Mem α) (i : ℕ) : Except Err (Option ℕ) :=
  match s.objs i with
  | some p => .ok p
  | none => .error .undefined

/-- An identifier for a new object must be unused. -/
def fresh (s : Mem α) (i : ℕ) : Except Err Unit :=
  match s.objs i with
  | none => .ok ()
  | some _ => .error .undefined

/-- The elements a vector with pointer `p` has. -/
def elems (s : Mem α) (p : Option ℕ) : Except Err (List α) :=
  match p with
  | none => .ok []
  | some b =>
    match s.bufs b with
    | some l => .ok l
    | none => .error .undefined

/-- Give back a block; freeing twice is undefined. -/
def free (s : Mem α) (p : Option ℕ) : Except Err (Mem α) :=
  match p with
  | none => .ok s
  | some b =>
    match s.bufs b with
    | some _ => .ok { s with bufs := upd s.bufs b none }
    | none => .error .undefined

/-- Make object `i` hold a new block with the elements `l`; no elements, no block. -/
def alloc (s : Mem α) (i : ℕ) (l : List α) : Mem α :=
  if l = [] then { s with objs := upd s.objs i (some none) }
  else { s with bufs := upd s.bufs s.next (some l), objs := upd s.objs i (some (some s.next)), next := s.next + 1 }

/-- Change the elements of trajectory `i` in place. -/
def modify (s : Mem α) (i : ℕ) (f : List α → Except Err (List α)) : Except Err (Mem α) := do
  let p ← s.obj i
  let l ← s.elems p
  let l' ← f l
  match p with
  | none => pure s
  | some b => pure { s with bufs := upd s.bufs b (some l') }

/-- `std::vector<KnotPoint>(count, z)` with a count of type `int`, as in `Trajectory(N)` (trajectory.hpp:36) and
`Trajectory(_n, _m, N)` (trajectory.hpp:37-38): a negative count becomes a huge unsigned number and the constructor
throws. -/
def ofCount (s : Mem α) (i : ℕ) (N : ℤ) (z : α) : Except Err (Mem α) := do
  s.fresh i
  if 0 ≤ N + 1 then pure (s.alloc i (List.replicate (N + 1).toNat z)) else .error .thrown

/-- The constructors that are given elements (trajectory.hpp:39, 48-63). -/
def ofElems (s : Mem α) (i : ℕ) (l : Except Err (List α)) : Except Err (Mem α) := do
  s.fresh i
  let l ← l
  pure (s.alloc i l)

/-- The copy constructor (trajectory.hpp:67). -/
def copyCtor (s : Mem α) (i j : ℕ) : Except Err (Mem α) := do
  s.fresh i
  let p ← s.obj j
  let l ← s.elems p
  pure (s.alloc i l)

/-- `operator=(const Trajectory&)` (trajectory.hpp:68-71), object `i` from object `j`.  `std::vector` does nothing if they
are the same; it assigns and constructs in place if the elements fit (`fits`), otherwise it makes a new block. -/
def copyAssign (s : Mem α) (i j : ℕ) (fits : Bool) : Except Err (Mem α) := do
  let p ← s.obj i
  let q ← s.obj j
  if i = j then pure s
  else do
    let l ← s.elems q
    match p, fits with
    | some b, true => do
      let _ ← s.elems (some b)
      pure { s with bufs := upd s.bufs b (some l) }
    | _, _ => do
      let s ← s.free p
      pure (s.alloc i l)

/-- The move constructor (trajectory.hpp:74): the new object takes the block. -/
def moveCtor (s : Mem α) (i j : ℕ) : Except Err (Mem α) := do
  s.fresh i
  let p ← s.obj j
  pure { s with objs := upd (upd s.objs j (some none)) i (some p) }

/-- `operator=(Trajectory&&)` (trajectory.hpp:75-78): object `i` gives back its block and takes that of object `j`.  Moving
an object to itself leaves it as it was or without elements (`keep`; the standard library decides). -/
def moveAssign (s : Mem α) (i j : ℕ) (keep : Bool) : Except Err (Mem α) := do
  let p ← s.obj i
  let q ← s.obj j
  if i = j then
    if keep then pure s
    else do
      let s ← s.free p
      pure { s with objs := upd s.objs i (some none) }
  else do
    let s ← s.free p
    pure { s with objs := upd (upd s.objs j (some none)) i (some q) }

/-- The destructor. -/
def destroy (s : Mem α) (i : ℕ) : Except Err (Mem α) := do
  let p ← s.obj i
  let s ← s.free p
  pure { s with objs := upd s.objs i none }

/-- `&Z[k]` and the other ways to reach a knot point (trajectory.hpp:80-98), kept as pointer `r`. -/
def take (s : Mem α) (r i : ℕ) (k : ℤ) : Except Err (Mem α) := do
  let p ← s.obj i
  let l ← s.elems p
  let _ ← vread l k
  match p with
  | none => .error .undefined
  | some b => pure { s with refs := upd s.refs r (some (b, k.toNat)) }

/-- Write through pointer `r`. -/
def write (s : Mem α) (r : ℕ) (f : α → α) : Except Err (Mem α) :=
  match s.refs r with
  | none => .error .undefined
  | some (b, k) => do
    let l ← s.elems (some b)
    let z ← vread l k
    pure { s with bufs := upd s.bufs b (some (l.set k (f z))) }

/-- `NumSegments` (trajectory.hpp:89): `size() - 1` is unsigned; without elements the conversion to `int` gives −1. -/
def numSegments (s : Mem α) (i : ℕ) : Except Err ℤ := do
  let p ← s.obj i
  let l ← s.elems p
  pure ((l.length : ℤ) - 1)

end Mem

/-! ## The operations of trajectories -/

section ops
variable {X U K : Type} [Zero X] [Zero U] [Field K] [LinearOrder K] (R : Rounding K)

/-- `traj_[k]` changed by `f`. -/
def atIndex (k : ℤ) (f : KnotPt X U K → KnotPt X U K) (l : List (KnotPt X U K)) :
    Except Err (List (KnotPt X U K)) := do
  let z ← vread l k
  pure (l.set k.toNat (f z))

/-- `SetUniformStep(h)` (trajectory.hpp:122-130) with its access to `traj_[N]`. -/
def uniform (h : K) (l : List (KnotPt X U K)) : Except Err (List (KnotPt X U K)) := do
  let _ ← vread l ((l.length : ℤ) - 1)
  pure (Traj.setUniformStep R h l)

/-- What can be done with trajectories. -/
inductive Op (X U K : Type) where
  | ofCount (i : ℕ) (N : ℤ) (z : KnotPt X U K)
  | ofKnotPoints (i : ℕ) (zs : List (KnotPt X U K))
  | ofVectors (i : ℕ) (xs : List X) (us : List U) (times : List K)
  | copyCtor (i j : ℕ)
  | copyAssign (i j : ℕ) (fits : Bool)
  | moveCtor (i j : ℕ)
  | moveAssign (i j : ℕ) (keep : Bool)
  | destroy (i : ℕ)
  /-- `SetZero` (trajectory.hpp:112-117) -/
  | setZero (i : ℕ)
  | setUniformStep (i : ℕ) (h : K)
  /-- `SetTime` (trajectory.hpp:119) -/
  | setTime (i : ℕ) (k : ℤ) (t : K)
  /-- `SetStep` (trajectory.hpp:120) -/
  | setStep (i : ℕ) (k : ℤ) (h : K)
  /-- `State(k) = x` (trajectory.hpp:90) -/
  | setState (i : ℕ) (k : ℤ) (x : X)
  /-- `Control(k) = u` (trajectory.hpp:91) -/
  | setControl (i : ℕ) (k : ℤ) (u : U)
  | take (r i : ℕ) (k : ℤ)
  | write (r : ℕ) (f : KnotPt X U K → KnotPt X U K)

def step (s : Mem (KnotPt X U K)) : Op X U K → Except Err (Mem (KnotPt X U K))
  | .ofCount i N z => s.ofCount i N z
  | .ofKnotPoints i zs => s.ofElems i (.ok zs)
  | .ofVectors i xs us times => s.ofElems i (Traj.ofVectors R xs us times)
  | .copyCtor i j => s.copyCtor i j
  | .copyAssign i j fits => s.copyAssign i j fits
  | .moveCtor i j => s.moveCtor i j
  | .moveAssign i j keep => s.moveAssign i j keep
  | .destroy i => s.destroy i
  | .setZero i => s.modify i fun l => .ok (Traj.setZero l)
  | .setUniformStep i h => s.modify i (uniform R h)
  | .setTime i k t => s.modify i (atIndex k fun z => { z with t := t })
  | .setStep i k h => s.modify i (atIndex k fun z => { z with h := h })
  | .setState i k x => s.modify i (atIndex k fun z => { z with x := x })
  | .setControl i k u => s.modify i (atIndex k fun z => { z with u := u })
  | .take r i k => s.take r i k
  | .write r f => s.write r f

def run (s : Mem (KnotPt X U K)) : List (Op X U K) → Except Err (Mem (KnotPt X U K))
  | [] => .ok s
  | op :: l => do
    let s ← step R s op
    run s l

end ops
end TrajMem
end Altro
