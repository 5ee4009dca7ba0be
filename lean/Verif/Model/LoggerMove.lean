import Verif.Model.Logger

/-!
# Copying and moving `SolverLogger`   (`altro/common/solver_logger.hpp:53-207`)

`Model.Logger` is one logger that nobody copies or moves.  Here are several.  `order_` holds pointers to the keys of
`entries_` (solver_logger.hpp:170-171), and the class declares no special member, so its copies and moves are the implicit
ones, member by member.  A node of an `std::unordered_map` keeps its address when the map grows and when the map is moved;
a copied map has nodes of its own; the nodes go when the map is destroyed or assigned to.

Only the titles are in this model.  Object and node identifiers are never used again, so addresses are not recycled.  A
vector or map that was moved from is empty (unspecified by the standard for the map; what the implementations do).  Copy
assignment is left out: an implementation may reuse the nodes of the target.
-/

namespace Altro
namespace LoggerMove

/-- `SolverLogger` (solver_logger.hpp:166-172): the nodes of `entries_` and the pointers in `order_`. -/
structure Obj where
  own : List ℕ
  order : List ℕ

/-- The nodes made so far (`next` is the first one that was not), the key in each, which of them were freed, and the
loggers. -/
structure Mem where
  next : ℕ
  title : ℕ → String
  freed : ℕ → Bool
  obj : ℕ → Option Obj

def empty : Mem := { next := 0, title := fun _ => "", freed := fun _ => false, obj := fun _ => none }

inductive Op
  | new (i : ℕ)
  | add (i : ℕ) (title : String) (pos : ℕ)
  | touch (i : ℕ) (title : String)
  | copy (i j : ℕ)
  | move (i j : ℕ)
  | moveAssign (i j : ℕ)
  | destroy (i : ℕ)

def put (m : Mem) (i : ℕ) (o : Option Obj) : Mem := { m with obj := fun k => if k = i then o else m.obj k }

/-- The destructor of a map with these nodes. -/
def free (m : Mem) (l : List ℕ) : Mem := { m with freed := fun n => m.freed n || l.contains n }

/-- `entries_.emplace(...)` (solver_logger.hpp:190) and `entries_[title]` (:63, 212) on the nodes of `o`: the node with
that key, which is a new one if there was none. -/
def emplace (m : Mem) (o : Obj) (t : String) : Mem × Obj × ℕ :=
  match o.own.find? (fun n => m.title n = t) with
  | some n => (m, o, n)
  | none =>
    ({ m with next := m.next + 1, title := fun n => if n = m.next then t else m.title n },
      { o with own := o.own ++ [m.next] }, m.next)

/-- The nodes of a copied map: one for each node of the original, in new places. -/
def copyNodes (m : Mem) (l : List ℕ) : Mem :=
  { m with
    next := m.next + l.length
    title := fun n => if m.next ≤ n ∧ n < m.next + l.length then m.title (l.getD (n - m.next) 0) else m.title n }

/-- The member functions that change the columns, and the special members.  `add` is `AddEntry` (solver_logger.hpp:175-207)
with the position it computes from `col`; `touch` is `GetEntry` (:63) or `Log` (:209-215).  Using an object that does not
exist is undefined; so is a self-move. -/
def step (m : Mem) : Op → Except Err Mem
  | .new i => match m.obj i with
    | none => .ok (put m i (some ⟨[], []⟩))
    | some _ => .error .undefined
  | .add i t pos => match m.obj i with
    | none => .error .undefined
    | some o =>
      if pos ≤ o.order.length then
        let r := emplace m o t
        .ok (put r.1 i (some { r.2.1 with order := o.order.insertIdx pos r.2.2 }))
      else .error .undefined
  | .touch i t => match m.obj i with
    | none => .error .undefined
    | some o => let r := emplace m o t
      .ok (put r.1 i (some r.2.1))
  | .copy i j => match m.obj i, m.obj j with
    | some o, none =>
      .ok (put (copyNodes m o.own) j (some ⟨(List.range o.own.length).map (m.next + ·), o.order⟩))
    | _, _ => .error .undefined
  | .move i j => match m.obj i, m.obj j with
    | some o, none => .ok (put (put m j (some o)) i (some ⟨[], []⟩))
    | _, _ => .error .undefined
  | .moveAssign i j => match m.obj i, m.obj j with
    | some o, some p =>
      if i = j then .error .undefined
      else .ok (put (put (free m p.own) j (some o)) i (some ⟨[], []⟩))
    | _, _ => .error .undefined
  | .destroy i => match m.obj i with
    | some o => .ok (put (free m o.own) i none)
    | none => .error .undefined

/-- A program. -/
def run (m : Mem) : List Op → Except Err Mem
  | [] => .ok m
  | op :: ops => match step m op with
    | .ok m' => run m' ops
    | .error e => .error e

/-- The titles that `PrintHeader` and `PrintData` read through `order_` (solver_logger.cpp:14-15, 34-35).  Reading a freed
node is undefined. -/
def columns (m : Mem) (i : ℕ) : Except Err (List String) :=
  match m.obj i with
  | none => .error .undefined
  | some o => if o.order.any m.freed then .error .undefined else .ok (o.order.map m.title)

end LoggerMove
end Altro
