import Mathlib.Data.Nat.Notation

/-!
# What a linearizable FIFO queue is

Independent of the implementation.  A run produces a list of events in the order in which they happen: a thread calls
an operation, the operation takes effect, the operation returns.  The queue is linearizable if, for every thread, each
call is followed by one effect of the called operation and then by a return that reports exactly this effect, and the
effects, in the order in which they happen, are those of a sequential first-in-first-out queue.
-/

namespace Altro
namespace Spec.Queue

inductive Call (V : Type)
  | push (v : V)
  | pop
  | isEmpty

/-- An operation together with its result. -/
inductive Obs (V : Type)
  | push (v : V)
  /-- a pop that returns `v` -/
  | popped (v : V)
  /-- a pop that fails -/
  | failed
  | isEmpty (b : Bool)

/-- The operation an observation belongs to. -/
def Obs.call {V : Type} : Obs V → Call V
  | .push v => .push v
  | .popped _ => .pop
  | .failed => .pop
  | .isEmpty _ => .isEmpty

inductive Ev (V : Type)
  | call (c : Call V)
  | effect (o : Obs V)
  | ret (o : Obs V)

/-- A sequential FIFO queue: effects turn content `q` into `q'`. -/
inductive Seq {V : Type} : List V → List (Obs V) → List V → Prop
  | nil (q : List V) : Seq q [] q
  | push {q os q'} (v : V) : Seq q os q' → Seq q (os ++ [.push v]) (q' ++ [v])
  | popped {q os q'} (v : V) : Seq q os (v :: q') → Seq q (os ++ [.popped v]) q'
  | failed {q os} : Seq q os [] → Seq q (os ++ [.failed]) []
  | isEmptyTrue {q os} : Seq q os [] → Seq q (os ++ [.isEmpty true]) []
  | isEmptyFalse {q os v q'} : Seq q os (v :: q') → Seq q (os ++ [.isEmpty false]) (v :: q')

/-- What a thread is doing after a list of its events: nothing, a called operation that has not taken effect, or one
that has. -/
inductive Phase {V : Type} : List (Ev V) → Option (Call V ⊕ Obs V) → Prop
  | nil : Phase [] none
  | call {es} (c : Call V) : Phase es none → Phase (es ++ [.call c]) (some (.inl c))
  | effect {es} (o : Obs V) : Phase es (some (.inl o.call)) → Phase (es ++ [.effect o]) (some (.inr o))
  | ret {es} (o : Obs V) : Phase es (some (.inr o)) → Phase (es ++ [.ret o]) none

/-- The effects of a log. -/
def effects {T V : Type} (log : List (T × Ev V)) : List (Obs V) :=
  log.filterMap fun e => match e.2 with | .effect o => some o | _ => none

/-- The events of one thread. -/
def proj {T V : Type} [DecidableEq T] (i : T) (log : List (T × Ev V)) : List (Ev V) :=
  log.filterMap fun e => if e.1 = i then some e.2 else none

/-- A log is a linearizable FIFO history that leaves the queue with content `q`. -/
def Linearizable {T V : Type} [DecidableEq T] (log : List (T × Ev V)) (q : List V) : Prop :=
  Seq [] (effects log) q ∧ ∀ i, ∃ ph, Phase (proj i log) ph

/-- The values pushed, in order of the effects. -/
def pushes {V : Type} (os : List (Obs V)) : List V := os.filterMap fun | .push v => some v | _ => none

/-- The values popped, in order of the effects. -/
def pops {V : Type} (os : List (Obs V)) : List V := os.filterMap fun | .popped v => some v | _ => none

/-- Nothing is lost, duplicated or reordered. -/
theorem Seq.prefix {V : Type} {os : List (Obs V)} {q : List V} (h : Seq [] os q) : pops os ++ q = pushes os := by
  induction h with
  | nil => rfl
  | push v _ ih => simp [pops, pushes] at ih ⊢; rw [← ih]; simp
  | popped v _ ih => simp [pops, pushes] at ih ⊢; exact ih
  | failed _ ih => simp [pops, pushes] at ih ⊢; exact ih
  | isEmptyTrue _ ih => simp [pops, pushes] at ih ⊢; exact ih
  | isEmptyFalse _ ih => simp [pops, pushes] at ih ⊢; exact ih

end Spec.Queue
end Altro
