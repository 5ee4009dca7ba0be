import Mathlib.Data.Nat.Notation
import Mathlib.Logic.Function.Basic
import Mathlib.Logic.Relation

/-!
# The thread-safe queue   (`altro/common/threadsafe_queue.hpp`)

An interleaving semantics: any number of threads (`T`), each at a program counter inside one of the member functions;
one step of one thread is one access to shared memory, one mutex operation or one allocation.  Accesses to `head_`,
`tail_` and the nodes are not atomic in C++; `Props.Queue` proves that no two threads are ever about to make
conflicting accesses, so considering sequentially consistent interleavings is enough (data-race freedom).
`size_` is an atomic.  The condition variable is notified but nobody waits on it, so it is left out.

The fields `pushed`, `popped` and the Booleans called `e` are bookkeeping for the specification; no step depends on
them.
-/

namespace Altro
namespace Queue

/-- `Node` (threadsafe_queue.hpp:21-24): `shared_ptr<T> data`, `unique_ptr<Node> next`. -/
structure Node (V : Type) where
  data : Option V
  next : Option ℕ

/-- What a finished member function returns. -/
inductive Res (V : Type)
  | pushed (v : V)
  | popped (v : V)
  /-- `TryPop` returned false; `e`: the queue was empty when the tail was read -/
  | none (e : Bool)
  /-- `IsEmpty` returned `b`; `e` as above -/
  | isEmpty (b e : Bool)
  | size (n : ℕ)

/-- Who called the code that compares head and tail. -/
inductive Mode
  | pop
  | isEmpty
  /-- `IsEmpty` called from `Clear`, which holds `head_mutex_` -/
  | clear
deriving DecidableEq

/-- Program counters; each names what the thread does next. -/
inductive PC (V : Type)
  | idle
  /-- `Push`: lock `tail_mutex_` (threadsafe_queue.hpp:106) -/
  | push1 (v : V) (n : ℕ)
  /-- `tail_->data = new_data` (107) -/
  | push2 (v : V) (n : ℕ)
  /-- `tail_->next = std::move(new_tail_node)` (111) -/
  | push3 (v : V) (n : ℕ)
  /-- `tail_ = new_tail` (112) -/
  | push4 (v : V) (n : ℕ)
  /-- unlock `tail_mutex_` (113) -/
  | push5 (v : V)
  /-- `++(*size_)` (114) -/
  | push6 (v : V)
  /-- `TryPopHead`, `IsEmpty`: lock `head_mutex_` (62, 126) -/
  | pop1 (md : Mode)
  /-- `GetTail`: lock `tail_mutex_` (50) -/
  | pop2 (md : Mode)
  /-- `return tail_` (51) -/
  | pop3 (md : Mode)
  /-- unlock `tail_mutex_` (52) -/
  | pop4 (md : Mode) (t : ℕ) (e : Bool)
  /-- `head_.get() == ...` (63, 127) -/
  | pop5 (md : Mode) (t : ℕ) (e : Bool)
  /-- unlock `head_mutex_` and return false from `TryPop` (64) -/
  | popFail (e : Bool)
  /-- unlock `head_mutex_` and return `b` from `IsEmpty` (127) -/
  | empty (b e : Bool)
  /-- `--(*size_)` (66) -/
  | pop6
  /-- `value = std::move(*head_->data)` (67) -/
  | pop7
  /-- `PopHead`: `old_head = std::move(head_)` (56) -/
  | pop8 (v : V)
  /-- `head_ = std::move(old_head->next)` (57) -/
  | pop9 (v : V) (o : ℕ)
  /-- unlock `head_mutex_` (69) -/
  | pop10 (v : V) (o : ℕ)
  /-- the old head is destroyed when `TryPop` returns (119-121) -/
  | pop11 (v : V) (o : ℕ)
  /-- `Clear`: lock `head_mutex_` (132) -/
  | clear1
  | ret (r : Res V)

/-- The operation an idle thread starts.  `Push` allocates a node; `n` is the address the allocator picks. -/
inductive Op (V : Type)
  | push (v : V) (n : ℕ)
  | pop
  | isEmpty
  | size
  | clear

/-- Shared state (threadsafe_queue.hpp:72-77) and program counters. -/
structure St (T V : Type) where
  /-- the heap of nodes; `none` = not allocated -/
  nodes : ℕ → Option (Node V)
  head : Option ℕ
  tail : ℕ
  hm : Option T
  tm : Option T
  /-- `atomic_size_t` -/
  size : ℕ
  pc : T → PC V
  pushed : List V
  popped : List V

/-- The constructor (threadsafe_queue.hpp:27-32): one empty node at `a`. -/
def init {T V : Type} (a : ℕ) : St T V where
  nodes := Function.update (fun _ => none) a (some ⟨none, none⟩)
  head := some a
  tail := a
  hm := none
  tm := none
  size := 0
  pc := fun _ => .idle
  pushed := []
  popped := []

/-- The effect of a step: the thread cannot proceed, the behaviour is undefined, or the next state. -/
inductive Out (S : Type)
  | blocked
  | ub
  | next (s : S)

/-- `size_t` arithmetic. -/
def sizeMod : ℕ := 2 ^ 64

variable {T V : Type} [DecidableEq T]

/-- Set the program counter of thread `i`. -/
def St.goto (s : St T V) (i : T) (p : PC V) : St T V := { s with pc := Function.update s.pc i p }

/-- One step of thread `i`; `op` is used only when the thread is idle.  A `std::mutex` that is held, by any thread
including `i`, cannot be locked. -/
def step (i : T) (op : Op V) (s : St T V) : Out (St T V) :=
  match s.pc i with
  | .idle =>
    match op with
    | .push v n =>
      match s.nodes n with
      | some _ => .blocked
      | none => .next { s with nodes := Function.update s.nodes n (some ⟨none, none⟩)
                               pc := Function.update s.pc i (.push1 v n) }
    | .pop => .next (s.goto i (.pop1 .pop))
    | .isEmpty => .next (s.goto i (.pop1 .isEmpty))
    | .size => .next (s.goto i (.ret (.size s.size)))
    | .clear => .next (s.goto i .clear1)
  | .push1 v n => if s.tm.isSome then .blocked else .next { (s.goto i (.push2 v n)) with tm := some i }
  | .push2 v n =>
    match s.nodes s.tail with
    | none => .ub
    | some nd => .next { (s.goto i (.push3 v n)) with
        nodes := Function.update s.nodes s.tail (some { nd with data := some v }) }
  | .push3 v n =>
    match s.nodes s.tail with
    | none => .ub
    | some nd => .next { (s.goto i (.push4 v n)) with
        nodes := Function.update s.nodes s.tail (some { nd with next := some n }) }
  | .push4 v n => .next { (s.goto i (.push5 v)) with tail := n, pushed := s.pushed ++ [v] }
  | .push5 v => .next { (s.goto i (.push6 v)) with tm := none }
  | .push6 v => .next { (s.goto i (.ret (.pushed v))) with size := (s.size + 1) % sizeMod }
  | .pop1 md => if s.hm.isSome then .blocked else .next { (s.goto i (.pop2 md)) with hm := some i }
  | .pop2 md => if s.tm.isSome then .blocked else .next { (s.goto i (.pop3 md)) with tm := some i }
  | .pop3 md => .next (s.goto i (.pop4 md s.tail (decide (s.popped.length = s.pushed.length))))
  | .pop4 md t e => .next { (s.goto i (.pop5 md t e)) with tm := none }
  | .pop5 .pop t e => .next (s.goto i (if s.head = some t then .popFail e else .pop6))
  | .pop5 .isEmpty t e => .next (s.goto i (.empty (decide (s.head = some t)) e))
  | .pop5 .clear _ _ => .blocked  -- never reached, see `pop1 .clear`
  | .popFail e => .next { (s.goto i (.ret (.none e))) with hm := none }
  | .empty b e => .next { (s.goto i (.ret (.isEmpty b e))) with hm := none }
  | .pop6 => .next { (s.goto i .pop7) with size := (s.size + (sizeMod - 1)) % sizeMod }
  | .pop7 =>
    match s.head with
    | none => .ub
    | some a =>
      match s.nodes a with
      | some ⟨some v, _⟩ => .next (s.goto i (.pop8 v))
      | _ => .ub
  | .pop8 v =>
    match s.head with
    | none => .ub
    | some a => .next { (s.goto i (.pop9 v a)) with head := none }
  | .pop9 v o =>
    match s.nodes o with
    | none => .ub
    | some nd => .next { (s.goto i (.pop10 v o)) with
        head := nd.next, nodes := Function.update s.nodes o (some { nd with next := none })
        popped := s.popped ++ [v] }
  | .pop10 v o => .next { (s.goto i (.pop11 v o)) with hm := none }
  | .pop11 v o =>
    match s.nodes o with
    | some ⟨_, none⟩ => .next { (s.goto i (.ret (.popped v))) with nodes := Function.update s.nodes o none }
    | _ => .ub
  | .clear1 => if s.hm.isSome then .blocked else .next { (s.goto i (.pop1 .clear)) with hm := some i }
  | .ret _ => .next (s.goto i .idle)

/-- Some thread makes a step. -/
def Step (s s' : St T V) : Prop := ∃ i op, step i op s = .next s'

/-- Reachable from a new queue. -/
def Reachable (s : St T V) : Prop := ∃ a, Relation.ReflTransGen Step (init a) s

/-- A memory location whose accesses are not atomic. -/
inductive Loc
  | headPtr
  | tailPtr
  | node (a : ℕ)
deriving DecidableEq

/-- The non-atomic accesses the next step at a program counter makes: location, and whether it is a write.  A node
counts as one location although `data` and `next` are separate ones. -/
def accesses (s : St T V) : PC V → List (Loc × Bool)
  | .push2 _ _ => [(.tailPtr, false), (.node s.tail, true)]
  | .push3 _ _ => [(.tailPtr, false), (.node s.tail, true)]
  | .push4 _ _ => [(.tailPtr, true)]
  | .pop3 _ => [(.tailPtr, false)]
  | .pop5 _ _ _ => [(.headPtr, false)]
  | .pop7 => (.headPtr, false) :: (s.head.toList.map fun a => (Loc.node a, false))
  | .pop8 _ => [(.headPtr, true)]
  | .pop9 _ o => [(.headPtr, true), (.node o, true)]
  | .pop11 _ o => [(.node o, true)]
  | _ => []

/-- Two threads are about to make conflicting accesses. -/
def Race (s : St T V) : Prop :=
  ∃ i j, i ≠ j ∧ ∃ l w w', (l, w) ∈ accesses s (s.pc i) ∧ (l, w') ∈ accesses s (s.pc j) ∧ (w = true ∨ w' = true)

end Queue
end Altro
