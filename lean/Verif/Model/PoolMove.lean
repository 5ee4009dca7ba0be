import Mathlib.Data.Nat.Notation
import Mathlib.Data.Int.Notation
import Mathlib.Data.List.Basic

/-!
# Moving queues and thread pools   (`altro/common/threadsafe_queue.hpp`, `altro/common/threadpool.{hpp,cpp}`)

Objects at addresses, used by one thread; addresses and tasks are natural numbers.  The workers of a pool act in between.
Single operations of the queue are atomic here (`Model/Queue.lean` has the steps they consist of, C45 says that they can be taken as atomic).  An address is never used
twice, so that a use after destruction can be told from a use of another object.

Not represented: time-outs of `Wait` (`Model/Pool.lean`), failure to create a thread, running out of stack when a long queue
is destroyed.
-/

namespace Altro.PoolMove

/-- How an operation can end other than by returning. -/
inductive Fault
  /-- a failed `ALTRO_ASSERT` -/
  | assertion
  /-- `std::terminate`: a joinable `std::thread` is destroyed or overwritten -/
  | terminate
  /-- undefined behaviour: a null or dangling pointer, or a mutex locked twice by the same thread -/
  | undefined
  /-- the call does not return -/
  | blocked
deriving DecidableEq, Repr

/-! ## The queue -/

/-- A `ThreadSafeQueue`: its elements, or `none` when `size_`, `head_mutex_`, `head_`, `tail_mutex_` and `data_cond_` are null
because it was moved from. -/
abbrev QObj := Option (List ℕ)

namespace QObj

/-- `ThreadSafeQueue()` (threadsafe_queue.hpp:27-32, 71). -/
def new : QObj := some []

/-- `Push` (threadsafe_queue.hpp:102-116): dereferences `tail_mutex_`. -/
def push (q : QObj) (t : ℕ) : Except Fault QObj :=
  match q with
  | none => .error .undefined
  | some l => .ok (some (l ++ [t]))

/-- `TryPop` (threadsafe_queue.hpp:61-69, 119-122): dereferences `head_mutex_`. -/
def tryPop (q : QObj) : Except Fault (Option ℕ × QObj) :=
  match q with
  | none => .error .undefined
  | some [] => .ok (none, some [])
  | some (t :: l) => .ok (some t, some l)

/-- `Size` (threadsafe_queue.hpp:46): dereferences `size_`. -/
def size (q : QObj) : Except Fault ℕ :=
  match q with
  | none => .error .undefined
  | some l => .ok l.length

/-- `IsEmpty` (threadsafe_queue.hpp:125-128). -/
def isEmpty (q : QObj) : Except Fault Bool :=
  match q with
  | none => .error .undefined
  | some l => .ok (l = [])

/-- `Clear` (threadsafe_queue.hpp:131-136): dereferences `head_mutex_` and locks it; `IsEmpty` in the condition of the loop
locks it again. -/
def clear (_ : QObj) : Except Fault QObj := .error .undefined

/-- The move constructor (threadsafe_queue.hpp:80-87): the new queue and what is left of the old one. -/
def moveNew (q : QObj) : QObj × QObj := (q, none)

/-- Move assignment (threadsafe_queue.hpp:90-99): `Clear` comes first. -/
def moveAssign (dst src : QObj) : Except Fault (QObj × QObj) := do
  let _ ← clear dst
  pure (src, none)

end QObj

/-! ## The pool -/

/-- A `ThreadPool` (threadpool.hpp:144-148).  Every thread has captured the address of the pool that launched it
(threadpool.cpp:51). -/
structure Pool where
  running : Bool := false
  threads : List ℕ := []
  futures : List ℕ := []
  queue : QObj := QObj.new

/-- All pools, the tasks executed so far in order, those destroyed without being executed. -/
structure World where
  pools : ℕ → Option Pool := fun _ => none
  next : ℕ := 0
  nextTask : ℕ := 0
  done : List ℕ := []
  dropped : List ℕ := []

namespace World

/-- The object at an address; a dangling reference is undefined behaviour. -/
def get (w : World) (a : ℕ) : Except Fault Pool :=
  match w.pools a with
  | none => .error .undefined
  | some p => .ok p

def put (w : World) (a : ℕ) (p : Option Pool) : World :=
  { w with pools := fun b => if b = a then p else w.pools b }

end World

/-- `ALTRO_ASSERT` with assertions compiled in or not (assert.hpp:6-10). -/
def assertIn (debug : Bool) (b : Bool) : Except Fault Unit :=
  if debug && !b then .error .assertion else .ok ()

/-- Joining a thread that has captured the pool at `c` (threadpool.cpp:62-66): it ends when it sees `is_running_` false. -/
def join (w : World) (c : ℕ) : Except Fault Unit := do
  let p ← w.get c
  if p.running then .error .blocked else .ok ()

inductive Op
  | new
  | moveNew (src : ℕ)
  | moveAssign (dst src : ℕ)
  | destroy (a : ℕ)
  | addTask (a : ℕ)
  | numTasks (a : ℕ)
  | launch (a : ℕ) (n : ℤ)
  | stop (a : ℕ)
  | wait (a : ℕ)
  /-- the thread at position `i` of `threads_` of the pool at `a` goes through its loop once -/
  | work (a : ℕ) (i : ℕ)
deriving DecidableEq, Repr

/-- `ThreadPool()` (threadpool.hpp:47). -/
def create (w : World) : World :=
  { w.put w.next (some {}) with next := w.next + 1 }

/-- The move constructor (threadpool.cpp:12-19): `is_running_` is copied; the assertion comes after the moves. -/
def moveNew (debug : Bool) (w : World) (src : ℕ) : Except Fault World := do
  let p ← w.get src
  let q := QObj.moveNew p.queue
  let w := { (w.put src (some { p with threads := [], futures := [], queue := q.2 })).put w.next
    (some { p with queue := q.1 }) with next := w.next + 1 }
  assertIn debug (!p.running)
  pure w

/-- Move assignment (threadpool.cpp:21-29). -/
def moveAssign (debug : Bool) (w : World) (dst src : ℕ) : Except Fault World := do
  let s ← w.get src
  assertIn debug (!s.running)
  let d ← w.get dst
  if d.threads ≠ [] then .error .terminate
  else do
    let q ← QObj.moveAssign d.queue s.queue
    pure ((w.put src (some { s with threads := [], futures := [], queue := q.2 })).put dst
      (some { s with queue := q.1 }))

/-- `StopThreads` (threadpool.cpp:60-68). -/
def stop (w : World) (a : ℕ) : Except Fault World := do
  let p ← w.get a
  let w := w.put a (some { p with running := false })
  p.threads.forM (join w)
  pure (w.put a (some { p with running := false, threads := [] }))

/-- The body of the destructor (threadpool.hpp:57-61). -/
def stopIfRunning (w : World) (a : ℕ) (p : Pool) : Except Fault World :=
  if p.running then stop w a else pure w

/-- The destructor (threadpool.hpp:57-61) and those of the members: joinable threads terminate the program, tasks still in
the queue are lost. -/
def destroy (w : World) (a : ℕ) : Except Fault World := do
  let p ← w.get a
  let w ← stopIfRunning w a p
  let p ← w.get a
  if p.threads ≠ [] then .error .terminate
  else pure { w.put a none with dropped := w.dropped ++ p.queue.getD [] }

/-- `AddTask` (threadpool.hpp:70-74). -/
def addTask (w : World) (a : ℕ) : Except Fault World := do
  let p ← w.get a
  let q ← QObj.push p.queue w.nextTask
  pure { w.put a (some { p with futures := p.futures ++ [w.nextTask], queue := q }) with nextTask := w.nextTask + 1 }

/-- `NumTasks` (threadpool.hpp:81). -/
def numTasks (w : World) (a : ℕ) : Except Fault ℕ := do
  let p ← w.get a
  QObj.size p.queue

/-- `LaunchThreads` (threadpool.cpp:41-58): `threads_.clear()` terminates the program if there are joinable threads. -/
def launch (debug : Bool) (w : World) (a : ℕ) (n : ℤ) : Except Fault World := do
  let p ← w.get a
  assertIn debug (!p.running)
  if p.running then pure w
  else if p.threads ≠ [] then .error .terminate
  else pure (w.put a (some { p with running := true, threads := List.replicate n.toNat a }))

/-- `Wait` (threadpool.cpp:31-39) once it returns. -/
def wait (w : World) (a : ℕ) : Except Fault World := do
  let p ← w.get a
  pure (w.put a (some { p with futures := [] }))

/-- One round of `WorkerThread` (threadpool.cpp:70-80) for `this = c`. -/
def workOn (w : World) (c : ℕ) : Except Fault World := do
  let p ← w.get c
  if p.running then do
    let r ← QObj.tryPop p.queue
    let w := w.put c (some { p with queue := r.2 })
    match r.1 with
    | none => pure w
    | some t => pure { w with done := w.done ++ [t] }
  else pure w

def step (debug : Bool) (w : World) : Op → Except Fault World
  | .new => .ok (create w)
  | .moveNew src => moveNew debug w src
  | .moveAssign dst src => moveAssign debug w dst src
  | .destroy a => destroy w a
  | .addTask a => addTask w a
  | .numTasks a => do let _ ← numTasks w a; pure w
  | .launch a n => launch debug w a n
  | .stop a => stop w a
  | .wait a => wait w a
  | .work a i =>
    match (w.pools a).bind fun p => p.threads[i]? with
    | none => .ok w
    | some c => workOn w c

def run (debug : Bool) (w : World) : List Op → Except Fault World
  | [] => .ok w
  | op :: ops => do run debug (← step debug w op) ops

end Altro.PoolMove
