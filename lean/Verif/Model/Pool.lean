import Verif.Model.Queue

/-!
# The thread pool   (`altro/common/threadpool.{hpp,cpp}`)

The owner (thread `none`) calls `AddTask`, `Wait`, `LaunchThreads`, `StopThreads` in any order and may use shared memory
itself; workers (`some w`) run `WorkerThread`.  The work queue is the node-level model `Model.Queue`, so the owner's
`Push` and the workers' `TryPop` interleave step by step.

A task is a list of steps on a shared memory `M`; the `j`-th task ever added has number `j` and steps `prog j`.  A step
stands for any piece of code between two scheduling points.

Not modelled: a thread that cannot be created (threadpool.cpp:54-57), tasks that add tasks, moving a pool, the length
of the timeout (`wait_for` may time out at any moment).  A task that throws counts as finished, like in
`std::packaged_task`.  `started`, `trace`, `mark` are bookkeeping; no step depends on them.
-/

namespace Altro
namespace Pool

/-- Where a worker is. -/
inductive WPC
  /-- not launched, or joined -/
  | absent
  /-- about to read `is_running_` (threadpool.cpp:72) -/
  | check
  /-- inside `queue_.TryPop` (74) -/
  | popping
  /-- inside `task()` (75): task `t`, the next step is number `k` -/
  | run (t k : ℕ)
  /-- `WorkerThread` has returned (80) -/
  | exited

/-- Where the owner is. -/
inductive OPC
  | idle
  /-- `AddTask`: inside `queue_.Push` (threadpool.hpp:73) -/
  | adding (t : ℕ)
  /-- `Wait`: the futures not visited yet (threadpool.cpp:32) -/
  | waiting (r : List ℕ)
  /-- `LaunchThreads`: `i` of `n` threads are created (threadpool.cpp:50) -/
  | launching (i n : ℕ)
  /-- `StopThreads`: the first `i` threads are joined (threadpool.cpp:62) -/
  | joining (i : ℕ)

/-- What the owner does next. -/
inductive Act (M : Type)
  | add
  | wait
  | launch (n : ℕ)
  | stop
  /-- the owner's own code -/
  | own (f : M → M)

/-- What happened to the memory. -/
inductive TraceEv (M : Type)
  | task (t k : ℕ)
  | own (f : M → M)

structure St (M : Type) where
  q : Queue.St (Option ℕ) ℕ
  running : Bool
  /-- `threads_.size()` -/
  nthreads : ℕ
  /-- `futures_` -/
  futures : List ℕ
  /-- the number of tasks added so far -/
  next : ℕ
  /-- the task's future is ready -/
  finished : ℕ → Bool
  wpc : ℕ → WPC
  opc : OPC
  mem : M
  /-- the current or last `Wait` printed a timeout message (threadpool.cpp:35) -/
  timedOut : Bool
  started : List ℕ
  trace : List (TraceEv M)
  /-- `next` when the last `Wait` returned -/
  mark : ℕ

/-- A new pool (threadpool.hpp:47); `a` is the address of the first queue node. -/
def init {M : Type} (a : ℕ) (m : M) : St M where
  q := Queue.init a
  running := false
  nthreads := 0
  futures := []
  next := 0
  finished := fun _ => false
  wpc := fun _ => .absent
  opc := .idle
  mem := m
  timedOut := false
  started := []
  trace := []
  mark := 0

/-- The scheduler's choices: the owner's next call, the address the allocator returns, whether `wait_for` times out. -/
structure Choice (M : Type) where
  act : Act M
  addr : ℕ
  timeout : Bool

open Queue (Out)

variable {M : Type}

/-- Continue with the state of the queue. -/
def withQ (o : Out (Queue.St (Option ℕ) ℕ)) (k : Queue.St (Option ℕ) ℕ → St M) : Out (St M) :=
  match o with
  | .blocked => .blocked
  | .ub => .ub
  | .next q => .next (k q)

/-- One step of the owner. -/
def ownerStep (c : Choice M) (s : St M) : Out (St M) :=
  match s.opc with
  | .idle =>
    match c.act with
    -- threadpool.hpp:70-72
    | .add => .next { s with futures := s.futures ++ [s.next], next := s.next + 1, opc := .adding s.next }
    -- threadpool.cpp:31-32
    | .wait => .next { s with opc := .waiting s.futures, timedOut := false }
    -- threadpool.cpp:41-48; a running pool fails the assertion
    | .launch n => if s.running then .blocked else .next { s with running := true, opc := .launching 0 n }
    -- threadpool.cpp:61
    | .stop => .next { s with running := false, opc := .joining 0 }
    | .own f => .next { s with mem := f s.mem, trace := s.trace ++ [.own f] }
  | .adding t =>
    match s.q.pc none with
    | .ret _ => withQ (Queue.step none (.push t c.addr) s.q) fun q => { s with q := q, opc := .idle }
    | _ => withQ (Queue.step none (.push t c.addr) s.q) fun q => { s with q := q }
  -- threadpool.cpp:33-37
  | .waiting (t :: r) =>
    if s.finished t then .next { s with opc := .waiting r }
    else if c.timeout then .next { s with opc := .waiting r, timedOut := true }
    else .blocked
  -- threadpool.cpp:38
  | .waiting [] => .next { s with futures := [], mark := s.next, opc := .idle }
  -- threadpool.cpp:50-53
  | .launching i n =>
    if i < n then .next { s with wpc := Function.update s.wpc i .check, opc := .launching (i + 1) n }
    else .next { s with nthreads := n, opc := .idle }
  -- threadpool.cpp:62-67
  | .joining i =>
    if i < s.nthreads then
      match s.wpc i with
      | .exited => .next { s with wpc := Function.update s.wpc i .absent, opc := .joining (i + 1) }
      | _ => .blocked
    else .next { s with nthreads := 0, opc := .idle }

/-- One step of worker `w` (`WorkerThread`, threadpool.cpp:70-80). -/
def workerStep (prog : ℕ → List (M → M)) (w : ℕ) (s : St M) : Out (St M) :=
  match s.wpc w with
  | .absent => .blocked
  | .exited => .blocked
  | .check => .next { s with wpc := Function.update s.wpc w (if s.running then .popping else .exited) }
  | .popping =>
    match s.q.pc (some w) with
    | .ret (.popped t) => withQ (Queue.step (some w) .pop s.q) fun q =>
        { s with q := q, wpc := Function.update s.wpc w (.run t 0), started := s.started ++ [t] }
    | .ret _ => withQ (Queue.step (some w) .pop s.q) fun q => { s with q := q, wpc := Function.update s.wpc w .check }
    | _ => withQ (Queue.step (some w) .pop s.q) fun q => { s with q := q }
  | .run t k =>
    match (prog t)[k]? with
    | some f => .next { s with mem := f s.mem, trace := s.trace ++ [.task t k]
                               wpc := Function.update s.wpc w (.run t (k + 1)) }
    | none => .next { s with finished := Function.update s.finished t true
                             wpc := Function.update s.wpc w .check }

def step (prog : ℕ → List (M → M)) (i : Option ℕ) (c : Choice M) (s : St M) : Out (St M) :=
  match i with
  | none => ownerStep c s
  | some w => workerStep prog w s

/-- Some thread makes a step. -/
def Step (prog : ℕ → List (M → M)) (s s' : St M) : Prop := ∃ i c, step prog i c s = .next s'

/-- Reachable from a new pool with memory `m`. -/
def Reachable (prog : ℕ → List (M → M)) (m : M) (s : St M) : Prop :=
  ∃ a, Relation.ReflTransGen (Step prog) (init a m) s

end Pool
end Altro
