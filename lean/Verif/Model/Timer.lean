import Verif.Model.Problem

/-!
# The profiler   (`altro/common/timer.hpp`, `timer.cpp`, `profile_entry.hpp`, `profile_entry.cpp`)

Strings are lists of characters, compared lexicographically by code like `std::string` (bytes; the code points of
UTF-8 text are in the same order).  Times are integers; the clock counts nanoseconds.
The layout of the printed table and the choice of the output file are in `Model.ProfileOutput`.
-/

namespace Altro.Timer

/-- `std::string` -/
abbrev Str := List Char

/-- `std::map<std::string, std::chrono::microseconds>`: the pairs in increasing order of the keys. -/
abbrev Times := List (Str × ℤ)

/-- `times[name] += us` -/
def Times.add : Times → Str → ℤ → Times
  | [], k, d => [(k, 0 + d)]
  | (k', t) :: m, k, d =>
    if k' < k then (k', t) :: Times.add m k d
    else if k = k' then (k', t + d) :: m
    else (k, 0 + d) :: (k', t) :: m

/-- `Timer` (timer.hpp:41-68), with the current reading of the clock (nanoseconds). -/
structure State where
  stack : List Str := []
  times : Times := []
  active : Bool := false
  clock : ℤ := 0

/-- The concatenation made by `Start` (timer.cpp:99-102): `stack_.front()`, then `"/" + stack_[i]` for the others. -/
def fullname : List Str → Str
  | [] => []
  | a :: rest => rest.foldl (fun acc s => acc ++ ('/' :: s)) a

/-- `Stopwatch` (timer.hpp:80-95): empty if the timer was inactive (`parent_` is null), else the name and the time. -/
abbrev Stopwatch := Option (Str × ℤ)

/-- `Start` (timer.cpp:96-106).  The stopwatch is returned without a copy. -/
def start (s : State) (name : Str) : State × Stopwatch :=
  if s.active then
    let stack := s.stack ++ [name]
    ({ s with stack := stack }, some (fullname stack, s.clock))
  else (s, none)

/-- `duration_cast<microseconds>` of nanoseconds truncates towards zero. -/
def toMicros (ns : ℤ) : ℤ := ns.tdiv 1000

/-- `~Stopwatch` (timer.cpp:125-134); `pop_back` on an empty vector is undefined behaviour. -/
def stop (s : State) (sw : Stopwatch) : Except Err State :=
  match sw with
  | none => .ok s
  | some (name, t0) =>
    if s.stack = [] then .error .undefined
    else .ok { s with stack := s.stack.dropLast, times := s.times.add name (toMicros (s.clock - t0)) }

/-- A program of nested scopes: `scope name body` is a block that begins with `Stopwatch sw = timer->Start(name)`;
`tick d` is work that takes `d` nanoseconds. -/
inductive Prog
  | skip
  | seq (p q : Prog)
  | tick (d : ℤ)
  /-- `Activate` (timer.hpp:54) -/
  | activate
  /-- `Deactivate` (timer.hpp:55) -/
  | deactivate
  | scope (name : Str) (body : Prog)

/-- Its effect on the timer. -/
def exec : Prog → State → Except Err State
  | .skip, s => .ok s
  | .seq p q, s => do exec q (← exec p s)
  | .tick d, s => .ok { s with clock := s.clock + d }
  | .activate, s => .ok { s with active := true }
  | .deactivate, s => .ok { s with active := false }
  | .scope name body, s => do
    let (s1, sw) := start s name
    stop (← exec body s1) sw

/-! ## The summary -/

/-- `split` (profile_entry.cpp:9-21): cut at every `/`; `acc` is the part being collected. -/
def splitGo (acc : Str) : Str → List Str
  | [] => [acc]
  | c :: cs => if c = '/' then acc :: splitGo [] cs else splitGo (acc ++ [c]) cs

/-- See `splitGo`. -/
def split (s : Str) : List Str := splitGo [] s

/-- `ProfileEntry` (profile_entry.hpp:20-36); `parent` is the index of the parent in the vector of entries. -/
structure PEntry where
  name : List Str
  time : ℤ
  parent : Option ℕ
deriving DecidableEq

/-- The local variables `entries` and `parents` of `PrintSummary`. -/
structure Build where
  entries : List PEntry
  parents : List (Option ℕ)

/-- Before the loop (timer.cpp:33-35): a temporary entry for the total time. -/
def Build.init : Build := { entries := [⟨split ['t', 'o', 'p'], 0, none⟩], parents := [some 0] }

/-- `entries.front()->time += t` -/
def addTotal (t : ℤ) : List PEntry → List PEntry
  | [] => []
  | e :: es => { e with time := e.time + t } :: es

/-- One pass of the loop (timer.cpp:44-80).  `NumLevels` is at least 1. -/
def Build.step (b : Build) (kv : Str × ℤ) : Build :=
  let name := split kv.1
  let idx := b.entries.length
  let lvl := name.length
  let p1 := if lvl ≥ b.parents.length then b.parents ++ List.replicate (lvl + 1 - b.parents.length) none else b.parents
  let p2 := p1.set lvl (some idx)
  let entries := b.entries ++ [⟨name, kv.2, (p2[lvl - 1]?).join⟩]
  { entries := if lvl = 1 then addTotal kv.2 entries else entries, parents := p2 }

/-- The entries when the loop has finished. -/
def build (times : Times) : List PEntry := (times.foldl Build.step Build.init).entries

/-- `GetRoot` (profile_entry.cpp:28-34), starting at entry `i`.  A parent comes before its children (`parent_lt`), so
`i` steps are enough. -/
def rootGo (es : List PEntry) : ℕ → ℕ → ℕ
  | 0, i => i
  | fuel + 1, i =>
    match es[i]? with
    | some e => match e.parent with
      | some j => rootGo es fuel j
      | none => i
    | none => i

/-- See `rootGo`. -/
def root (es : List PEntry) (i : ℕ) : ℕ := rootGo es i i

/-- The time stored at an index. -/
def timeAt (es : List PEntry) (i : ℕ) : ℤ := (es[i]?.map PEntry.time).getD 0

/-- Conversion of a 64-bit number to `int`: modulo `2^32` (what every compiler does, and C++20 requires). -/
def toInt (x : ℤ) : ℤ := Int.bmod x (2 ^ 32)

/-- Signed arithmetic that must fit in `b` bits, else the behaviour is undefined. -/
def fits (b : ℕ) (x : ℤ) : Except Err ℤ := if -2 ^ (b - 1) ≤ x ∧ x < 2 ^ (b - 1) then .ok x else .error .undefined

/-- `parent ? parent->time : time` (profile_entry.cpp:38). -/
def parentTimeOf (es : List PEntry) (e : PEntry) : ℤ :=
  match e.parent with
  | some j => timeAt es j
  | none => e.time

/-- `CalcStats` (profile_entry.cpp:36-52): `percent_total` and `percent_parent`. -/
def calcStats (es : List PEntry) (i : ℕ) (e : PEntry) : Except Err (ℤ × ℤ) := do
  let totalTime := timeAt es (root es i)
  let parentTime := parentTimeOf es e
  let time := toInt e.time
  let total := toInt totalTime
  let pt ← (if total = 0 then .ok (-1) else do
    let a ← fits 32 (100 * time)
    fits 32 (a.tdiv total))
  let pp ← (if parentTime = 0 then .ok (-1) else do
    let a ← fits 64 (100 * e.time)
    let q ← fits 64 (a.tdiv parentTime)
    pure (toInt q))
  return (pt, pp)

/-- A printed row: the path, the time and the two percentages. -/
structure Row where
  name : List Str
  time : ℤ
  percentTotal : ℤ
  percentParent : ℤ
deriving DecidableEq

/-- The rows printed by `PrintSummary` (timer.cpp:24-94). -/
def printSummary (times : Times) : Except Err (List Row) :=
  let es := build times
  (es.zipIdx.drop 1).mapM fun ei => do
    let (pt, pp) ← calcStats es ei.2 ei.1
    return ⟨ei.1.name, ei.1.time, pt, pp⟩

end Altro.Timer
