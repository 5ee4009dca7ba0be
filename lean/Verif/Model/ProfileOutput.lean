import Verif.Model.Timer

/-!
# Where and how the profile is printed   (`altro/common/timer.hpp`, `timer.cpp`, `profile_entry.cpp`, `solver_stats.cpp`)

`Model.Timer` computes the rows of the summary.  Here is the rest: the file it goes to, when it is printed, and the text.

Files are `FILE*` handles, numbered in the order in which they were opened; 0 is `stdout`.  Each has an owner, who is meant to close it.
Buffering and the contents of files are left out.  Strings are lists of characters; `fmt` measures width as the standard string does (one column
for each character).
-/

namespace Altro.Profile
open Timer

/-- Who opened a file. -/
inductive Owner
  /-- the program, outside the timer -/
  | user
  /-- `Timer::SetOutput(const std::string&)` -/
  | timer
deriving DecidableEq

/-- The files of the process, and the members of one `Timer` that matter for the output (timer.hpp:65-68). -/
structure Out where
  /-- owner of the file, and whether it is open -/
  files : List (Owner × Bool) := [(.user, true)]
  io : ℕ := 0
  usingFile : Bool := false
  printed : Bool := false
  active : Bool := false
  /-- the files to which a summary was written, last one first -/
  log : List ℕ := []
deriving DecidableEq

/-- `fclose`; undefined on a file that is not open. -/
def close (files : List (Owner × Bool)) (h : ℕ) : Except Err (List (Owner × Bool)) :=
  match files[h]? with
  | some (o, true) => .ok (files.set h (o, false))
  | _ => .error .undefined

/-- `PrintSummary` (timer.cpp:20-94) as far as the file is concerned; undefined if the file is closed. -/
def print (s : Out) : Except Err Out :=
  match s.files[s.io]? with
  | some (_, true) => .ok { s with printed := true, log := s.io :: s.log }
  | _ => .error .undefined

/-- `SetOutput(FILE*)` (timer.hpp:57). -/
def setFile (s : Out) (h : ℕ) : Out := { s with io := h }

/-- `SetOutput(const std::string&)` (timer.cpp:108-118); `ok` says whether `fopen` succeeds. -/
def setName (s : Out) (ok : Bool) : Except Err Out :=
  if ok then
    let h := s.files.length
    .ok { setFile { s with files := s.files ++ [(.timer, true)] } h with usingFile := true }
  else .error .thrown

/-- `~Timer` (timer.cpp:10-18). -/
def destroy (s : Out) : Except Err Out := do
  let s ← if !s.printed && s.active then print s else .ok s
  if s.usingFile then
    let files ← close s.files s.io
    .ok { s with files := files }
  else .ok s

/-- What a program does with a timer, and with files of its own. -/
inductive Op
  /-- `fopen` by the program -/
  | userOpen
  /-- `fclose` by the program, of a file of its own -/
  | userClose (h : ℕ)
  | setFile (h : ℕ)
  | setName (ok : Bool)
  | print
  | activate
  | deactivate
deriving DecidableEq

/-- One operation.  A program can only name handles it opened itself. -/
def step (s : Out) : Op → Except Err Out
  | .userOpen => .ok { s with files := s.files ++ [(.user, true)] }
  | .userClose h => if s.files[h]? = some (.user, true) then .ok { s with files := s.files.set h (.user, false) } else .error .undefined
  | .setFile h => if s.files[h]? = some (.user, true) then .ok (setFile s h) else .error .undefined
  | .setName ok => setName s ok
  | .print => print s
  | .activate => .ok { s with active := true }
  | .deactivate => .ok { s with active := false }

/-- A program; an exception ends the operation, not the program (the program may catch it). -/
def run : List Op → Out → Except Err Out
  | [], s => .ok s
  | o :: os, s =>
    match step s o with
    | .ok s' => run os s'
    | .error .thrown => run os s
    | .error e => .error e

/-! ## The solver -/

/-- `ProfilerOutputToFile` (solver_stats.cpp:72-78), called by `Reset` (:45), hence by `Init` of every augmented Lagrangian solve
(`altro/augmented_lagrangian/al_solver.hpp:298`).  A process may have `limit` files open. -/
def outputToFile (limit : ℕ) (s : Out) (flag : Bool) : Except Err Out :=
  if flag then setName s (decide ((s.files.filter (·.2)).length < limit)) else .ok (setFile s 0)

/-- The beginning of `Solve` (al_solver.hpp:305-311) with the options `profiler_enable` and `profiler_output_to_file`. -/
def solveOutput (limit : ℕ) (s : Out) (enable flag : Bool) : Except Err Out := outputToFile limit { s with active := enable } flag

/-- Several solves with one solver. -/
def solves (limit : ℕ) : List (Bool × Bool) → Out → Except Err Out
  | [], s => .ok s
  | (e, f) :: l, s => do solves limit l (← solveOutput limit s e f)

/-! ## The text -/

/-- `{:<w}` -/
def padRight (w : ℕ) (s : Str) : Str := s ++ List.replicate (w - s.length) ' '

/-- `{:>w}` -/
def padLeft (w : ℕ) (s : Str) : Str := List.replicate (w - s.length) ' ' ++ s

/-- An integer in decimal. -/
def dec (x : ℤ) : Str := (if x < 0 then ['-'] else []) ++ Nat.toDigits 10 x.natAbs

/-- `name_width` (timer.cpp:73-78): the length of the name without the delimiters. -/
def nameWidth (name : List Str) : ℕ := (name.map List.length).sum

/-- `max_width` (timer.cpp:43, 79, 83-84) -/
def maxWidth (rows : List Row) : ℕ := (rows.map fun r => nameWidth r.name).foldl max 0 + 2

/-- `indent` (profile_entry.cpp:59-62) -/
def indent (name : List Str) : ℕ := nameWidth name.dropLast

/-- The columns of a line (timer.cpp:85-86, profile_entry.cpp:64-65). -/
def line (w : ℕ) (a b c d : Str) : Str :=
  padRight w a ++ [' ', ' '] ++ padLeft 8 b ++ [' ', ' '] ++ padLeft 7 c ++ [' ', ' '] ++ padLeft 7 d

/-- `ProfileEntry::Print` (profile_entry.cpp:58-67). -/
def rowText (w : ℕ) (r : Row) : Str :=
  line w (List.replicate (indent r.name) ' ' ++ r.name.getLastD []) (dec r.time) (dec r.percentTotal) (dec r.percentParent)

/-- The header (timer.cpp:85-86). -/
def headerText (w : ℕ) : Str := line w "Description".toList "Time (us)".toList "%Total".toList "%Parent".toList

/-- The lines written by `PrintSummary` (timer.cpp:83-92). -/
def summaryText (times : Times) : Except Err (List Str) := do
  let rows ← printSummary times
  let w := maxWidth rows
  return headerText w :: List.replicate (headerText w).length '-' :: rows.map (rowText w)

end Altro.Profile
