import Verif.Model.Problem

/-!
# The console logger   (`altro/common/log_entry.hpp`, `log_entry.cpp`, `solver_logger.hpp`, `solver_logger.cpp`)

Printing is modelled by the list of lines written; a line is a list of cells, and the text of a cell is kept together
with the width to which `fmt` pads it on the left (`{:>{}}`) and its colour.  Formatting a value with a user-supplied
format string is a parameter `φ`, since only the result is stored.  Colours are the codes of `fmt::color`.
-/

namespace Altro.Logger

/-- A `double`: the comparisons below are the IEEE ones (all false for not-a-number). -/
inductive Dbl
  | nan
  | ninf
  | val (q : ℚ)
  | pinf
deriving DecidableEq

namespace Dbl

/-- `a < b` -/
def lt : Dbl → Dbl → Bool
  | .nan, _ => false
  | _, .nan => false
  | .ninf, .ninf => false
  | .ninf, _ => true
  | .val _, .ninf => false
  | .val a, .val b => decide (a < b)
  | .val _, .pinf => true
  | .pinf, _ => false

/-- `a <= b` -/
def le : Dbl → Dbl → Bool
  | .nan, _ => false
  | _, .nan => false
  | .ninf, _ => true
  | .val _, .ninf => false
  | .val a, .val b => decide (a ≤ b)
  | .val _, .pinf => true
  | .pinf, .pinf => true
  | .pinf, _ => false

end Dbl

/-- A value passed to `Log`: the solver logs `int`s and `double`s (a string cannot be compared with the bounds, so
`Log` does not compile for it).  An `int` is converted to `double` by the comparisons, which is exact. -/
inductive Val
  | int (i : ℤ)
  | dbl (d : Dbl)
deriving DecidableEq

/-- See `Val`. -/
def Val.toDbl : Val → Dbl
  | .int i => .val i
  | .dbl d => d

/-- `fmt::color`, by its code. -/
abbrev Color := ℕ
/-- `fmt::color::white` -/
def white : Color := 0xFFFFFF
/-- `fmt::color::green` -/
def green : Color := 0x008000
/-- `fmt::color::red` -/
def red : Color := 0xFF0000
/-- `fmt::color::yellow` -/
def yellow : Color := 0xFFFF00

/-- `LogLevel` (log_entry.hpp:27-34), by its number. -/
abbrev Level := ℕ
/-- `LogLevel::kInner` -/
def kInner : Level := 3

/-- `LogEntry::EntryType` (log_entry.hpp:47). -/
inductive EntryType
  | kInt | kFloat | kString
deriving DecidableEq

/-- `LogEntry` (log_entry.hpp:45-229).  `type` is `none` while uninitialised (default constructor). -/
structure Entry where
  title : String := ""
  name : String := ""
  format : String := ""
  data : String := ""
  type : Option EntryType := none
  level : Level := kInner
  width : ℤ := 10
  bounded : Bool := false
  lower : Dbl := .ninf
  upper : Dbl := .pinf
  color : Color := white
  colorDefault : Color := white
  colorLower : Color := green
  colorUpper : Color := red
deriving DecidableEq

/-- A formatter: `fmt::format(format, value)`, which may throw. -/
abbrev Fmt := String → Val → Except Err String

/-- A printed cell: `fmt::print(fg(color), "{:>{}}", text, width)`. -/
structure Cell where
  text : String
  width : ℤ
  color : Color
deriving DecidableEq

/-- A printed line: the header with the width of the rule below it, or a row of data. -/
inductive Line
  | header (cells : List Cell) (rule : ℤ) (color : Color)
  | data (cells : List Cell)
deriving DecidableEq

namespace Entry

/-- `LogEntry(title, fmt, type)` (log_entry.hpp:61-62). -/
def make (title format : String) (type : EntryType) : Entry :=
  { title := title, name := title, format := format, type := some type }

/-- `IsActive` (log_entry.hpp:68). -/
def isActive (e : Entry) (level : Level) : Bool := decide (level ≥ e.level)

/-- `SetLowerBound` (log_entry.cpp:9-15). -/
def setLowerBound (e : Entry) (lb : Dbl) (c : Color) : Except Err Entry :=
  if lb.le e.upper then .ok { e with bounded := true, lower := lb, colorLower := c } else .error .assertion

/-- `SetUpperBound` (log_entry.cpp:17-23). -/
def setUpperBound (e : Entry) (ub : Dbl) (c : Color) : Except Err Entry :=
  if e.lower.le ub then .ok { e with bounded := true, upper := ub, colorUpper := c } else .error .assertion

/-- `GetColor` (log_entry.hpp:200-211). -/
def getColor (e : Entry) (v : Val) : Color :=
  if e.bounded then
    if v.toDbl.lt e.lower then e.colorLower
    else if e.upper.lt v.toDbl then e.colorUpper
    else e.colorDefault
  else e.colorDefault

/-- `Log` (log_entry.hpp:142-146). -/
def log (φ : Fmt) (e : Entry) (v : Val) : Except Err Entry := do
  let d ← φ e.format v
  pure { e with color := e.getColor v, data := d }

/-- A cell is padded to a width; a negative dynamic width makes `fmt` throw. -/
def cell (text : String) (width : ℤ) (color : Color) : Except Err Cell :=
  if 0 ≤ width then .ok ⟨text, width, color⟩ else .error .thrown

/-- `Print` (log_entry.hpp:154-158) of an active entry. -/
def printCell (e : Entry) : Except Err Cell := cell e.data e.width e.color

/-- `PrintHeader` (log_entry.hpp:167-171) of an active entry. -/
def headerCell (e : Entry) (c : Color) : Except Err Cell := cell e.title e.width c

/-- `Clear` (log_entry.hpp:190). -/
def clear (e : Entry) : Entry := { e with data := "" }

/-- The chained setters of an entry. -/
inductive Setter
  | lower (lb : Dbl) (c : Color)
  | upper (ub : Dbl) (c : Color)
  | width (w : ℤ)
  | level (l : Level)
  | name (s : String)
  | type (t : EntryType)
deriving DecidableEq

/-- `SetWidth`, `SetLevel`, `SetName`, `SetType` (log_entry.cpp:25-43) and the two bounds. -/
def set (e : Entry) : Setter → Except Err Entry
  | .lower lb c => e.setLowerBound lb c
  | .upper ub c => e.setUpperBound ub c
  | .width w => .ok { e with width := w }
  | .level l => .ok { e with level := l }
  | .name s => .ok { e with name := s }
  | .type t => .ok { e with type := some t }

end Entry

/-- `std::unordered_map<std::string, LogEntry>` as an association list with distinct keys; the order of iteration is
not observable here (`Clear` treats all entries alike). -/
abbrev Map := List (String × Entry)

namespace Map

/-- Assignment through a reference to an existing element. -/
def put (m : Map) (t : String) (e : Entry) : Map := m.map fun p => if p.1 = t then (t, e) else p

/-- `emplace`: nothing happens if the key exists. -/
def emplace (m : Map) (t : String) (e : Entry) : Map :=
  match m.lookup t with
  | some _ => m
  | none => m ++ [(t, e)]

/-- `operator[]`: inserts a default-constructed entry if the key is missing, and returns a reference. -/
def touch (m : Map) (t : String) : Map := m.emplace t {}

/-- The entry read through `operator[]`. -/
def get (m : Map) (t : String) : Entry := (m.lookup t).getD {}

end Map

end Altro.Logger

namespace Altro
open Altro.Logger

/-- `SolverLogger` (solver_logger.hpp:53-173).  `order_` holds pointers to the keys of the map, which stay valid when
the map grows (and no entry is ever erased), so it is modelled by the keys. -/
structure SolverLogger where
  level : Level := 0
  frequency : ℤ := 10
  count : ℤ := 0
  entries : Map := []
  order : List String := []
  headerColor : Color := white

namespace SolverLogger

/-- `AddEntry` (solver_logger.hpp:175-207); the returned reference is to the entry with key `title`.  An iterator
outside `order_` is undefined behaviour. -/
def addEntry (l : SolverLogger) (col : ℤ) (title format : String) (type : EntryType) : Except Err SolverLogger :=
  if ¬ col ≤ l.entries.length then .error .assertion
  else if ¬ col ≥ -(l.entries.length : ℤ) - 1 then .error .assertion
  else
    let entries := l.entries.emplace title (Entry.make title format type)
    let pos : ℤ := if col < 0 then (l.order.length : ℤ) + col + 1 else col
    if 0 ≤ pos ∧ pos ≤ l.order.length then
      .ok { l with entries := entries, order := l.order.insertIdx pos.toNat title }
    else .error .undefined

/-- `GetEntry(title).Set...(...)` (solver_logger.hpp:63): creates the entry if it does not exist.  Also used for the
setters chained to `AddEntry`, where the entry exists. -/
def setEntry (l : SolverLogger) (title : String) (s : Entry.Setter) : Except Err SolverLogger := do
  let m := l.entries.touch title
  let e ← (m.get title).set s
  pure { l with entries := m.put title e }

/-- `SetLevel` (solver_logger.hpp:91). -/
def setLevel (l : SolverLogger) (lv : Level) : SolverLogger := { l with level := lv }

/-- `SetFrequency` (solver_logger.hpp:106-109). -/
def setFrequency (l : SolverLogger) (f : ℤ) : Except Err SolverLogger :=
  if f ≥ 0 then .ok { l with frequency := f } else .error .assertion

/-- `Log` (solver_logger.hpp:209-215): `operator[]` creates missing entries. -/
def log (φ : Fmt) (l : SolverLogger) (title : String) (v : Val) : Except Err SolverLogger :=
  if l.level > 0 then
    let m := l.entries.touch title
    if (m.get title).isActive l.level then do
      let e ← (m.get title).log φ v
      pure { l with entries := m.put title e }
    else .ok { l with entries := m }
  else .ok l

/-- The entries of `order_` that are active, in order. -/
def activeEntries (l : SolverLogger) : List Entry :=
  (l.order.map l.entries.get).filter fun e => e.isActive l.level

/-- `PrintHeader` (solver_logger.cpp:8-27).  The lookup `entries_[*title]` never creates an entry, because `order_`
points at existing keys.  `total_width` overflows only for absurd widths, which is not modelled. -/
def printHeader (l : SolverLogger) : Except Err (List Line) :=
  if l.level = 0 then .ok []
  else do
    let cells ← l.activeEntries.mapM fun e => e.headerCell l.headerColor
    if cells = [] then pure []
    else pure [.header cells (l.activeEntries.map fun e => e.width + 1).sum l.headerColor]

/-- `PrintData` (solver_logger.cpp:29-45). -/
def printData (l : SolverLogger) : Except Err (List Line) :=
  if l.level = 0 then .ok []
  else do
    let cells ← l.activeEntries.mapM Entry.printCell
    if cells = [] then pure [] else pure [.data cells]

/-- `Print` (solver_logger.cpp:47-54): the remainder by zero is undefined behaviour. -/
def print (l : SolverLogger) : Except Err (SolverLogger × List Line) :=
  if l.frequency = 0 then .error .undefined
  else if Int.tmod l.count l.frequency = 0 then do
    let h ← l.printHeader
    let d ← l.printData
    pure ({ l with count := 0 + 1 }, h ++ d)
  else do
    let d ← l.printData
    pure ({ l with count := l.count + 1 }, d)

/-- `Clear` (solver_logger.cpp:57-62). -/
def clear (l : SolverLogger) : SolverLogger :=
  { l with count := 0, entries := l.entries.map fun p => (p.1, p.2.clear) }

/-- The member functions of the logger. -/
inductive Op
  | add (col : ℤ) (title format : String) (type : EntryType)
  | set (title : String) (s : Entry.Setter)
  | level (lv : Level)
  | frequency (f : ℤ)
  | headerColor (c : Color)
  | log (title : String) (v : Val)
  | printHeader
  | printData
  | print
  | clear

/-- One call, with the lines it prints. -/
def step (φ : Fmt) (l : SolverLogger) : Op → Except Err (SolverLogger × List Line)
  | .add col t f ty => return (← l.addEntry col t f ty, [])
  | .set t s => return (← l.setEntry t s, [])
  | .level lv => return (l.setLevel lv, [])
  | .frequency f => return (← l.setFrequency f, [])
  | .headerColor c => return ({ l with headerColor := c }, [])
  | .log t v => return (← l.log φ t v, [])
  | .printHeader => return (l, ← l.printHeader)
  | .printData => return (l, ← l.printData)
  | .print => l.print
  | .clear => return (l.clear, [])

/-- A sequence of calls, with everything printed. -/
def run (φ : Fmt) (l : SolverLogger) : List Op → Except Err (SolverLogger × List Line)
  | [] => .ok (l, [])
  | op :: ops => do
    let (l1, o1) ← l.step φ op
    let (l2, o2) ← run φ l1 ops
    return (l2, o1 ++ o2)

/-- `DefaultLogger` (solver_stats.cpp:80-114), as calls on a new logger. -/
def defaultOps : List Op :=
  [.add 0 "iters" "{:>4}" .kInt, .set "iters" (.name "iterations"), .set "iters" (.level 2), .set "iters" (.width 6),
   .add 1 "iter_al" "{:>4}" .kInt, .set "iter_al" (.name "iterations_outer"), .set "iter_al" (.level 1),
   .set "iter_al" (.width 8),
   .add (-1) "cost" "{:>.4g}" .kFloat,
   .add (-1) "viol" "{:>.3e}" .kFloat, .set "viol" (.name "constraint_violation"),
   .add (-1) "dJ" "{:>.2e}" .kFloat, .set "dJ" (.name "cost_improvement"),
   .add (-1) "grad" "{:>.2e}" .kFloat, .set "grad" (.name "gradient"), .set "grad" (.level 2),
   .add (-1) "alpha" "{:>.2f}" .kFloat, .set "alpha" (.name "line_search_step_length"), .set "alpha" (.level 3),
   .set "alpha" (.width 6),
   .add (-1) "reg" "{:>.1e}" .kFloat, .set "reg" (.name "regularization"), .set "reg" (.level 4),
   .set "reg" (.width 7),
   .add (-1) "z" "{:>.3f}" .kFloat, .set "z" (.name "cost_improvement_ratio"), .set "z" (.level 4),
   .set "z" (.width 5),
   .add (-1) "pen" "{:>.1e}" .kFloat, .set "pen" (.name "max_penalty"), .set "pen" (.level 5), .set "pen" (.width 7),
   .headerColor yellow]

/-- `SolverStats::SetTolerances` (solver_stats.cpp:16-23). -/
def toleranceOps (cost viol grad : Dbl) : List Op :=
  [.set "dJ" (.lower cost green), .set "viol" (.lower viol green), .set "grad" (.lower grad green)]

/-- The logger part of `SolverStats::Reset` (solver_stats.cpp:40-51), with the options `verbose` and
`header_frequency`. -/
def resetOps (verbose : Level) (headerFrequency : ℤ) : List Op :=
  [.clear, .level verbose, .frequency (if verbose < kInner then headerFrequency else 2147483647)]

end SolverLogger
end Altro
