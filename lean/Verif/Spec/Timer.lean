import Verif.Model.Timer

/-!
# Specification of the profiler
-/

namespace Altro.Spec.Timer
open Altro.Timer

/-- Whole microseconds in a number of nanoseconds (towards zero). -/
def micros (ns : ℤ) : ℤ := if 0 ≤ ns then ns / 1000 else -((-ns) / 1000)

/-- The time a program takes. -/
def elapsed : Prog → ℤ
  | .seq p q => elapsed p + elapsed q
  | .tick d => d
  | .scope _ body => elapsed body
  | _ => 0

/-- Whether the profiler is on after the program, if it was `on` before. -/
def onAfter (on : Bool) : Prog → Bool
  | .seq p q => onAfter (onAfter on p) q
  | .activate => true
  | .deactivate => false
  | .scope _ body => onAfter on body
  | _ => on

/-- The timed executions of scopes in a program, in the order in which they end: the path of names of the timed scopes
around it (inside the program) and its own, and how long it took.  A scope is timed if the profiler is on when it
begins. -/
def executions (on : Bool) : Prog → List (List Str × ℤ)
  | .seq p q => executions on p ++ executions (onAfter on p) q
  | .scope name body =>
    if on then (executions on body).map (fun e => (name :: e.1, e.2)) ++ [([name], elapsed body)]
    else executions on body
  | _ => []

/-- Total (in whole microseconds each) of the executions of exactly one path. -/
def total (es : List (List Str × ℤ)) (path : List Str) : ℤ :=
  (es.map fun e => if e.1 = path then micros e.2 else 0).sum

/-- What the map records for a key. -/
def recorded (m : Times) (k : Str) : Option ℤ := m.lookup k

/-- The name of a path: its components with `/` between them. -/
def pathName : List Str → Str
  | [] => []
  | [a] => a
  | a :: rest => a ++ '/' :: pathName rest

/-- A name without `/`. -/
def SlashFree (s : Str) : Prop := '/' ∉ s

/-- All names in a program satisfy `P`. -/
def Names (P : Str → Prop) : Prog → Prop
  | .seq p q => Names P p ∧ Names P q
  | .scope name body => P name ∧ Names P body
  | _ => True

/-- The clock never goes back. -/
def Monotone : Prog → Prop
  | .seq p q => Monotone p ∧ Monotone q
  | .scope _ body => Monotone body
  | .tick d => 0 ≤ d
  | _ => True

/-- Keys in increasing order (an invariant of `std::map`). -/
def Sorted (m : Times) : Prop := (m.map Prod.fst).Pairwise (· < ·)

/-- The key of a path's parent is recorded too. -/
def ParentClosed (m : Times) : Prop :=
  ∀ (path : List Str) (a : Str), path ≠ [] → (∀ s ∈ path ++ [a], SlashFree s) →
    pathName (path ++ [a]) ∈ m.map Prod.fst → pathName path ∈ m.map Prod.fst

/-- The total time: the sum over the top-level keys. -/
def totalTime (m : Times) : ℤ := (m.map fun kv => if '/' ∈ kv.1 then 0 else kv.2).sum

/-- The percentage to be printed: the integer part, or `-1` if the base is zero. -/
def percent (t base : ℤ) : ℤ := if base = 0 then -1 else 100 * t / base

end Altro.Spec.Timer
