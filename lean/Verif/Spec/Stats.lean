import Verif.Model.Stats

/-!
# Specification of the recorded statistics: what a history of calls means
-/

namespace Altro.Spec

/-- The public operations on the recorded data. -/
inductive StatsOp (F : Type) where
  | log (t : Option Col) (x : F)
  | newIteration
  | reset

/-- The calls made since the last reset. -/
def sinceReset {F : Type} (ops : List (StatsOp F)) : List (StatsOp F) :=
  ops.foldl (fun acc op => match op with | .reset => [] | _ => acc ++ [op]) []

/-- Number of iterations opened by calls without a reset: a `log` opens the first one if nothing is open. -/
def iterationsOpened {F : Type} : List (StatsOp F) → ℕ
  | [] => 0
  | .log _ _ :: rest => 1 + (rest.filter fun op => match op with | .newIteration => true | _ => false).length
  | op :: rest => ((op :: rest).filter fun op => match op with | .newIteration => true | _ => false).length

/-- The last value logged for column `c`, zero if none. -/
def lastLogged {F : Type} [Zero F] (c : Col) (ops : List (StatsOp F)) : F :=
  ops.foldl (fun acc op => match op with | .log (some c') x => if c' = c then x else acc | _ => acc) 0

end Altro.Spec
