import Verif.Model.ProfileOutput

/-!
# Who closes the profile, and how often it is printed
-/

namespace Altro.Spec.Profile
open Altro.Profile

/-- The successful changes of the output in a program, in order: `true` for a file given by name (opened by the timer), `false` for a handle. -/
def settings : List Op → List Bool
  | [] => []
  | .setFile _ :: os => false :: settings os
  | .setName true :: os => true :: settings os
  | _ :: os => settings os

/-- Every file the timer opened is closed, and no open file of the program was closed. -/
structure Right (before after : List (Owner × Bool)) : Prop where
  own : ∀ (h : ℕ) b, after[h]? = some (.timer, b) → b = false
  others : ∀ h : ℕ, before[h]? = some (.user, true) → after[h]? = some (.user, true)

/-- Number of explicit calls of `PrintSummary`. -/
def prints : List Op → ℕ
  | [] => 0
  | .print :: os => prints os + 1
  | _ :: os => prints os

/-- Whether the timer is active at the end of a program, `on` saying whether it was at the beginning. -/
def activeAfter (on : Bool) : List Op → Bool
  | [] => on
  | .activate :: os => activeAfter true os
  | .deactivate :: os => activeAfter false os
  | _ :: os => activeAfter on os

end Altro.Spec.Profile
