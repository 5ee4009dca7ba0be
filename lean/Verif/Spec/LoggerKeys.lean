import Verif.Spec.LoggerValues

/-! # The titles of the entries that a logger has, in the order in which they were made -/

namespace Altro.Spec.LoggerKeys
open Altro.LoggerMove (Op)
open Altro.Spec.LoggerValues (Vals set)

def step (v : Vals) : Op → Vals
  | .new i => set v i (some [])
  | .add i t _ => set v i ((v i).map fun l => if t ∈ l then l else l ++ [t])
  | .touch i t => set v i ((v i).map fun l => if t ∈ l then l else l ++ [t])
  | .copy i j => set v j (v i)
  | .move i j => set (set v j (v i)) i (some [])
  | .moveAssign i j => set (set v j (v i)) i (some [])
  | .destroy i => set v i none

end Altro.Spec.LoggerKeys
