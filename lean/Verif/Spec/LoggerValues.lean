import Verif.Model.LoggerMove

/-! # Loggers as values: every logger is the list of its column titles -/

namespace Altro.Spec.LoggerValues
open Altro.LoggerMove (Op)

abbrev Vals := ℕ → Option (List String)

def set (v : Vals) (i : ℕ) (x : Option (List String)) : Vals := fun k => if k = i then x else v k

/-- What the operation should do to the lists; `none` if the program is not a valid one. -/
def step (v : Vals) : Op → Option Vals
  | .new i => if v i = none then some (set v i (some [])) else none
  | .add i t pos => (v i).bind fun l => if pos ≤ l.length then some (set v i (some (l.insertIdx pos t))) else none
  | .touch i _ => (v i).map fun _ => v
  | .copy i j => (v i).bind fun l => if v j = none then some (set v j (some l)) else none
  | .move i j => (v i).bind fun l => if v j = none then some (set (set v j (some l)) i (some [])) else none
  | .moveAssign i j =>
    (v i).bind fun l => if v j = none ∨ i = j then none else some (set (set v j (some l)) i (some []))
  | .destroy i => (v i).map fun _ => set v i none

def run (v : Vals) : List Op → Option Vals
  | [] => some v
  | op :: ops => (step v op).bind fun v' => run v' ops

def isCopy : Op → Bool
  | .copy _ _ => true
  | _ => false

/-- Operations that end the life of a map. -/
def isEnd : Op → Bool
  | .moveAssign _ _ => true
  | .destroy _ => true
  | _ => false

def mark (T : ℕ → Bool) (i : ℕ) (b : Bool) : ℕ → Bool := fun k => if k = i then b else T k

/-- Which loggers have columns that come from a copy. -/
def copied (T : ℕ → Bool) : Op → ℕ → Bool
  | .new i => mark T i false
  | .add _ _ _ => T
  | .touch _ _ => T
  | .copy _ j => mark T j true
  | .move i j => mark (mark T j (T i)) i false
  | .moveAssign i j => mark (mark T j (T i)) i false
  | .destroy i => mark T i false

end Altro.Spec.LoggerValues
