import Verif.Spec.Double
import Mathlib.Algebra.BigOperators.Group.List.Basic

/-!
# Sums of `double`s, in any order
-/

namespace Altro.Spec

/-- An order of evaluation of a sum. -/
inductive SumTree where
  | leaf (x : Dbl)
  | add (l r : SumTree)

namespace SumTree

/-- The sum in `double` arithmetic. -/
def eval : SumTree → Dbl
  | leaf x => x
  | add l r => l.eval + r.eval

/-- The numbers that are added. -/
def leaves : SumTree → List Dbl
  | leaf x => [x]
  | add l r => l.leaves ++ r.leaves

/-- How many additions a number goes through, at most. -/
def depth : SumTree → ℕ
  | leaf _ => 0
  | add l r => max l.depth r.depth + 1

end SumTree

/-- The exact sum. -/
def exactSum (l : List Dbl) : ℚ := (l.map Dbl.val).sum

/-- The exact sum of the absolute values. -/
def absSum (l : List Dbl) : ℚ := (l.map fun x => |x.val|).sum

/-- The unit roundoff of binary64. -/
def u64 : ℚ := 1 / 2 ^ 53

/-- The relative error of `n` additions one after the other. -/
def gam (n : ℕ) : ℚ := (1 + u64) ^ n - 1

/-- A finite number of the format. -/
def Number (x : Dbl) : Prop := Finite x ∧ x.Ok

end Altro.Spec
