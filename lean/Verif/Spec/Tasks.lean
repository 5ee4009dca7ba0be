import Mathlib.Data.List.Count
import Mathlib.Data.Int.Notation

/-! What a good assignment of knot points to tasks is. -/

namespace Altro.Spec

/-- How many of the half-open blocks contain `k`. -/
def timesCovered (bl : List (ℤ × ℤ)) (k : ℤ) : ℕ := bl.countP fun b => decide (b.1 ≤ k ∧ k < b.2)

/-- Every knot point `0..N` is in exactly one block, and no block contains anything else. -/
def Partition (N : ℕ) (bl : List (ℤ × ℤ)) : Prop :=
  ∀ k : ℤ, timesCovered bl k = if 0 ≤ k ∧ k ≤ N then 1 else 0

/-- A strictly increasing list of at least two indices starting with `0` and ending with `N + 1`. -/
def ValidInds (N : ℕ) (l : List ℤ) : Prop :=
  l.Pairwise (· < ·) ∧ 2 ≤ l.length ∧ l.head? = some 0 ∧ l.getLast? = some ((N : ℤ) + 1)

end Altro.Spec
