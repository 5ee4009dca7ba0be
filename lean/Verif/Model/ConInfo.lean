import Verif.Model.ALCost

/-!
# Constraint info   (`al_solver.hpp`, `al_cost.hpp`, `constraint_values.hpp`)
-/

namespace Altro

/-- `ConstraintInfo` (constraint.hpp:134-141): label, knot point index, violation, type. -/
structure ConInfo (K : Type*) where
  label : String
  index : ℤ
  violation : List K
  type : String

variable {K : Type*} [Field K] [LinearOrder K] {n m : ℕ}

/-- `GetConstraintType` (constraint.hpp:193-201). -/
def ConKind.typeName : ConKind → String
  | .equality => "Equality Constraint"
  | .inequality => "Inequality Constraint"

/-- `ConstraintValues::GetConstraintInfo` (constraint_values.hpp:69-71): the index is 0. -/
def ConVal.info {κ : ConKind} (s : ConVal κ n m K) : ConInfo K where
  label := s.con.label
  index := 0
  violation := List.ofFn s.violation
  type := κ.typeName

/-- `ALCost::GetConstraintInfo` (al_cost.hpp:98-105): equalities, then inequalities, appended. -/
def ALCost.info (s : ALCost n m K) (out : List (ConInfo K)) : List (ConInfo K) :=
  s.ineq.foldl (fun o v => o ++ [v.info]) (s.eq.foldl (fun o v => o ++ [v.info]) out)

/-- `for (i = i_last; i < coninfo.size(); ++i) coninfo[i].index = k` (al_solver.hpp:91-93). -/
def stampFrom (iLast : ℕ) (k : ℤ) (l : List (ConInfo K)) : List (ConInfo K) :=
  l.mapIdx fun i c => if iLast ≤ i then { c with index := k } else c

/-- The loop over knot points (al_solver.hpp:89-95): the records so far and `i_last`. -/
def infoLoop (costs : ℕ → ALCost n m K) : ℕ → List (ConInfo K) × ℕ
  | 0 => ([], 0)
  | k + 1 =>
    let r := infoLoop costs k
    let l := stampFrom r.2 k ((costs k).info r.1)
    (l, l.length)

/-- `lpNorm<Infinity>()` of the violation. -/
def ConInfo.norm (c : ConInfo K) : K := ALCost.infNormL c.violation

/-- The comparison passed to `std::sort` (al_solver.hpp:97-100). -/
def ConInfo.comp (a b : ConInfo K) : Bool := decide (a.norm > b.norm)

/-- What the C++ standard guarantees about `std::sort(first, last, comp)` when `comp` is a strict weak order: the result
is a permutation in which no later element compares before an earlier one.  (`std::sort` is not stable, so the result is
not determined.) -/
def StdSort (comp : α → α → Bool) (l l' : List α) : Prop :=
  l'.Perm l ∧ l'.Pairwise fun a b => comp b a = false

/-- `GetConstraintInfo(should_sort)` (al_solver.hpp:86-104) can return `l`. -/
def ConInfoResult (costs : ℕ → ALCost n m K) (N : ℕ) (shouldSort : Bool) (l : List (ConInfo K)) : Prop :=
  if shouldSort then StdSort ConInfo.comp (infoLoop costs (N + 1)).1 l else l = (infoLoop costs (N + 1)).1

end Altro
