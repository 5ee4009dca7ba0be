import Verif.Model.Problem

/-!
# Setting costs and dynamics of consecutive knot points   (`altro/problem/problem.hpp:141-147, 186-192`)

The index `i + k_start` is computed as `size_t` and converted to `int`; it is the sum whenever that fits into an `int`.
-/

namespace Altro.Prob
variable {C M E K : Type} (I : ProbIface M E)

/-- `SetCostFunction(costfuns, k_start)` (problem.hpp:142-147). -/
def setCosts (p : Prob C M E) : List (Option C) → ℤ → Except Err (Prob C M E)
  | [], _ => .ok p
  | c :: cs, k => do
    let p ← setCost p c k
    setCosts p cs (k + 1)

/-- `SetDynamics(models, k_start)` (problem.hpp:187-192). -/
def setDynamicsRange (p : Prob C M E) : List (Option M) → ℤ → Except Err (Prob C M E)
  | [], _ => .ok p
  | m :: ms, k => do
    let p ← setDynamics I p m k
    setDynamicsRange p ms (k + 1)

end Altro.Prob
