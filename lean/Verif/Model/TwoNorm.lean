import Verif.Model.ALCost
import Mathlib.Analysis.Real.Sqrt

/-!
# `MaxViolation<2>` at the three levels

Over `ℝ` because of the square roots.
-/

namespace Altro

/-- `lpNorm<2>` of a list of numbers. -/
noncomputable def twoNormL (l : List ℝ) : ℝ := Real.sqrt (l.foldl (fun a x => a + x ^ 2) 0)

/-- `ConstraintValues::MaxViolation<2>` (constraint_values.hpp:215-220). -/
noncomputable def ConVal.maxViolation2 {κ : ConKind} {n m : ℕ} (s : ConVal κ n m ℝ) : ℝ :=
  twoNormL (List.ofFn s.violation)

/-- `ALCost::MaxViolation<2>` (al_cost.hpp:343-353). -/
noncomputable def ALCost.maxViolation2 {n m : ℕ} (s : ALCost n m ℝ) : ℝ :=
  twoNormL [twoNormL (s.eq.map (·.maxViolation2)), twoNormL (s.ineq.map (·.maxViolation2))]

/-- `GetMaxViolation<2>` (al_solver.hpp:417-424). -/
noncomputable def ALCosts.maxViolation2 {n m : ℕ} (cs : List (ALCost n m ℝ)) : ℝ :=
  twoNormL (cs.map (·.maxViolation2))

end Altro
