import Verif.Model.ALSolver
import Verif.Model.KnotPoint

/-!
# The augmented Lagrangian solver with the model of `ALCost`
-/

namespace Altro
variable {K : Type} [Field K] [LinearOrder K] {n m : ℕ}

/-- The operations of `ALCost` used by the outer solver (al_cost.hpp:189-195, 314-379). -/
def alOps : CostOps (ALCost n m K) K where
  updateDuals := ALCost.updateDuals
  updatePenalties := ALCost.updatePenalties
  resetDuals := ALCost.resetDuals
  setPenalty := fun r c => c.setPenalty r
  maxPenalty := ALCost.maxPenalty

end Altro
