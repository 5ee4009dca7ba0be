import Verif.Model.ILQR
import Verif.Model.Double

/-!
# The default options
-/

namespace Altro

/-- The default values of the members of `SolverOptions` that the solver's control flow reads (solver_options.hpp:23-48);
`lit` is the value of a literal of type `double`. -/
def Opts.default {F : Type} (lit : ℚ → F) : Opts F where
  maxTotal := 300
  maxOuter := 30
  maxInner := 100
  costTol := lit (1 / 10 ^ 4)
  gradTol := lit (1 / 10 ^ 2)
  regFactor := lit (16 / 10)
  regInitial := lit 0
  regMax := lit (10 ^ 8)
  regMin := lit (1 / 10 ^ 8)
  regFailThreshold := 100
  checkBounds := true
  stateMax := lit (10 ^ 8)
  controlMax := lit (10 ^ 8)
  lsMax := 20
  lsLower := lit (1 / 10 ^ 8)
  lsUpper := lit 10
  lsFactor := lit 2
  conTol := lit (1 / 10 ^ 4)
  maxPenalty := lit (10 ^ 8)
  initialPenalty := lit 1
  resetDuals := true

end Altro
