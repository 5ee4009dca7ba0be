import Verif.Model.ExampleSolvers

/-!
# What the trajectory of an example solver should be
-/

namespace Altro.Spec
open Altro Matrix

/-- The weights of the stage cost are densities times the step `h`: 0.01 and 0.01 for the turn, 1 and 0.5 for the obstacles. -/
def Scaled (c : UniFields) (h : ℝ) : Prop :=
  match c.scenario with
  | .turn90 => (∀ i, c.Q i i = 0.01 * h) ∧ ∀ i, c.R i i = 0.01 * h
  | .threeObstacles => (∀ i, c.Q i i = h) ∧ ∀ i, c.R i i = 0.5 * h

/-- The time a scenario takes. -/
def duration : Scenario → ℝ
  | .turn90 => 3
  | .threeObstacles => 5

/-- A trajectory for the problem with `c.N` segments of length `h`, with the initial guess of the controls everywhere. -/
structure Starts (R : Rounding ℝ) (c : UniFields) (h : ℝ) (Z : List (KnotPt (Fin 3 → ℝ) (Fin 2 → ℝ) ℝ)) : Prop where
  length : Z.length = c.N + 1
  segment : ∀ k z, k < c.N → Z[k]? = some z → z.u = c.u0 ∧ z.h = h ∧ z.t = R.r32 (R.r32 k * h)
  last : ∀ z, Z[c.N]? = some z → z.u = 0 ∧ z.h = 0 ∧ z.t = R.r32 (R.r32 c.N * h)

/-- .. that is a motion of the unicycle from the initial state. -/
structure Moves (c : UniFields) (Z : List (KnotPt (Fin 3 → ℝ) (Fin 2 → ℝ) ℝ)) : Prop where
  init : ∀ z, Z[0]? = some z → z.x = c.x0
  step : ∀ k z z', Z[k]? = some z → Z[k + 1]? = some z' → z'.x = unicycle.rk4 z.x z.u z.t z.h

end Altro.Spec
