import Verif.Model.ExampleProblems
import Verif.Model.ILQR
import Verif.Model.Trajectory

/-!
# The solvers of the unicycle example   (`examples/problems/unicycle.hpp`)

A `UnicycleProblem` is an object with public fields; `MakeProblem` changes some of them, `InitialTrajectory` reads them.  `R` are the
roundings of times and steps, which are `float`.
-/

namespace Altro
open Matrix

namespace UniFields

/-- The division in `GetTimeStep` (problems/unicycle.hpp:76): `tf` is a `float`, and `N` is converted to one. -/
noncomputable def stepOf (R : Rounding ℝ) (tf : ℝ) (N : ℕ) : ℝ := R.r32 (tf / R.r32 N)

/-- `GetTimeStep` (problems/unicycle.hpp:76). -/
noncomputable def timeStep (R : Rounding ℝ) (s : UniFields) : ℝ := stepOf R s.tf s.N

/-- `InitialTrajectory` (problems/unicycle.hpp:83-92): the controls of the segments are set, then the steps and times. -/
noncomputable def initialTrajectory (R : Rounding ℝ) (s : UniFields) : List (KnotPt (Fin 3 → ℝ) (Fin 2 → ℝ) ℝ) :=
  Traj.setUniformStep R (s.timeStep R) ((Traj.zero s.N).mapIdx fun k z => if k < s.N then { z with u := s.u0 } else z)

/-- What the solver does with the trajectory it is given, `Rollout` (ilqr.hpp:453-459), with the model of the example
(problems/unicycle.hpp:33): `k` steps from the initial state. -/
noncomputable def rolled (x0 : Fin 3 → ℝ) (Z : List (KnotPt (Fin 3 → ℝ) (Fin 2 → ℝ) ℝ)) : ℕ → List (KnotPt (Fin 3 → ℝ) (Fin 2 → ℝ) ℝ)
  | 0 => Z.modify 0 fun z => { z with x := x0 }
  | k + 1 =>
    let Z' := rolled x0 Z k
    match Z'[k]? with
    | none => Z'
    | some z => Z'.modify (k + 1) fun z' => { z' with x := unicycle.rk4 z.x z.u z.t z.h }

/-- What the member functions return; a problem is given by the fields it was made from and the calls that made it. -/
inductive Made
  | problem (c : UniFields) (calls : List (ExCall 3 2))
  | trajectory (Z : List (KnotPt (Fin 3 → ℝ) (Fin 2 → ℝ) ℝ))
  /-- `al`: the costs of the problem are augmented Lagrangian costs -/
  | solver (c : UniFields) (calls : List (ExCall 3 2)) (al : Bool) (Z : List (KnotPt (Fin 3 → ℝ) (Fin 2 → ℝ) ℝ))

/-- What a program can do with the object.  The checks of the cost functions pass (C71). -/
inductive Act
  /-- `SetScenario` (problems/unicycle.hpp:74) -/
  | scenario (c : Scenario)
  /-- assignments to public fields; `scenario_` and `tf` are private (problems/unicycle.hpp:78-80) -/
  | assign (f : UniFields)
  /-- `MakeProblem` (problems/unicycle.cpp:11-89) -/
  | problem (add : Bool)
  /-- `InitialTrajectory` (problems/unicycle.hpp:83-92) -/
  | trajectory
  /-- `MakeSolver` (problems/unicycle.hpp:94-108), which makes the problem with constraints (the default argument) -/
  | solver (al : Bool)
  /-- `MakeALSolver` (problems/unicycle.hpp:110-120), whose problem is the augmented Lagrangian one -/
  | alSolver

/-- One of these: the fields afterwards, and what is returned. -/
noncomputable def act (R : Rounding ℝ) (s : UniFields) : Act → UniFields × Option Made
  | .scenario c => (s.setScenario c, none)
  | .assign f => ({ f with scenario := s.scenario, tf := s.tf }, none)
  | .problem add =>
    let c := s.configure (stepOf R)
    (c, some (.problem c (c.calls add)))
  | .trajectory => (s, some (.trajectory (s.initialTrajectory R)))
  | .solver al =>
    let c := s.configure (stepOf R)
    (c, some (.solver c (c.calls true) al (rolled c.x0 (c.initialTrajectory R) c.N)))
  | .alSolver =>
    let c := s.configure (stepOf R)
    (c, some (.solver c (c.calls true) true (rolled c.x0 (c.initialTrajectory R) c.N)))

/-- A program: the fields afterwards, and what was returned, in order. -/
noncomputable def acts (R : Rounding ℝ) (s : UniFields) : List Act → UniFields × List Made
  | [] => (s, [])
  | a :: l =>
    let r := s.act R a
    let q := acts R r.1 l
    (q.1, r.2.toList ++ q.2)

end UniFields
end Altro
