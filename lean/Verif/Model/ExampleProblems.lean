import Verif.Model.Validate

/-!
# The example problems   (`examples/problems/triple_integrator.hpp`, `unicycle.{hpp,cpp}`)

The functions that build problems out of costs, models and constraints, as sequences of calls on the class of
`Model/Problem.lean`.  Numbers are reals; the division `tf / N`, which the code does in single precision, is a
parameter.
-/

namespace Altro
open Matrix Prob

/-- The constraints used. -/
inductive ExCon (n m : ℕ)
  | bound (b : ControlBound m ℝ)
  | goal (xf : Fin n → ℝ)
  | circles (c : List (Circle ℝ))

/-- `OutputDimension` (basic_constraints.hpp:25, 94-96; obstacle_constraints.hpp:97). -/
def ExCon.dim {n m : ℕ} : ExCon n m → ℕ
  | .bound b => b.dim
  | .goal _ => n
  | .circles c => c.length

/-- The models used: the discretized example models and `IdentityDynamics`. -/
inductive ExModel
  | triple (dof : ℕ)
  | unicycle
  | identity (n m : ℕ)

/-- `StateDimension`, `ControlDimension`. -/
def ExModel.dims : ExModel → ℕ × ℕ
  | .triple dof => (3 * dof, dof)
  | .unicycle => (3, 2)
  | .identity n m => (n, m)

/-- The interface of the problem class for these models and constraints. -/
def exIface (n m : ℕ) : ProbIface ExModel (ExCon n m) where
  sdim a := a.dims.1
  cdim a := a.dims.2
  ident n m := .identity n m
  dim := ExCon.dim

/-- Calls of the example builders. -/
abbrev ExCall (n m : ℕ) := Call (QuadCost n m ℝ) ExModel (ExCon n m) ℝ

/-! ## Triple integrator -/

/-- The public fields of `TripleIntegratorProblem<dof>` (problems/triple_integrator.hpp:28-35). -/
structure TripleFields (dof : ℕ) where
  N : ℕ
  Q : Matrix (Fin (3 * dof)) (Fin (3 * dof)) ℝ
  R : Matrix (Fin dof) (Fin dof) ℝ
  Qf : Matrix (Fin (3 * dof)) (Fin (3 * dof)) ℝ
  xf : Fin (3 * dof) → ℝ
  x0 : Fin (3 * dof) → ℝ
  ubnd : Fin dof → ℝ

/-- The values after the default constructor (problems/triple_integrator.hpp:28-43). -/
noncomputable def tripleDefault (dof : ℕ) : TripleFields dof where
  N := 10
  Q := diagonal fun _ => 1
  R := diagonal fun _ => 0.001
  Qf := diagonal fun _ => 1e5
  xf i := if i.val < dof then i.val + 1 else 0
  x0 i := if i.val < dof then -(i.val + 1) else 0
  ubnd i := 100 * (i.val + 1)

namespace TripleFields
variable {dof : ℕ} (s : TripleFields dof)

/-- The stage cost and the terminal cost (problems/triple_integrator.hpp:49-60).  `uref` is what the uninitialised vector
`Eigen::VectorXd uref(m)` happens to hold. -/
noncomputable def stageCost (uref : Fin dof → ℝ) : QuadCost (3 * dof) dof ℝ := .lqr s.Q s.R s.xf uref

/-- See `stageCost`. -/
noncomputable def termCost (uref : Fin dof → ℝ) : QuadCost (3 * dof) dof ℝ := .lqr s.Qf (0 : Matrix _ _ ℝ) s.xf uref

/-- The bound added at every time step (problems/triple_integrator.hpp:75-83). -/
def bounds : ControlBound dof ℝ := .ofBounds (fun i => .val (-s.ubnd i)) (fun i => .val (s.ubnd i))

/-- The calls `MakeProblem` makes (problems/triple_integrator.hpp:46-93). -/
noncomputable def calls (uref : Fin dof → ℝ) (add : Bool) : List (ExCall (3 * dof) dof) :=
  (List.range s.N).map (fun (k : ℕ) => .cost (some (s.stageCost uref)) (k : ℤ)) ++ [.cost (some (s.termCost uref)) s.N]
  ++ (List.range s.N).map (fun (k : ℕ) => .dynamics (some (.triple dof)) (k : ℤ))
  ++ [.initialState (List.ofFn s.x0)]
  ++ (if add then (List.range s.N).map (fun (k : ℕ) => .inequality (some (.bound s.bounds)) (k : ℤ))
        ++ [.equality (some (.goal s.xf)) s.N] else [])

/-- `MakeProblem` (problems/triple_integrator.hpp:46-93): the costs are validated when they are built. -/
noncomputable def makeProblem (debug : Bool) (ldlt : (n : ℕ) → Matrix (Fin n) (Fin n) ℝ → LDLT n) (h : Heap ℝ)
    (addr : ℕ) (uref : Fin dof → ℝ) (add : Bool) :
    Except Err (Heap ℝ × Prob (QuadCost (3 * dof) dof ℝ) ExModel (ExCon (3 * dof) dof)) := do
  (QuadArgs.of (s.termCost uref) true).validate debug ldlt
  if 0 < s.N then (QuadArgs.of (s.stageCost uref) false).validate debug ldlt
  run (exIface _ _) (s.calls uref add) (h, Prob.new s.N addr)

end TripleFields

/-! ## Unicycle -/

/-- `Scenario` (problems/unicycle.hpp:31). -/
inductive Scenario
  | turn90
  | threeObstacles
deriving DecidableEq

/-- The fields of `UnicycleProblem` (problems/unicycle.hpp:37-61, 79-80). -/
structure UniFields where
  N : ℕ
  Q : Matrix (Fin 3) (Fin 3) ℝ
  R : Matrix (Fin 2) (Fin 2) ℝ
  Qf : Matrix (Fin 3) (Fin 3) ℝ
  xf : Fin 3 → ℝ
  x0 : Fin 3 → ℝ
  u0 : Fin 2 → ℝ
  uref : Fin 2 → ℝ
  vBnd : ℝ
  wBnd : ℝ
  lb : Fin 2 → ℝ
  ub : Fin 2 → ℝ
  obstacles : List (Circle ℝ)
  scenario : Scenario
  tf : ℝ

/-- Set every diagonal entry, `A.diagonal().setConstant(c)`. -/
def setDiag {n : ℕ} (A : Matrix (Fin n) (Fin n) ℝ) (c : ℝ) : Matrix (Fin n) (Fin n) ℝ :=
  Matrix.of fun i j => if i = j then c else A i j

/-- The values after construction (problems/unicycle.hpp:41-61, 79-80); the bounds are empty vectors, here zero; they are always
assigned before use. -/
noncomputable def uniDefault : UniFields where
  N := 100
  Q := diagonal fun _ => 1e-2
  R := diagonal fun _ => 1e-2
  Qf := diagonal fun _ => 100
  xf := ![1.5, 1.5, Real.pi / 2]
  x0 := ![0, 0, 0]
  u0 := ![0.1, 0.1]
  uref := ![0, 0]
  vBnd := 1.5
  wBnd := 1.5
  lb := 0
  ub := 0
  obstacles := []
  scenario := .turn90
  tf := 3

namespace UniFields

/-- The obstacles of the second scenario (problems/unicycle.cpp:38-50). -/
noncomputable def obstacleList : List (Circle ℝ) :=
  [⟨0.25 * 3, 0.25 * 3, 0.425⟩, ⟨0.5 * 3, 0.5 * 3, 0.425⟩, ⟨0.75 * 3, 0.75 * 3, 0.425⟩]

/-- The assignments to the fields at the beginning of `MakeProblem` (problems/unicycle.cpp:16-53).  `div` is the single
precision division of `GetTimeStep` (problems/unicycle.hpp:76). -/
noncomputable def configure (div : ℝ → ℕ → ℝ) (s : UniFields) : UniFields :=
  match s.scenario with
  | .turn90 =>
    { s with tf := 3, lb := ![-s.vBnd, -s.wBnd], ub := ![s.vBnd, s.wBnd], Q := setDiag s.Q (1e-2 * div 3 s.N)
             R := setDiag s.R (1e-2 * div 3 s.N), Qf := setDiag s.Qf 100 }
  | .threeObstacles =>
    { s with tf := 5, Q := setDiag s.Q (1 * div 5 s.N), R := setDiag s.R (0.5 * div 5 s.N), Qf := setDiag s.Qf 10
             x0 := 0, xf := ![3, 3, 0], u0 := ![0.01, 0.01], obstacles := obstacleList, lb := ![0, -3], ub := ![3, 3] }

/-- The stage cost (problems/unicycle.cpp:64-66). -/
noncomputable def stageCost (s : UniFields) : QuadCost 3 2 ℝ := .lqr s.Q s.R s.xf s.uref
/-- The terminal cost (problems/unicycle.cpp:68-70). -/
noncomputable def termCost (s : UniFields) : QuadCost 3 2 ℝ := .lqr s.Qf (0 : Matrix _ _ ℝ) s.xf s.uref

/-- The control bounds (problems/unicycle.cpp:80). -/
def bounds (s : UniFields) : ControlBound 2 ℝ := .ofBounds (fun i => .val (s.lb i)) (fun i => .val (s.ub i))

/-- The calls `MakeProblem` makes, from the configured fields (problems/unicycle.cpp:55-86). -/
noncomputable def calls (s : UniFields) (add : Bool) : List (ExCall 3 2) :=
  (match s.scenario with
    | .turn90 => []
    | .threeObstacles => (List.range' 1 (s.N - 1)).map fun (k : ℕ) => .inequality (some (.circles s.obstacles)) (k : ℤ))
  ++ (List.range s.N).map (fun (k : ℕ) => .cost (some s.stageCost) (k : ℤ)) ++ [.cost (some s.termCost) s.N]
  ++ (List.range s.N).map (fun (k : ℕ) => .dynamics (some .unicycle) (k : ℤ))
  ++ (if add then (List.range s.N).map (fun (k : ℕ) => .inequality (some (.bound s.bounds)) (k : ℤ))
        ++ [.equality (some (.goal s.xf)) s.N] else [])
  ++ [.initialState (List.ofFn s.x0)]

/-- `MakeProblem` (problems/unicycle.cpp:11-89): the fields afterwards and the problem. -/
noncomputable def makeProblem (debug : Bool) (ldlt : (n : ℕ) → Matrix (Fin n) (Fin n) ℝ → LDLT n) (div : ℝ → ℕ → ℝ)
    (s : UniFields) (h : Heap ℝ) (addr : ℕ) (add : Bool) :
    Except Err (UniFields × Heap ℝ × Prob (QuadCost 3 2 ℝ) ExModel (ExCon 3 2)) := do
  let c := s.configure div
  if 0 < c.N then (QuadArgs.of c.stageCost false).validate debug ldlt
  (QuadArgs.of c.termCost true).validate debug ldlt
  let r ← run (exIface _ _) (c.calls add) (h, Prob.new c.N addr)
  pure (c, r)

/-- `SetScenario` (problems/unicycle.hpp:74). -/
def setScenario (s : UniFields) (c : Scenario) : UniFields := { s with scenario := c }

end UniFields
end Altro
