import Verif.Model.ALCost
import Verif.Model.Integration
import Mathlib.Analysis.SpecialFunctions.Trigonometric.Basic

/-!
# The example models, costs and constraints (`examples/`), finite differences and the joint Hessian
-/

namespace Altro
open Matrix

/-! ## Writing into output buffers -/

/-- A sequence of assignments `b(i) = v`. -/
def writes {ι K : Type*} [DecidableEq ι] (b : ι → K) (l : List (ι × K)) : ι → K :=
  l.foldl (fun b w => Function.update b w.1 w.2) b

/-- A sequence of assignments `M(i, j) = v`. -/
def writesM {ι κ K : Type*} [DecidableEq ι] [DecidableEq κ] (M : Matrix ι κ K) (l : List ((ι × κ) × K)) :
    Matrix ι κ K :=
  fun i j => writes (fun p : ι × κ => M p.1 p.2) l (i, j)

/-! ## Triple integrator (`examples/triple_integrator.cpp`) -/

/-- Index `i + k * dof_` of the state vector. -/
def tiIx {dof : ℕ} (k : Fin 3) (i : Fin dof) : Fin (3 * dof) :=
  ⟨k * dof + i, by
    have h1 := k.isLt; have h2 := i.isLt
    have : (k : ℕ) * dof + dof ≤ 3 * dof := by
      rw [← Nat.succ_mul]; exact Nat.mul_le_mul_right _ h1
    omega⟩

section
variable {K : Type*} [Field K]

/-- `TripleIntegrator::Evaluate` (triple_integrator.cpp:9-19): three assignments for every degree of freedom. -/
def tiEval (dof : ℕ) (x : Fin (3 * dof) → K) (u : Fin dof → K) (out : Fin (3 * dof) → K) : Fin (3 * dof) → K :=
  writes out ((List.finRange dof).flatMap fun i =>
    [(tiIx 0 i, x (tiIx 1 i)), (tiIx 1 i, x (tiIx 2 i)), (tiIx 2 i, u i)])

/-- `TripleIntegrator::Jacobian` (triple_integrator.cpp:21-33).  Column `i + 3 * dof_` is control column `i`. -/
def tiJac (dof : ℕ) (_buf : Matrix (Fin (3 * dof)) (Fin (3 * dof) ⊕ Fin dof) K) :
    Matrix (Fin (3 * dof)) (Fin (3 * dof) ⊕ Fin dof) K :=
  writesM 0 ((List.finRange dof).flatMap fun i =>
    [((tiIx 0 i, .inl (tiIx 1 i)), 1), ((tiIx 1 i, .inl (tiIx 2 i)), 1), ((tiIx 2 i, .inr i), 1)])

/-- The triple integrator as a `ContinuousDynamics` object. -/
def tripleIntegrator (dof : ℕ) : ContDyn (3 * dof) dof K where
  f x u _ := tiEval dof x u 0
  jac _ _ _ buf := tiJac dof buf

end

/-! ## Unicycle (`examples/unicycle.cpp`) -/

/-- `Unicycle::Evaluate` (unicycle.cpp:12-21) and `Jacobian` (23-33); the Jacobian writes five entries and leaves the
others as they were.  Columns 3 and 4 are the control columns. -/
noncomputable def unicycle : ContDyn 3 2 ℝ where
  f x u _ := ![u 0 * Real.cos (x 2), u 0 * Real.sin (x 2), u 1]
  jac x u _ buf := writesM buf
    [((0, .inl 2), -u 0 * Real.sin (x 2)), ((0, .inr 0), Real.cos (x 2)),
     ((1, .inl 2), u 0 * Real.cos (x 2)), ((1, .inr 0), Real.sin (x 2)), ((2, .inr 1), 1)]

/-- `Unicycle::Hessian` (unicycle.cpp:35-43): three entries written. -/
noncomputable def unicycleHess (x : Fin 3 → ℝ) (u : Fin 2 → ℝ) (b : Fin 3 → ℝ)
    (buf : Matrix (Fin 3 ⊕ Fin 2) (Fin 3 ⊕ Fin 2) ℝ) : Matrix (Fin 3 ⊕ Fin 2) (Fin 3 ⊕ Fin 2) ℝ :=
  writesM buf
    [((.inl 2, .inl 2), -b 0 * u 0 * Real.cos (x 2) - b 1 * u 0 * Real.sin (x 2)),
     ((.inl 2, .inr 0), -b 0 * Real.sin (x 2) + b 1 * Real.cos (x 2)),
     ((.inr 0, .inl 2), -b 0 * Real.sin (x 2) + b 1 * Real.cos (x 2))]

/-! ## Quadratic cost (`examples/quadratic_cost.{hpp,cpp}`) -/

/-- `QuadraticCost` (quadratic_cost.hpp:12-78). -/
structure QuadCost (n m : ℕ) (K : Type*) where
  Q : Matrix (Fin n) (Fin n) K
  R : Matrix (Fin m) (Fin m) K
  H : Matrix (Fin n) (Fin m) K
  q : Fin n → K
  r : Fin m → K
  c : K

namespace QuadCost
variable {n m : ℕ} {K : Type*} [Field K]

/-- `Evaluate`, `Gradient`, `Hessian` (quadratic_cost.cpp:8-28). -/
def costFun (s : QuadCost n m K) : CostFun n m K where
  eval x u := 1 / 2 * (x ⬝ᵥ s.Q *ᵥ x) + x ⬝ᵥ s.H *ᵥ u + 1 / 2 * (u ⬝ᵥ s.R *ᵥ u) + s.q ⬝ᵥ x + s.r ⬝ᵥ u + s.c
  grad x u := (s.Q *ᵥ x + s.q + s.H *ᵥ u, s.R *ᵥ u + s.r + s.Hᵀ *ᵥ x)
  hess _ _ := { dxdx := s.Q, dxdu := s.H, dudu := s.R }

/-- `LQRCost` (quadratic_cost.hpp:29-39). -/
def lqr (Q : Matrix (Fin n) (Fin n) K) (R : Matrix (Fin m) (Fin m) K) (xref : Fin n → K) (uref : Fin m → K) :
    QuadCost n m K where
  Q := Q
  R := R
  H := 0
  q := -(Q *ᵥ xref)
  r := -(R *ᵥ uref)
  c := 1 / 2 * (xref ⬝ᵥ Q *ᵥ xref) + 1 / 2 * (uref ⬝ᵥ R *ᵥ uref)

end QuadCost

/-- `CostFunction::Hessian(x, u, hess)` (costfunction.hpp:65-72): the joint Hessian writes the top left, top right and
bottom right blocks of the output. -/
def CostFun.jointHess {n m : ℕ} {K : Type*} (c : CostFun n m K) (x : Fin n → K) (u : Fin m → K)
    (buf : Matrix (Fin n ⊕ Fin m) (Fin n ⊕ Fin m) K) : Matrix (Fin n ⊕ Fin m) (Fin n ⊕ Fin m) K :=
  fromBlocks (c.hess x u).dxdx (c.hess x u).dxdu buf.toBlocks₂₁ (c.hess x u).dudu

/-! ## Constraints (`examples/basic_constraints.hpp`, `obstacle_constraints.hpp`) -/

/-- `GoalConstraint::Evaluate`, `Jacobian` (basic_constraints.hpp:27-36); `setIdentity` overwrites the buffer. -/
def goalEval {n m : ℕ} {K : Type*} [Field K] (xf x : Fin n → K) (_u : Fin m → K) : Fin n → K := x - xf
/-- See `goalEval`. -/
def goalJac {n m : ℕ} {K : Type*} [Field K] (_buf : Matrix (Fin n) (Fin n ⊕ Fin m) K) : Matrix (Fin n) (Fin n ⊕ Fin m) K :=
  fromCols 1 0

/-- A bound of type `double`: minus infinity, a number, plus infinity (not-a-number and `± DBL_MAX`, which the code
also treats as "no bound", are not modelled). -/
inductive Bnd (K : Type*)
  | ninf
  | val (a : K)
  | pinf

/-- `std::abs(b) < max()` (basic_constraints.hpp:141). -/
def Bnd.finite {K : Type*} : Bnd K → Bool
  | .val _ => true
  | _ => false

/-- The number stored; only used for finite bounds (`C38_indices`). -/
def Bnd.get {K : Type*} [Zero K] : Bnd K → K
  | .val a => a
  | _ => 0

/-- `ControlBound` (basic_constraints.hpp:42-151). -/
structure ControlBound (m : ℕ) (K : Type*) where
  lower : Fin m → Bnd K
  upper : Fin m → Bnd K
  ilo : List (Fin m)
  iup : List (Fin m)

namespace ControlBound
variable {m : ℕ} {K : Type*}

/-- `GetFiniteIndices` (basic_constraints.hpp:138-145). -/
def finiteIndices (b : Fin m → Bnd K) : List (Fin m) := (List.finRange m).filter fun i => (b i).finite

/-- `ControlBound(m)` (basic_constraints.hpp:44-47). -/
def empty : ControlBound m K := { lower := fun _ => .ninf, upper := fun _ => .pinf, ilo := [], iup := [] }

/-- `ControlBound(lb, ub)` (basic_constraints.hpp:49-56). -/
def ofBounds (lb ub : Fin m → Bnd K) : ControlBound m K :=
  { lower := lb, upper := ub, ilo := finiteIndices lb, iup := finiteIndices ub }

/-- `SetUpperBound` (basic_constraints.hpp:58-72). -/
def setUpper (s : ControlBound m K) (ub : Fin m → Bnd K) : ControlBound m K :=
  { s with upper := ub, iup := finiteIndices ub }

/-- `SetLowerBound` (basic_constraints.hpp:74-88). -/
def setLower (s : ControlBound m K) (lb : Fin m → Bnd K) : ControlBound m K :=
  { s with lower := lb, ilo := finiteIndices lb }

/-- `OutputDimension` (basic_constraints.hpp:94-96). -/
def dim (s : ControlBound m K) : ℕ := s.ilo.length + s.iup.length

/-- `Evaluate` (basic_constraints.hpp:98-111). -/
def eval [Field K] (s : ControlBound m K) (u : Fin m → K) : Fin s.dim → K :=
  Fin.addCases (fun i => (s.lower s.ilo[i]).get - u s.ilo[i]) (fun i => u s.iup[i] - (s.upper s.iup[i]).get)

/-- `Jacobian` (basic_constraints.hpp:113-130): the buffer is cleared, then one entry is written in every row. -/
def jac [Field K] {n : ℕ} (s : ControlBound m K) (_buf : Matrix (Fin s.dim) (Fin n ⊕ Fin m) K) :
    Matrix (Fin s.dim) (Fin n ⊕ Fin m) K :=
  writesM 0 (((List.finRange s.ilo.length).map fun i => ((Fin.castAdd _ i, .inr s.ilo[i]), -1)) ++
    ((List.finRange s.iup.length).map fun i => ((Fin.natAdd _ i, .inr s.iup[i]), 1)))

end ControlBound

/-- `Circle` (obstacle_constraints.hpp:15-61). -/
structure Circle (K : Type*) where
  (x y r : K)

/-- `Circle::Distance2` (obstacle_constraints.hpp:38-41). -/
def Circle.distance2 {K : Type*} [Field K] (c : Circle K) (px py : K) : K := (px - c.x) ^ 2 + (py - c.y) ^ 2 - c.r ^ 2

/-- `Circle::Distance` (obstacle_constraints.hpp:43-46). -/
noncomputable def Circle.distance (c : Circle ℝ) (px py : ℝ) : ℝ := √((px - c.x) ^ 2 + (py - c.y) ^ 2) - c.r

/-- `Circle::Distance2Gradient` (obstacle_constraints.hpp:56-60). -/
def Circle.distance2Gradient {K : Type*} [Field K] (c : Circle K) (px py : K) : K × K :=
  (2 * (px - c.x), 2 * (py - c.y))

/-- `CircleConstraint` (obstacle_constraints.hpp:69-127).  The state dimension is `n + 2`, so that columns 0 and 1
are state columns. -/
structure CircleCon (n : ℕ) (K : Type*) where
  xi : Fin (n + 2) := 0
  yi : Fin (n + 2) := 1
  obstacles : List (Circle K)

namespace CircleCon
variable {n m : ℕ} {K : Type*} [Field K]

/-- `Evaluate` (obstacle_constraints.hpp:99-107). -/
def eval (s : CircleCon n K) (x : Fin (n + 2) → K) (_u : Fin m → K) : Fin s.obstacles.length → K :=
  fun i => -(s.obstacles[i].distance2 (x s.xi) (x s.yi))

/-- `Jacobian` (obstacle_constraints.hpp:109-121): columns 0 and 1 are written, whatever the position indices. -/
def jac (s : CircleCon n K) (x : Fin (n + 2) → K) (_u : Fin m → K)
    (buf : Matrix (Fin s.obstacles.length) (Fin (n + 2) ⊕ Fin m) K) :
    Matrix (Fin s.obstacles.length) (Fin (n + 2) ⊕ Fin m) K :=
  writesM buf ((List.finRange s.obstacles.length).flatMap fun i =>
    [((i, .inl 0), 2 * (s.obstacles[i].x - x s.xi)), ((i, .inl 1), 2 * (s.obstacles[i].y - x s.yi))])

end CircleCon

/-! ## Finite differences (`altro/utils/derivative_checker.hpp`) -/

/-- The variables of the loop: perturbation `e`, reference value `y`, result `jac`. -/
structure FDState (p n : ℕ) (K : Type*) where
  e : Fin (n + 1) → K
  y : Fin p → K
  jac : Matrix (Fin p) (Fin (n + 1)) K

/-- The loop of `FiniteDiffJacobian` after `k` iterations (derivative_checker.hpp:16-38).  The dimension is positive:
for an empty `x` the assignment `e(0) = eps` (line 26) is out of bounds. -/
def fdLoop {p n : ℕ} {K : Type*} [Field K] (f : (Fin (n + 1) → K) → Fin p → K) (x : Fin (n + 1) → K) (eps : K)
    (central : Bool) : ℕ → FDState p n K
  | 0 => { e := Function.update 0 0 eps, y := f x, jac := 0 }
  | k + 1 =>
    let s := fdLoop f x eps central k
    if hk : k < n + 1 then
      let y := if central then f (x - s.e) else s.y
      let step := if central then 2 * eps else eps
      { e := if h : k < n then
            Function.update (Function.update s.e ⟨k + 1, by omega⟩ (s.e ⟨k, hk⟩)) ⟨k, hk⟩ 0 else s.e
        y := y
        jac := fun i j => if j = ⟨k, hk⟩ then (f (x + s.e) i - y i) / step else s.jac i j }
    else s

/-- `FiniteDiffJacobian` (derivative_checker.hpp:10-40). -/
def fdJac {p n : ℕ} {K : Type*} [Field K] (f : (Fin (n + 1) → K) → Fin p → K) (x : Fin (n + 1) → K) (eps : K)
    (central : Bool) : Matrix (Fin p) (Fin (n + 1)) K := (fdLoop f x eps central (n + 1)).jac

/-- `FiniteDiffGradient` (derivative_checker.hpp:94-101). -/
def fdGrad {n : ℕ} {K : Type*} [Field K] (f : (Fin (n + 1) → K) → K) (x : Fin (n + 1) → K) (eps : K)
    (central : Bool) : Fin (n + 1) → K := fun j => fdJac (p := 1) (fun x _ => f x) x eps central 0 j

/-- `FiniteDiffHessian` (derivative_checker.hpp:131-138). -/
def fdHess {n : ℕ} {K : Type*} [Field K] (f : (Fin (n + 1) → K) → K) (x : Fin (n + 1) → K) (eps : K)
    (central : Bool) : Matrix (Fin (n + 1)) (Fin (n + 1)) K :=
  fdJac (fun x => fdGrad f x eps central) x eps central

end Altro
