import Verif.Model.Cones
import Mathlib.Data.Matrix.Block
import Mathlib.Data.Matrix.ColumnRowPartitioned
import Mathlib.Algebra.BigOperators.Fin

/-!
# `ConstraintValues`   (`altro/constraints/constraint_values.hpp`)

The stacked state-control index `0 .. n+m-1` of the C++ Jacobian is `Fin n ⊕ Fin m`; `topLeftCorner` and
`topRightCorner` are then the column blocks `toCols₁` and `toCols₂`.
-/

namespace Altro
open Matrix

/-- A user constraint: the `Constraint` interface (constraint.hpp:173-202).  `p = OutputDimension()`; it is
positive because `Problem::SetConstraint` asserts so (problem.cpp:43-57).  `eval` and `jac` are the user's
`Evaluate` and `Jacobian`, taken to be deterministic and to fill the whole output. -/
structure Con (n m : ℕ) (K : Type*) where
  p : ℕ
  hp : 0 < p
  eval : (Fin n → K) → (Fin m → K) → Fin p → K
  jac : (Fin n → K) → (Fin m → K) → Matrix (Fin p) (Fin n ⊕ Fin m) K
  label : String := ""

/-- `ConstraintValues<n, m, ConType>` (constraint_values.hpp:25-274).  The scratch buffers `lambda_proj_`,
`c_proj_`, `jac_proj_` are overwritten before each use and are not part of the state; `proj_jac_` is kept
because `NegativeOrthant::Jacobian` relies on its previous content. -/
structure ConVal (κ : ConKind) (n m : ℕ) (K : Type*) where
  con : Con n m K
  c : Fin con.p → K
  lam : Fin con.p → K
  pen : Fin con.p → K
  projJac : Matrix (Fin con.p) (Fin con.p) K
  scaling : K

namespace ConVal
variable {K : Type*} [Field K] [LinearOrder K] {n m : ℕ} {κ : ConKind}

/-- `kDefaultPenaltyScaling = 10.0` (constraint_values.hpp:30). -/
def defaultScaling : K := 10

/-- Constructor (constraint_values.hpp:39-51): values and duals zero, penalties one. -/
def new (κ : ConKind) (con : Con n m K) : ConVal κ n m K where
  con := con
  c := 0
  lam := 0
  pen := fun _ => 1
  projJac := 0
  scaling := defaultScaling

/-- `rho = penalty_(0)` (constraint_values.hpp:112, 133, 158). -/
def rho (s : ConVal κ n m K) : K := s.pen ⟨0, s.con.hp⟩

/-- `GetViolation` (constraint_values.hpp:63-67): `c_ - Π_K(c_)`. -/
def violation (s : ConVal κ n m K) : Fin s.con.p → K := s.c - κ.proj s.c

/-- `SetPenalty` (constraint_values.hpp:79-82), after its assertion `rho >= 0`. -/
def setPenalty (s : ConVal κ n m K) (r : K) : ConVal κ n m K := { s with pen := fun _ => r }

/-- `SetPenaltyScaling` (constraint_values.hpp:84-87), after its assertion `phi >= 1`. -/
def setPenaltyScaling (s : ConVal κ n m K) (phi : K) : ConVal κ n m K := { s with scaling := phi }

/-- The assertion of `SetPenalty` (constraint_values.hpp:80). -/
def setPenaltyOk (r : K) : Prop := r ≥ 0
/-- The assertion of `SetPenaltyScaling` (constraint_values.hpp:85). -/
def setPenaltyScalingOk (phi : K) : Prop := phi ≥ 1

/-- `con_->Evaluate(x, u, c_)`, the side effect on the stored constraint value. -/
def evalC (s : ConVal κ n m K) (x : Fin n → K) (u : Fin m → K) : ConVal κ n m K :=
  { s with c := s.con.eval x u }

/-- `lambda_ - rho * c_` with `rho = penalty_(0)` (constraint_values.hpp:115). -/
def shifted (s : ConVal κ n m K) : Fin s.con.p → K := s.lam - s.rho • s.c

/-- The value part of `AugLag` (constraint_values.hpp:115-118) for the stored `c_`:
`(‖Π_{K*}(λ - ρ c)‖² - ‖λ‖²) / (2 ρ)`. -/
def augLagVal (s : ConVal κ n m K) : K :=
  (κ.dualProj s.shifted ⬝ᵥ κ.dualProj s.shifted - s.lam ⬝ᵥ s.lam) / (2 * s.rho)

/-- `AugLag` (constraint_values.hpp:111-119): evaluates the constraint (stored), returns the value. -/
def augLag (s : ConVal κ n m K) (x : Fin n → K) (u : Fin m → K) : K × ConVal κ n m K :=
  let s1 := s.evalC x u
  (s1.augLagVal, s1)

/-- The updates of `c_` and `proj_jac_` shared by `AugLagGradient` and `AugLagHessian`
(constraint_values.hpp:136-139, 161-164). -/
def evalProjJac (s : ConVal κ n m K) (x : Fin n → K) (u : Fin m → K) : ConVal κ n m K :=
  let s1 := s.evalC x u
  { s1 with projJac := κ.dualProjJac s1.shifted s1.projJac }

/-- `AugLagGradient` (constraint_values.hpp:131-143):
`dx = -(Πjac · Jx)ᵀ λproj`, `du = -(Πjac · Ju)ᵀ λproj`. -/
def augLagGradient (s : ConVal κ n m K) (x : Fin n → K) (u : Fin m → K) :
    ((Fin n → K) × (Fin m → K)) × ConVal κ n m K :=
  let s1 := s.evalProjJac x u
  let J := s1.con.jac x u
  let lp := κ.dualProj s1.shifted
  ((-((s1.projJac * J.toCols₁)ᵀ *ᵥ lp), -((s1.projJac * J.toCols₂)ᵀ *ᵥ lp)), s1)

/-- The three Hessian blocks written by `AugLagHessian`. -/
structure HessBlocks (n m : ℕ) (K : Type*) where
  dxdx : Matrix (Fin n) (Fin n) K
  dxdu : Matrix (Fin n) (Fin m) K
  dudu : Matrix (Fin m) (Fin m) K

/-- `AugLagHessian` with `full_newton = false` (constraint_values.hpp:156-173): `ρ (ΠJ)ᵀ(ΠJ)` blocks.
(`full_newton = true` throws, lines 174-176, and is never passed: `full_newton_` is `false` in `ALCost`.) -/
def augLagHessian (s : ConVal κ n m K) (x : Fin n → K) (u : Fin m → K) :
    HessBlocks n m K × ConVal κ n m K :=
  let s1 := s.evalProjJac x u
  let JP := s1.projJac * s1.con.jac x u
  ({ dxdx := s1.rho • (JP.toCols₁ᵀ * JP.toCols₁)
     dxdu := s1.rho • (JP.toCols₁ᵀ * JP.toCols₂)
     dudu := s1.rho • (JP.toCols₂ᵀ * JP.toCols₂) }, s1)

/-- `UpdateDuals` (constraint_values.hpp:192-194): `λ := Π_{K*}(λ - diag(penalty) c_)` with the *stored*
constraint value and the whole penalty vector. -/
def updateDuals (s : ConVal κ n m K) : ConVal κ n m K :=
  { s with lam := κ.dualProj (s.lam - fun i => s.pen i * s.c i) }

/-- `UpdatePenalties` (constraint_values.hpp:202-207). -/
def updatePenalties (s : ConVal κ n m K) : ConVal κ n m K :=
  { s with pen := fun i => s.pen i * s.scaling }

/-- `ResetDualVariables` (constraint_values.hpp:254-256). -/
def resetDuals (s : ConVal κ n m K) : ConVal κ n m K := { s with lam := 0 }

/-- `lpNorm<Infinity>` of a vector; zero for the empty vector (Eigen `lpNorm` on size 0). -/
def infNorm {q : ℕ} (v : Fin q → K) : K := (List.ofFn fun i => |v i|).foldl max 0

/-- `lpNorm<1>`. -/
def oneNorm {q : ℕ} (v : Fin q → K) : K := ∑ i, |v i|

/-- `MaxViolation<Infinity>` (constraint_values.hpp:215-220). -/
def maxViolation (s : ConVal κ n m K) : K := infNorm s.violation

/-- `MaxViolation<1>`. -/
def maxViolation1 (s : ConVal κ n m K) : K := oneNorm s.violation

/-- `MaxPenalty` (constraint_values.hpp:227): `penalty_.maxCoeff()` of a non-empty vector. -/
def maxPenalty (s : ConVal κ n m K) : K := (List.ofFn s.pen).foldl max (s.pen ⟨0, s.con.hp⟩)

end ConVal
end Altro
