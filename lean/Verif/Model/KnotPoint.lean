import Verif.Model.ILQR
import Verif.Model.ALCost

/-!
# The per-knot-point matrix code   (`altro/ilqr/knot_point_function_type.hpp`)

Exact arithmetic over an ordered field.  The state and control dimensions are the same at all knot points.
-/

namespace Altro
open Matrix

/-- `CostExpansion<n, m>` (cost_expansion.hpp:27-141). -/
structure Expansion (n m : ℕ) (K : Type*) where
  dxdx : Matrix (Fin n) (Fin n) K
  dxdu : Matrix (Fin n) (Fin m) K
  dudu : Matrix (Fin m) (Fin m) K
  dx : Fin n → K
  du : Fin m → K

/-- The data of `KnotPointFunctions<n, m>` (knot_point_function_type.hpp:285-298).  The dynamics expansion is
held as its two column blocks `GetA`, `GetB` (dynamics_expansion.hpp:26-33). -/
structure KP (n m : ℕ) (K : Type*) where
  cost : Expansion n m K
  A : Matrix (Fin n) (Fin n) K
  B : Matrix (Fin n) (Fin m) K
  q : Expansion n m K
  qreg : Expansion n m K
  gain : Matrix (Fin m) (Fin n) K
  ff : Fin m → K
  Sxx : Matrix (Fin n) (Fin n) K
  Sx : Fin n → K
  delta : K × K

/-! ## Cholesky factorization

`Eigen::LLT::compute` processes the columns in order; the number tested at column `k` (`x <= 0` means failure) is
the leading entry of the `k`-th Schur complement, and only the lower triangle is read.  The model works with the
Schur complements instead of the square roots of the pivots: success and the solution of the linear system are the
same (`Model.Cholesky` has the square-root version, `Props.Cholesky` the comparison). -/

section llt
variable {K : Type*} [Field K] [LinearOrder K]

/-- The column below the first pivot. -/
def lltCol {m : ℕ} (M : Matrix (Fin (m + 1)) (Fin (m + 1)) K) : Fin m → K := fun i => M i.succ 0

/-- The remaining matrix after eliminating the first row and column; only the lower triangle is used. -/
def lltSchur {m : ℕ} (M : Matrix (Fin (m + 1)) (Fin (m + 1)) K) : Matrix (Fin m) (Fin m) K :=
  Matrix.of fun i j => M i.succ j.succ - lltCol M i * lltCol M j / M 0 0

/-- `Quu_chol.info() == Eigen::Success` (knot_point_function_type.hpp:199-202). -/
def lltOk : (m : ℕ) → Matrix (Fin m) (Fin m) K → Bool
  | 0, _ => true
  | m + 1, M => decide (0 < M 0 0) && lltOk m (lltSchur M)

/-- `Quu_chol.solve(b)`: forward and back substitution. -/
def lltSolve : (m : ℕ) → Matrix (Fin m) (Fin m) K → (Fin m → K) → (Fin m → K)
  | 0, _, _ => fun i => i.elim0
  | m + 1, M, b =>
    let y := lltSolve m (lltSchur M) fun i => b i.succ - lltCol M i * b 0 / M 0 0
    Fin.cons ((b 0 - lltCol M ⬝ᵥ y) / M 0 0) y

end llt

namespace KP
variable {K : Type*} [Field K] [LinearOrder K] {n m : ℕ}

/-- `CalcCostExpansion` then `CalcDynamicsExpansion` (knot_point_function_type.hpp:107-128), given the derivatives
returned by the cost function and the model. -/
def setExpansion (d : KP n m K) (g : (Fin n → K) × (Fin m → K)) (h : ConVal.HessBlocks n m K)
    (jac : Matrix (Fin n) (Fin n) K × Matrix (Fin n) (Fin m) K) : KP n m K :=
  { d with
    cost := { dxdx := h.dxdx, dxdu := h.dxdu, dudu := h.dudu, dx := g.1, du := g.2 }
    A := jac.1
    B := jac.2 }

/-- `CalcTerminalCostToGo` (knot_point_function_type.hpp:135-138). -/
def term (d : KP n m K) : KP n m K := { d with Sxx := d.cost.dxdx, Sx := d.cost.dx }

/-- `CalcActionValueExpansion` (knot_point_function_type.hpp:149-164); `nxt` is the next knot point. -/
def actionValue (d nxt : KP n m K) : KP n m K :=
  { d with q :=
    { dxdx := d.cost.dxdx + d.Aᵀ * nxt.Sxx * d.A
      dxdu := d.cost.dxdu + d.Aᵀ * nxt.Sxx * d.B
      dudu := d.cost.dudu + d.Bᵀ * nxt.Sxx * d.B
      dx := d.cost.dx + d.Aᵀ *ᵥ nxt.Sx
      du := d.cost.du + d.Bᵀ *ᵥ nxt.Sx } }

/-- `RegularizeActionValue(rho)` (knot_point_function_type.hpp:175-186). -/
def regularize (rho : K) (d : KP n m K) : KP n m K :=
  { d with qreg := { d.q with dudu := d.q.dudu + rho • (1 : Matrix (Fin m) (Fin m) K) } }

/-- `CalcGains` (knot_point_function_type.hpp:197-211): the columns of the feedback gain are
`-Quu⁻¹ (Qxu)ᵀ e_j`, the feedforward gain is `-Quu⁻¹ Qu`; unchanged when the factorization fails. -/
def gains (d : KP n m K) : KP n m K × Bool :=
  if lltOk m d.qreg.dudu then
    ({ d with
       gain := Matrix.of fun i j => -(lltSolve m d.qreg.dudu (fun l => d.qreg.dxdu j l) i)
       ff := -(lltSolve m d.qreg.dudu d.qreg.du) }, true)
  else (d, false)

/-- `CalcCostToGo` (knot_point_function_type.hpp:220-230). -/
def costToGo (d : KP n m K) : KP n m K :=
  { d with
    Sx := d.q.dx + (d.gainᵀ * d.q.dudu) *ᵥ d.ff + d.gainᵀ *ᵥ d.q.du + d.q.dxdu *ᵥ d.ff
    Sxx := d.q.dxdx + d.gainᵀ * d.q.dudu * d.gain + d.gainᵀ * d.q.dxduᵀ + d.q.dxdu * d.gain
    delta := (d.ff ⬝ᵥ d.q.du, (1 / 2) * (d.ff ⬝ᵥ d.q.dudu *ᵥ d.ff)) }

/-- `GetCostToGoDelta(alpha)` (knot_point_function_type.hpp:256-258). -/
def costToGoDelta (d : KP n m K) (alpha : K) : K := alpha * d.delta.1 + alpha * alpha * d.delta.2

/-- `u + K (xbar - x) + d * alpha` (ilqr.hpp:473-478). -/
def policy (d : KP n m K) (xbar x : Fin n → K) (u : Fin m → K) (alpha : K) : Fin m → K :=
  u + d.gain *ᵥ (xbar - x) + alpha • d.ff

/-- `(|d| / (|u| + 1)).maxCoeff()` (ilqr.hpp:665).  The entries are nonnegative, so starting the maximum at zero
changes nothing (for `m = 0`, where Eigen's `maxCoeff` is undefined, the model gives zero). -/
def gradTerm (d : KP n m K) (u : Fin m → K) : K :=
  (List.ofFn fun i => |d.ff i| / (|u i| + 1)).foldl max 0

/-- `Init` (knot_point_function_type.hpp:271-278) and the zero-initialised expansions. -/
def new : KP n m K where
  cost := { dxdx := 0, dxdu := 0, dudu := 0, dx := 0, du := 0 }
  A := 0
  B := 0
  q := { dxdx := 0, dxdu := 0, dudu := 0, dx := 0, du := 0 }
  qreg := { dxdx := 0, dxdu := 0, dudu := 0, dx := 0, du := 0 }
  gain := 0
  ff := 0
  Sxx := 0
  Sx := 0
  delta := (0, 0)

end KP

/-- The data of a discretised problem as the solver sees it: `N_`, initial state, discrete dynamics with their
Jacobian blocks.  `normX`, `normU` are the Euclidean norms of the bounds check (`norm()` needs square roots, so
they are parameters). -/
structure DynProblem (n m : ℕ) (K : Type*) where
  N : ℕ
  x0 : Fin n → K
  f : ℕ → (Fin n → K) → (Fin m → K) → K → K → (Fin n → K)
  jac : ℕ → (Fin n → K) → (Fin m → K) → K → K → Matrix (Fin n) (Fin n) K × Matrix (Fin n) (Fin m) K
  normX : (Fin n → K) → K
  normU : (Fin m → K) → K

/-- The kernel of `iLQR<n, m>` for a problem whose costs are `ALCost` objects (`CopyFromProblem`, ilqr.hpp:97-123,
applied to the problem built by `BuildAugLagProblem`; without constraints an `ALCost` is its objective).
`CalcCostExpansion` calls `Gradient`, then `Hessian` (cost_expansion.hpp:118-125), both of which store constraint
values. -/
def alKernel {K : Type} [Field K] [LinearOrder K] {n m : ℕ} (p : DynProblem n m K) :
    Kernel (Fin n → K) (Fin m → K) K (ALCost n m K) (KP n m K) where
  N := p.N
  x0 := p.x0
  dyn := p.f
  cost := fun _ c x u => c.evaluate x u
  expand := fun k c x u t h d =>
    let g := c.gradient x u
    let H := g.2.hessian x u
    (d.setExpansion g.1 H.1 (p.jac k x u t h), H.2)
  term := KP.term
  actionValue := KP.actionValue
  regularize := KP.regularize
  gains := KP.gains
  costToGo := KP.costToGo
  delta := fun d => d.delta
  policy := KP.policy
  gradTerm := KP.gradTerm
  normX := p.normX
  normU := p.normU
  viol := fun cs => ALCosts.maxViolation ((List.range (p.N + 1)).map cs)

end Altro
