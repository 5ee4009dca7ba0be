import Verif.Spec.Quadratic
import Verif.Spec.ILQR
import Verif.Proofs.Concrete

/-!
# Linear-quadratic problems
-/

namespace Altro.Spec
open Matrix
variable {K : Type} [Field K] [LinearOrder K] {n m : ℕ}

/-- The expansions held in `kd` around trajectory `Z` are exact: the dynamics are affine and the costs quadratic, with
these derivatives.  The cost of the last knot point does not depend on the control. -/
structure ExactExpansion (p : DynProblem n m K) (cs : ℕ → ALCost n m K) (Z : Traj (Fin n → K) (Fin m → K) K)
    (kd : ℕ → KP n m K) : Prop where
  dyn : ∀ k < p.N, ∀ δx δu, p.f k (Z.x k + δx) (Z.u k + δu) (Z.t k) (Z.h k)
    = p.f k (Z.x k) (Z.u k) (Z.t k) (Z.h k) + (kd k).A *ᵥ δx + (kd k).B *ᵥ δu
  cost : ∀ k < p.N, ∀ δx δu, ((cs k).evaluate (Z.x k + δx) (Z.u k + δu)).1
    = ((cs k).evaluate (Z.x k) (Z.u k)).1 + quadModel (kd k).cost δx δu
  term : ∀ δx u, ((cs p.N).evaluate (Z.x p.N + δx) u).1
    = ((cs p.N).evaluate (Z.x p.N) (Z.u p.N)).1 + ctgModel (kd p.N).cost.dx (kd p.N).cost.dxdx δx

/-- A cost function is quadratic and its `Gradient` and `Hessian` are its derivatives. -/
structure IsQuadratic (c : CostFun n m K) : Prop where
  exact : ∀ x u δx δu, c.eval (x + δx) (u + δu) = c.eval x u +
    quadModel ⟨(c.hess x u).dxdx, (c.hess x u).dxdu, (c.hess x u).dudu, (c.grad x u).1, (c.grad x u).2⟩ δx δu

/-- A time-varying linear-quadratic problem without constraints: affine dynamics with their Jacobians, quadratic
costs with their derivatives, terminal cost on the state only. -/
structure LQProblem (p : DynProblem n m K) (cs : ℕ → ALCost n m K) : Prop where
  dyn : ∀ k < p.N, ∀ x u t h δx δu,
    p.f k (x + δx) (u + δu) t h = p.f k x u t h + (p.jac k x u t h).1 *ᵥ δx + (p.jac k x u t h).2 *ᵥ δu
  free : ∀ k ≤ p.N, (cs k).eq = [] ∧ (cs k).ineq = []
  quad : ∀ k ≤ p.N, IsQuadratic (cs k).cost
  term : ∀ x u u', (cs p.N).cost.eval x u = (cs p.N).cost.eval x u'
  symx : ∀ k ≤ p.N, ∀ x u, ((cs k).cost.hess x u).dxdx.IsSymm
  symu : ∀ k < p.N, ∀ x u, ((cs k).cost.hess x u).dudu.IsSymm

/-- Total cost of a trajectory. -/
def trajCost (p : DynProblem n m K) (cs : ℕ → ALCost n m K) (Z : Traj (Fin n → K) (Fin m → K) K) : K :=
  ∑ k ∈ Finset.range (p.N + 1), ((cs k).evaluate (Z.x k) (Z.u k)).1

/-- `Z'` is an admissible alternative to `Z`: any control sequence, simulated from the initial state on the same time
grid. -/
structure Alternative (p : DynProblem n m K) (Z Z' : Traj (Fin n → K) (Fin m → K) K) : Prop where
  init : Z'.x 0 = p.x0
  step : ∀ k < p.N, Z'.x (k + 1) = p.f k (Z'.x k) (Z'.u k) (Z.t k) (Z.h k)

end Altro.Spec
