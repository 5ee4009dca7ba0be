import Verif.Spec.Descent
import Verif.Spec.Progress
import Mathlib.Topology.Instances.Matrix

/-!
# Smooth problems
-/

namespace Altro.Spec
open Matrix ILQR
variable {n m : ℕ}

/-- A constraint with its Jacobian, which is continuous. -/
structure SmoothCon (con : Con n m ℝ) : Prop where
  jac : ∀ x u, IsJacAt con.eval (con.jac x u) x u
  cont : Continuous fun z : Z n m => con.jac z.1 z.2

/-- Objective and constraints of a knot point: the objective has the reported gradient, gradient and Hessian blocks are continuous
(the Hessian blocks need not be right), constraints are smooth, penalties are positive.  The buffer for the projection Jacobian is zero
off the diagonal, which is so after any history of operations on a new object. -/
structure SmoothKnot (c : ALCost n m ℝ) : Prop where
  grad : ∀ x u, IsGradAt c.cost.eval (c.cost.grad x u).1 (c.cost.grad x u).2 x u
  gradCont : Continuous fun z : Z n m => c.cost.grad z.1 z.2
  dxdx : Continuous fun z : Z n m => (c.cost.hess z.1 z.2).dxdx
  dxdu : Continuous fun z : Z n m => (c.cost.hess z.1 z.2).dxdu
  dudu : Continuous fun z : Z n m => (c.cost.hess z.1 z.2).dudu
  eq : ∀ v ∈ c.eq, SmoothCon v.con ∧ ∀ i, 0 < v.pen i
  ineq : ∀ v ∈ c.ineq, SmoothCon v.con ∧ ∀ i, 0 < v.pen i
  buf : ∀ v ∈ c.ineq, ∀ i j, i ≠ j → v.projJac i j = 0

/-- A smooth problem on the time grid of `Y`: dynamics with their continuous Jacobian, smooth knot points, an objective with positive
semidefinite Hessian blocks that have curvature at least `μ` in the controls, that grows at least quadratically with the controls and is
bounded below at the last knot point, where nothing depends on the control. -/
structure SmoothProblem (p : DynProblem n m ℝ) (cs : ℕ → ALCost n m ℝ) (Y : Traj (Fin n → ℝ) (Fin m → ℝ) ℝ) (μ : ℝ) : Prop where
  curved : CurvedObjective p cs μ
  jac : ∀ k < p.N, ∀ x u, IsJacAt (fun x u => p.f k x u (Y.t k) (Y.h k))
    (fromCols (p.jac k x u (Y.t k) (Y.h k)).1 (p.jac k x u (Y.t k) (Y.h k)).2) x u
  cont : ∀ k < p.N, Continuous fun z : Z n m => p.jac k z.1 z.2 (Y.t k) (Y.h k)
  knot : ∀ k ≤ p.N, SmoothKnot (cs k)
  grows : ∃ c b : ℝ, 0 < c ∧ (∀ k < p.N, ∀ x u, c * (u ⬝ᵥ u) - b ≤ (cs k).cost.eval x u) ∧ ∀ x u, -b ≤ (cs p.N).cost.eval x u
  term : ∀ x u u', (cs p.N).cost.eval x u = (cs p.N).cost.eval x u'
  termHess : ∀ x u u', (cs p.N).cost.hess x u = (cs p.N).cost.hess x u'
  termEq : ∀ v ∈ (cs p.N).eq, ∀ x u u', v.con.eval x u = v.con.eval x u'
  termIneq : ∀ v ∈ (cs p.N).ineq, ∀ x u u', v.con.eval x u = v.con.eval x u'

/-- The derivative of the total augmented cost with respect to the controls is at most `ε` in length. -/
def NearlyStationary (p : DynProblem n m ℝ) (cs : ℕ → ALCost n m ℝ) (Y : Traj (Fin n → ℝ) (Fin m → ℝ) ℝ) (ε : ℝ) : Prop :=
  ∀ v : ℕ → Fin m → ℝ, v p.N = 0 → ∃ d, HasDerivAt (fun a : ℝ => controlCost p cs Y fun k => Y.u k + a • v k) d 0 ∧
    d ^ 2 ≤ ε ^ 2 * ∑ k ∈ Finset.range p.N, v k ⬝ᵥ v k

end Altro.Spec
