import Verif.Spec.LQInequality
import Verif.Spec.Smooth

/-!
# Problems on which iLQR is Newton's method
-/

namespace Altro.Spec
open Matrix ILQR
variable {n m : ℕ}

/-- Squared distance of the point `(x, u)` from knot point `k` of the trajectory `Y`; the last control does not count. -/
noncomputable def knotDist (N : ℕ) (Y : Traj (Fin n → ℝ) (Fin m → ℝ) ℝ) (k : ℕ) (x : Fin n → ℝ) (u : Fin m → ℝ) : ℝ :=
  (x - Y.x k) ⬝ᵥ (x - Y.x k) + if k < N then (u - Y.u k) ⬝ᵥ (u - Y.u k) else 0

/-- Squared distance of the controls of two trajectories. -/
noncomputable def gapSq (N : ℕ) (Z Y : Traj (Fin n → ℝ) (Fin m → ℝ) ℝ) : ℝ :=
  ∑ k ∈ Finset.range N, (Z.u k - Y.u k) ⬝ᵥ (Z.u k - Y.u k)

/-- How far the gradient at `(x + δx, u + δu)` is from what the Hessian at `(x, u)` says, squared. -/
noncomputable def hessError (c : CostFun n m ℝ) (x : Fin n → ℝ) (u : Fin m → ℝ) (δx : Fin n → ℝ) (δu : Fin m → ℝ) : ℝ :=
  let ex := (c.grad (x + δx) (u + δu)).1 - (c.grad x u).1 - ((c.hess x u).dxdx *ᵥ δx + (c.hess x u).dxdu *ᵥ δu)
  let eu := (c.grad (x + δx) (u + δu)).2 - (c.grad x u).2 - ((c.hess x u).dxduᵀ *ᵥ δx + (c.hess x u).dudu *ᵥ δu)
  ex ⬝ᵥ ex + eu ⬝ᵥ eu

/-- Objective and constraints of a knot point: a convex objective with its gradient (nothing yet is asked of the Hessian but that it is
positive semidefinite) and affine constraints with their Jacobians. -/
structure NewtonKnot (c : ALCost n m ℝ) : Prop where
  grad : ∀ x u, IsGradAt c.cost.eval (c.cost.grad x u).1 (c.cost.grad x u).2 x u
  conv : ∀ x u, BlockPSD (c.cost.hess x u)
  eq : ∀ v ∈ c.eq, AffineCon v.con
  ineq : ∀ v ∈ c.ineq, AffineCon v.con
  buf : ∀ v ∈ c.ineq, ∀ i j, i ≠ j → v.projJac i j = 0

/-- Affine dynamics, knot points as above with curvature at least `μ` in the controls, all penalties `ρ`, nothing depends on the last
control; `Y` is a trajectory with the least augmented cost, and within squared distance `R` of it the Hessians are at most `M` and the
gradients follow them up to `L |δ|²`.  At `Y` no inequality constraint is at its switching point, where `λ = ρ c`.  (Active and inactive
constraints are allowed, with any multipliers.) -/
structure NewtonProblem (p : DynProblem n m ℝ) (cs : ℕ → ALCost n m ℝ) (Y : Traj (Fin n → ℝ) (Fin m → ℝ) ℝ) (μ M L R ρ : ℝ) : Prop where
  dyn : ∀ k < p.N, ∀ x u t h δx δu,
    p.f k (x + δx) (u + δu) t h = p.f k x u t h + (p.jac k x u t h).1 *ᵥ δx + (p.jac k x u t h).2 *ᵥ δu
  knot : ∀ k ≤ p.N, NewtonKnot (cs k)
  strong : ∀ k < p.N, ∀ x u δx δu, μ * (δu ⬝ᵥ δu) ≤ quadForm ((cs k).cost.hess x u) δx δu
  bound : ∀ k ≤ p.N, ∀ x u, knotDist p.N Y k x u ≤ R → ∀ δx δu,
    quadForm ((cs k).cost.hess x u) δx δu ≤ M * (δx ⬝ᵥ δx + δu ⬝ᵥ δu)
  follow : ∀ k ≤ p.N, ∀ x u δx δu, knotDist p.N Y k x u ≤ R → knotDist p.N Y k (x + δx) (u + δu) ≤ R → (k = p.N → δu = 0) →
    hessError (cs k).cost x u δx δu ≤ (L * (δx ⬝ᵥ δx + δu ⬝ᵥ δu)) ^ 2
  pen : ∀ k ≤ p.N, PenU (cs k) ρ
  kink : ∀ k ≤ p.N, ∀ v ∈ (cs k).ineq, ∀ i, v.lam i ≠ ρ * v.con.eval (Y.x k) (Y.u k) i
  term : ∀ x u u', (cs p.N).cost.eval x u = (cs p.N).cost.eval x u'
  termEq : ∀ v ∈ (cs p.N).eq, ∀ x u u', v.con.eval x u = v.con.eval x u'
  termIneq : ∀ v ∈ (cs p.N).ineq, ∀ x u u', v.con.eval x u = v.con.eval x u'
  feas : DynFeasible (alKernel p) Y
  best : ∀ Y', Alternative p Y Y' → trajCost p cs Y ≤ trajCost p cs Y'

/-- Options with which the solver takes full steps near a minimiser: regularization that starts and stays at or below `rb` as long as no
sweep fails, a line search that asks for at most a quarter and allows one and a half times of the expected decrease and makes at least one
trial, no limits on states and controls. -/
structure FullStep (o : Opts ℝ) (rb : ℝ) : Prop where
  reg0 : 0 ≤ o.regInitial
  reg1 : o.regInitial ≤ rb
  regMin : 0 ≤ o.regMin
  regMin1 : o.regMin ≤ rb
  regMax : 0 ≤ o.regMax
  regFactor : 1 ≤ o.regFactor
  lim : o.checkBounds = false
  low : o.lsLower ≤ 1 / 4
  up : 3 / 2 ≤ o.lsUpper
  ls : 1 ≤ o.lsMax

/-- The recursion `E ↦ (A E + B) E`, repeated. -/
noncomputable def decay (A B : ℝ) : ℕ → ℝ → ℝ
  | 0, E => E
  | i + 1, E => decay A B i ((A * E + B) * E)

end Altro.Spec
