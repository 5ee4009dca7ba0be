import Verif.Spec.LQEquality

/-!
# Linear-quadratic problems with affine equality and inequality constraints
-/

namespace Altro.Spec
open Matrix
variable {K : Type} [Field K] [LinearOrder K] {n m : ℕ}

/-- A constraint is affine and its `Jacobian` is its derivative. -/
def AffineCon (con : Con n m K) : Prop := ∀ x u δx δu, con.eval (x + δx) (u + δu)
  = con.eval x u + (con.jac x u).toCols₁ *ᵥ δx + (con.jac x u).toCols₂ *ᵥ δu

/-- Objective and constraints of a knot point: a convex quadratic with its derivatives, affine equality and inequality constraints
with their Jacobians.  The buffer for the projection Jacobian of an inequality constraint is zero off the diagonal, which is so after any
history of operations on a new object. -/
structure AffineKnot (c : ALCost n m K) : Prop where
  quad : IsQuadratic c.cost
  conv : ∀ x u, BlockPSD (c.cost.hess x u)
  eq : ∀ v ∈ c.eq, AffineCon v.con
  ineq : ∀ v ∈ c.ineq, AffineCon v.con
  buf : ∀ v ∈ c.ineq, ∀ i j, i ≠ j → v.projJac i j = 0

/-- A linear-quadratic problem with affine equality and inequality constraints on states and controls: affine dynamics with their
Jacobians, objective with curvature at least `μ` in the controls, objective and constraints of the last knot point on the state
only. -/
structure LQInequality (p : DynProblem n m K) (cs : ℕ → ALCost n m K) (μ : K) : Prop where
  dyn : ∀ k < p.N, ∀ x u t h δx δu,
    p.f k (x + δx) (u + δu) t h = p.f k x u t h + (p.jac k x u t h).1 *ᵥ δx + (p.jac k x u t h).2 *ᵥ δu
  knot : ∀ k ≤ p.N, AffineKnot (cs k)
  strong : ∀ k < p.N, ∀ x u δx δu, μ * (δu ⬝ᵥ δu) ≤ quadForm ((cs k).cost.hess x u) δx δu
  term : ∀ x u u', (cs p.N).cost.eval x u = (cs p.N).cost.eval x u'
  termEq : ∀ v ∈ (cs p.N).eq, ∀ x u u', v.con.eval x u = v.con.eval x u'
  termIneq : ∀ v ∈ (cs p.N).ineq, ∀ x u u', v.con.eval x u = v.con.eval x u'

/-- Options with which the inner solver makes progress on such problems: regularization that starts and stays at or below `rb` as long as
no sweep fails, a line search that asks for at most a quarter and allows three times of the expected decrease and whose step lengths,
beginning with one, come down to `β` or less, no limits on states and controls, positive tolerances. -/
structure StepOptions (o : Opts K) (rb β : K) : Prop where
  reg0 : 0 ≤ o.regInitial
  reg1 : o.regInitial ≤ rb
  regMin : 0 ≤ o.regMin
  regMin1 : o.regMin ≤ rb
  regMax : 0 ≤ o.regMax
  regFactor : 1 ≤ o.regFactor
  lim : o.checkBounds = false
  low : 0 < o.lsLower
  low1 : o.lsLower ≤ 1 / 4
  up : 3 ≤ o.lsUpper
  factor : 1 ≤ o.lsFactor
  step : ∃ i : ℕ, (i : ℤ) < o.lsMax ∧ stepLength o.lsFactor i ≤ β
  cost : 0 < o.costTol
  grad : 0 < o.gradTol

/-- Size of the controls of a trajectory. -/
def ctrlSize (N : ℕ) (Z : Traj (Fin n → K) (Fin m → K) K) : K := ∑ k ∈ Finset.range N, ∑ i, (|Z.u k i| + 1) ^ 2

/-- By at least this much every iteration lowers the augmented cost, unless it is the last one. -/
def unitDecrease (o : Opts K) (μ : K) : K :=
  min o.costTol (o.lsLower * stepLength o.lsFactor (o.lsMax.toNat - 1) * μ / 2 * o.gradTol ^ 2)

end Altro.Spec
