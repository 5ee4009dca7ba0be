import Verif.Spec.Convex

/-!
# Linear-quadratic problems with affine equality constraints
-/

namespace Altro.Spec
open Matrix
variable {K : Type} [Field K] [LinearOrder K] {n m : ℕ}

/-- Objective and constraints of a knot point: a convex quadratic with its derivatives, affine equality constraints with their
Jacobians, no inequality constraints. -/
structure QuadKnot (c : ALCost n m K) : Prop where
  free : c.ineq = []
  quad : IsQuadratic c.cost
  conv : ∀ x u, BlockPSD (c.cost.hess x u)
  con : ∀ v ∈ c.eq, ∀ x u δx δu, v.con.eval (x + δx) (u + δu)
    = v.con.eval x u + (v.con.jac x u).toCols₁ *ᵥ δx + (v.con.jac x u).toCols₂ *ᵥ δu

/-- A linear-quadratic problem with affine equality constraints on states and controls: affine dynamics with their Jacobians,
strictly convex in the controls, objective and constraints of the last knot point on the state only. -/
structure LQEquality (p : DynProblem n m K) (cs : ℕ → ALCost n m K) : Prop where
  dyn : ∀ k < p.N, ∀ x u t h δx δu,
    p.f k (x + δx) (u + δu) t h = p.f k x u t h + (p.jac k x u t h).1 *ᵥ δx + (p.jac k x u t h).2 *ᵥ δu
  knot : ∀ k ≤ p.N, QuadKnot (cs k)
  pos : ∀ k < p.N, ∀ x u, PosDef ((cs k).cost.hess x u).dudu
  term : ∀ x u u', (cs p.N).cost.eval x u = (cs p.N).cost.eval x u'
  termCon : ∀ v ∈ (cs p.N).eq, ∀ x u u', v.con.eval x u = v.con.eval x u'

/-- Options with which the inner solver takes full steps on such problems: no regularization to begin with, a line search that
accepts an exactly predicted decrease, no limits on states and controls, room for two iterations. -/
structure LQOptions (o : Opts K) : Prop where
  reg : o.regInitial = 0
  regMin : 0 ≤ o.regMin
  regMax : 0 ≤ o.regMax
  ls : 1 ≤ o.lsMax
  low : o.lsLower ≤ 1
  up : 1 ≤ o.lsUpper
  lim : o.checkBounds = false
  inner : 2 ≤ o.maxInner
  cost : 0 < o.costTol
  grad : 0 < o.gradTol

end Altro.Spec
