import Verif.Spec.Descent
import Verif.Spec.Constraints

/-!
# Karush-Kuhn-Tucker points of the trajectory optimisation problem

Sign convention of the library: Lagrangian `f - λᵀc`, inequalities `c ≤ 0` with multipliers `λ ≤ 0`.
-/

namespace Altro.Spec
open Matrix
variable {n m : ℕ}

/-- The Lagrangian of one knot point: objective minus multipliers times constraint values. -/
noncomputable def lagrangian (c : ALCost n m ℝ) (x : Fin n → ℝ) (u : Fin m → ℝ) : ℝ :=
  c.cost.eval x u - (c.eq.map fun v => v.lam ⬝ᵥ v.con.eval x u).sum
    - (c.ineq.map fun v => v.lam ⬝ᵥ v.con.eval x u).sum

/-- The trajectory satisfies every constraint of every knot point. -/
structure Satisfies (p : DynProblem n m ℝ) (cs : ℕ → ALCost n m ℝ) (Z : Traj (Fin n → ℝ) (Fin m → ℝ) ℝ) : Prop where
  eq : ∀ k ≤ p.N, ∀ v ∈ (cs k).eq, ∀ i, v.con.eval (Z.x k) (Z.u k) i = 0
  ineq : ∀ k ≤ p.N, ∀ v ∈ (cs k).ineq, ∀ i, v.con.eval (Z.x k) (Z.u k) i ≤ 0

/-- `Z` with the multipliers held in `cs` is a Karush-Kuhn-Tucker point: it obeys the dynamics and the constraints, the
total Lagrangian is stationary with respect to the controls, inequality multipliers have the right sign and vanish
where the constraint is slack. -/
structure KKT (p : DynProblem n m ℝ) (cs : ℕ → ALCost n m ℝ) (Z : Traj (Fin n → ℝ) (Fin m → ℝ) ℝ) : Prop where
  init : Z.x 0 = p.x0
  step : ∀ k < p.N, Z.x (k + 1) = p.f k (Z.x k) (Z.u k) (Z.t k) (Z.h k)
  primal : Satisfies p cs Z
  stationary : StationaryOf p (fun k => lagrangian (cs k)) Z
  dual : ∀ k ≤ p.N, ∀ v ∈ (cs k).ineq, ∀ i, v.lam i ≤ 0
  slack : ∀ k ≤ p.N, ∀ v ∈ (cs k).ineq, ∀ i, v.lam i * v.con.eval (Z.x k) (Z.u k) i = 0

/-- A dual update with the constraint values of `Z` changes no multiplier. -/
structure DualsSettled (p : DynProblem n m ℝ) (cs : ℕ → ALCost n m ℝ) (Z : Traj (Fin n → ℝ) (Fin m → ℝ) ℝ) :
    Prop where
  eq : ∀ k ≤ p.N, ∀ v ∈ (cs k).eq, (v.evalC (Z.x k) (Z.u k)).updateDuals.lam = v.lam
  ineq : ∀ k ≤ p.N, ∀ v ∈ (cs k).ineq, (v.evalC (Z.x k) (Z.u k)).updateDuals.lam = v.lam

/-- The objective of the problem, without any constraint terms. -/
noncomputable def objective (p : DynProblem n m ℝ) (cs : ℕ → ALCost n m ℝ) (Z : Traj (Fin n → ℝ) (Fin m → ℝ) ℝ) : ℝ :=
  ∑ k ∈ Finset.range (p.N + 1), (cs k).cost.eval (Z.x k) (Z.u k)

/-- A convex problem, seen from `Z`: affine dynamics, convex objective, affine equalities, convex inequalities (all with
the derivatives they report). -/
structure ConvexFrom (p : DynProblem n m ℝ) (cs : ℕ → ALCost n m ℝ) (Z : Traj (Fin n → ℝ) (Fin m → ℝ) ℝ) : Prop where
  dyn : ∀ k < p.N, ∀ δx δu, p.f k (Z.x k + δx) (Z.u k + δu) (Z.t k) (Z.h k)
    = p.f k (Z.x k) (Z.u k) (Z.t k) (Z.h k) + (p.jac k (Z.x k) (Z.u k) (Z.t k) (Z.h k)).1 *ᵥ δx
      + (p.jac k (Z.x k) (Z.u k) (Z.t k) (Z.h k)).2 *ᵥ δu
  cost : ∀ k ≤ p.N, ∀ δx δu, (cs k).cost.eval (Z.x k) (Z.u k) + ((cs k).cost.grad (Z.x k) (Z.u k)).1 ⬝ᵥ δx
    + ((cs k).cost.grad (Z.x k) (Z.u k)).2 ⬝ᵥ δu ≤ (cs k).cost.eval (Z.x k + δx) (Z.u k + δu)
  eq : ∀ k ≤ p.N, ∀ v ∈ (cs k).eq, ∀ δx δu i, v.con.eval (Z.x k + δx) (Z.u k + δu) i
    = v.con.eval (Z.x k) (Z.u k) i + ((v.con.jac (Z.x k) (Z.u k)) *ᵥ Sum.elim δx δu) i
  ineq : ∀ k ≤ p.N, ∀ v ∈ (cs k).ineq, ∀ δx δu i, v.con.eval (Z.x k) (Z.u k) i
    + ((v.con.jac (Z.x k) (Z.u k)) *ᵥ Sum.elim δx δu) i ≤ v.con.eval (Z.x k + δx) (Z.u k + δu) i

end Altro.Spec
