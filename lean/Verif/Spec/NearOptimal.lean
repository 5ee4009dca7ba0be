import Verif.Spec.NearKKT
import Verif.Spec.LQ
import Mathlib.Analysis.Real.Sqrt

/-!
# Nearly optimal trajectories
-/

namespace Altro.Spec
open Matrix
variable {n m : ℕ}

/-- Dynamics, objective and constraints report their derivatives along `Z`. -/
structure DerivativesAt (p : DynProblem n m ℝ) (cs : ℕ → ALCost n m ℝ) (Z : Traj (Fin n → ℝ) (Fin m → ℝ) ℝ) : Prop where
  dyn : ∀ k < p.N, IsJacAt (fun x u => p.f k x u (Z.t k) (Z.h k))
    (fromCols (p.jac k (Z.x k) (Z.u k) (Z.t k) (Z.h k)).1 (p.jac k (Z.x k) (Z.u k) (Z.t k) (Z.h k)).2) (Z.x k) (Z.u k)
  cost : ∀ k ≤ p.N, IsGradAt (cs k).cost.eval ((cs k).cost.grad (Z.x k) (Z.u k)).1 ((cs k).cost.grad (Z.x k) (Z.u k)).2 (Z.x k) (Z.u k)
  eq : ∀ k ≤ p.N, ∀ v ∈ (cs k).eq, IsJacAt v.con.eval (v.con.jac (Z.x k) (Z.u k)) (Z.x k) (Z.u k)
  ineq : ∀ k ≤ p.N, ∀ v ∈ (cs k).ineq, IsJacAt v.con.eval (v.con.jac (Z.x k) (Z.u k)) (Z.x k) (Z.u k)

/-- The objective lies above its tangent at `Z` by at least `μ / 2` times the squared change of the control, on all segments. -/
def StrongFrom (p : DynProblem n m ℝ) (cs : ℕ → ALCost n m ℝ) (Z : Traj (Fin n → ℝ) (Fin m → ℝ) ℝ) (μ : ℝ) : Prop :=
  ∀ k < p.N, ∀ δx δu, (cs k).cost.eval (Z.x k) (Z.u k) + ((cs k).cost.grad (Z.x k) (Z.u k)).1 ⬝ᵥ δx
    + ((cs k).cost.grad (Z.x k) (Z.u k)).2 ⬝ᵥ δu + μ / 2 * (δu ⬝ᵥ δu) ≤ (cs k).cost.eval (Z.x k + δx) (Z.u k + δu)

/-- `Z` violates no constraint by more than `ν`. -/
structure SatisfiesUpTo (p : DynProblem n m ℝ) (cs : ℕ → ALCost n m ℝ) (Z : Traj (Fin n → ℝ) (Fin m → ℝ) ℝ) (ν : ℝ) : Prop where
  eq : ∀ k ≤ p.N, ∀ v ∈ (cs k).eq, ∀ i, |v.con.eval (Z.x k) (Z.u k) i| ≤ ν
  ineq : ∀ k ≤ p.N, ∀ v ∈ (cs k).ineq, ∀ i, v.con.eval (Z.x k) (Z.u k) i ≤ ν

/-- Sum of the absolute values of the multipliers of equalities. -/
noncomputable def eqMass (p : DynProblem n m ℝ) (cs : ℕ → ALCost n m ℝ) : ℝ :=
  ∑ k ∈ Finset.range (p.N + 1), ((cs k).eq.map fun v => ∑ i, |v.lam i|).sum

/-- Sum of the absolute values of the multipliers of inequalities. -/
noncomputable def ineqMass (p : DynProblem n m ℝ) (cs : ℕ → ALCost n m ℝ) : ℝ :=
  ∑ k ∈ Finset.range (p.N + 1), ((cs k).ineq.map fun v => ∑ i, |v.lam i|).sum

/-- Distance of the controls of the segments. -/
noncomputable def controlDist (p : DynProblem n m ℝ) (Z Z' : Traj (Fin n → ℝ) (Fin m → ℝ) ℝ) : ℝ :=
  √(∑ k ∈ Finset.range p.N, (Z'.u k - Z.u k) ⬝ᵥ (Z'.u k - Z.u k))

end Altro.Spec
