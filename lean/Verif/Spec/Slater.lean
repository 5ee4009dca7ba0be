import Verif.Spec.KKT
import Verif.Spec.LQ

/-!
# Solutions and strictly feasible trajectories
-/

namespace Altro.Spec
variable {n m : ℕ}

/-- `Z` is a best trajectory among those that start at the initial state, obey the dynamics on the time grid of `Y` and satisfy all
constraints. -/
structure Solution (p : DynProblem n m ℝ) (cs : ℕ → ALCost n m ℝ) (Y Z : Traj (Fin n → ℝ) (Fin m → ℝ) ℝ) : Prop where
  alt : Alternative p Y Z
  sat : Satisfies p cs Z
  best : ∀ Z', Alternative p Y Z' → Satisfies p cs Z' → objective p cs Z ≤ objective p cs Z'

/-- `Z` obeys the dynamics on the time grid of `Y`, satisfies equality constraints and satisfies inequality constraints strictly. -/
structure Strict (p : DynProblem n m ℝ) (cs : ℕ → ALCost n m ℝ) (Y Z : Traj (Fin n → ℝ) (Fin m → ℝ) ℝ) : Prop where
  alt : Alternative p Y Z
  eq : ∀ k ≤ p.N, ∀ v ∈ (cs k).eq, ∀ i, v.con.eval (Z.x k) (Z.u k) i = 0
  ineq : ∀ k ≤ p.N, ∀ v ∈ (cs k).ineq, ∀ i, v.con.eval (Z.x k) (Z.u k) i < 0

/-- `Z` obeys the dynamics on the time grid of `Y` and satisfies inequality constraints with margin `σ`; there are no equality
constraints. -/
structure Margin (p : DynProblem n m ℝ) (cs : ℕ → ALCost n m ℝ) (Y Z : Traj (Fin n → ℝ) (Fin m → ℝ) ℝ) (σ : ℝ) : Prop where
  alt : Alternative p Y Z
  eq : ∀ k ≤ p.N, (cs k).eq = []
  ineq : ∀ k ≤ p.N, ∀ v ∈ (cs k).ineq, ∀ i, v.con.eval (Z.x k) (Z.u k) i ≤ -σ

end Altro.Spec
