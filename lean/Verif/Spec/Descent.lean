import Verif.Spec.Calculus
import Verif.Spec.LQ

/-!
# First-order expansions and stationarity
-/

namespace Altro.Spec
open Matrix
variable {n m : ℕ}

/-- The expansions held in `kd` have the right first derivatives along `Z`, for the stage costs `ℓ`: the dynamics blocks
are the Jacobian of the dynamics, the cost gradients are the gradients of the costs.  (Nothing is asked of the second
derivatives.) -/
structure FirstOrderOf (p : DynProblem n m ℝ) (ℓ : ℕ → (Fin n → ℝ) → (Fin m → ℝ) → ℝ)
    (Z : Traj (Fin n → ℝ) (Fin m → ℝ) ℝ) (kd : ℕ → KP n m ℝ) : Prop where
  dyn : ∀ k < p.N, IsJacAt (fun x u => p.f k x u (Z.t k) (Z.h k)) (fromCols (kd k).A (kd k).B) (Z.x k) (Z.u k)
  cost : ∀ k ≤ p.N, IsGradAt (ℓ k) (kd k).cost.dx (kd k).cost.du (Z.x k) (Z.u k)

/-- The same for the reported augmented costs. -/
abbrev FirstOrder (p : DynProblem n m ℝ) (cs : ℕ → ALCost n m ℝ) (Z : Traj (Fin n → ℝ) (Fin m → ℝ) ℝ)
    (kd : ℕ → KP n m ℝ) : Prop :=
  FirstOrderOf p (fun k x u => ((cs k).evaluate x u).1) Z kd

/-- The states reached with controls `u` on the time grid of `Z`. -/
def openLoop (p : DynProblem n m ℝ) (Z : Traj (Fin n → ℝ) (Fin m → ℝ) ℝ) (u : ℕ → Fin m → ℝ) : ℕ → Fin n → ℝ
  | 0 => p.x0
  | k + 1 => p.f k (openLoop p Z u k) (u k) (Z.t k) (Z.h k)

/-- The total cost as a function of the controls, for the stage costs `ℓ`. -/
noncomputable def controlCostOf (p : DynProblem n m ℝ) (ℓ : ℕ → (Fin n → ℝ) → (Fin m → ℝ) → ℝ)
    (Z : Traj (Fin n → ℝ) (Fin m → ℝ) ℝ) (u : ℕ → Fin m → ℝ) : ℝ :=
  ∑ k ∈ Finset.range (p.N + 1), ℓ k (openLoop p Z u k) (u k)

/-- No change of the controls of the segments changes the total cost to first order. -/
def StationaryOf (p : DynProblem n m ℝ) (ℓ : ℕ → (Fin n → ℝ) → (Fin m → ℝ) → ℝ)
    (Z : Traj (Fin n → ℝ) (Fin m → ℝ) ℝ) : Prop :=
  ∀ v : ℕ → Fin m → ℝ, v p.N = 0 → HasDerivAt (fun ε : ℝ => controlCostOf p ℓ Z fun k => Z.u k + ε • v k) 0 0

/-- The total augmented cost as a function of the controls. -/
noncomputable abbrev controlCost (p : DynProblem n m ℝ) (cs : ℕ → ALCost n m ℝ)
    (Z : Traj (Fin n → ℝ) (Fin m → ℝ) ℝ) : (ℕ → Fin m → ℝ) → ℝ :=
  controlCostOf p (fun k x u => ((cs k).evaluate x u).1) Z

/-- Stationarity of the total augmented cost. -/
abbrev Stationary (p : DynProblem n m ℝ) (cs : ℕ → ALCost n m ℝ) (Z : Traj (Fin n → ℝ) (Fin m → ℝ) ℝ) : Prop :=
  StationaryOf p (fun k x u => ((cs k).evaluate x u).1) Z

end Altro.Spec
