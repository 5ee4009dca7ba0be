import Verif.Model.Integration
import Mathlib.Analysis.Calculus.ContDiff.Defs
import Mathlib.Analysis.Calculus.Deriv.Basic

/-!
# Specification vocabulary for the accuracy of the integrators
-/

namespace Altro.Spec
open Set
variable {n m : ℕ}

/-- The dynamics are four times continuously differentiable in states, controls and time. -/
def FourTimes (d : ContDyn n m ℝ) : Prop := ContDiff ℝ 4 fun p : (Fin n → ℝ) × (Fin m → ℝ) × ℝ => d.f p.1 p.2.1 p.2.2

/-- `N` steps of lengths `h k`, none negative and none longer than `H`, between the times `τ k`. -/
structure TimeGrid (N : ℕ) (τ h : ℕ → ℝ) (H : ℝ) : Prop where
  nonneg : ∀ k < N, 0 ≤ h k
  le : ∀ k < N, h k ≤ H
  next : ∀ k < N, τ (k + 1) = τ k + h k

/-- `y` is the motion of the system when the control `u k` is held from time `τ k` to time `τ (k + 1)`. -/
structure Motion (d : ContDyn n m ℝ) (N : ℕ) (τ : ℕ → ℝ) (u : ℕ → Fin m → ℝ) (y : ℝ → Fin n → ℝ) : Prop where
  cont : ContinuousOn y (Icc (τ 0) (τ N))
  deriv : ∀ k < N, ∀ t ∈ Ico (τ k) (τ (k + 1)), HasDerivWithinAt y (d.f (y t) (u k) t) (Ici t) t

/-- One step of the method `Φ` after the other stays within `C * H ^ q` of the motion of the system: for each compact set of controls, each
bound `r` on the motion and each time span there are constants `C` and `H0`, and the bound holds for all grids with steps of at most `H0`, all
controls in the set, and all motions. -/
def Tracks (d : ContDyn n m ℝ) (Φ : (Fin n → ℝ) → (Fin m → ℝ) → ℝ → ℝ → Fin n → ℝ) (q : ℕ) : Prop :=
  ∀ (K : Set (Fin m → ℝ)), IsCompact K → ∀ r T : ℝ, ∃ C H0 : ℝ, 0 < H0 ∧
    ∀ (N : ℕ) (τ h : ℕ → ℝ) (H : ℝ) (u : ℕ → Fin m → ℝ) (y : ℝ → Fin n → ℝ) (x : ℕ → Fin n → ℝ),
      0 ≤ H → H ≤ H0 → TimeGrid N τ h H → -T ≤ τ 0 → τ N ≤ T → (∀ k < N, u k ∈ K) → Motion d N τ u y →
      (∀ t ∈ Icc (τ 0) (τ N), ‖y t‖ ≤ r) → x 0 = y (τ 0) → (∀ k < N, x (k + 1) = Φ (x k) (u k) (τ k) (h k)) →
      ∀ k ≤ N, ‖x k - y (τ k)‖ ≤ C * H ^ q

end Altro.Spec
