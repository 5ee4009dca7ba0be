import Verif.Model.KnotPoint
import Mathlib.LinearAlgebra.Matrix.Symmetric

/-!
# Quadratic models and definiteness
-/

namespace Altro.Spec
open Matrix
variable {K : Type*} [Field K] [LinearOrder K] {n m : ℕ}

/-- Change predicted by a second-order expansion for deviations `δx`, `δu`. -/
def quadModel (e : Expansion n m K) (δx : Fin n → K) (δu : Fin m → K) : K :=
  e.dx ⬝ᵥ δx + e.du ⬝ᵥ δu + (1 / 2) * (δx ⬝ᵥ e.dxdx *ᵥ δx) + δx ⬝ᵥ e.dxdu *ᵥ δu + (1 / 2) * (δu ⬝ᵥ e.dudu *ᵥ δu)

/-- Change of the cost-to-go model for a state deviation. -/
def ctgModel (Sx : Fin n → K) (Sxx : Matrix (Fin n) (Fin n) K) (δx : Fin n → K) : K :=
  Sx ⬝ᵥ δx + (1 / 2) * (δx ⬝ᵥ Sxx *ᵥ δx)

/-- Positive definite. -/
def PosDef {q : ℕ} (M : Matrix (Fin q) (Fin q) K) : Prop := ∀ x : Fin q → K, x ≠ 0 → 0 < x ⬝ᵥ M *ᵥ x

/-- Positive semidefinite. -/
def PosSemidef {q : ℕ} (M : Matrix (Fin q) (Fin q) K) : Prop := ∀ x : Fin q → K, 0 ≤ x ⬝ᵥ M *ᵥ x

/-- The symmetric matrix given by the lower triangle, which is all a Cholesky factorization reads. -/
def lowSym {q : ℕ} (M : Matrix (Fin q) (Fin q) K) : Matrix (Fin q) (Fin q) K :=
  Matrix.of fun i j => if j ≤ i then M i j else M j i

/-- The second-order part of an expansion is symmetric and positive semidefinite in state and control jointly. -/
structure ConvexExp (e : Expansion n m K) : Prop where
  symx : e.dxdx.IsSymm
  symu : e.dudu.IsSymm
  psd : ∀ (δx : Fin n → K) (δu : Fin m → K),
    0 ≤ δx ⬝ᵥ e.dxdx *ᵥ δx + 2 * (δx ⬝ᵥ e.dxdu *ᵥ δu) + δu ⬝ᵥ e.dudu *ᵥ δu

end Altro.Spec
