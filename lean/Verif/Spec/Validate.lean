import Verif.Spec.Quadratic
import Verif.Model.Validate
import Mathlib.Data.Matrix.Diagonal
import Mathlib.LinearAlgebra.Matrix.Permutation

/-!
# What is assumed of `Eigen::LDLT`
-/

namespace Altro.Spec
open Matrix

/-- When the factorization reports success it is a factorization: up to a permutation of the variables the matrix given
by the lower triangle is `L D Lᵀ`.  Nothing is assumed about when it reports success. -/
def Factorizes (ldlt : (n : ℕ) → Matrix (Fin n) (Fin n) ℝ → LDLT n) : Prop :=
  ∀ (n : ℕ) (M : Matrix (Fin n) (Fin n) ℝ), (ldlt n M).ok = true →
    ∃ (σ : Equiv.Perm (Fin n)) (L : Matrix (Fin n) (Fin n) ℝ),
      (lowSym M).submatrix σ σ = L * diagonal (ldlt n M).D * Lᵀ

/-- The constructor of a quadratic cost accepts the arguments (build with assertions). -/
def Accepted (ldlt : (n : ℕ) → Matrix (Fin n) (Fin n) ℝ → LDLT n) (a : QuadArgs) : Prop :=
  a.validate true ldlt = .ok ()

end Altro.Spec
