import Verif.Spec.Calculus
import Verif.Model.Integration

/-!
# Specification vocabulary for dynamics
-/

namespace Altro.Spec
open Matrix
variable {n m : ℕ}

/-- The user's `Jacobian` method is correct: there is a class of output buffers, containing the zero buffer and closed
under calls, on which every call writes the derivative of the dynamics.  (A method that clears its buffer is correct
for all buffers; one that writes only the non-constant entries is correct for buffers with the right constants.) -/
structure JacobianCorrect (d : ContDyn n m ℝ) (Clean : Matrix (Fin n) (Fin n ⊕ Fin m) ℝ → Prop) : Prop where
  zero : Clean 0
  keep : ∀ x u t b, Clean b → Clean (d.jac x u t b)
  exact : ∀ x u t b, Clean b → IsJacAt (fun x u => d.f x u t) (d.jac x u t b) x u

/-- The dynamics and their Jacobian do not depend on time. -/
structure TimeInvariant (d : ContDyn n m ℝ) : Prop where
  f : ∀ x u t t', d.f x u t = d.f x u t'
  jac : ∀ x u t t' b, d.jac x u t b = d.jac x u t' b

/-- `y` solves `y' = f(y, u, t0 + s)` for `s ∈ ℝ`, constant control. -/
structure IsSolution (d : ContDyn n m ℝ) (u : Fin m → ℝ) (t0 : ℝ) (y : ℝ → Fin n → ℝ) : Prop where
  deriv : ∀ s i, HasDerivAt (fun s => y s i) (d.f (y s) u (t0 + s) i) s

end Altro.Spec
