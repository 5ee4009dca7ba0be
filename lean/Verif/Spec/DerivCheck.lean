import Verif.Model.DerivCheck
import Mathlib.Analysis.Calculus.Deriv.Basic

/-!
# What a derivative check should tell
-/

namespace Altro.Spec
open Matrix

/-- The check returned `true`. -/
def Passes : CheckOut → Prop
  | .value b => b
  | .undefined => False

/-- `D` holds the partial derivatives of `g` at `z`, which along each coordinate change at most at rate `M` over a
step `h`. -/
def Partials {N p : ℕ} (g : (Fin N → ℝ) → Fin p → ℝ) (z : Fin N → ℝ) (D : Matrix (Fin p) (Fin N) ℝ) (M h : ℝ) : Prop :=
  ∀ i j, ∃ d : ℝ → ℝ, d 0 = D i j ∧
    ∀ t, 0 ≤ t → t ≤ h → HasDerivAt (fun s => g (z + Pi.single j s) i) (d t) t ∧ |d t - d 0| ≤ M * t

end Altro.Spec
