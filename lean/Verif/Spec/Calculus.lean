import Mathlib.Analysis.Calculus.FDeriv.Basic
import Mathlib.Analysis.Calculus.FDeriv.Add
import Mathlib.Analysis.Calculus.FDeriv.Mul
import Mathlib.Analysis.Calculus.FDeriv.Prod
import Mathlib.Analysis.Calculus.FDeriv.Pi
import Mathlib.Analysis.Calculus.FDeriv.Comp
import Mathlib.Analysis.Calculus.Deriv.Basic
import Mathlib.Analysis.Calculus.Deriv.Pow
import Mathlib.Analysis.Calculus.Deriv.Comp
import Mathlib.Topology.Algebra.Module.FiniteDimension
import Mathlib.Data.Matrix.Mul

/-!
# Specification vocabulary for derivatives

Gradients and Jacobians as continuous linear maps on `(state, control)` pairs, so that "the reported gradient is
the derivative" is Mathlib's `HasFDerivAt`.
-/

namespace Altro.Spec
open Matrix

variable {n m p : ℕ}

/-- State-control pairs. -/
abbrev Z (n m : ℕ) := (Fin n → ℝ) × (Fin m → ℝ)

/-- The linear functional `(dx, du) ↦ gxᵀ dx + guᵀ du`. -/
noncomputable def gradCLM (gx : Fin n → ℝ) (gu : Fin m → ℝ) : Z n m →L[ℝ] ℝ :=
  LinearMap.toContinuousLinearMap
    { toFun := fun z => gx ⬝ᵥ z.1 + gu ⬝ᵥ z.2
      map_add' := fun a b => by simp only [Prod.fst_add, Prod.snd_add, dotProduct_add]; ring
      map_smul' := fun r a => by
        simp only [Prod.smul_fst, Prod.smul_snd, dotProduct_smul, smul_eq_mul, RingHom.id_apply]; ring }

@[simp] theorem gradCLM_apply (gx : Fin n → ℝ) (gu : Fin m → ℝ) (z : Z n m) :
    gradCLM gx gu z = gx ⬝ᵥ z.1 + gu ⬝ᵥ z.2 := rfl

/-- The reported gradient of `f` at `(x, u)` is its derivative. -/
def IsGradAt (f : (Fin n → ℝ) → (Fin m → ℝ) → ℝ) (gx : Fin n → ℝ) (gu : Fin m → ℝ)
    (x : Fin n → ℝ) (u : Fin m → ℝ) : Prop :=
  HasFDerivAt (fun z : Z n m => f z.1 z.2) (gradCLM gx gu) (x, u)

/-- The reported `p × (n+m)` Jacobian of `f` at `(x, u)` is its derivative, row by row. -/
def IsJacAt (f : (Fin n → ℝ) → (Fin m → ℝ) → Fin p → ℝ) (J : Matrix (Fin p) (Fin n ⊕ Fin m) ℝ)
    (x : Fin n → ℝ) (u : Fin m → ℝ) : Prop :=
  ∀ i, IsGradAt (fun x u => f x u i) (fun j => J i (.inl j)) (fun j => J i (.inr j)) x u

end Altro.Spec
