import Verif.Spec.Dynamics
import Mathlib.Tactic.Module

namespace Altro
open Matrix Spec
variable {n m p : ℕ}

/-- `J (dx, du)` as a continuous linear map. -/
noncomputable def jacCLM (J : Matrix (Fin p) (Fin n ⊕ Fin m) ℝ) : Z n m →L[ℝ] (Fin p → ℝ) :=
  ContinuousLinearMap.pi fun i => gradCLM (fun j => J i (.inl j)) (fun j => J i (.inr j))

theorem jacCLM_apply (J : Matrix (Fin p) (Fin n ⊕ Fin m) ℝ) (z : Z n m) :
    jacCLM J z = J.toCols₁ *ᵥ z.1 + J.toCols₂ *ᵥ z.2 := by
  funext i
  simp [jacCLM, mulVec, toCols₁, toCols₂, dotProduct]

theorem isJacAt_iff (f : (Fin n → ℝ) → (Fin m → ℝ) → Fin p → ℝ) (J : Matrix (Fin p) (Fin n ⊕ Fin m) ℝ)
    (x : Fin n → ℝ) (u : Fin m → ℝ) :
    IsJacAt f J x u ↔ HasFDerivAt (fun z : Z n m => f z.1 z.2) (jacCLM J) (x, u) := by
  unfold IsJacAt IsGradAt jacCLM
  rw [hasFDerivAt_pi]

/-- Chain rule for one stage: `f (x + c • k(x,u), u)`. -/
theorem stage_deriv {f k : (Fin n → ℝ) → (Fin m → ℝ) → Fin n → ℝ} {x : Fin n → ℝ} {u : Fin m → ℝ}
    {J : Matrix (Fin n) (Fin n ⊕ Fin m) ℝ} {D : Z n m →L[ℝ] (Fin n → ℝ)} (c : ℝ)
    (hk : HasFDerivAt (fun z : Z n m => k z.1 z.2) D (x, u)) (hf : IsJacAt f J (x + c • k x u) u) :
    HasFDerivAt (fun z : Z n m => f (z.1 + c • k z.1 z.2) z.2)
      ((jacCLM J).comp ((ContinuousLinearMap.fst ℝ _ _ + c • D).prod (ContinuousLinearMap.snd ℝ _ _))) (x, u) := by
  rw [isJacAt_iff] at hf
  have h1 : HasFDerivAt (fun z : Z n m => (z.1 + c • k z.1 z.2, z.2))
      ((ContinuousLinearMap.fst ℝ _ _ + c • D).prod (ContinuousLinearMap.snd ℝ _ _)) (x, u) :=
    (hasFDerivAt_fst.add (hk.const_smul c)).prodMk hasFDerivAt_snd
  exact HasFDerivAt.comp (g := fun z : Z n m => f z.1 z.2) (x, u) hf h1

theorem rk4Assemble_apply (h : ℝ) (J0 J1 J2 J3 : Matrix (Fin n) (Fin n ⊕ Fin m) ℝ) :
    jacCLM (ContDyn.rk4Assemble h J0 J1 J2 J3) =
      let fst := ContinuousLinearMap.fst ℝ (Fin n → ℝ) (Fin m → ℝ)
      let snd := ContinuousLinearMap.snd ℝ (Fin n → ℝ) (Fin m → ℝ)
      let D1 := jacCLM J0
      let D2 := (jacCLM J1).comp ((fst + (1 / 2 * h) • D1).prod snd)
      let D3 := (jacCLM J2).comp ((fst + (1 / 2 * h) • D2).prod snd)
      let D4 := (jacCLM J3).comp ((fst + h • D3).prod snd)
      fst + (h / 6) • (D1 + (2 : ℝ) • D2 + (2 : ℝ) • D3 + D4) := by
  refine ContinuousLinearMap.ext fun z => ?_
  obtain ⟨dx, du⟩ := z
  simp only [jacCLM_apply, ContDyn.rk4Assemble, toCols₁_fromCols, toCols₂_fromCols, _root_.add_apply,
    _root_.smul_apply, ContinuousLinearMap.coe_fst', ContinuousLinearMap.comp_apply, ContinuousLinearMap.prod_apply,
    ContinuousLinearMap.coe_snd', add_mulVec, smul_mulVec, one_mulVec, mulVec_add, mulVec_smul, ← mulVec_mulVec,
    Matrix.mul_add, Matrix.mul_one, smul_add, smul_smul, Matrix.mul_smul, Matrix.smul_mul]
  module

end Altro
