import Verif.Proofs.Quadratic

/-!
# C27-C29: action-value expansion, gains, cost-to-go
-/

namespace Altro.Props
open Altro.Spec Matrix
variable {K : Type*} [Field K] [LinearOrder K] [IsStrictOrderedRing K] {n m : ℕ}

/-- The stored action-value model is the cost expansion plus the next cost-to-go model along the linearised
dynamics. -/
theorem C27_action_value (d nxt : KP n m K) (hs : nxt.Sxx.IsSymm) (δx : Fin n → K) (δu : Fin m → K) :
    quadModel (d.actionValue nxt).q δx δu
      = quadModel d.cost δx δu + ctgModel nxt.Sx nxt.Sxx (d.A *ᵥ δx + d.B *ᵥ δu) := by
  unfold quadModel ctgModel KP.actionValue
  simp only [add_mulVec, add_dotProduct, dotProduct_add, mulVec_add, dot_tmul, t_dot]
  have h := dot_symm hs (d.B *ᵥ δu) (d.A *ᵥ δx)
  linear_combination -(1 / 2) * h

/-- Nothing else of the knot point changes. -/
theorem C27_frame (d nxt : KP n m K) :
    (d.actionValue nxt).cost = d.cost ∧ (d.actionValue nxt).A = d.A ∧ (d.actionValue nxt).B = d.B ∧
    (d.actionValue nxt).gain = d.gain ∧ (d.actionValue nxt).ff = d.ff := ⟨rfl, rfl, rfl, rfl, rfl⟩

/-- The Cholesky factorization succeeds exactly for positive definite matrices (of the lower triangle, which is all
it reads), and `solve` then solves the linear system. -/
theorem C28_cholesky (M : Matrix (Fin m) (Fin m) K) :
    (lltOk m M = true ↔ PosDef (lowSym M)) ∧
    (lltOk m M = true → ∀ b, lowSym M *ᵥ lltSolve m M b = b) := by
  rw [← lltOk_lowSym, lltOk_iff_posDef_symm (lowSym_isSymm M)]
  refine ⟨Iff.rfl, fun h b => ?_⟩
  rw [← lltSolve_lowSym]
  exact lltSolve_symm (lowSym_isSymm M) ((lltOk_iff_posDef_symm (lowSym_isSymm M)).mpr h) b

/-- The linear equations satisfied by the gains. -/
theorem gains_eqs (d : KP n m K) (hs : d.qreg.dudu.IsSymm) (hok : d.gains.2 = true) :
    PosDef d.qreg.dudu ∧
    (∀ δx, d.qreg.dudu *ᵥ (d.gains.1.gain *ᵥ δx) = -(d.qreg.dxduᵀ *ᵥ δx)) ∧
    d.qreg.dudu *ᵥ d.gains.1.ff = -d.qreg.du := by
  have hl : lltOk m d.qreg.dudu = true := by
    by_contra h
    unfold KP.gains at hok
    rw [if_neg h] at hok
    simp at hok
  have hsolve := lltSolve_symm hs hl
  unfold KP.gains
  rw [if_pos hl]
  refine ⟨(lltOk_iff_posDef_symm hs).mp hl, fun δx => ?_, ?_⟩
  · rw [mulVec_mulVec]
    have : d.qreg.dudu * (Matrix.of fun i j => -(lltSolve m d.qreg.dudu (fun l => d.qreg.dxdu j l) i))
        = -d.qreg.dxduᵀ := by
      ext i j
      have h := congrFun (hsolve (fun l => d.qreg.dxdu j l)) i
      simp only [mulVec, dotProduct] at h
      simp only [mul_apply, of_apply, neg_apply, transpose_apply, mul_neg, Finset.sum_neg_distrib, h]
      rfl
    rw [this, neg_mulVec]
  · rw [mulVec_neg, hsolve]

/-- When the factorization succeeds, `K δx + d` is the unique global minimiser of the regularised model, for every
state deviation. -/
theorem C28_minimiser (d : KP n m K) (hs : d.qreg.dudu.IsSymm) (hok : d.gains.2 = true) (δx : Fin n → K)
    (δu : Fin m → K) (hne : δu ≠ d.gains.1.gain *ᵥ δx + d.gains.1.ff) :
    quadModel d.qreg δx (d.gains.1.gain *ᵥ δx + d.gains.1.ff) < quadModel d.qreg δx δu := by
  obtain ⟨hP, hG, hf⟩ := gains_eqs d hs hok
  rw [quadModel_complete d.qreg hs _ _ hG hf δx δu]
  have := hP _ (sub_ne_zero.mpr hne)
  linarith

/-- For a symmetric regularised Hessian the factorization succeeds exactly when the Hessian is positive definite;
otherwise the gains (and everything else) are kept. -/
theorem C28_success_iff (d : KP n m K) (hs : d.qreg.dudu.IsSymm) :
    (d.gains.2 = true ↔ PosDef d.qreg.dudu) ∧ (d.gains.2 = false → d.gains.1 = d) := by
  unfold KP.gains
  by_cases h : lltOk m d.qreg.dudu = true
  · rw [if_pos h]
    exact ⟨⟨fun _ => (lltOk_iff_posDef_symm hs).mp h, fun _ => rfl⟩, fun h => by simp at h⟩
  · rw [if_neg h]
    refine ⟨⟨fun h => by simp at h, fun hP => absurd ((lltOk_iff_posDef_symm hs).mpr hP) h⟩, fun _ => rfl⟩

/-- The regularised model is the action-value model plus `rho/2 |δu|²`. -/
theorem C28_regularised (d : KP n m K) (rho : K) (δx : Fin n → K) (δu : Fin m → K) :
    quadModel (d.regularize rho).qreg δx δu = quadModel d.q δx δu + rho / 2 * (δu ⬝ᵥ δu) := by
  unfold quadModel KP.regularize
  simp only [add_mulVec, smul_mulVec, one_mulVec, dotProduct_add, dotProduct_smul, smul_eq_mul]
  ring

/-- The stored cost-to-go is the action-value model evaluated at the policy: gradient, Hessian and predicted
change. -/
theorem C29_cost_to_go (d : KP n m K) (hs : d.q.dudu.IsSymm) (δx : Fin n → K) :
    quadModel d.q δx (d.gain *ᵥ δx + d.ff)
      = d.costToGo.delta.1 + d.costToGo.delta.2 + ctgModel d.costToGo.Sx d.costToGo.Sxx δx := by
  unfold quadModel ctgModel KP.costToGo
  simp only [add_mulVec, add_dotProduct, dotProduct_add, mulVec_add, dot_tmul, t_dot, ← mulVec_mulVec, dot_t]
  have h1 := dot_symm hs (d.gain *ᵥ δx) d.ff
  have h2 : (d.gain *ᵥ δx) ⬝ᵥ (d.q.dxduᵀ *ᵥ δx) = δx ⬝ᵥ d.q.dxdu *ᵥ (d.gain *ᵥ δx) := by
    rw [dotProduct_comm, t_dot]
  have h3 : (d.q.dudu *ᵥ d.ff) ⬝ᵥ (d.gain *ᵥ δx) = (d.gain *ᵥ δx) ⬝ᵥ d.q.dudu *ᵥ d.ff := dotProduct_comm _ _
  have h4 : (d.q.dxdu *ᵥ d.ff) ⬝ᵥ δx = δx ⬝ᵥ d.q.dxdu *ᵥ d.ff := dotProduct_comm _ _
  have h5 : d.ff ⬝ᵥ d.q.du = d.q.du ⬝ᵥ d.ff := dotProduct_comm _ _
  have h6 : (d.q.dxdu *ᵥ (d.gain *ᵥ δx)) ⬝ᵥ δx = δx ⬝ᵥ d.q.dxdu *ᵥ (d.gain *ᵥ δx) := dotProduct_comm _ _
  simp only [h2, h3, h4, h5, h6]
  linear_combination -(1 / 2) * h1

/-- The predicted change for step `alpha` is the change of the model along `alpha d`. -/
theorem C29_delta (d : KP n m K) (alpha : K) :
    d.costToGo.costToGoDelta alpha = quadModel d.costToGo.q 0 (alpha • d.costToGo.ff) := by
  unfold quadModel KP.costToGoDelta KP.costToGo
  simp only [mulVec_smul, dotProduct_smul, smul_dotProduct, smul_eq_mul, dotProduct_zero, zero_dotProduct, mul_zero]
  rw [dotProduct_comm d.q.du]
  ring

/-- `CalcCostToGo` changes nothing the policy or the action-value model depends on. -/
theorem C29_frame (d : KP n m K) :
    d.costToGo.q = d.q ∧ d.costToGo.gain = d.gain ∧ d.costToGo.ff = d.ff ∧ d.costToGo.cost = d.cost :=
  ⟨rfl, rfl, rfl, rfl⟩

end Altro.Props
