import Verif.Proofs.Cholesky

namespace Altro
open Matrix Spec
variable {K : Type*} [Field K] [LinearOrder K] {n m : ℕ}

section algebra
variable {a b c d : ℕ}

/-- `x · (Aᵀ S B) y = (A x) · S (B y)`. -/
theorem dot_tmul (A : Matrix (Fin a) (Fin c) K) (S : Matrix (Fin a) (Fin b) K) (B : Matrix (Fin b) (Fin d) K)
    (x : Fin c → K) (y : Fin d → K) : x ⬝ᵥ (Aᵀ * S * B) *ᵥ y = (A *ᵥ x) ⬝ᵥ S *ᵥ (B *ᵥ y) := by
  rw [← mulVec_mulVec, ← mulVec_mulVec, dotProduct_mulVec, vecMul_transpose]

theorem dot_t (A : Matrix (Fin a) (Fin c) K) (x : Fin c → K) (y : Fin a → K) :
    x ⬝ᵥ Aᵀ *ᵥ y = (A *ᵥ x) ⬝ᵥ y := by
  rw [dotProduct_mulVec, vecMul_transpose]

theorem t_dot (A : Matrix (Fin a) (Fin c) K) (x : Fin c → K) (y : Fin a → K) :
    (Aᵀ *ᵥ y) ⬝ᵥ x = y ⬝ᵥ A *ᵥ x := by
  rw [dotProduct_comm, dot_t, dotProduct_comm]

theorem dot_symm {M : Matrix (Fin a) (Fin a) K} (h : M.IsSymm) (x y : Fin a → K) :
    x ⬝ᵥ M *ᵥ y = y ⬝ᵥ M *ᵥ x := by
  conv_lhs => rw [← h.eq]
  rw [dot_t, dotProduct_comm]

end algebra

/-- The quadratic model after minimising over the control: completing the square. -/
theorem quadModel_complete [IsStrictOrderedRing K] (e : Expansion n m K) (hsu : e.dudu.IsSymm)
    (G : Matrix (Fin m) (Fin n) K) (f : Fin m → K)
    (hG : ∀ δx, e.dudu *ᵥ (G *ᵥ δx) = -(e.dxduᵀ *ᵥ δx)) (hf : e.dudu *ᵥ f = -e.du)
    (δx : Fin n → K) (δu : Fin m → K) :
    quadModel e δx δu = quadModel e δx (G *ᵥ δx + f)
      + (1 / 2) * ((δu - (G *ᵥ δx + f)) ⬝ᵥ e.dudu *ᵥ (δu - (G *ᵥ δx + f))) := by
  set p := G *ᵥ δx + f with hp
  have h1 : e.dudu *ᵥ p = -(e.dxduᵀ *ᵥ δx) - e.du := by
    rw [hp, mulVec_add, hG, hf]; abel
  have h2 : ∀ w : Fin m → K, w ⬝ᵥ e.dudu *ᵥ p = -(δx ⬝ᵥ e.dxdu *ᵥ w) - e.du ⬝ᵥ w := by
    intro w
    rw [h1, dotProduct_sub, dotProduct_neg, dot_t, dotProduct_comm (e.dxdu *ᵥ w), dotProduct_comm w]
  have h3 := h2 δu
  have h4 := h2 p
  have h5 := dot_symm hsu p δu
  unfold quadModel
  simp only [mulVec_sub, dotProduct_sub, sub_dotProduct]
  linear_combination h3 - h4 + (1 / 2) * h5

end Altro
