import Verif.Spec.KKT
import Verif.Proofs.Descent
import Verif.Props.AugLagCalculus

/-!
# The gradient of the Lagrangian
-/

namespace Altro
open Spec Matrix Props
variable {n m : ℕ} {κ : ConKind}

/-- The term one constraint contributes to the gradient of the Lagrangian. -/
def ConVal.lagGrad (v : ConVal κ n m ℝ) (x : Fin n → ℝ) (u : Fin m → ℝ) : (Fin n → ℝ) × (Fin m → ℝ) :=
  (-((v.con.jac x u).toCols₁ᵀ *ᵥ v.lam), -((v.con.jac x u).toCols₂ᵀ *ᵥ v.lam))

/-- The gradient of the Lagrangian of one knot point. -/
def lagGrad (c : ALCost n m ℝ) (x : Fin n → ℝ) (u : Fin m → ℝ) : (Fin n → ℝ) × (Fin m → ℝ) :=
  c.ineq.foldl (fun g v => (g.1 + (v.lagGrad x u).1, g.2 + (v.lagGrad x u).2))
    (c.eq.foldl (fun g v => (g.1 + (v.lagGrad x u).1, g.2 + (v.lagGrad x u).2)) (c.cost.grad x u))

theorem lagTerm_isGradAt (v : ConVal κ n m ℝ) (x : Fin n → ℝ) (u : Fin m → ℝ)
    (hJ : IsJacAt v.con.eval (v.con.jac x u) x u) :
    IsGradAt (fun x u => -(v.lam ⬝ᵥ v.con.eval x u)) (v.lagGrad x u).1 (v.lagGrad x u).2 x u := by
  have h := (IsGradAt.sum Finset.univ (fun i _ => (hJ i).const_mul (v.lam i))).neg
  refine h.congr (fun _ _ => rfl) ?_ ?_
  · funext j
    simp [ConVal.lagGrad, mulVec, dotProduct, toCols₁, Finset.sum_apply, mul_comm]
  · funext j
    simp [ConVal.lagGrad, mulVec, dotProduct, toCols₂, Finset.sum_apply, mul_comm]

theorem foldl_sub_sum {α : Type*} (f : α → ℝ) (l : List α) (a : ℝ) :
    l.foldl (fun J v => J + -(f v)) a = a - (l.map f).sum := by
  induction l generalizing a with
  | nil => simp
  | cons b l ih => rw [List.foldl_cons, ih, List.map_cons, List.sum_cons]; ring

theorem lagrangian_isGradAt (c : ALCost n m ℝ) (x : Fin n → ℝ) (u : Fin m → ℝ)
    (hc : IsGradAt c.cost.eval (c.cost.grad x u).1 (c.cost.grad x u).2 x u)
    (he : ∀ v ∈ c.eq, IsJacAt v.con.eval (v.con.jac x u) x u)
    (hi : ∀ v ∈ c.ineq, IsJacAt v.con.eval (v.con.jac x u) x u) :
    IsGradAt (lagrangian c) (lagGrad c x u).1 (lagGrad c x u).2 x u := by
  have g1 := foldl_grad_isGradAt c.eq (fun v x u => -(v.lam ⬝ᵥ v.con.eval x u)) (fun v => v.lagGrad x u) x u
    (fun v hv => lagTerm_isGradAt v x u (he v hv)) c.cost.eval (c.cost.grad x u) hc
  have g2 := foldl_grad_isGradAt c.ineq (fun v x u => -(v.lam ⬝ᵥ v.con.eval x u)) (fun v => v.lagGrad x u) x u
    (fun v hv => lagTerm_isGradAt v x u (hi v hv)) _ _ g1
  refine g2.congr (fun x' u' => ?_) rfl rfl
  simp only [foldl_sub_sum, lagrangian]

/-- `lagGrad` applied to a direction. -/
theorem lagGrad_dot (c : ALCost n m ℝ) (x : Fin n → ℝ) (u : Fin m → ℝ) (δx : Fin n → ℝ) (δu : Fin m → ℝ) :
    (lagGrad c x u).1 ⬝ᵥ δx + (lagGrad c x u).2 ⬝ᵥ δu
      = (c.cost.grad x u).1 ⬝ᵥ δx + (c.cost.grad x u).2 ⬝ᵥ δu
        - (c.eq.map fun v => v.lam ⬝ᵥ (v.con.jac x u *ᵥ Sum.elim δx δu)).sum
        - (c.ineq.map fun v => v.lam ⬝ᵥ (v.con.jac x u *ᵥ Sum.elim δx δu)).sum := by
  have one : ∀ {κ : ConKind} (v : ConVal κ n m ℝ), (v.lagGrad x u).1 ⬝ᵥ δx + (v.lagGrad x u).2 ⬝ᵥ δu
      = -(v.lam ⬝ᵥ (v.con.jac x u *ᵥ Sum.elim δx δu)) := by
    intro κ v
    have hJ : v.con.jac x u = fromCols (v.con.jac x u).toCols₁ (v.con.jac x u).toCols₂ := (fromCols_toCols _).symm
    conv_rhs => rw [hJ, fromCols_mulVec_sumElim]
    simp only [ConVal.lagGrad, neg_dotProduct, dotProduct_add, t_dot]
    simp only [dotProduct_comm v.lam]
    ring
  have fold : ∀ {κ : ConKind} (l : List (ConVal κ n m ℝ)) (g : (Fin n → ℝ) × (Fin m → ℝ)),
      (l.foldl (fun g v => (g.1 + (v.lagGrad x u).1, g.2 + (v.lagGrad x u).2)) g).1 ⬝ᵥ δx
        + (l.foldl (fun g v => (g.1 + (v.lagGrad x u).1, g.2 + (v.lagGrad x u).2)) g).2 ⬝ᵥ δu
        = g.1 ⬝ᵥ δx + g.2 ⬝ᵥ δu - (l.map fun v => v.lam ⬝ᵥ (v.con.jac x u *ᵥ Sum.elim δx δu)).sum := by
    intro κ l
    induction l with
    | nil => intro g; simp
    | cons a l ih =>
      intro g
      rw [List.foldl_cons, ih, List.map_cons, List.sum_cons]
      have := one a
      simp only [add_dotProduct]
      linarith
  unfold lagGrad
  rw [fold, fold]

end Altro
