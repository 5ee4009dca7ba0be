import Verif.Spec.LQ
import Verif.Spec.Sweeps
import Verif.Model.InexactGains

/-!
# What is asked of a policy, whatever routine calculated it
-/

namespace Altro.Spec
open Matrix
variable {K : Type} [Field K] [LinearOrder K] {n m : ℕ}

/-- State and control deviations `δ`, `v` that satisfy the linearised dynamics held in `kd`. -/
def Linearised (N : ℕ) (kd : ℕ → KP n m K) (δ : ℕ → Fin n → K) (v : ℕ → Fin m → K) : Prop :=
  ∀ k < N, δ (k + 1) = (kd k).A *ᵥ δ k + (kd k).B *ᵥ v k

/-- The controls the policy in `r` asks for at the full step. -/
def asked (r : ℕ → KP n m K) (k : ℕ) (δx : Fin n → K) : Fin m → K := (r k).gain *ᵥ δx + (r k).ff

/-- Change of the cost along deviations, by the expansions in `kd`: second-order models of the stage costs, and of the last
cost as a function of the state. -/
def modelChange (N : ℕ) (kd : ℕ → KP n m K) (δ : ℕ → Fin n → K) (v : ℕ → Fin m → K) : K :=
  ∑ k ∈ Finset.range N, quadModel (kd k).cost (δ k) (v k) + ctgModel (kd N).cost.dx (kd N).cost.dxdx (δ N)

/-- How far the control the policy asks for is from minimising the action value: the derivative of the action value with
respect to the control.  It is the residual of the linear systems for the gains. -/
def slope (r : ℕ → KP n m K) (k : ℕ) (δx : Fin n → K) : Fin m → K :=
  (r k).q.du + (r k).q.dxduᵀ *ᵥ δx + (r k).q.dudu *ᵥ asked r k δx

/-- The part of `slope` that comes from the feedback gain. -/
def feedbackSlope (r : ℕ → KP n m K) (k : ℕ) (δx : Fin n → K) : Fin m → K :=
  (r k).q.dxduᵀ *ᵥ δx + (r k).q.dudu *ᵥ ((r k).gain *ᵥ δx)

/-- `r` is the result of a sweep, with gains from `solve` and regularization `rho`, that started from the expansions in `kd`
at the last knot point and got through.  The Hessians of the costs are symmetric. -/
structure Swept (solve : GainRoutine n m K) (p : DynProblem n m K) (rho : K) (kd r : ℕ → KP n m K) : Prop where
  complete : Complete (kernelBy solve p) rho kd r
  term : (kd p.N).Sx = (kd p.N).cost.dx ∧ (kd p.N).Sxx = (kd p.N).cost.dxdx
  symx : ∀ k ≤ p.N, (kd k).cost.dxdx.IsSymm
  symu : ∀ k < p.N, (kd k).cost.dudu.IsSymm

/-- The change of the cost the policy in `r` announces for step `alpha` (the number the line search compares with). -/
def announced (p : DynProblem n m K) (r : ℕ → KP n m K) (alpha : K) : K :=
  ∑ k ∈ Finset.range p.N, (alpha * (r k).delta.1 + alpha * alpha * (r k).delta.2)

/-- The controls are those the policy asks for at step `alpha`. -/
def Obeys (N : ℕ) (r : ℕ → KP n m K) (alpha : K) (δ : ℕ → Fin n → K) (v : ℕ → Fin m → K) : Prop :=
  ∀ k < N, v k = (r k).gain *ᵥ δ k + alpha • (r k).ff

end Altro.Spec
