import Verif.Spec.LQInequality

/-!
# Progress of the iterations on nonlinear problems
-/

namespace Altro.Spec
open Matrix ILQR
variable {K : Type} [Field K] [LinearOrder K] {n m : ℕ}

/-- The reported Hessian blocks of the objective are symmetric and positive semidefinite, with curvature at least `μ` in the controls of
the segments; penalties are not negative.  (Nothing is asked of dynamics and constraints, nor need the reported derivatives be right.) -/
structure CurvedObjective (p : DynProblem n m K) (cs : ℕ → ALCost n m K) (μ : K) : Prop where
  psd : ∀ k ≤ p.N, ∀ x u, BlockPSD ((cs k).cost.hess x u)
  strong : ∀ k < p.N, ∀ x u δx δu, μ * (δu ⬝ᵥ δu) ≤ quadForm ((cs k).cost.hess x u) δx δu
  penEq : ∀ k ≤ p.N, ∀ v ∈ (cs k).eq, ∀ i, 0 ≤ v.pen i
  penIneq : ∀ k ≤ p.N, ∀ v ∈ (cs k).ineq, ∀ i, 0 ≤ v.pen i

/-- The convergence test of the inner solver on the last records. -/
def Converged {X U C D : Type} (o : Opts K) (s : St X U K C D) : Prop :=
  Stats.back (s.stats.col .dJ) < o.costTol ∧ Stats.back (s.stats.col .grad) < o.gradTol

/-- `st 0, ..., st r` are the states between the iterations of a loop that begins in `s`: no earlier one passes the convergence test. -/
structure Iterations (p : DynProblem n m K) (o : Opts K) (fuel : ℕ)
    (s : St (Fin n → K) (Fin m → K) K (ALCost n m K) (KP n m K)) (r : ℕ)
    (st : ℕ → St (Fin n → K) (Fin m → K) K (ALCost n m K) (KP n m K)) : Prop where
  init : st 0 = s
  next : ∀ i < r, iterate (alKernel p) o fuel (st i) = some (st (i + 1))
  open_ : ∀ i, 0 < i → i < r → ¬ Converged o (st i)

/-- The number of iterations among the first `r` that changed the trajectory. -/
noncomputable def accepted (r : ℕ) (st : ℕ → St (Fin n → K) (Fin m → K) K (ALCost n m K) (KP n m K)) : ℕ :=
  open Classical in ((Finset.range r).filter fun i => (st (i + 1)).Z ≠ (st i).Z).card

end Altro.Spec
