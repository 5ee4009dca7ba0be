import Verif.Spec.LQEquality

/-!
# How far trajectories and multipliers are from those of the solution
-/

namespace Altro.Spec
variable {K : Type} [Field K] [LinearOrder K] {n m : ℕ} {V : Type}

/-- Squared distance of two trajectories with `N` segments: all states, and all controls but the last, which has no effect. -/
def trajGap (N : ℕ) (Z Z' : Traj (Fin n → K) (Fin m → K) K) : K :=
  ∑ k ∈ Finset.range (N + 1), ∑ i, (Z.x k i - Z'.x k i) ^ 2 + ∑ k ∈ Finset.range N, ∑ i, (Z.u k i - Z'.u k i) ^ 2

/-- The multipliers differ from `star` by a difference of constraint values.  If the constraints are independent this is always so; if they
are not, the multipliers of a solution are not unique, and this says which of them are meant. -/
def Spanned (S : V → Prop) (rows : List (Row V K)) (star : List K) : Prop :=
  ∃ Y Y', S Y ∧ S Y' ∧ ∀ q ∈ rows.zip star, q.1.lam - q.2 = q.1.fn Y - q.1.fn Y'

end Altro.Spec
