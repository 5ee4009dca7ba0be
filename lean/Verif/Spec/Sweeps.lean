import Verif.Spec.ILQR
import Verif.Model.Concrete
import Mathlib.Algebra.BigOperators.Group.Finset.Basic

/-!
# What a backward pass with failing factorizations does

The recursion of one sweep and the sequence of sweeps of a backward pass, written down as relations between the knot point data
before and after.
-/

namespace Altro.Spec
variable {X U K C D : Type} [Field K]

/-- Segment `j` has been treated: its action value is that of the data before (`kd`) and of the next knot point after (`kd'`). -/
def Treated (P : Kernel X U K C D) (rho : K) (kd kd' : ℕ → D) (j : ℕ) : Prop :=
  (P.gains (P.regularize rho (P.actionValue (kd j) (kd' (j + 1))))).2 = true ∧
  kd' j = P.costToGo (P.gains (P.regularize rho (P.actionValue (kd j) (kd' (j + 1))))).1

/-- A sweep that went through all segments. -/
structure Complete (P : Kernel X U K C D) (rho : K) (kd kd' : ℕ → D) : Prop where
  keeps : ∀ j, P.N ≤ j → kd' j = kd j
  done : ∀ j < P.N, Treated P rho kd kd' j

/-- A sweep that stopped at segment `k`, where the factorization failed. -/
structure Stopped (P : Kernel X U K C D) (rho : K) (kd kd' : ℕ → D) (k : ℕ) : Prop where
  lt : k < P.N
  keeps : ∀ j, P.N ≤ j → kd' j = kd j
  done : ∀ j, k < j → j < P.N → Treated P rho kd kd' j
  fails : (P.gains (P.regularize rho (P.actionValue (kd k) (kd' (k + 1))))).2 = false
  here : kd' k = (P.gains (P.regularize rho (P.actionValue (kd k) (kd' (k + 1))))).1
  below : ∀ j < k, kd' j = kd j

/-- A stopped sweep: regularization, data afterwards, where it stopped. -/
structure Attempt (K D : Type) where
  rho : K
  kd : ℕ → D
  stop : ℕ

/-- The linear part of the change predicted by the segments a stopped sweep has treated. -/
def Attempt.lin (P : Kernel X U K C D) (a : Attempt K D) : K := ∑ j ∈ Finset.Ioo a.stop P.N, (P.delta (a.kd j)).1

/-- The quadratic part. -/
def Attempt.quad (P : Kernel X U K C D) (a : Attempt K D) : K := ∑ j ∈ Finset.Ioo a.stop P.N, (P.delta (a.kd j)).2

/-- Stopped sweeps one after the other, from the data `kd` to the data `kd'`. -/
inductive Stops (P : Kernel X U K C D) : (ℕ → D) → List (Attempt K D) → (ℕ → D) → Prop
  | nil (kd : ℕ → D) : Stops P kd [] kd
  | cons {kd : ℕ → D} {a : Attempt K D} {l : List (Attempt K D)} {kd' : ℕ → D} :
    Stopped P a.rho kd a.kd a.stop → Stops P a.kd l kd' → Stops P kd (a :: l) kd'

/-- The change predicted by the policy in `kd`: the sum over the segments. -/
def policyLin (P : Kernel X U K C D) (kd : ℕ → D) : K := ∑ j ∈ Finset.range P.N, (P.delta (kd j)).1

def policyQuad (P : Kernel X U K C D) (kd : ℕ → D) : K := ∑ j ∈ Finset.range P.N, (P.delta (kd j)).2

end Altro.Spec
