import Verif.Spec.Qualification
import Mathlib.Analysis.Calculus.ContDiff.Defs
import Mathlib.Analysis.Calculus.IteratedDeriv.Defs

/-!
# Regular solutions: second-order conditions

The derivatives are those with respect to the controls, the states following the dynamics.
-/

namespace Altro.Spec
open Matrix
variable {n m : ℕ}

/-- Dynamics (on the time grid of `Z`), objective and constraints are twice continuously differentiable, and nothing depends on the last control. -/
structure TwiceSmooth (p : DynProblem n m ℝ) (cs : ℕ → ALCost n m ℝ) (Z : Traj (Fin n → ℝ) (Fin m → ℝ) ℝ) : Prop where
  dyn : ∀ k < p.N, ContDiff ℝ 2 fun z : (Fin n → ℝ) × (Fin m → ℝ) => p.f k z.1 z.2 (Z.t k) (Z.h k)
  cost : ∀ k ≤ p.N, ContDiff ℝ 2 fun z : (Fin n → ℝ) × (Fin m → ℝ) => (cs k).cost.eval z.1 z.2
  eq : ∀ k ≤ p.N, ∀ v ∈ (cs k).eq, ContDiff ℝ 2 fun z : (Fin n → ℝ) × (Fin m → ℝ) => v.con.eval z.1 z.2
  ineq : ∀ k ≤ p.N, ∀ v ∈ (cs k).ineq, ContDiff ℝ 2 fun z : (Fin n → ℝ) × (Fin m → ℝ) => v.con.eval z.1 z.2
  term : ∀ x u u', (cs p.N).cost.eval x u = (cs p.N).cost.eval x u'
  termEq : ∀ v ∈ (cs p.N).eq, ∀ x u u', v.con.eval x u = v.con.eval x u'
  termIneq : ∀ v ∈ (cs p.N).ineq, ∀ x u u', v.con.eval x u = v.con.eval x u'

/-- Inequalities that hold with equality have a multiplier that is not zero. -/
def StrictComplementarity (p : DynProblem n m ℝ) (cs : ℕ → ALCost n m ℝ) (Z : Traj (Fin n → ℝ) (Fin m → ℝ) ℝ) : Prop :=
  ∀ k ≤ p.N, ∀ v ∈ (cs k).ineq, ∀ i, v.con.eval (Z.x k) (Z.u k) i = 0 → v.lam i ≠ 0

/-- To first order the change `d` of the controls changes no equality and no inequality that holds with equality. -/
structure Tangent (p : DynProblem n m ℝ) (cs : ℕ → ALCost n m ℝ) (Z : Traj (Fin n → ℝ) (Fin m → ℝ) ℝ) (d : ℕ → Fin m → ℝ) : Prop where
  last : d p.N = 0
  eq : ∀ k ≤ p.N, ∀ v ∈ (cs k).eq, ∀ i, HasDerivAt (along p Z v.con k i d) 0 0
  ineq : ∀ k ≤ p.N, ∀ v ∈ (cs k).ineq, ∀ i, v.con.eval (Z.x k) (Z.u k) i = 0 → HasDerivAt (along p Z v.con k i d) 0 0

/-- Along every change of the controls that is tangent to the constraints, the second derivative of the total Lagrangian is positive. -/
def SecondOrder (p : DynProblem n m ℝ) (cs : ℕ → ALCost n m ℝ) (Z : Traj (Fin n → ℝ) (Fin m → ℝ) ℝ) : Prop :=
  ∀ d : ℕ → Fin m → ℝ, Tangent p cs Z d → (∃ k < p.N, d k ≠ 0) →
    0 < iteratedDeriv 2 (fun a : ℝ => controlCostOf p (fun k => lagrangian (cs k)) Z fun k => Z.u k + a • d k) 0

/-- `Z` with the multipliers held in `cs` is a regular solution: a Karush-Kuhn-Tucker point with linearly independent derivatives of the active
constraints, strict complementarity and the second-order condition. -/
structure RegularSolution (p : DynProblem n m ℝ) (cs : ℕ → ALCost n m ℝ) (Z : Traj (Fin n → ℝ) (Fin m → ℝ) ℝ) : Prop where
  kkt : KKT p cs Z
  licq : LICQ p cs Z
  strict : StrictComplementarity p cs Z
  second : SecondOrder p cs Z

/-- The controls of all segments agree up to `r`. -/
def ControlsWithin (p : DynProblem n m ℝ) (Z Z' : Traj (Fin n → ℝ) (Fin m → ℝ) ℝ) (r : ℝ) : Prop := ∀ k < p.N, ∀ i, |Z'.u k i - Z.u k i| ≤ r

/-- The states of all knot points agree up to `r`. -/
def StatesWithin (p : DynProblem n m ℝ) (Z Z' : Traj (Fin n → ℝ) (Fin m → ℝ) ℝ) (r : ℝ) : Prop := ∀ k ≤ p.N, ∀ i, |Z'.x k i - Z.x k i| ≤ r

/-- The multipliers of two sets of cost objects agree up to `r`. -/
def MultsWithin (p : DynProblem n m ℝ) (cs cs' : ℕ → ALCost n m ℝ) (r : ℝ) : Prop :=
  ∀ k ≤ p.N, ∀ j i, |mulAt (cs' k).eq j i - mulAt (cs k).eq j i| ≤ r ∧ |mulAt (cs' k).ineq j i - mulAt (cs k).ineq j i| ≤ r

/-- The values that the cost objects hold are those along `Z`, up to `a`. -/
def ValuesWithin (p : DynProblem n m ℝ) (cs : ℕ → ALCost n m ℝ) (Z : Traj (Fin n → ℝ) (Fin m → ℝ) ℝ) (a : ℝ) : Prop :=
  ∀ k ≤ p.N, (∀ v ∈ (cs k).eq, ∀ i, |v.c i - v.con.eval (Z.x k) (Z.u k) i| ≤ a) ∧ ∀ v ∈ (cs k).ineq, ∀ i, |v.c i - v.con.eval (Z.x k) (Z.u k) i| ≤ a

end Altro.Spec
