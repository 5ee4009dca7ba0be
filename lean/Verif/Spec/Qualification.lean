import Verif.Spec.NearKKT

/-!
# Constraint qualifications

The derivatives are those with respect to the controls, the states following the dynamics.
-/

namespace Altro.Spec
open Matrix
variable {n m : ℕ}

/-- Multipliers times constraint values at one knot point. -/
noncomputable def weighted (c : ALCost n m ℝ) (x : Fin n → ℝ) (u : Fin m → ℝ) : ℝ :=
  (c.eq.map fun v => v.lam ⬝ᵥ v.con.eval x u).sum + (c.ineq.map fun v => v.lam ⬝ᵥ v.con.eval x u).sum

/-- All multipliers are zero. -/
structure NoMultipliers (p : DynProblem n m ℝ) (cs : ℕ → ALCost n m ℝ) : Prop where
  eq : ∀ k ≤ p.N, ∀ v ∈ (cs k).eq, ∀ i, v.lam i = 0
  ineq : ∀ k ≤ p.N, ∀ v ∈ (cs k).ineq, ∀ i, v.lam i = 0

/-- The multipliers belong to active constraints: those of inequalities vanish unless the constraint holds with equality. -/
def OnActive (p : DynProblem n m ℝ) (cs : ℕ → ALCost n m ℝ) (Z : Traj (Fin n → ℝ) (Fin m → ℝ) ℝ) : Prop :=
  ∀ k ≤ p.N, ∀ v ∈ (cs k).ineq, ∀ i, v.lam i = 0 ∨ v.con.eval (Z.x k) (Z.u k) i = 0

/-- Inequality multipliers have the sign the library gives them. -/
def Signed (p : DynProblem n m ℝ) (cs : ℕ → ALCost n m ℝ) : Prop :=
  ∀ k ≤ p.N, ∀ v ∈ (cs k).ineq, ∀ i, v.lam i ≤ 0

/-- The weighted sum of the constraints is stationary with respect to the controls. -/
abbrev Degenerate (p : DynProblem n m ℝ) (cs : ℕ → ALCost n m ℝ) (Z : Traj (Fin n → ℝ) (Fin m → ℝ) ℝ) : Prop :=
  StationaryOf p (fun k => weighted (cs k)) Z

/-- No multipliers of active constraints, with the right signs and not all zero, make the weighted sum of the constraints stationary. -/
def Qualified (p : DynProblem n m ℝ) (cs : ℕ → ALCost n m ℝ) (Z : Traj (Fin n → ℝ) (Fin m → ℝ) ℝ) : Prop :=
  ∀ cs', SameProblem p cs cs' → OnActive p cs' Z → Signed p cs' → Degenerate p cs' Z → NoMultipliers p cs'

/-- Linear independence constraint qualification: the derivatives of the active constraints are linearly independent. -/
def LICQ (p : DynProblem n m ℝ) (cs : ℕ → ALCost n m ℝ) (Z : Traj (Fin n → ℝ) (Fin m → ℝ) ℝ) : Prop :=
  ∀ cs', SameProblem p cs cs' → OnActive p cs' Z → Degenerate p cs' Z → NoMultipliers p cs'

/-- The value of a constraint of knot point `k` when the controls are moved by `a` in direction `v`. -/
def along (p : DynProblem n m ℝ) (Z : Traj (Fin n → ℝ) (Fin m → ℝ) ℝ) (con : Con n m ℝ) (k : ℕ) (i : Fin con.p) (v : ℕ → Fin m → ℝ) (a : ℝ) : ℝ :=
  con.eval (openLoop p Z (fun k => Z.u k + a • v k) k) (Z.u k + a • v k) i

/-- Mangasarian-Fromovitz constraint qualification: the derivatives of the equalities are linearly independent, and in some direction the
equalities do not change and the active inequalities decrease, to first order. -/
structure MFCQ (p : DynProblem n m ℝ) (cs : ℕ → ALCost n m ℝ) (Z : Traj (Fin n → ℝ) (Fin m → ℝ) ℝ) : Prop where
  indep : ∀ cs', SameProblem p cs cs' → (∀ k ≤ p.N, ∀ v ∈ (cs' k).ineq, ∀ i, v.lam i = 0) → Degenerate p cs' Z → NoMultipliers p cs'
  inward : ∃ d : ℕ → Fin m → ℝ, d p.N = 0 ∧
    (∀ k ≤ p.N, ∀ v ∈ (cs k).eq, ∀ i, HasDerivAt (along p Z v.con k i d) 0 0) ∧
    ∀ k ≤ p.N, ∀ v ∈ (cs k).ineq, ∀ i, v.con.eval (Z.x k) (Z.u k) i = 0 → ∃ s < 0, HasDerivAt (along p Z v.con k i d) s 0

/-- A bound on all multipliers. -/
def MultipliersLE (p : DynProblem n m ℝ) (cs : ℕ → ALCost n m ℝ) (M : ℝ) : Prop :=
  ∀ k ≤ p.N, (∀ v ∈ (cs k).eq, ∀ i, |v.lam i| ≤ M) ∧ ∀ v ∈ (cs k).ineq, ∀ i, |v.lam i| ≤ M

/-- Trajectories converge to `Z` (states at all knot points, controls on all segments). -/
def TrajConverges (p : DynProblem n m ℝ) (Zs : ℕ → Traj (Fin n → ℝ) (Fin m → ℝ) ℝ) (Z : Traj (Fin n → ℝ) (Fin m → ℝ) ℝ) : Prop :=
  (∀ k ≤ p.N, ∀ i, Filter.Tendsto (fun l => (Zs l).x k i) Filter.atTop (nhds (Z.x k i))) ∧
    ∀ k < p.N, ∀ i, Filter.Tendsto (fun l => (Zs l).u k i) Filter.atTop (nhds (Z.u k i))

end Altro.Spec
