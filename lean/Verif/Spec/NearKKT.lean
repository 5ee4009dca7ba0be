import Verif.Spec.KKT

/-!
# Approximate Karush-Kuhn-Tucker points
-/

namespace Altro.Spec
open Matrix
variable {n m : ℕ}

/-- The derivative of a total cost with respect to the controls is at most `ε` in length. -/
def NearlyStationaryOf (p : DynProblem n m ℝ) (ℓ : ℕ → (Fin n → ℝ) → (Fin m → ℝ) → ℝ) (Z : Traj (Fin n → ℝ) (Fin m → ℝ) ℝ) (ε : ℝ) : Prop :=
  ∀ v : ℕ → Fin m → ℝ, v p.N = 0 → ∃ d, HasDerivAt (fun a : ℝ => controlCostOf p ℓ Z fun k => Z.u k + a • v k) d 0 ∧
    d ^ 2 ≤ ε ^ 2 * ∑ k ∈ Finset.range p.N, v k ⬝ᵥ v k

/-- `Z` with the multipliers held in `cs` is a Karush-Kuhn-Tucker point up to errors: it obeys the dynamics, constraints are violated by at
most `ν`, the derivative of the total Lagrangian with respect to the controls is at most `ε` in length, inequality multipliers have the right
sign and vanish where the constraint is slack by more than `δ`. -/
structure NearKKT (p : DynProblem n m ℝ) (cs : ℕ → ALCost n m ℝ) (Z : Traj (Fin n → ℝ) (Fin m → ℝ) ℝ) (ε ν δ : ℝ) : Prop where
  init : Z.x 0 = p.x0
  step : ∀ k < p.N, Z.x (k + 1) = p.f k (Z.x k) (Z.u k) (Z.t k) (Z.h k)
  eq : ∀ k ≤ p.N, ∀ v ∈ (cs k).eq, ∀ i, |v.con.eval (Z.x k) (Z.u k) i| ≤ ν
  ineq : ∀ k ≤ p.N, ∀ v ∈ (cs k).ineq, ∀ i, v.con.eval (Z.x k) (Z.u k) i ≤ ν
  stationary : NearlyStationaryOf p (fun k => lagrangian (cs k)) Z ε
  dual : ∀ k ≤ p.N, ∀ v ∈ (cs k).ineq, ∀ i, v.lam i ≤ 0
  slack : ∀ k ≤ p.N, ∀ v ∈ (cs k).ineq, ∀ i, v.lam i = 0 ∨ -δ ≤ v.con.eval (Z.x k) (Z.u k) i

/-- Cost objects of the same problem: only multipliers, penalties and buffers differ. -/
structure SameProblem (p : DynProblem n m ℝ) (cs cs' : ℕ → ALCost n m ℝ) : Prop where
  cost : ∀ k ≤ p.N, (cs' k).cost = (cs k).cost
  eqCons : ∀ k ≤ p.N, (cs' k).eq.map (·.con) = (cs k).eq.map (·.con)
  ineqCons : ∀ k ≤ p.N, (cs' k).ineq.map (·.con) = (cs k).ineq.map (·.con)

/-- Multiplier `i` of constraint `j` of a list. -/
def mulAt {κ : ConKind} (l : List (ConVal κ n m ℝ)) (j i : ℕ) : ℝ :=
  (l[j]?).elim 0 fun v => if h : i < v.con.p then v.lam ⟨i, h⟩ else 0

/-- Trajectories and multipliers converge to those of `Z` and `cs`. -/
structure ConvergesTo (p : DynProblem n m ℝ) (ds : ℕ → ℕ → ALCost n m ℝ) (Zs : ℕ → Traj (Fin n → ℝ) (Fin m → ℝ) ℝ) (cs : ℕ → ALCost n m ℝ)
    (Z : Traj (Fin n → ℝ) (Fin m → ℝ) ℝ) : Prop where
  x : ∀ k ≤ p.N, ∀ i, Filter.Tendsto (fun l => (Zs l).x k i) Filter.atTop (nhds (Z.x k i))
  u : ∀ k < p.N, ∀ i, Filter.Tendsto (fun l => (Zs l).u k i) Filter.atTop (nhds (Z.u k i))
  eq : ∀ k ≤ p.N, ∀ j i, Filter.Tendsto (fun l => mulAt (ds l k).eq j i) Filter.atTop (nhds (mulAt (cs k).eq j i))
  ineq : ∀ k ≤ p.N, ∀ j i, Filter.Tendsto (fun l => mulAt (ds l k).ineq j i) Filter.atTop (nhds (mulAt (cs k).ineq j i))

/-- What a solve with the outer solver ended with, on the problem with cost objects `cs`: the multipliers in the final cost objects come
from those of `prev` by an update with penalty `ρ`, and the trajectory with them is a Karush-Kuhn-Tucker point up to `ε`, the recorded
violation and the size of the earlier multipliers over the penalty.  The status says whether the recorded violation meets the tolerance. -/
structure NearSolved (p : DynProblem n m ℝ) (o : Opts ℝ) (cs : ℕ → ALCost n m ℝ) (ρ ε : ℝ)
    (s : ALSt (Fin n → ℝ) (Fin m → ℝ) ℝ (ALCost n m ℝ) (KP n m ℝ)) (prev : ℕ → ALCost n m ℝ) : Prop where
  cost : ∀ k ≤ p.N, (prev k).cost = (cs k).cost
  eqCons : ∀ k ≤ p.N, (prev k).eq.map (·.con) = (cs k).eq.map (·.con)
  ineqCons : ∀ k ≤ p.N, (prev k).ineq.map (·.con) = (cs k).ineq.map (·.con)
  eqPen : ∀ k ≤ p.N, ∀ v ∈ (prev k).eq, ∀ i, v.pen i = ρ
  ineqPen : ∀ k ≤ p.N, ∀ v ∈ (prev k).ineq, ∀ i, v.pen i = ρ
  update : ∀ k ≤ p.N, s.st.cs k = (prev k).updateDuals
  kkt : ∀ Λ, (∀ k ≤ p.N, ∀ v ∈ (prev k).ineq, ∀ i, |v.lam i| ≤ Λ) →
    NearKKT p s.st.cs s.st.Z ε ((alKernel p).viol s.st.cs + ε) (Λ / ρ + ε)
  status : (s.status = .kSolved ∧ (alKernel p).viol s.st.cs < o.conTol) ∨ (o.conTol ≤ (alKernel p).viol s.st.cs ∧
    ((s.status = .kMaxPenalty ∧ o.maxPenalty < ρ) ∨ (s.status = .kMaxOuterIterations ∧ (s.st.stats.outer : ℤ) = o.maxOuter)))

end Altro.Spec
