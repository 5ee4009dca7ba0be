import Verif.Model.ConstraintValues

/-!
# `ALCost`   (`altro/augmented_lagrangian/al_cost.hpp`)
-/

namespace Altro
open Matrix

/-- The `CostFunction` interface (costfunction.hpp:52-73): value, gradient, Hessian blocks. -/
structure CostFun (n m : ℕ) (K : Type*) where
  eval : (Fin n → K) → (Fin m → K) → K
  grad : (Fin n → K) → (Fin m → K) → (Fin n → K) × (Fin m → K)
  hess : (Fin n → K) → (Fin m → K) → ConVal.HessBlocks n m K

/-- `ALCost<n, m>` (al_cost.hpp:36-441): objective plus one `ConstraintValues` object per constraint.
`CopyToConstraintValues` (al_cost.hpp:394-402) allocates a new object for every constraint, so the list
elements are never aliased. -/
structure ALCost (n m : ℕ) (K : Type*) where
  cost : CostFun n m K
  eq : List (ConVal .equality n m K)
  ineq : List (ConVal .inequality n m K)

namespace ALCost
variable {K : Type*} [Field K] [LinearOrder K] {n m : ℕ}

/-- `ALCost(prob, k)` (al_cost.hpp:53-61) given the cost and the constraints of knot point `k`;
`SetEqualityConstraints`/`SetInequalityConstraints` (135-160) create fresh values. -/
def new (cost : CostFun n m K) (eqs ineqs : List (Con n m K)) : ALCost n m K where
  cost := cost
  eq := eqs.map (ConVal.new .equality)
  ineq := ineqs.map (ConVal.new .inequality)

/-- `NumConstraints` (al_cost.hpp:79-88). -/
def numConstraints (s : ALCost n m K) : ℕ :=
  s.ineq.foldl (fun p v => p + v.con.p) (s.eq.foldl (fun p v => p + v.con.p) 0)

/-- `SetPenalty<Equality>(rho)` then `SetPenalty<Inequality>(rho)` (al_cost.hpp:189-195; called in this order
by the solver, al_solver.hpp:272-277). -/
def setPenalty (s : ALCost n m K) (r : K) : ALCost n m K :=
  { s with eq := s.eq.map (·.setPenalty r), ineq := s.ineq.map (·.setPenalty r) }

/-- `SetPenaltyScaling` for both types (al_cost.hpp:225-231, al_solver.hpp:279-285). -/
def setPenaltyScaling (s : ALCost n m K) (phi : K) : ALCost n m K :=
  { s with eq := s.eq.map (·.setPenaltyScaling phi), ineq := s.ineq.map (·.setPenaltyScaling phi) }

/-- `Evaluate` (al_cost.hpp:264-274): `J += AugLag` over equalities, then inequalities; every call stores the
constraint values. -/
def evaluate (s : ALCost n m K) (x : Fin n → K) (u : Fin m → K) : K × ALCost n m K :=
  let re := s.eq.map (·.augLag x u)
  let ri := s.ineq.map (·.augLag x u)
  (ri.foldl (fun J r => J + r.1) (re.foldl (fun J r => J + r.1) (s.cost.eval x u)),
   { s with eq := re.map (·.2), ineq := ri.map (·.2) })

/-- `Gradient` (al_cost.hpp:276-290). -/
def gradient (s : ALCost n m K) (x : Fin n → K) (u : Fin m → K) :
    ((Fin n → K) × (Fin m → K)) × ALCost n m K :=
  let re := s.eq.map (·.augLagGradient x u)
  let ri := s.ineq.map (·.augLagGradient x u)
  (ri.foldl (fun g r => (g.1 + r.1.1, g.2 + r.1.2))
    (re.foldl (fun g r => (g.1 + r.1.1, g.2 + r.1.2)) (s.cost.grad x u)),
   { s with eq := re.map (·.2), ineq := ri.map (·.2) })

/-- `dxdx += ..., dxdu += ..., dudu += ...` (al_cost.hpp:298-300). -/
def addHess (a b : ConVal.HessBlocks n m K) : ConVal.HessBlocks n m K :=
  { dxdx := a.dxdx + b.dxdx, dxdu := a.dxdu + b.dxdu, dudu := a.dudu + b.dudu }

/-- `Hessian` (al_cost.hpp:292-308). -/
def hessian (s : ALCost n m K) (x : Fin n → K) (u : Fin m → K) :
    ConVal.HessBlocks n m K × ALCost n m K :=
  let re := s.eq.map (·.augLagHessian x u)
  let ri := s.ineq.map (·.augLagHessian x u)
  (ri.foldl (fun g r => addHess g r.1) (re.foldl (fun g r => addHess g r.1) (s.cost.hess x u)),
   { s with eq := re.map (·.2), ineq := ri.map (·.2) })

/-- `UpdateDuals` (al_cost.hpp:314-321). -/
def updateDuals (s : ALCost n m K) : ALCost n m K :=
  { s with eq := s.eq.map (·.updateDuals), ineq := s.ineq.map (·.updateDuals) }

/-- `UpdatePenalties` (al_cost.hpp:327-334). -/
def updatePenalties (s : ALCost n m K) : ALCost n m K :=
  { s with eq := s.eq.map (·.updatePenalties), ineq := s.ineq.map (·.updatePenalties) }

/-- `lpNorm<Infinity>` of a list of numbers (the `eq_tmp_`, `ineq_tmp_` vectors); zero when empty. -/
def infNormL (l : List K) : K := (l.map (|·|)).foldl max 0

/-- `lpNorm<1>` of a list. -/
def oneNormL (l : List K) : K := (l.map (|·|)).foldl (· + ·) 0

/-- `MaxViolation<Infinity>` (al_cost.hpp:343-353): norms of the constraints' norms, then the norm of the
two-vector. -/
def maxViolation (s : ALCost n m K) : K :=
  infNormL [infNormL (s.eq.map (·.maxViolation)), infNormL (s.ineq.map (·.maxViolation))]

/-- `MaxViolation<1>` (al_cost.hpp:343-353). -/
def maxViolation1 (s : ALCost n m K) : K :=
  oneNormL [oneNormL (s.eq.map (·.maxViolation1)), oneNormL (s.ineq.map (·.maxViolation1))]

/-- `MaxPenalty` (al_cost.hpp:361-370). -/
def maxPenalty (s : ALCost n m K) : K :=
  s.ineq.foldl (fun a v => max a v.maxPenalty) (s.eq.foldl (fun a v => max a v.maxPenalty) 0)

/-- `ResetDualVariables` (al_cost.hpp:372-379). -/
def resetDuals (s : ALCost n m K) : ALCost n m K :=
  { s with eq := s.eq.map (·.resetDuals), ineq := s.ineq.map (·.resetDuals) }

end ALCost

/-! The vector of costs held by the solver (`costs_`, one per knot point). -/
namespace ALCosts
variable {K : Type*} [Field K] [LinearOrder K] {n m : ℕ}

/-- `GetMaxViolation<Infinity>` (al_solver.hpp:417-424). -/
def maxViolation (cs : List (ALCost n m K)) : K := ALCost.infNormL (cs.map (·.maxViolation))

/-- `GetMaxViolation<1>` (al_solver.hpp:417-424). -/
def maxViolation1 (cs : List (ALCost n m K)) : K := ALCost.oneNormL (cs.map (·.maxViolation1))

/-- `GetMaxPenalty` (al_solver.hpp:427-434). -/
def maxPenalty (cs : List (ALCost n m K)) : K := cs.foldl (fun a c => max a c.maxPenalty) 0

/-- `UpdateDuals` (al_solver.hpp:337-345). -/
def updateDuals (cs : List (ALCost n m K)) : List (ALCost n m K) := cs.map (·.updateDuals)

/-- `UpdatePenalties` (al_solver.hpp:348-355). -/
def updatePenalties (cs : List (ALCost n m K)) : List (ALCost n m K) := cs.map (·.updatePenalties)

/-- `ResetDualVariables` (al_solver.hpp:437-441). -/
def resetDuals (cs : List (ALCost n m K)) : List (ALCost n m K) := cs.map (·.resetDuals)

/-- `SetPenalty` (al_solver.hpp:272-277). -/
def setPenalty (cs : List (ALCost n m K)) (r : K) : List (ALCost n m K) := cs.map (·.setPenalty r)

/-- `SetPenaltyScaling` (al_solver.hpp:280-285). -/
def setPenaltyScaling (cs : List (ALCost n m K)) (phi : K) : List (ALCost n m K) :=
  cs.map (·.setPenaltyScaling phi)

end ALCosts
end Altro
