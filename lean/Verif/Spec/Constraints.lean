import Verif.Model.ALCost

/-!
# Specification vocabulary for constraints

Independent of the model's projections: feasible sets, distances, textbook augmented Lagrangian terms,
operation histories.
-/

namespace Altro.Spec
open Matrix

variable {K : Type*} [Field K] [LinearOrder K] {p n m : ℕ}

/-- The constraint is satisfied: `c = 0` or `c ≤ 0`. -/
def Feasible : ConKind → (Fin p → K) → Prop
  | .equality, c => ∀ i, c i = 0
  | .inequality, c => ∀ i, c i ≤ 0

/-- Dual feasibility in this library's sign convention (Lagrangian `f - λᵀc`): no sign for equality
multipliers, `λ ≤ 0` for inequality multipliers. -/
def DualFeasible : ConKind → (Fin p → K) → Prop
  | .equality, _ => True
  | .inequality, l => ∀ i, l i ≤ 0

/-- Squared Euclidean distance. -/
def sqDist (x y : Fin p → K) : K := ∑ i, (x i - y i) ^ 2

/-- How badly a single component violates its constraint. -/
def compViolation : ConKind → K → K
  | .equality, c => |c|
  | .inequality, c => max 0 c

/-- The textbook augmented Lagrangian term of one equality component (Lagrangian `- λ c`). -/
def eqTerm (ρ l c : K) : K := -(l * c) + ρ / 2 * c ^ 2

/-- The textbook augmented Lagrangian term of one inequality component `c ≤ 0` with `λ ≤ 0`. -/
def ineqTerm (ρ l c : K) : K := if l - ρ * c ≤ 0 then -(l * c) + ρ / 2 * c ^ 2 else -(l ^ 2 / (2 * ρ))

/-- A component contributes curvature: always for equalities; for inequalities when the shifted multiplier
`λ - ρ c` is in the dual cone. -/
def Active : ConKind → K → Prop
  | .equality, _ => True
  | .inequality, y => y ≤ 0

instance (κ : ConKind) (y : K) : Decidable (Active κ y) := by
  cases κ <;> unfold Active <;> infer_instance

/-- Quadratic form of a 2×2 block Hessian. -/
def quadForm (H : ConVal.HessBlocks n m K) (dx : Fin n → K) (du : Fin m → K) : K :=
  dx ⬝ᵥ (H.dxdx *ᵥ dx) + 2 * (dx ⬝ᵥ (H.dxdu *ᵥ du)) + du ⬝ᵥ (H.dudu *ᵥ du)

/-- Joint symmetric positive semidefiniteness of a block Hessian. -/
structure BlockPSD (H : ConVal.HessBlocks n m K) : Prop where
  symx : H.dxdxᵀ = H.dxdx
  symu : H.duduᵀ = H.dudu
  nonneg : ∀ dx du, 0 ≤ quadForm H dx du

end Altro.Spec

namespace Altro
variable {K : Type*} [Field K] [LinearOrder K] {n m : ℕ}

/-- Everything a user or the solver can do to a constraint's values (through the methods of
`ConstraintValues`; handing out references to `lambda_`/`penalty_` is not an operation). -/
inductive ConOp (n m : ℕ) (K : Type*) where
  | augLag (x : Fin n → K) (u : Fin m → K)
  | gradient (x : Fin n → K) (u : Fin m → K)
  | hessian (x : Fin n → K) (u : Fin m → K)
  | updateDuals
  | updatePenalties
  | setPenalty (r : K)
  | setScaling (phi : K)
  | resetDuals

namespace ConOp

/-- The call passes the code's assertions. -/
def Ok : ConOp n m K → Prop
  | .setPenalty r => ConVal.setPenaltyOk r
  | .setScaling phi => ConVal.setPenaltyScalingOk phi
  | _ => True

/-- Effect of one call. -/
def apply {κ : ConKind} (s : ConVal κ n m K) : ConOp n m K → ConVal κ n m K
  | .augLag x u => (s.augLag x u).2
  | .gradient x u => (s.augLagGradient x u).2
  | .hessian x u => (s.augLagHessian x u).2
  | .updateDuals => s.updateDuals
  | .updatePenalties => s.updatePenalties
  | .setPenalty r => s.setPenalty r
  | .setScaling phi => s.setPenaltyScaling phi
  | .resetDuals => s.resetDuals

/-- Effect of one call on all constraints of a knot point. -/
def applyAL (s : ALCost n m K) : ConOp n m K → ALCost n m K
  | .augLag x u => (s.evaluate x u).2
  | .gradient x u => (s.gradient x u).2
  | .hessian x u => (s.hessian x u).2
  | .updateDuals => s.updateDuals
  | .updatePenalties => s.updatePenalties
  | .setPenalty r => s.setPenalty r
  | .setScaling phi => s.setPenaltyScaling phi
  | .resetDuals => s.resetDuals

end ConOp

/-- A history of calls starting from a freshly constructed object. -/
def ConVal.history (κ : ConKind) (con : Con n m K) (ops : List (ConOp n m K)) : ConVal κ n m K :=
  ops.foldl ConOp.apply (ConVal.new κ con)

/-- A history of calls on a freshly constructed augmented Lagrangian cost. -/
def ALCost.history (cost : CostFun n m K) (eqs ineqs : List (Con n m K)) (ops : List (ConOp n m K)) :
    ALCost n m K :=
  ops.foldl ConOp.applyAL (ALCost.new cost eqs ineqs)

end Altro
