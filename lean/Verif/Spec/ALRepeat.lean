import Verif.Spec.Repeat
import Verif.Model.ALSolver

/-!
# Vocabulary for repeated solves of the augmented Lagrangian solver
-/

namespace Altro.Spec
variable {X U F C D : Type} [Arith F]

/-- The operations of the outer solver forget the past once multipliers and penalties are reset.

`RB` relates cost objects with the same objective and constraints, whatever their multipliers, penalties and stored
constraint values; `RC` (of `Alike`) relates cost objects that agree in all of these. -/
structure Replay (P : Kernel X U F C D) (A : CostOps C F) extends Alike P where
  RB : C → C → Prop
  cost_base : ∀ k c c' x u, RB c c' → RB c (P.cost k c' x u).2
  expand_base : ∀ k c c' x u t h d, RB c c' → RB c (P.expand k c' x u t h d).2
  duals_base : ∀ c c', RB c c' → RB c (A.updateDuals c')
  penalties_base : ∀ c c', RB c c' → RB c (A.updatePenalties c')
  reset_base : ∀ c c', RB c c' → RB c (A.resetDuals c')
  set_base : ∀ r c c', RB c c' → RB c (A.setPenalty r c')
  fresh : ∀ k r c c' x u, RB c c' →
    RC (P.cost k (A.setPenalty r (A.resetDuals c)) x u).2 (P.cost k (A.setPenalty r (A.resetDuals c')) x u).2
  duals : ∀ c c', RC c c' → RC (A.updateDuals c) (A.updateDuals c')
  penalties : ∀ c c', RC c c' → RC (A.updatePenalties c) (A.updatePenalties c')
  maxPenalty : ∀ c c', RC c c' → A.maxPenalty c = A.maxPenalty c'
  viol : ∀ cs cs', (∀ k ≤ P.N, RC (cs k) (cs' k)) → P.viol cs = P.viol cs'
  expand_gain : ∀ k c c' x u t h d d', RG d d' → RG (P.expand k c x u t h d).1 (P.expand k c' x u t h d').1
  gains_gain : ∀ rho d d' e e', RE d d' → RS e e' → RG d d' →
    RG (P.gains (P.regularize rho (P.actionValue d e))).1 (P.gains (P.regularize rho (P.actionValue d' e'))).1

/-- The first backward pass of a solve does not give up. -/
def FirstPass (P : Kernel X U F C D) (o : Opts F) (fuel : ℕ) (s : St X U F C D) : Prop :=
  ∀ b, ILQR.backwardPass P o fuel (ILQR.updateExpansions P (ILQR.start P o s)) = some b →
    b.status ≠ .kBackwardPassRegularizationFailed

/-- What a user can do with a solver between two solves. -/
inductive ALOp (X U F : Type) where
  /-- `Solve()` with the given options and trajectory -/
  | solve (o : Opts F) (Z : Traj X U F)
  /-- `GetiLQRSolver().Solve()` with the given options and trajectory -/
  | inner (o : Opts F) (Z : Traj X U F)
  /-- `MaxViolation(Z)` -/
  | violation (Z : Traj X U F)
  | updateDuals
  | updatePenalties
  | resetDuals
  | setPenalty (r : F)

namespace ALOp
variable (P : Kernel X U F C D) (A : CostOps C F) (fuel : ℕ)

/-- One operation; `none` if it does not return. -/
def run : ALOp X U F → ALSt X U F C D → Option (ALSt X U F C D)
  | .solve o Z, s => AL.solve P A o (ILQR.solve P o fuel) { s with st := { s.st with Z := Z } }
  | .inner o Z, s => (ILQR.solve P o fuel { s.st with Z := Z }).map fun t => { s with st := t }
  | .violation Z, s => some (AL.maxViolation P Z s).2
  | .updateDuals, s => some { s with st := AL.eachCost P A.updateDuals s.st }
  | .updatePenalties, s => some { s with st := AL.eachCost P A.updatePenalties s.st }
  | .resetDuals, s => some { s with st := AL.eachCost P A.resetDuals s.st }
  | .setPenalty r, s => some { s with st := AL.eachCost P (A.setPenalty r) s.st }

/-- Any number of operations. -/
def runAll : List (ALOp X U F) → ALSt X U F C D → Option (ALSt X U F C D)
  | [], s => some s
  | a :: l, s =>
    match a.run P A fuel s with
    | none => none
    | some t => runAll l t

end ALOp
end Altro.Spec
