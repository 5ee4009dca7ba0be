import Verif.Model.ALSolver
import Verif.Spec.ILQR

/-!
# Specification vocabulary for the augmented Lagrangian solver
-/

namespace Altro.Spec
variable {X U F C D : Type} [Arith F]

/-- The documented outcome of a solve, as a function of what is known after the last outer iteration: the inner
solver's status, the maximum violation and penalty, and the iteration counters.  The conditions are listed in
order of precedence. -/
inductive Outcome (o : Opts F) (innerStatus : Status) (viol pen : F) (outer total : ℕ) : Status → Prop
  | innerFailed (h : innerStatus ≠ .kSolved) : Outcome o innerStatus viol pen outer total innerStatus
  | solved (h : innerStatus = .kSolved) (hv : Arith.lt viol o.conTol = true) :
      Outcome o innerStatus viol pen outer total .kSolved
  | maxPenalty (h : innerStatus = .kSolved) (hv : Arith.lt viol o.conTol = false)
      (hp : Arith.gt pen o.maxPenalty = true) : Outcome o innerStatus viol pen outer total .kMaxPenalty
  | maxOuter (h : innerStatus = .kSolved) (hv : Arith.lt viol o.conTol = false)
      (hp : Arith.gt pen o.maxPenalty = false) (ho : o.maxOuter ≤ outer) :
      Outcome o innerStatus viol pen outer total .kMaxOuterIterations
  | maxTotal (h : innerStatus = .kSolved) (hv : Arith.lt viol o.conTol = false)
      (hp : Arith.gt pen o.maxPenalty = false) (ho : (outer : ℤ) < o.maxOuter) (ht : o.maxTotal ≤ total) :
      Outcome o innerStatus viol pen outer total .kMaxIterations

/-- The conditions under which the outer loop goes on. -/
structure Continues (o : Opts F) (innerStatus : Status) (viol pen : F) (outer total : ℕ) : Prop where
  inner : innerStatus = .kSolved
  viol : Arith.lt viol o.conTol = false
  pen : Arith.gt pen o.maxPenalty = false
  outer : (outer : ℤ) < o.maxOuter
  total : (total : ℤ) < o.maxTotal

/-- An inner solver that leaves the outer-iteration counter alone. -/
def KeepsOuter (inner : St X U F C D → Option (St X U F C D)) : Prop :=
  ∀ s s', inner s = some s' → s'.stats.outer = s.stats.outer

/-- An inner solver that leaves some aspect of the cost objects alone. -/
def Keeps {M : Type} (obs : C → M) (inner : St X U F C D → Option (St X U F C D)) : Prop :=
  ∀ s s', inner s = some s' → ∀ k, obs (s'.cs k) = obs (s.cs k)

/-- The constraint values stored in the cost objects.  `sig` is the immutable part of a cost object (objective and
constraint functions); evaluating a knot point's cost stores the constraint values at that state and control, and
the maximum violation is computed from the values stored at knot points `0..N`. -/
structure ViolLaw (P : Kernel X U F C D) where
  S : Type
  sig : C → S
  V : Type
  stored : C → V
  con : ℕ → S → X → U → V
  agg : (ℕ → V) → F
  stored_cost : ∀ k c x u, stored (P.cost k c x u).2 = con k (sig c) x u
  cost_sig : ∀ k c x u, sig (P.cost k c x u).2 = sig c
  expand_sig : ∀ k c x u t h d, sig (P.expand k c x u t h d).2 = sig c
  agg_congr : ∀ v v' : ℕ → V, (∀ k ≤ P.N, v k = v' k) → agg v = agg v'
  viol_eq : ∀ cs, P.viol cs = agg fun k => stored (cs k)

/-- The maximum violation of a trajectory, for the constraints of the given cost objects. -/
def ViolLaw.violation {P : Kernel X U F C D} (V : ViolLaw P) (cs : ℕ → C) (Z : Traj X U F) : F :=
  V.agg fun k => V.con k (V.sig (cs k)) (Z.x k) (Z.u k)

/-- The stored constraint values are those of trajectory `Z`. -/
def ViolLaw.Fresh {P : Kernel X U F C D} (V : ViolLaw P) (cs : ℕ → C) (Z : Traj X U F) : Prop :=
  ∀ k ≤ P.N, V.stored (cs k) = V.con k (V.sig (cs k)) (Z.x k) (Z.u k)

/-- How the outer solver's operations act on a cost object.  `work` is the part that later evaluations depend on
(immutable part, multipliers, penalties, penalty scaling); everything else is overwritten before it is read. -/
structure ALLaw (P : Kernel X U F C D) (A : CostOps C F) extends ViolLaw P where
  W : Type
  work : C → W
  cost_work : ∀ k c x u, work (P.cost k c x u).2 = work c
  dual_stored : ∀ c, stored (A.updateDuals c) = stored c
  dual_sig : ∀ c, sig (A.updateDuals c) = sig c
  reset_work : ∀ r c c', sig c = sig c' →
    work (A.setPenalty r (A.resetDuals c)) = work (A.setPenalty r (A.resetDuals c'))
  reset_sig : ∀ r c, sig (A.setPenalty r (A.resetDuals c)) = sig c
  maxPenalty_work : ∀ c c', work c = work c' → A.maxPenalty c = A.maxPenalty c'

end Altro.Spec
