import Verif.Model.ILQR

/-!
# The augmented Lagrangian solver   (`altro/augmented_lagrangian/al_solver.hpp`)

Control flow of `AugmentedLagrangianiLQR`.  The inner solver is a parameter: any function from solver states to
solver states (`none` = it does not return), so theorems stated for every `inner` hold whatever the inner solver
does; `Model.ILQR.solve` is the one the code uses.  Printing and profiling are left out.
-/

namespace Altro

/-- What the outer solver does to the cost object of one knot point (`ALCost`, al_cost.hpp).  `Model.Concrete`
gives the instance for the model of `ALCost`. -/
structure CostOps (C F : Type) where
  /-- `UpdateDuals` (al_cost.hpp:314-321) -/
  updateDuals : C → C
  /-- `UpdatePenalties` (al_cost.hpp:327-334) -/
  updatePenalties : C → C
  /-- `ResetDualVariables` (al_cost.hpp:372-379) -/
  resetDuals : C → C
  /-- `SetPenalty<Equality>`, `SetPenalty<Inequality>` (al_cost.hpp:189-195) -/
  setPenalty : F → C → C
  /-- `MaxPenalty` (al_cost.hpp:361-370) -/
  maxPenalty : C → F

/-- The mutable state of the solver (al_solver.hpp:220-224): the embedded `ilqr_solver_` (which shares the cost
objects `costs_` and owns the statistics) and `status_`. -/
structure ALSt (X U F C D : Type) where
  st : St X U F C D
  status : Status

namespace AL
variable {X U F C D : Type} [Arith F]
variable (P : Kernel X U F C D) (A : CostOps C F) (o : Opts F)

/-- `for (k = 0; k <= N; ++k) costs_[k]->f()`. -/
def eachCost (f : C → C) (s : St X U F C D) : St X U F C D :=
  { s with cs := fun k => if k ≤ P.N then f (s.cs k) else s.cs k }

/-- `GetMaxPenalty` (al_solver.hpp:427-434). -/
def maxPenalty (cs : ℕ → C) : F :=
  (List.range (P.N + 1)).foldl (fun a k => Arith.smax a (A.maxPenalty (cs k))) 0

/-- `Init` (al_solver.hpp:288-302).  `MaxViolation()` (al_solver.hpp:403-408) evaluates the cost of the current
trajectory to refresh the constraint values. -/
def init (s : ALSt X U F C D) : ALSt X U F C D :=
  let s1 := if o.resetDuals then eachCost P A.resetDuals s.st else s.st
  let s2 := if Arith.gt o.initialPenalty 0 then eachCost P (A.setPenalty o.initialPenalty) s1 else s1
  let s3 := { s2 with stats := s2.stats.reset.log none 0 }
  let s4 := (ILQR.cost P s3.Z s3).2
  let s5 := { s4 with stats := s4.stats.log (some .viol) (P.viol s4.cs) }
  { s with st := { s5 with stats := s5.stats.log (some .pen) (maxPenalty P A s5.cs) } }

/-- `MaxViolation(Z)` (al_solver.hpp:410-415): evaluates the costs of `Z`, which stores the constraint values of `Z` in the
cost objects, and reads them (`GetMaxViolation`, al_solver.hpp:417-424). -/
def maxViolation (Z : Traj X U F) (s : ALSt X U F C D) : F × ALSt X U F C D :=
  let t := (ILQR.cost P Z s.st).2
  (P.viol t.cs, { s with st := t })

/-- `UpdateConvergenceStatistics` (al_solver.hpp:358-366). -/
def updateConvergence (s : ALSt X U F C D) : ALSt X U F C D :=
  let t := { s.st.stats with outer := s.st.stats.outer + 1 }
  let t := t.log (some .viol) (P.viol s.st.cs)
  let t := t.log (some .pen) (maxPenalty P A s.st.cs)
  let t := t.log none (Arith.ofN t.outer)
  { s with st := { s.st with stats := t } }

/-- `IsDone` (al_solver.hpp:369-401). -/
def isDone (s : ALSt X U F C D) : ALSt X U F C D × Bool :=
  if s.st.status ≠ .kSolved then ({ s with status := s.st.status }, true)
  else if Arith.lt (Stats.back (s.st.stats.col .viol)) o.conTol then ({ s with status := .kSolved }, true)
  else if Arith.gt (Stats.back (s.st.stats.col .pen)) o.maxPenalty then ({ s with status := .kMaxPenalty }, true)
  else if (s.st.stats.outer : ℤ) ≥ o.maxOuter then ({ s with status := .kMaxOuterIterations }, true)
  else if (s.st.stats.total : ℤ) ≥ o.maxTotal then ({ s with status := .kMaxIterations }, true)
  else (s, false)

/-- The outer loop (al_solver.hpp:313-333), at most `r` more iterations. -/
def outerLoop (inner : St X U F C D → Option (St X U F C D)) :
    ℕ → ALSt X U F C D → Option (ALSt X U F C D)
  | 0, s => some s
  | r + 1, s =>
    match inner s.st with
    | none => none
    | some t =>
      let s1 := updateConvergence P A { s with st := eachCost P A.updateDuals t }
      let d := isDone o s1
      if d.2 then some d.1
      else outerLoop inner r { d.1 with st := eachCost P A.updatePenalties d.1.st }

/-- `Solve` (al_solver.hpp:305-334). -/
def solve (inner : St X U F C D → Option (St X U F C D)) (s : ALSt X U F C D) : Option (ALSt X U F C D) :=
  outerLoop P A o inner o.maxOuter.toNat (init P A o s)

end AL
end Altro
