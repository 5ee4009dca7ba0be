import Verif.Spec.ILQR
import Verif.Model.ALSolver
import Verif.Model.KnotPoint

/-!
# Limits on states and controls during a run
-/

namespace Altro.Spec
open ILQR
variable {X U F C D : Type} [Arith F]

/-- The same options with the test of states and controls switched on, and these limits. -/
def limited (o : Opts F) (a b : F) : Opts F := { o with checkBounds := true, stateMax := a, controlMax := b }

/-- The same options without the test. -/
def unlimited (o : Opts F) : Opts F := { o with checkBounds := false }

/-- All candidates of the line search from a state are within the limits. -/
def SearchWithin (P : Kernel X U F C D) (l : Opts F) (s : St X U F C D) : Prop :=
  ∀ i : ℕ, (i : ℤ) < l.lsMax → withinLimits l P s.kd s.Z s.Zbar.t s.Zbar.h (stepLength l.lsFactor i)

/-- In at most `r` iterations with options `o`, all candidates of all line searches are within the limits of the options `l`. -/
def RunWithin (P : Kernel X U F C D) (o l : Opts F) (fuel : ℕ) : ℕ → St X U F C D → Prop
  | 0, _ => True
  | r + 1, s => (∀ s1, backwardPass P o fuel (updateExpansions P s) = some s1 → SearchWithin P l s1) ∧
      ∀ q, iterate P o fuel s = some q → (ILQR.isDone o q).2 = false → RunWithin P o l fuel r (ILQR.isDone o q).1

/-- ... in a whole solve. -/
def SolveWithin (P : Kernel X U F C D) (o l : Opts F) (fuel : ℕ) (s : St X U F C D) : Prop :=
  RunWithin P o l fuel o.maxInner.toNat (start P o s)

/-- ... in at most `r` outer iterations. -/
def OuterWithin (P : Kernel X U F C D) (A : CostOps C F) (o l : Opts F) (fuel : ℕ) : ℕ → ALSt X U F C D → Prop
  | 0, _ => True
  | r + 1, s => SolveWithin P o l fuel s.st ∧ ∀ t, ILQR.solve P o fuel s.st = some t →
      (AL.isDone o (AL.updateConvergence P A { s with st := AL.eachCost P A.updateDuals t })).2 = false →
      OuterWithin P A o l fuel r { (AL.isDone o (AL.updateConvergence P A { s with st := AL.eachCost P A.updateDuals t })).1 with
        st := AL.eachCost P A.updatePenalties
          (AL.isDone o (AL.updateConvergence P A { s with st := AL.eachCost P A.updateDuals t })).1.st }

/-- The trajectories of all inner solves in at most `r` outer iterations have a property. -/
def OuterStays (P : Kernel X U F C D) (A : CostOps C F) (o : Opts F) (fuel : ℕ) (good : Traj X U F → Prop) : ℕ → ALSt X U F C D → Prop
  | 0, _ => True
  | r + 1, s => ∀ t, ILQR.solve P o fuel s.st = some t → good t.Z ∧
      ((AL.isDone o (AL.updateConvergence P A { s with st := AL.eachCost P A.updateDuals t })).2 = false →
        OuterStays P A o fuel good r { (AL.isDone o (AL.updateConvergence P A { s with st := AL.eachCost P A.updateDuals t })).1 with
          st := AL.eachCost P A.updatePenalties
            (AL.isDone o (AL.updateConvergence P A { s with st := AL.eachCost P A.updateDuals t })).1.st })

/-- The limits `a` and `b` leave room for all states and controls with entries up to `W`, in the norms that the solver uses. -/
structure Clears {n m : ℕ} {K : Type} [Field K] [LinearOrder K] (p : DynProblem n m K) (W a b : K) : Prop where
  state : ∀ x : Fin n → K, (∀ i, |x i| ≤ W) → p.normX x ≤ a
  control : ∀ u : Fin m → K, (∀ i, |u i| ≤ W) → p.normU u ≤ b

end Altro.Spec
