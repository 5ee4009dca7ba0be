import Verif.Model.ILQR
import Verif.Model.Pool
import Verif.Model.Tasks

/-!
# Expansions on several threads   (`altro/ilqr/ilqr.hpp:350-367,670-677`)

The pool of `Model.Pool` with the solver state as its shared memory.  Each knot point of a block is two steps: the
expansions, and the cost.  This assumes that knot points share nothing: each has its own cost function and its own
dynamics object.  `Altro.Pool.C53_shared_counterexample` shows what happens if two share an integrator.
-/

namespace Altro

namespace Pool
variable {M : Type}

/-- One step while the owner runs `UpdateExpansions` on several threads (ilqr.hpp:358-365), when `b` tasks were added
before: it adds `n` tasks and then waits.  No wait times out. -/
inductive BatchStep (prog : ℕ → List (M → M)) (b n : ℕ) (s s' : St M) : Prop
  | worker (w : ℕ) (h : workerStep prog w s = .next s')
  | owner (c : Choice M) (ht : c.timeout = false)
      (hact : s.opc = .idle → (c.act = .add ∧ s.next < b + n) ∨ (c.act = .wait ∧ s.next = b + n))
      (h : ownerStep c s = .next s')

/-- `UpdateExpansions` starts in `s` and returns in `s'`. -/
def BatchRun (prog : ℕ → List (M → M)) (n : ℕ) (s s' : St M) : Prop :=
  s.opc = .idle ∧ Relation.ReflTransGen (BatchStep prog s.next n) s s' ∧ s'.opc = .idle ∧ s'.next = s.next + n ∧
    s'.futures = []

end Pool

namespace ILQR
variable {X U F C D : Type} [Arith F]
variable (P : Kernel X U F C D)

/-- `CalcCostExpansion` and `CalcDynamicsExpansion` of knot point `k` (ilqr.hpp:672-674). -/
def expandStep (k : ℕ) (s : St X U F C D) : St X U F C D :=
  let e := P.expand k (s.cs k) (s.Z.x k) (s.Z.u k) (s.Z.t k) (s.Z.h k) (s.kd k)
  { s with kd := upd s.kd k e.1, cs := upd s.cs k e.2 }

/-- `costs_(k) = Cost(..)` (ilqr.hpp:675). -/
def costStep (k : ℕ) (s : St X U F C D) : St X U F C D :=
  let r := P.cost k (s.cs k) (s.Z.x k) (s.Z.u k)
  { s with cs := upd s.cs k r.2, costs := upd s.costs k r.1 }

/-- The steps of `UpdateExpansionsBlock(start, stop)` (ilqr.hpp:670-677). -/
def blockSteps (b : ℤ × ℤ) : List (St X U F C D → St X U F C D) :=
  (List.range' b.1.toNat (b.2.toNat - b.1.toNat)).flatMap fun k => [expandStep P k, costStep P k]

end ILQR
end Altro
