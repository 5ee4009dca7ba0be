import Verif.Model.Stats

/-!
# The iLQR iteration   (`altro/ilqr/ilqr.hpp`)

Control flow and state of the solver, over law-free numbers and an abstract per-knot-point kernel.
`Model.KnotPoint` instantiates the kernel with the matrix code of `knot_point_function_type.hpp`.

Simplifications: the state and control types are the same at all knot points; profiling and printing are left
out; `UpdateExpansions` is the single-threaded block (the threaded one is `Model.Parallel`, shown equal in C53).
-/

namespace Altro

/-- `SolverStatus` (solver_stats.hpp:20-31). -/
inductive Status where
  | kSolved | kUnsolved | kStateLimit | kControlLimit | kCostIncrease | kMaxIterations
  | kMaxOuterIterations | kMaxInnerIterations | kMaxPenalty | kBackwardPassRegularizationFailed
  deriving DecidableEq, Repr

/-- `SolverOptions` (solver_options.hpp:19-65), the fields the solvers read.  C++ `int` options are integers. -/
structure Opts (F : Type) where
  maxTotal : ℤ
  maxOuter : ℤ
  maxInner : ℤ
  costTol : F
  gradTol : F
  regFactor : F
  regInitial : F
  regMax : F
  regMin : F
  regFailThreshold : ℤ
  checkBounds : Bool
  stateMax : F
  controlMax : F
  lsMax : ℤ
  lsLower : F
  lsUpper : F
  lsFactor : F
  conTol : F
  maxPenalty : F
  initialPenalty : F
  resetDuals : Bool

/-- What the solver needs from the problem: `KnotPointFunctions` (knot_point_function_type.hpp) as an interface.
`C` is the mutable state of a knot point's cost function (the stored constraint values of `ALCost`), `D` the data
held by `KnotPointFunctions` (expansions, gains, cost-to-go). -/
structure Kernel (X U F C D : Type) where
  /-- number of segments `N_` -/
  N : ℕ
  /-- `*initial_state_` -/
  x0 : X
  /-- `Dynamics(x, u, t, h)` of knot point `k` -/
  dyn : ℕ → X → U → F → F → X
  /-- `Cost(x, u)`: value and side effect on the cost object -/
  cost : ℕ → C → X → U → F × C
  /-- `CalcCostExpansion` then `CalcDynamicsExpansion` -/
  expand : ℕ → C → X → U → F → F → D → D × C
  /-- `CalcTerminalCostToGo` -/
  term : D → D
  /-- `CalcActionValueExpansion`, given the next knot point's cost-to-go -/
  actionValue : D → D → D
  /-- `RegularizeActionValue(rho)` -/
  regularize : F → D → D
  /-- `CalcGains`: new data and whether the Cholesky factorization succeeded -/
  gains : D → D × Bool
  /-- `CalcCostToGo` -/
  costToGo : D → D
  /-- `GetCostToGoDelta` -/
  delta : D → F × F
  /-- `u + K (xbar - x) + d * alpha` (ilqr.hpp:473-478); arguments: data, xbar, x, u, alpha -/
  policy : D → X → X → U → F → U
  /-- `(|d| / (|u| + 1)).maxCoeff()` (ilqr.hpp:665) -/
  gradTerm : D → U → F
  normX : X → F
  normU : U → F
  /-- `max_violation_callback_()`: reads the cost objects' stored constraint values -/
  viol : (ℕ → C) → F

/-- `Trajectory` (common/trajectory.hpp): states, controls, times and steps of knot points `0..N`. -/
structure Traj (X U F : Type) where
  x : ℕ → X
  u : ℕ → U
  t : ℕ → F
  h : ℕ → F

/-- The mutable state of the solver (ilqr.hpp:788-813) and of the cost objects it shares with the problem. -/
structure St (X U F C D : Type) where
  Z : Traj X U F
  Zbar : Traj X U F
  kd : ℕ → D
  cs : ℕ → C
  costs : ℕ → F
  status : Status
  rho : F
  drho : F
  dV0 : F
  dV1 : F
  stats : Stats F

/-- Assignment to one element of an array. -/
def upd {α : Type} (f : ℕ → α) (k : ℕ) (v : α) : ℕ → α := fun j => if j = k then v else f j

@[simp] theorem upd_self {α : Type} (f : ℕ → α) (k : ℕ) (v : α) : upd f k v k = v := if_pos rfl
theorem upd_of_ne {α : Type} {f : ℕ → α} {k : ℕ} {v : α} {j : ℕ} (h : j ≠ k) : upd f k v j = f j := if_neg h

namespace ILQR
variable {X U F C D : Type} [Arith F]
variable (P : Kernel X U F C D) (o : Opts F)

/-- `IncreaseRegularization` (ilqr.hpp:770-775). -/
def increaseReg (s : St X U F C D) : St X U F C D :=
  let drho := Arith.smax (s.drho * o.regFactor) o.regFactor
  let rho := Arith.smax (s.rho * drho) o.regMin
  { s with drho := drho, rho := Arith.smin rho o.regMax }

/-- `DecreaseRegularization` (ilqr.hpp:781-786). -/
def decreaseReg (s : St X U F C D) : St X U F C D :=
  let drho := Arith.smin (s.drho / o.regFactor) (1 / o.regFactor)
  let rho := Arith.smax (s.rho * drho) o.regMin
  { s with drho := drho, rho := Arith.smin rho o.regMax }

/-- `ResetInternalVariables` (ilqr.hpp:680-690), without `LaunchThreads`. -/
def resetInternal (s : St X U F C D) : St X U F C D :=
  { s with
    status := .kUnsolved
    costs := fun _ => 0
    dV0 := 0
    dV1 := 0
    rho := o.regInitial
    drho := 0 }

/-- `SolveSetup` (ilqr.hpp:629-645): inner counter to zero, `Zbar` gets the steps of segments `0..N-1` and the
times of `0..N`, internal variables reset. -/
def solveSetup (s : St X U F C D) : St X U F C D :=
  resetInternal o
    { s with
      stats := { s.stats with inner := 0 }
      Zbar := { s.Zbar with
        t := fun k => if k ≤ P.N then s.Z.t k else s.Zbar.t k
        h := fun k => if k < P.N then s.Z.h k else s.Zbar.h k } }

/-- The first `k` steps of the open-loop `Rollout` (ilqr.hpp:453-459). -/
def rolloutTo (Z : Traj X U F) : ℕ → Traj X U F
  | 0 => { Z with x := upd Z.x 0 P.x0 }
  | k + 1 =>
    let Z' := rolloutTo Z k
    { Z' with x := upd Z'.x (k + 1) (P.dyn k (Z'.x k) (Z'.u k) (Z'.t k) (Z'.h k)) }

/-- `Rollout` (ilqr.hpp:453-459). -/
def rollout (s : St X U F C D) : St X U F C D := { s with Z := rolloutTo P s.Z P.N }

/-- The first `k` steps of `CalcIndividualCosts(Z)` (ilqr.hpp:758-763). -/
def costsTo (Z : Traj X U F) (s : St X U F C D) : ℕ → St X U F C D
  | 0 => s
  | k + 1 =>
    let s' := costsTo Z s k
    let r := P.cost k (s'.cs k) (Z.x k) (Z.u k)
    { s' with costs := upd s'.costs k r.1, cs := upd s'.cs k r.2 }

/-- `costs_.sum()`. -/
def costSum (s : St X U F C D) : F := Arith.sumTo (P.N + 1) s.costs

/-- `Cost(Z)` (ilqr.hpp:330-334). -/
def cost (Z : Traj X U F) (s : St X U F C D) : F × St X U F C D :=
  let s' := costsTo P Z s (P.N + 1)
  (costSum P s', s')

/-- The first `j` knot points of `UpdateExpansionsBlock(start, ..)` (ilqr.hpp:670-677). -/
def expandBlock (start : ℕ) (s : St X U F C D) : ℕ → St X U F C D
  | 0 => s
  | j + 1 =>
    let s' := expandBlock start s j
    let k := start + j
    let e := P.expand k (s'.cs k) (s'.Z.x k) (s'.Z.u k) (s'.Z.t k) (s'.Z.h k) (s'.kd k)
    let r := P.cost k e.2 (s'.Z.x k) (s'.Z.u k)
    { s' with kd := upd s'.kd k e.1, cs := upd s'.cs k r.2, costs := upd s'.costs k r.1 }

/-- `UpdateExpansions`, single-threaded (ilqr.hpp:350-357). -/
def updateExpansions (s : St X U F C D) : St X U F C D := expandBlock P 0 s (P.N + 1)

/-- The `for` loop of the backward pass (ilqr.hpp:402-441) from knot point `k - 1` down to `0`.  Returns the knot
data, the accumulated `deltaV_`, and `false` when a factorization failed (the loop was left by `break`).
`Sxx_prev`/`Sx_prev` always point at the cost-to-go of knot point `k` when knot point `k - 1` is processed. -/
def bpSweep (rho : F) : ℕ → (ℕ → D) → F × F → ((ℕ → D) × (F × F)) × Bool
  | 0, kd, dV => ((kd, dV), true)
  | k + 1, kd, dV =>
    let g := P.gains (P.regularize rho (P.actionValue (kd k) (kd (k + 1))))
    if g.2 then
      let d := P.costToGo g.1
      bpSweep rho k (upd kd k d) (dV.1 + (P.delta d).1, dV.2 + (P.delta d).2)
    else ((upd kd k g.1, dV), false)

/-- The `while (repeat_backwardpass)` loop (ilqr.hpp:401-442).  `count` is `max_reg_count`.  The loop need not
terminate in C++; here it runs for at most `fuel` rounds and `none` means that it is still running.  With
`N_ = 0` the `for` loop is empty and `repeat_backwardpass` stays true. -/
def bpLoop : ℕ → ℕ → St X U F C D → Option (St X U F C D)
  | 0, _, _ => none
  | fuel + 1, count, s =>
    let r := bpSweep P s.rho P.N s.kd (s.dV0, s.dV1)
    let s1 := { s with kd := r.1.1, dV0 := r.1.2.1, dV1 := r.1.2.2 }
    if r.2 then
      if P.N = 0 then bpLoop fuel count s1 else some s1
    else
      let s2 := increaseReg o s1
      let count' := if Arith.ge s2.rho o.regMax then count + 1 else count
      if (count' : ℤ) ≥ o.regFailThreshold then
        some { s2 with status := .kBackwardPassRegularizationFailed }
      else bpLoop fuel count' s2

/-- `BackwardPass` (ilqr.hpp:385-445). -/
def backwardPass (fuel : ℕ) (s : St X U F C D) : Option (St X U F C D) :=
  match bpLoop P o fuel 0 { s with kd := upd s.kd P.N (P.term (s.kd P.N)), dV0 := 0, dV1 := 0 } with
  | none => none
  | some s1 => some (decreaseReg o { s1 with stats := s1.stats.log (some .reg) s1.rho })

/-- The bounds check inside `RolloutClosedLoop` (ilqr.hpp:484-495), for the new state and the control; `some st`
when the loop is left with status `st`. -/
def limitStatus (x : X) (u : U) : Option Status :=
  if o.checkBounds then
    if Arith.gt (P.normX x) o.stateMax then some .kStateLimit
    else if Arith.gt (P.normU u) o.controlMax then some .kControlLimit
    else none
  else none

/-- The first `k` steps of the loop of `RolloutClosedLoop(alpha)` (ilqr.hpp:471-496); `some st` when the loop was
left early with that status. -/
def closedLoopTo (alpha : F) (s : St X U F C D) : ℕ → Traj X U F × Option Status
  | 0 => ({ s.Zbar with x := upd s.Zbar.x 0 P.x0 }, none)
  | k + 1 =>
    match closedLoopTo alpha s k with
    | (Zb, some st) => (Zb, some st)
    | (Zb, none) =>
      let u := P.policy (s.kd k) (Zb.x k) (s.Z.x k) (s.Z.u k) alpha
      let x := P.dyn k (Zb.x k) u (Zb.t k) (Zb.h k)
      ({ Zb with u := upd Zb.u k u, x := upd Zb.x (k + 1) x }, limitStatus P o x u)

/-- `RolloutClosedLoop(alpha)` (ilqr.hpp:468-499). -/
def rolloutClosedLoop (alpha : F) (s : St X U F C D) : St X U F C D × Bool :=
  match closedLoopTo P o alpha s P.N with
  | (Zb, some st) => ({ s with Zbar := Zb, status := st }, false)
  | (Zb, none) => ({ s with Zbar := Zb, status := .kUnsolved }, true)

/-- `expected` (ilqr.hpp:528). -/
def expected (alpha : F) (s : St X U F C D) : F := (-alpha) * (s.dV0 + alpha * s.dV1)

/-- The improvement ratio `z` (ilqr.hpp:529-533). -/
def ratio (J0 J alpha : F) (s : St X U F C D) : F :=
  if Arith.gt (expected alpha s) 0 then (J0 - J) / expected alpha s else -1

/-- The acceptance test (ilqr.hpp:535). -/
def accept (J0 J z : F) : Bool := Arith.le o.lsLower z && Arith.le z o.lsUpper && Arith.lt J J0

/-- The line-search loop (ilqr.hpp:525-545): at most `r` more steps, starting with `alpha`.  Returns the state,
the last `J`, and `success`. -/
def lineSearch (J0 : F) : ℕ → F → F → St X U F C D → (St X U F C D × F) × Bool
  | 0, _, J, s => ((s, J), false)
  | r + 1, alpha, J, s =>
    let q := rolloutClosedLoop P o alpha s
    if q.2 then
      let c := cost P q.1.Zbar q.1
      let z := ratio J0 c.1 alpha c.2
      if accept o J0 c.1 z then
        (({ c.2 with stats := ((c.2.stats.log (some .cost) c.1).log (some .alpha) alpha).log (some .z) z },
          c.1), true)
      else lineSearch J0 r (alpha / o.lsFactor) c.1 c.2
    else lineSearch J0 r (alpha / o.lsFactor) J q.1

/-- `ForwardPass` (ilqr.hpp:512-558). -/
def forwardPass (s : St X U F C D) : St X U F C D :=
  let J0 := costSum P s
  let q := lineSearch P o J0 o.lsMax.toNat 1 J0 s
  let s1 := if q.2 then { q.1.1 with Z := q.1.1.Zbar } else increaseReg o q.1.1
  let J := if q.2 then q.1.2 else J0
  if Arith.gt J J0 then { s1 with status := .kCostIncrease } else s1

/-- `NormalizedFeedforwardGain` (ilqr.hpp:662-668); `grad_` itself is not read elsewhere. -/
def normalizedGain (s : St X U F C D) : F :=
  Arith.sumTo P.N (fun k => P.gradTerm (s.kd k) (s.Z.u k)) / Arith.ofN P.N

/-- The `dJ` of `UpdateConvergenceStatistics` (ilqr.hpp:571-576). -/
def recordedDJ (s : St X U F C D) : F :=
  if s.stats.inner = 0 then s.stats.initialCost - Stats.back (s.stats.col .cost)
  else Stats.back2 (s.stats.col .cost) - Stats.back (s.stats.col .cost)

/-- `UpdateConvergenceStatistics` (ilqr.hpp:568-587). -/
def updateConvergence (s : St X U F C D) : St X U F C D :=
  let dgrad := normalizedGain P s
  let dJ := recordedDJ s
  let st := { s.stats with inner := s.stats.inner + 1, total := s.stats.total + 1 }
  let st := st.log (some .dJ) dJ
  let st := st.log (some .viol) (P.viol s.cs)
  let st := st.log none (Arith.ofN st.total)
  let st := st.log (some .grad) dgrad
  { s with stats := st.newIteration }

/-- `IsDone` (ilqr.hpp:597-619). -/
def isDone (s : St X U F C D) : St X U F C D × Bool :=
  if Arith.lt (Stats.back (s.stats.col .dJ)) o.costTol && Arith.lt (Stats.back (s.stats.col .grad)) o.gradTol then
    ({ s with status := .kSolved }, true)
  else if (s.stats.inner : ℤ) ≥ o.maxInner then ({ s with status := .kMaxInnerIterations }, true)
  else if (s.stats.total : ℤ) ≥ o.maxTotal then ({ s with status := .kMaxIterations }, true)
  else (s, s.status ≠ .kUnsolved)

/-- One iteration up to the convergence test (ilqr.hpp:301-304). -/
def iterate (fuel : ℕ) (s : St X U F C D) : Option (St X U F C D) :=
  match backwardPass P o fuel (updateExpansions P s) with
  | none => none
  | some s1 => some (updateConvergence P (forwardPass P o s1))

/-- The iteration loop (ilqr.hpp:300-313), at most `r` more iterations. -/
def solveLoop (fuel : ℕ) : ℕ → St X U F C D → Option (St X U F C D)
  | 0, s => some s
  | r + 1, s =>
    match iterate P o fuel s with
    | none => none
    | some s1 =>
      let d := isDone o s1
      if d.2 then some d.1 else solveLoop fuel r d.1

/-- `SolveSetup(); Rollout(); initial_cost = Cost()` (ilqr.hpp:296-298). -/
def start (s : St X U F C D) : St X U F C D :=
  let s1 := rollout P (solveSetup P o s)
  let c := cost P s1.Z s1
  { c.2 with stats := { c.2.stats with initialCost := c.1 } }

/-- `Solve` (ilqr.hpp:284-316), after its assertions.  `fuel` bounds the restarts of each backward pass; `none`
means that a backward pass is still running. -/
def solve (fuel : ℕ) (s : St X U F C D) : Option (St X U F C D) :=
  solveLoop P o fuel o.maxInner.toNat (start P o s)

end ILQR
end Altro
