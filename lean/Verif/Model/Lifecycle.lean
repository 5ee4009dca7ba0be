import Verif.Model.Trajectory

/-!
# Setting up an iLQR solver   (`altro/ilqr/ilqr.hpp:50-133,216-235,284-298,330-334,453-459,629-645,758-763`)

The pointers and containers a user can set before `Solve`, and what `Solve` reads from them before the first
iteration.  `Model/ILQR.lean` starts where this model ends: with knot point functions, an initial state and two
trajectories, all of the right size.  `KnotPointFunctions` is the pair of a model and a cost; its constructor's
checks are not modelled.  Threads are `Model/Tasks.lean`.
-/

namespace Altro
namespace Lifecycle
variable {C M E X U K : Type}

/-- A trajectory behind a `shared_ptr`; the user keeps a copy of the pointer. -/
abbrev TrajHeap (X U K : Type) := ℕ → List (KnotPt X U K)

/-- The members of `iLQR` that the functions below touch (ilqr.hpp:788-813). -/
structure Solver (C M X U K : Type) where
  N : ℤ
  /-- `initial_state_` -/
  x0 : Option ℕ
  /-- `knotpoints_` -/
  kps : List (M × Option C)
  /-- `Z_` -/
  Z : Option ℕ
  /-- `*Zbar_`, owned by the solver -/
  Zbar : Option (List (KnotPt X U K))
  /-- `is_initial_state_set` -/
  isSet : Bool

/-- `iLQR(N)` (ilqr.hpp:50). -/
def new (N : ℤ) : Solver C M X U K := { N := N, x0 := none, kps := [], Z := none, Zbar := none, isSet := false }

variable (I : ProbIface M E)

/-- `CopyFromProblem(prob, k_start, k_stop)` (ilqr.hpp:97-123). -/
def copyFrom (n m : Option ℕ) (h : Prob.Heap K) (s : Solver C M X U K) (p : Prob C M E) (kstart kstop : ℕ) :
    Except Err (Solver C M X U K) := do
  let r ← Prob.copyFromProblem I n m h s.N s.kps p kstart kstop
  pure { s with kps := r.1, x0 := some r.2, isSet := true }

/-- `InitializeFromProblem` (ilqr.hpp:125-133). -/
def initFrom (n m : Option ℕ) (h : Prob.Heap K) (s : Solver C M X U K) (p : Prob C M E) :
    Except Err (Solver C M X U K) := do
  assertThat (p.N = s.N)
  copyFrom I n m h s p 0 (s.N + 1).toNat

/-- `iLQR(prob)` (ilqr.hpp:51-54). -/
def ofProblem (n m : Option ℕ) (h : Prob.Heap K) (p : Prob C M E) : Except Err (Solver C M X U K) :=
  initFrom I n m h { (new p.N : Solver C M X U K) with x0 := some p.x0 } p

section
variable [Field K] [LinearOrder K] [Zero X] [Zero U] (R : Rounding K)

/-- `MakeTrajectory(dt)` (ilqr.hpp:216-220); the new trajectory is at the address `a`. -/
def makeTrajectory (s : Solver C M X U K) (T : TrajHeap X U K) (a : ℕ) (dt : K) :
    Solver C M X U K × TrajHeap X U K :=
  ({ s with Z := some a }, Function.update T a (Traj.setUniformStep R dt (Traj.zero s.N.toNat)))

/-- `SetTrajectory(traj)` (ilqr.hpp:231-235).  A null pointer is dereferenced. -/
def setTrajectory (s : Solver C M X U K) (T : TrajHeap X U K) : Option ℕ → Except Err (Solver C M X U K)
  | none => .error .undefined
  | some a => .ok { s with Z := some a, Zbar := some (Traj.setZero (T a)) }

end

/-- The loop of `SolveSetup` (ilqr.hpp:635-640): steps and times of segment `0..r-1` copied to `*Zbar_`. -/
def copySteps (Z : List (KnotPt X U K)) : ℕ → List (KnotPt X U K) → Except Err (List (KnotPt X U K))
  | 0, Zb => .ok Zb
  | r + 1, Zb => do
    let Zb ← copySteps Z r Zb
    let z ← vread Z r
    let b ← vread Zb r
    vwrite Zb r { b with h := z.h, t := z.t }

/-- What the iterations work on. -/
structure Inputs (C M X U K : Type) where
  kps : List (M × Option C)
  x0 : ℕ
  Z : List (KnotPt X U K)
  Zbar : List (KnotPt X U K)

/-- `knotpoints_[k]` for `k = 0..r-1`: the accesses of `Rollout` and `CalcIndividualCosts` (ilqr.hpp:453-459, 758-763).
A null cost pointer is dereferenced by `Cost`. -/
def readKnots (kps : List (M × Option C)) : ℕ → Except Err (List (M × Option C))
  | 0 => .ok []
  | r + 1 => do
    let l ← readKnots kps r
    let a ← vread kps r
    match a.2 with
    | none => .error .undefined
    | some _ => pure (l ++ [a])

/-- `Solve` up to the first iteration (ilqr.hpp:284-298): the three assertions, `SolveSetup`, and the accesses of
`Rollout` and `Cost`. -/
def prepare (s : Solver C M X U K) (T : TrajHeap X U K) : Except Err (Inputs C M X U K) := do
  assertThat s.isSet
  match s.Z with
  | none => .error .assertion
  | some a =>
    assertThat (((T a).length : ℤ) - 1 = s.N)
    match s.Zbar with
    | none => .error .undefined
    | some Zb =>
      let Zb ← copySteps (T a) s.N.toNat Zb
      let z ← vread (T a) s.N
      let b ← vread Zb s.N
      let Zb ← vwrite Zb s.N { b with t := z.t }
      match s.x0 with
      | none => .error .undefined
      | some x0 =>
        let kps ← readKnots s.kps (s.N + 1).toNat
        pure { kps := kps, x0 := x0, Z := T a, Zbar := Zb }

end Lifecycle
end Altro
