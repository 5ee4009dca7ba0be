import Verif.Model.Float
import Verif.Model.Problem

/-!
# Trajectories   (`altro/common/trajectory.hpp`, `altro/common/knotpoint.hpp`)

Times and steps are `float`, stored per knot point.  All arithmetic on them goes through the roundings `R`; with
`Rounding.exact` it is exact, with `Rounding.ieee754` it is what the code computes.
-/

namespace Altro

/-- `KnotPoint` (knotpoint.hpp:177-180). -/
structure KnotPt (X U K : Type) where
  x : X
  u : U
  t : K
  h : K

namespace KnotPt
variable {X U K : Type} [Zero K]

/-- `IsTerminal` (knotpoint.hpp:134). -/
def isTerminal [DecidableEq K] (z : KnotPt X U K) : Bool := decide (z.h = 0)

end KnotPt

namespace Traj
variable {X U K : Type} [Field K] [LinearOrder K] (R : Rounding K)

/-- `Trajectory(_n, _m, N)` (trajectory.hpp:37-38): zero states, controls, times and steps (`t_ = 0`, `h_ = 0`,
knotpoint.hpp:179-180). -/
def zero [Zero X] [Zero U] (N : ℕ) : List (KnotPt X U K) := List.replicate (N + 1) ⟨0, 0, 0, 0⟩

/-- `SetZero` (trajectory.hpp:112-117). -/
def setZero [Zero X] [Zero U] (Z : List (KnotPt X U K)) : List (KnotPt X U K) :=
  Z.map fun z => { z with x := 0, u := 0 }

/-- `SetUniformStep(h)` (trajectory.hpp:122-130).  Knot points `k < N`: step `h`, time `float(k) * h`; knot point `N`:
step 0, time `h * N` with `N` converted to `float`. -/
def setUniformStep (h : K) (Z : List (KnotPt X U K)) : List (KnotPt X U K) :=
  Z.mapIdx fun k z =>
    if k + 1 = Z.length then { z with h := 0, t := R.r32 (h * R.r32 (k : K)) }
    else { z with h := h, t := R.r32 (R.r32 (k : K) * h) }

/-- The test at one segment (trajectory.hpp:141-143): `GetTime` converts to `double`, the difference is a `double`
rounded to `float`; `h_stored - h_calc` is a `float` difference; `abs(...) > eps`. -/
def stepOk (eps : K) (z z' : KnotPt X U K) : Bool :=
  decide (¬ |R.r32 (z.h - R.r32 (R.r64 (z'.t - z.t)))| > eps)

/-- `CheckTimeConsistency(eps)` (trajectory.hpp:138-153) without the printing. -/
def checkTimes (eps : K) : List (KnotPt X U K) → Bool
  | z :: z' :: Z => stepOk R eps z z' && checkTimes eps (z' :: Z)
  | _ => true

/-- Constructor from states, controls and times (trajectory.hpp:48-63).  `0 * U[N-1]` is a read out of range for
`N = 0`. -/
def ofVectors [Zero U] (X' : List X) (U' : List U) (times : List K) : Except Err (List (KnotPt X U K)) := do
  assertThat (decide (X'.length = U'.length + 1))
  assertThat (decide (X'.length = times.length))
  let _ ← vread U' ((U'.length : ℤ) - 1)
  let xN ← vread X' U'.length
  let tN ← vread times U'.length
  pure ((List.zipWith (fun (xu : X × U) (tt : K × K) => ⟨xu.1, xu.2, tt.1, R.r32 (tt.2 - tt.1)⟩) (X'.zip U')
    (times.zip times.tail)) ++ [⟨xN, 0, tN, 0⟩])

end Traj
end Altro
