import Verif.Model.KnotPoint

/-!
# The backward pass with gains from any routine   (`altro/ilqr/knot_point_function_type.hpp:197-211`)

`CalcGains` leaves the factorization and the solution of the linear systems to `Eigen::LLT`.  `Model.KnotPoint` models the
exact solution; here the routine is a parameter, which may round, stop early or be wrong.  All other calculations are exact.
-/

namespace Altro
open Matrix
variable {K : Type} [Field K] [LinearOrder K] {n m : ℕ}

/-- A routine that calculates the gains from the regularised action-value expansion; `none` means failure
(`info != Eigen::Success`). -/
abbrev GainRoutine (n m : ℕ) (K : Type) := Expansion n m K → Option (Matrix (Fin m) (Fin n) K × (Fin m → K))

/-- `CalcGains` (knot_point_function_type.hpp:197-211) with another routine in place of `Quu_chol`; the gains are unchanged
when it fails. -/
def KP.gainsBy (solve : GainRoutine n m K) (d : KP n m K) : KP n m K × Bool :=
  match solve d.qreg with
  | some g => ({ d with gain := g.1, ff := g.2 }, true)
  | none => (d, false)

/-- `Quu_chol.compute`, the two calls of `Quu_chol.solve` and the changes of sign (knot_point_function_type.hpp:199-208),
without rounding. -/
def exactRoutine : GainRoutine n m K := fun e =>
  if lltOk m e.dudu then
    some (Matrix.of fun i j => -(lltSolve m e.dudu (fun l => e.dxdu j l) i), -(lltSolve m e.dudu e.du))
  else none

/-- The kernel of `iLQR<n, m>` (see `alKernel`) with gains from the given routine. -/
def kernelBy (solve : GainRoutine n m K) (p : DynProblem n m K) :
    Kernel (Fin n → K) (Fin m → K) K (ALCost n m K) (KP n m K) :=
  { alKernel p with gains := KP.gainsBy solve }

end Altro
