import Mathlib.Data.Matrix.Mul
import Mathlib.Algebra.Order.Field.Basic

/-!
# Constraint cones   (`altro/constraints/constraint.hpp`)

Vectors of length `p` are `Fin p → K`, matrices are `Matrix (Fin p) (Fin q) K`, over any linearly ordered
field.  Size assertions are discharged by typing.
-/

namespace Altro
open Matrix

/-- The two shipped constraint types: `Equality = ZeroCone` (constraint.hpp:28-56) and
`Inequality = NegativeOrthant` (constraint.hpp:98-128). -/
inductive ConKind where
  | equality
  | inequality
  deriving DecidableEq, Repr

variable {K : Type*} [Field K] [LinearOrder K] {p : ℕ}

/-- `ZeroCone::Projection` (constraint.hpp:33-37): writes zero. -/
def zeroProj (_x : Fin p → K) : Fin p → K := fun _ => 0

/-- `IdentityCone::Projection` (constraint.hpp:70-73): copies. -/
def idProj (x : Fin p → K) : Fin p → K := x

/-- `NegativeOrthant::Projection` (constraint.hpp:103-108): `x_proj(i) = std::min(0.0, x(i))`. -/
def negProj (x : Fin p → K) : Fin p → K := fun i => min 0 (x i)

/-- `IdentityCone::Jacobian` (constraint.hpp:74-78): `jac.setIdentity()`, whatever the buffer held. -/
def idProjJac (_x : Fin p → K) (_buf : Matrix (Fin p) (Fin p) K) : Matrix (Fin p) (Fin p) K := 1

/-- `NegativeOrthant::Jacobian` (constraint.hpp:109-114): writes only the diagonal of the buffer,
`jac(i,i) = x(i) > 0 ? 0 : 1`; off-diagonal entries keep the previous buffer content. -/
def negProjJac (x : Fin p → K) (buf : Matrix (Fin p) (Fin p) K) : Matrix (Fin p) (Fin p) K :=
  fun i j => if i = j then (if x i > 0 then 0 else 1) else buf i j

/-- `ConType::Projection`. -/
def ConKind.proj : ConKind → (Fin p → K) → (Fin p → K)
  | .equality => zeroProj
  | .inequality => negProj

/-- `ConType::DualCone::Projection`; `DualCone` is `IdentityCone` for `ZeroCone` (constraint.hpp:31) and
`NegativeOrthant` itself for `NegativeOrthant` (constraint.hpp:101). -/
def ConKind.dualProj : ConKind → (Fin p → K) → (Fin p → K)
  | .equality => idProj
  | .inequality => negProj

/-- `ConType::DualCone::Jacobian` written into a buffer. -/
def ConKind.dualProjJac : ConKind → (Fin p → K) → Matrix (Fin p) (Fin p) K → Matrix (Fin p) (Fin p) K
  | .equality => idProjJac
  | .inequality => negProjJac

end Altro
