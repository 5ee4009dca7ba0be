import Verif.Model.Float
import Verif.Model.Integration

/-!
# The explicit integrators with rounding   (`altro/problem/integration.hpp`)

States, controls and stages are `double`, times and steps are `float`.  `R` rounds after every operation, in the order of the C++
expressions; `f` is what the `Evaluate` method of the dynamics computes from the (rounded) arguments it is given.  Contraction of
a multiplication and an addition into one operation (FMA) is not modelled.
-/

namespace Altro.Rounded
variable {n m : ℕ} {K : Type} [Field K]

/-- `x + k * 0.5 * h` (integration.hpp:127, 128): two products from left to right, then the sum. -/
def halfStage (R : Rounding K) (x k : Fin n → K) (h : K) : Fin n → K := fun i => R.r64 (x i + R.r64 (R.r64 (k i * (1 / 2)) * h))

/-- `x + k * h` (integration.hpp:129, 93). -/
def fullStage (R : Rounding K) (x k : Fin n → K) (h : K) : Fin n → K := fun i => R.r64 (x i + R.r64 (k i * h))

/-- `t + 0.5 * h` as an argument of type `float` (integration.hpp:127, 128): `0.5` is a `double`, so the product and the sum are
rounded to `double`, and the argument to `float`. -/
def halfTime (R : Rounding K) (t h : K) : K := R.r32 (R.r64 (t + R.r64 (1 / 2 * h)))

/-- `t + h` of two `float`s (integration.hpp:129). -/
def fullTime (R : Rounding K) (t h : K) : K := R.r32 (t + h)

/-- `x + h * (k1 + 2 * k2 + 2 * k3 + k4) / 6` (integration.hpp:130). -/
def combine (R : Rounding K) (x k1 k2 k3 k4 : Fin n → K) (h : K) : Fin n → K := fun i =>
  R.r64 (x i + R.r64 (R.r64 (h * R.r64 (R.r64 (R.r64 (k1 i + R.r64 (2 * k2 i)) + R.r64 (2 * k3 i)) + k4 i)) / 6))

/-- `RungeKutta4::Integrate` (integration.hpp:123-131). -/
def rk4 (R : Rounding K) (f : (Fin n → K) → (Fin m → K) → K → Fin n → K) (x : Fin n → K) (u : Fin m → K) (t h : K) : Fin n → K :=
  let k1 := f x u t
  let k2 := f (halfStage R x k1 h) u (halfTime R t h)
  let k3 := f (halfStage R x k2 h) u (halfTime R t h)
  let k4 := f (fullStage R x k3 h) u (fullTime R t h)
  combine R x k1 k2 k3 k4 h

/-- `ExplicitEuler::Integrate` (integration.hpp:90-94). -/
def euler (R : Rounding K) (f : (Fin n → K) → (Fin m → K) → K → Fin n → K) (x : Fin n → K) (u : Fin m → K) (t h : K) : Fin n → K :=
  fullStage R x (f x u t) h

end Altro.Rounded
