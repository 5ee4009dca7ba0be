import Verif.Model.Arith
import Mathlib.Data.Matrix.ColumnRowPartitioned
import Mathlib.Data.Matrix.Mul

/-!
# Explicit integrators   (`altro/problem/integration.hpp`, `discretized_model.hpp`)

Exact arithmetic.  `t` and `h` are `float` in the code; here they are field elements, so the rounding of
`t + 0.5 * h` to single precision is not modelled here; `Model/FloatIntegration.lean` has the integrators with all roundings.
-/

namespace Altro
open Matrix

/-- The `ContinuousDynamics` interface (dynamics.hpp:59-95).  `jac` is the C++ `Jacobian` method as a function of the
previous contents of the `n × (n+m)` output buffer: an implementation may leave entries untouched. -/
structure ContDyn (n m : ℕ) (K : Type*) where
  f : (Fin n → K) → (Fin m → K) → K → Fin n → K
  jac : (Fin n → K) → (Fin m → K) → K → Matrix (Fin n) (Fin n ⊕ Fin m) K → Matrix (Fin n) (Fin n ⊕ Fin m) K

namespace ContDyn
variable {n m : ℕ} {K : Type*} [Field K]

/-- `ExplicitEuler::Integrate` (integration.hpp:90-94). -/
def euler (d : ContDyn n m K) (x : Fin n → K) (u : Fin m → K) (t h : K) : Fin n → K := x + h • d.f x u t

/-- `ExplicitEuler::Jacobian` (integration.hpp:95-101): `Identity(n, n+m) + jac * h`. -/
def eulerJac (d : ContDyn n m K) (x : Fin n → K) (u : Fin m → K) (t h : K)
    (buf : Matrix (Fin n) (Fin n ⊕ Fin m) K) : Matrix (Fin n) (Fin n ⊕ Fin m) K :=
  fromCols 1 0 + h • d.jac x u t buf

/-- The first stage `k1_` (integration.hpp:126, 137). -/
def k1 (d : ContDyn n m K) (x : Fin n → K) (u : Fin m → K) (t : K) : Fin n → K := d.f x u t
/-- The second stage `k2_` (integration.hpp:127, 138). -/
def k2 (d : ContDyn n m K) (x : Fin n → K) (u : Fin m → K) (t h : K) : Fin n → K :=
  d.f (x + (1 / 2 * h) • d.k1 x u t) u (t + 1 / 2 * h)
/-- The third stage `k3_` (integration.hpp:128, 139). -/
def k3 (d : ContDyn n m K) (x : Fin n → K) (u : Fin m → K) (t h : K) : Fin n → K :=
  d.f (x + (1 / 2 * h) • d.k2 x u t h) u (t + 1 / 2 * h)
/-- The fourth stage `k4_` (integration.hpp:129). -/
def k4 (d : ContDyn n m K) (x : Fin n → K) (u : Fin m → K) (t h : K) : Fin n → K :=
  d.f (x + h • d.k3 x u t h) u (t + h)

/-- `RungeKutta4::Integrate` (integration.hpp:123-131). -/
def rk4 (d : ContDyn n m K) (x : Fin n → K) (u : Fin m → K) (t h : K) : Fin n → K :=
  x + (h / 6) • (d.k1 x u t + (2 : K) • d.k2 x u t h + (2 : K) • d.k3 x u t h + d.k4 x u t h)

/-- The assembly of the stage Jacobians (integration.hpp:155-168), given `A_[0..3] | B_[0..3]`. -/
def rk4Assemble (h : K) (J0 J1 J2 J3 : Matrix (Fin n) (Fin n ⊕ Fin m) K) : Matrix (Fin n) (Fin n ⊕ Fin m) K :=
  let A0 := J0.toCols₁; let A1 := J1.toCols₁; let A2 := J2.toCols₁; let A3 := J3.toCols₁
  let B0 := J0.toCols₂; let B1 := J1.toCols₂; let B2 := J2.toCols₂; let B3 := J3.toCols₂
  let dA0 := h • A0
  let dA1 := h • (A1 * (1 + (1 / 2 : K) • dA0))
  let dA2 := h • (A2 * (1 + (1 / 2 : K) • dA1))
  let dA3 := h • (A3 * (1 + dA2))
  let dB0 := h • B0
  let dB1 := h • B1 + h • ((1 / 2 : K) • A1 * dB0)
  let dB2 := h • B2 + h • ((1 / 2 : K) • A2 * dB1)
  let dB3 := h • B3 + h • (A3 * dB2)
  fromCols (1 + (1 / 6 : K) • (dA0 + (2 : K) • dA1 + (2 : K) • dA2 + dA3))
    ((1 / 6 : K) • (dB0 + (2 : K) • dB1 + (2 : K) • dB2 + dB3))

/-- `RungeKutta4::Jacobian` (integration.hpp:132-169).  The stage Jacobians are evaluated at times `t`, `0.5 * t`,
`0.5 * t`, `t` (lines 141-152), each call reusing the same output buffer. -/
def rk4Jac (d : ContDyn n m K) (x : Fin n → K) (u : Fin m → K) (t h : K)
    (buf : Matrix (Fin n) (Fin n ⊕ Fin m) K) : Matrix (Fin n) (Fin n ⊕ Fin m) K :=
  let J0 := d.jac x u t buf
  let J1 := d.jac (x + (1 / 2 * h) • d.k1 x u t) u (1 / 2 * t) J0
  let J2 := d.jac (x + (1 / 2 * h) • d.k2 x u t h) u (1 / 2 * t) J1
  let J3 := d.jac (x + h • d.k3 x u t h) u t J2
  rk4Assemble h J0 J1 J2 J3

end ContDyn
end Altro
