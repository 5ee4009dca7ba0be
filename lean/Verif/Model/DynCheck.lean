import Verif.Model.DerivCheck
import Verif.Model.Integration

/-!
# Dynamics through the `FunctionBase` interface   (`altro/problem/dynamics.hpp`, `discretized_model.hpp`)

The inherited three-argument `Evaluate`, `Jacobian` and `Hessian` use the time and the step stored in the object.  Over the
reals; the members are `float` in the code, here they hold the number that was stored.
-/

namespace Altro
open Matrix

/-- Columns of the `n × (n+m)` output: state columns first. -/
def joinCols {n m p : ℕ} (J : Matrix (Fin p) (Fin n ⊕ Fin m) ℝ) : Matrix (Fin p) (Fin (n + m)) ℝ :=
  J.submatrix id finSumFinEquiv.symm

/-- A `ContinuousDynamics` object (dynamics.hpp:59-95): the methods the user defines and the member `t_`, initially zero
(dynamics.hpp:94). -/
structure ContObj (n m : ℕ) where
  dyn : ContDyn n m ℝ
  hess : (Fin n → ℝ) → (Fin m → ℝ) → ℝ → (Fin n → ℝ) → Matrix (Fin (n + m)) (Fin (n + m)) ℝ → Matrix (Fin (n + m)) (Fin (n + m)) ℝ
  t : ℝ := 0
  hasHessian : Bool := true

namespace ContObj
variable {n m : ℕ}

/-- `SetTime` (dynamics.hpp:91). -/
def setTime (s : ContObj n m) (t : ℝ) : ContObj n m := { s with t := t }

/-- The `FunctionBase` methods (dynamics.hpp:65, 79-88); the checks pass zero matrices. -/
def toBase (s : ContObj n m) : FunBase n m n where
  eval x u := s.dyn.f x u s.t
  jac x u := joinCols (s.dyn.jac x u s.t 0)
  hess x u b := s.hess x u s.t b 0

end ContObj

/-- The two explicit integrators (integration.hpp:87-102, 113-186). -/
inductive Scheme
  | euler
  | rk4

/-- A `DiscretizedModel` (discretized_model.hpp:25-65): the copied model, the integrator, and the members `t_`, `h_` of
`DiscreteDynamics`, initially zero (dynamics.hpp:185-186). -/
structure DiscObj (n m : ℕ) where
  model : ContObj n m
  scheme : Scheme
  t : ℝ := 0
  h : ℝ := 0

namespace DiscObj
variable {n m : ℕ}

/-- `DiscretizedModel(model)` (discretized_model.hpp:33-34). -/
def new (model : ContObj n m) (scheme : Scheme) : DiscObj n m := { model := model, scheme := scheme }

/-- `SetTime` (dynamics.hpp:180). -/
def setTime (s : DiscObj n m) (t : ℝ) : DiscObj n m := { s with t := t }

/-- `SetStep` (dynamics.hpp:182). -/
def setStep (s : DiscObj n m) (h : ℝ) : DiscObj n m := { s with h := h }

/-- `Evaluate(x, u, t, h, xnext)` (discretized_model.hpp:36-39). -/
noncomputable def step (s : DiscObj n m) (x : Fin n → ℝ) (u : Fin m → ℝ) (t h : ℝ) : Fin n → ℝ :=
  match s.scheme with
  | .euler => s.model.dyn.euler x u t h
  | .rk4 => s.model.dyn.rk4 x u t h

/-- `Jacobian(x, u, t, h, jac)` (discretized_model.hpp:41-44) on a zero matrix. -/
noncomputable def stepJac (s : DiscObj n m) (x : Fin n → ℝ) (u : Fin m → ℝ) (t h : ℝ) : Matrix (Fin n) (Fin n ⊕ Fin m) ℝ :=
  match s.scheme with
  | .euler => s.model.dyn.eulerJac x u t h 0
  | .rk4 => s.model.dyn.rk4Jac x u t h 0

/-- The `FunctionBase` methods (dynamics.hpp:154, 167-177); `Hessian` writes nothing (discretized_model.hpp:46-54). -/
noncomputable def toBase (s : DiscObj n m) : FunBase n m n where
  eval x u := s.step x u s.t s.h
  jac x u := joinCols (s.stepJac x u s.t s.h)
  hess _ _ _ := 0

/-- `HasHessian` (discretized_model.hpp:56). -/
def hasHessian (s : DiscObj n m) : Bool := s.model.hasHessian

end DiscObj
end Altro
