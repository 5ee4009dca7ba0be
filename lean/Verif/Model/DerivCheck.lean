import Verif.Model.Examples
import Mathlib.Analysis.Real.Sqrt
import Mathlib.Data.Fin.Tuple.Basic

/-!
# Derivative checks   (`altro/common/functionbase.cpp`) and the scalar-function interface
(`altro/common/functionbase.hpp`)

Over the reals: rounding and NaN are not modelled.
-/

namespace Altro
open Matrix

/-- Result of a check; an empty input makes `FiniteDiffJacobian` write `e(0)` out of bounds
(derivative_checker.hpp:26). -/
inductive CheckOut where
  | value (b : Prop)
  | undefined

/-- A `FunctionBase` (functionbase.hpp:53-87).  `jac` and `hess` are what the virtual functions leave in a zero matrix of
the right size; the default `Hessian` (functionbase.hpp:67-73) leaves it unchanged. -/
structure FunBase (n m p : ℕ) where
  eval : (Fin n → ℝ) → (Fin m → ℝ) → Fin p → ℝ
  jac : (Fin n → ℝ) → (Fin m → ℝ) → Matrix (Fin p) (Fin (n + m)) ℝ
  hess : (Fin n → ℝ) → (Fin m → ℝ) → (Fin p → ℝ) → Matrix (Fin (n + m)) (Fin (n + m)) ℝ := fun _ _ _ => 0

/-- `norm()` of a matrix: the Frobenius norm. -/
noncomputable def frob {a b : ℕ} (A : Matrix (Fin a) (Fin b) ℝ) : ℝ := Real.sqrt (∑ i, ∑ j, A i j ^ 2)

/-- `MatrixComparison` (functionbase.cpp:15-29): printing is left out. -/
def matrixComparison {a b : ℕ} (expected actual : Matrix (Fin a) (Fin b) ℝ) (eps : ℝ) : Prop :=
  frob (expected - actual) < eps

/-- `FiniteDiffJacobian` with its default arguments (derivative_checker.hpp:10-13: `1e-6`, forward), compared with the
given matrix. -/
def compareJac {p : ℕ} : (N : ℕ) → ((Fin N → ℝ) → Fin p → ℝ) → (Fin N → ℝ) → Matrix (Fin p) (Fin N) ℝ → ℝ → CheckOut
  | 0, _, _, _, _ => .undefined
  | _ + 1, g, z, J, eps => .value (matrixComparison (fdJac g z 1e-6 false) J eps)

/-- `FiniteDiffHessian` with its default arguments (derivative_checker.hpp:132-134: `1e-4`, central), compared with the
given matrix. -/
def compareHess : (N : ℕ) → ((Fin N → ℝ) → ℝ) → (Fin N → ℝ) → Matrix (Fin N) (Fin N) ℝ → ℝ → CheckOut
  | 0, _, _, _, _ => .undefined
  | _ + 1, g, z, H, eps => .value (matrixComparison (fdHess g z 1e-4 true) H eps)

/-- `FiniteDiffGradient` with its default arguments (derivative_checker.hpp:94-97: `1e-6`, forward), compared with the
given column vector. -/
def compareGrad : (N : ℕ) → ((Fin N → ℝ) → ℝ) → (Fin N → ℝ) → (Fin N → ℝ) → ℝ → CheckOut
  | 0, _, _, _, _ => .undefined
  | _ + 1, f, z, g, eps => .value (Real.sqrt (∑ j, (fdGrad f z 1e-6 false j - g j) ^ 2) < eps)

namespace FunBase
variable {n m p : ℕ}

/-- The function of the stacked vector: `Evaluate(z.head(n), z.tail(m), out)` (functionbase.cpp:60-64). -/
def stacked (F : FunBase n m p) (z : Fin (n + m) → ℝ) : Fin p → ℝ :=
  F.eval (fun i => z (Fin.castAdd m i)) (fun i => z (Fin.natAdd n i))

/-- `CheckJacobian(x, u, eps)` (functionbase.cpp:43-68). -/
def checkJacobian (F : FunBase n m p) (x : Fin n → ℝ) (u : Fin m → ℝ) (eps : ℝ) : CheckOut :=
  compareJac (n + m) F.stacked (Fin.append x u) (F.jac x u) eps

/-- `CheckHessian(x, u, b, eps)` (functionbase.cpp:84-102): the Hessian of `bᵀ f` is compared. -/
def checkHessian (F : FunBase n m p) (x : Fin n → ℝ) (u : Fin m → ℝ) (b : Fin p → ℝ) (eps : ℝ) : CheckOut :=
  compareHess (n + m) (fun z => F.stacked z ⬝ᵥ b) (Fin.append x u) (F.hess x u b) eps

/-- `VectorXd::Random(k)`: the next `k` numbers of the generator, starting with number `o`. -/
def draw (r : ℕ → ℝ) (o k : ℕ) : Fin k → ℝ := fun i => r (o + i)

/-- `CheckJacobian(eps)` (functionbase.cpp:35-41): first the state is drawn, then the control. -/
def checkJacobianRandom (F : FunBase n m p) (r : ℕ → ℝ) (eps : ℝ) : CheckOut :=
  F.checkJacobian (draw r 0 n) (draw r n m) eps

/-- The vector `b` of `CheckHessian(eps)` (functionbase.cpp:76-81): one for a single output, otherwise random. -/
def hessianWeights (r : ℕ → ℝ) (o p : ℕ) : Fin p → ℝ := if p = 1 then fun _ => 1 else draw r o p

/-- `CheckHessian(eps)` (functionbase.cpp:70-83). -/
def checkHessianRandom (F : FunBase n m p) (r : ℕ → ℝ) (eps : ℝ) : CheckOut :=
  F.checkHessian (draw r 0 n) (draw r n m) (hessianWeights r (n + m) p) eps

end FunBase

/-- A `ScalarFunction` (functionbase.hpp:131-167). -/
structure ScalarFun (n m : ℕ) where
  eval : (Fin n → ℝ) → (Fin m → ℝ) → ℝ
  grad : (Fin n → ℝ) → (Fin m → ℝ) → Fin (n + m) → ℝ
  hess : (Fin n → ℝ) → (Fin m → ℝ) → Matrix (Fin (n + m)) (Fin (n + m)) ℝ

namespace ScalarFun
variable {n m : ℕ}

/-- The parent interface of a scalar function (functionbase.hpp:141-160).  `CheckJacobian` passes a `1 × (n+m)` matrix of
its own, whose entries are contiguous. -/
def toBase (F : ScalarFun n m) : FunBase n m 1 where
  eval x u _ := F.eval x u
  jac x u := fun _ j => F.grad x u j
  hess x u _ := F.hess x u

/-- `CheckGradient(x, u, eps)` (functionbase.cpp:112-126). -/
def checkGradient (F : ScalarFun n m) (x : Fin n → ℝ) (u : Fin m → ℝ) (eps : ℝ) : CheckOut :=
  compareGrad (n + m) (fun z => F.eval (fun i => z (Fin.castAdd m i)) (fun i => z (Fin.natAdd n i)))
    (Fin.append x u) (F.grad x u) eps

/-- `CheckGradient(eps)` (functionbase.cpp:104-110). -/
def checkGradientRandom (F : ScalarFun n m) (r : ℕ → ℝ) (eps : ℝ) : CheckOut :=
  F.checkGradient (FunBase.draw r 0 n) (FunBase.draw r n m) eps

end ScalarFun

/-! ## `ScalarFunction::Jacobian` on a view into a larger matrix -/

/-- An `Eigen::Ref<MatrixXd>` with one row and `cols` columns into column-major memory: entry `(0, c)` is at
`base + c * outer`. -/
structure RowView where
  base : ℕ
  outer : ℕ
  cols : ℕ

/-- Address of entry `(0, c)`. -/
def RowView.addr (v : RowView) (c : ℕ) : ℕ := v.base + c * v.outer

/-- `ScalarFunction::Jacobian` (functionbase.hpp:147-152): the gradient is written to `cols` consecutive addresses
starting at `jac.data()`, whatever the stride. -/
def scalarJacobian (v : RowView) (g : ℕ → ℝ) (mem : ℕ → ℝ) : ℕ → ℝ :=
  fun a => if v.base ≤ a ∧ a < v.base + v.cols then g (a - v.base) else mem a

end Altro
