import Verif.Model.Examples
import Verif.Model.KnotPoint
import Verif.Model.DerivCheck
import Verif.Model.Problem

/-!
# Construction of quadratic costs   (`examples/quadratic_cost.hpp:14-39`, `quadratic_cost.cpp:30-63`)

Matrices arrive with sizes known only at run time; `DMat` is such a matrix.  `Eigen::LLT` of `R` is `lltOk`.
`Eigen::LDLT` of `Q` (a pivoting algorithm of Eigen's) is a parameter: it returns whether it succeeded and the diagonal
`vectorD()`.
-/

namespace Altro
open Matrix

/-- A matrix with run-time size. -/
structure DMat where
  rows : ℕ
  cols : ℕ
  ent : ℕ → ℕ → ℝ

/-- The entries as a matrix of a given size. -/
def DMat.toMat (A : DMat) (a b : ℕ) : Matrix (Fin a) (Fin b) ℝ := Matrix.of fun i j => A.ent i j

/-- Result of `Eigen::LDLT::compute`: `info() == Eigen::Success` and `vectorD()`. -/
structure LDLT (n : ℕ) where
  ok : Bool
  D : Fin n → ℝ

/-- `a.isApprox(b)` for matrices of type `double` (Eigen's default precision `1e-12`):
`‖a - b‖² ≤ prec² min(‖a‖², ‖b‖²)`. -/
noncomputable def isApprox {a b : ℕ} (A B : Matrix (Fin a) (Fin b) ℝ) : Prop :=
  frob (A - B) ^ 2 ≤ (1e-12) ^ 2 * min (frob A ^ 2) (frob B ^ 2)

/-- The arguments of the constructor (quadratic_cost.hpp:14-15). -/
structure QuadArgs where
  Q : DMat
  R : DMat
  H : DMat
  /-- `q.size()` -/
  n : ℕ
  /-- `r.size()` -/
  m : ℕ
  q : ℕ → ℝ
  r : ℕ → ℝ
  c : ℝ
  terminal : Bool

namespace QuadArgs

/-- The object built (quadratic_cost.hpp:16-25). -/
def cost (a : QuadArgs) : QuadCost a.n a.m ℝ where
  Q := a.Q.toMat a.n a.n
  R := a.R.toMat a.m a.m
  H := a.H.toMat a.n a.m
  q := fun i => a.q i
  r := fun i => a.r i
  c := a.c

/-- `IsBlockDiagonal()` (quadratic_cost.hpp:18, 59). -/
noncomputable def isBlockDiagonal (a : QuadArgs) : Prop := frob (a.H.toMat a.H.rows a.H.cols) < 1e-8

/-- The size assertions of `Validate` (quadratic_cost.cpp:31-36). -/
def sizesOk (a : QuadArgs) : Bool :=
  decide (a.Q.rows = a.n) && decide (a.Q.cols = a.n) && decide (a.R.rows = a.m) && decide (a.R.cols = a.m)
    && decide (a.H.rows = a.n) && decide (a.H.cols = a.m)

/-- The loop over `vectorD()` (quadratic_cost.cpp:53-61): stops at the first negative entry. -/
noncomputable def noNegative {n : ℕ} (D : Fin n → ℝ) : ℕ → Bool
  | 0 => true
  | k + 1 => if h : k < n then (if D ⟨k, h⟩ < 0 then false else noNegative D k) else noNegative D k

open Classical in
/-- `Validate` (quadratic_cost.cpp:30-63): the assertions in order.  `debug` is false when `NDEBUG` is defined; then
`ALTRO_ASSERT` expands to nothing. -/
noncomputable def validate (debug : Bool) (ldlt : (n : ℕ) → Matrix (Fin n) (Fin n) ℝ → LDLT n) (a : QuadArgs) :
    Except Err Unit := do
  assertThat (!debug || a.sizesOk)
  assertThat (!debug || decide (isApprox a.cost.Q a.cost.Qᵀ))
  assertThat (!debug || decide (isApprox a.cost.R a.cost.Rᵀ))
  if !a.terminal then assertThat (!debug || lltOk a.m a.cost.R)
  assertThat (!debug || (ldlt a.n a.cost.Q).ok)
  assertThat (!debug || noNegative (ldlt a.n a.cost.Q).D a.n)

/-- Arguments of matching sizes. -/
def of {n m : ℕ} (c : QuadCost n m ℝ) (terminal : Bool) : QuadArgs where
  Q := ⟨n, n, fun i j => if h : i < n ∧ j < n then c.Q ⟨i, h.1⟩ ⟨j, h.2⟩ else 0⟩
  R := ⟨m, m, fun i j => if h : i < m ∧ j < m then c.R ⟨i, h.1⟩ ⟨j, h.2⟩ else 0⟩
  H := ⟨n, m, fun i j => if h : i < n ∧ j < m then c.H ⟨i, h.1⟩ ⟨j, h.2⟩ else 0⟩
  n := n
  m := m
  q := fun i => if h : i < n then c.q ⟨i, h⟩ else 0
  r := fun i => if h : i < m then c.r ⟨i, h⟩ else 0
  c := c.c
  terminal := terminal

/-- The arguments `LQRCost` passes on (quadratic_cost.hpp:29-39).  `n` is `Q.rows()`, `m` is `R.rows()`; the sizes of
`q` and `r` are those of the products, again `n` and `m`. -/
noncomputable def lqr {n m : ℕ} (Q : Matrix (Fin n) (Fin n) ℝ) (R : Matrix (Fin m) (Fin m) ℝ) (xref : Fin n → ℝ)
    (uref : Fin m → ℝ) (terminal : Bool) : QuadArgs :=
  of (QuadCost.lqr Q R xref uref) terminal

end QuadArgs
end Altro
