import Mathlib.Analysis.Real.Sqrt
import Mathlib.Algebra.BigOperators.Fin
import Mathlib.Data.Matrix.Basic

/-!
# Cholesky factorization with square roots

`CalcGains` (knot_point_function_type.hpp:197-211) calls `Eigen::LLT` on the control block of the regularised
action-value expansion.  Eigen is not part of `/repo`; this is the textbook algorithm Eigen documents (in place,
column by column, reading the lower triangle only; failure when a pivot is `<= 0`).  Blocking, which Eigen uses from
size 32 on, is not modelled: it only regroups the sums.  Numbers are reals.

`Model.KnotPoint` uses a version without square roots; `Props.Cholesky` proves that the two agree.
-/

namespace Altro.Chol

/-- `x = mat(k,k) - A10.squaredNorm()`: the number tested at column `k`. -/
noncomputable def pivot (k : ℕ) (A : ℕ → ℕ → ℝ) : ℝ := A k k - ∑ l ∈ Finset.range k, A k l * A k l

/-- `mat(k,k) = sqrt(x); A21 -= A20 * A10.adjoint(); A21 /= x`. -/
noncomputable def column (k : ℕ) (A : ℕ → ℕ → ℝ) : ℕ → ℕ → ℝ := fun i j =>
  if j = k then
    if i = k then Real.sqrt (pivot k A)
    else if k < i then (A i k - ∑ l ∈ Finset.range k, A i l * A k l) / Real.sqrt (pivot k A)
    else A i j
  else A i j

open scoped Classical in
/-- The loop over the columns from `k`, `c` of them left; `false` is `Eigen::NumericalIssue`. -/
noncomputable def factor : (c k : ℕ) → (ℕ → ℕ → ℝ) → Bool × (ℕ → ℕ → ℝ)
  | 0, _, A => (true, A)
  | c + 1, k, A => if pivot k A ≤ 0 then (false, A) else factor c (k + 1) (column k A)

/-- `matrixL().solveInPlace(b)`: forward substitution, the first `i` entries done. -/
noncomputable def fwd (L : ℕ → ℕ → ℝ) (b : ℕ → ℝ) : ℕ → ℕ → ℝ
  | 0 => b
  | i + 1 => Function.update (fwd L b i) i
      ((fwd L b i i - ∑ l ∈ Finset.range i, L i l * fwd L b i l) / L i i)

/-- `matrixU().solveInPlace(b)`: back substitution in a system of size `m`, the last `i` entries done. -/
noncomputable def bwd (m : ℕ) (L : ℕ → ℕ → ℝ) (y : ℕ → ℝ) : ℕ → ℕ → ℝ
  | 0 => y
  | i + 1 =>
    let r := m - (i + 1)
    Function.update (bwd m L y i) r
      ((bwd m L y i r - ∑ l ∈ Finset.Ico (r + 1) m, L l r * bwd m L y i l) / L r r)

/-- The entries of a matrix, by natural numbers. -/
def entries {m : ℕ} (M : Matrix (Fin m) (Fin m) ℝ) : ℕ → ℕ → ℝ := fun i j =>
  if h : i < m ∧ j < m then M ⟨i, h.1⟩ ⟨j, h.2⟩ else 0

/-- The entries of a vector, by natural numbers. -/
def coords {m : ℕ} (b : Fin m → ℝ) : ℕ → ℝ := fun i => if h : i < m then b ⟨i, h⟩ else 0

/-- `LLT(M).info() == Success`. -/
noncomputable def ok (m : ℕ) (M : Matrix (Fin m) (Fin m) ℝ) : Bool := (factor m 0 (entries M)).1

/-- `LLT(M).solve(b)`. -/
noncomputable def solve (m : ℕ) (M : Matrix (Fin m) (Fin m) ℝ) (b : Fin m → ℝ) : Fin m → ℝ := fun i =>
  let L := (factor m 0 (entries M)).2
  bwd m L (fwd L (coords b) m) m i

end Altro.Chol
