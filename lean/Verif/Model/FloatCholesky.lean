import Verif.Model.Cholesky
import Verif.Model.InexactGains
import Mathlib.Data.List.Range

/-!
# Cholesky factorization and gains with rounding   (`altro/ilqr/knot_point_function_type.hpp:197-211`)

The algorithm of `Model.Cholesky` with the results of floating-point operations in place of exact ones.  Eigen is not part of
`/repo`, and the order in which its kernels add depends on sizes, vector instructions and version; the operations are therefore
parameters, and `Spec.FloatCholesky` says what is known about them: any order of addition, with or without fused
multiplication and addition, division or multiplication by a rounded reciprocal.
-/

namespace Altro

/-- The operations of the factorization and of the triangular solves. -/
structure Floats where
  /-- `a - ∑ x y` -/
  acc : ℝ → List (ℝ × ℝ) → ℝ
  /-- `s / d` -/
  quot : ℝ → ℝ → ℝ
  /-- `sqrt(p)` -/
  root : ℝ → ℝ

/-- The operations without rounding. -/
noncomputable def Floats.exact : Floats where
  acc a l := a - (l.map fun q => q.1 * q.2).sum
  quot s d := s / d
  root p := Real.sqrt p

namespace Floats
variable (F : Floats)

/-- The first `k` products of two rows. -/
def products (k : ℕ) (f g : ℕ → ℝ) : List (ℝ × ℝ) := (List.range k).map fun l => (f l, g l)

/-- The number tested at column `k` (see `Chol.pivot`). -/
def pivot (k : ℕ) (A : ℕ → ℕ → ℝ) : ℝ := F.acc (A k k) (products k (A k) (A k))

/-- Column `k` (see `Chol.column`). -/
def column (k : ℕ) (A : ℕ → ℕ → ℝ) : ℕ → ℕ → ℝ := fun i j =>
  if j = k then
    if i = k then F.root (F.pivot k A)
    else if k < i then F.quot (F.acc (A i k) (products k (A i) (A k))) (F.root (F.pivot k A))
    else A i j
  else A i j

open scoped Classical in
/-- The loop over the columns (see `Chol.factor`). -/
noncomputable def factor : (c k : ℕ) → (ℕ → ℕ → ℝ) → Bool × (ℕ → ℕ → ℝ)
  | 0, _, A => (true, A)
  | c + 1, k, A => if F.pivot k A ≤ 0 then (false, A) else factor c (k + 1) (F.column k A)

/-- Forward substitution, the first `i` entries done (see `Chol.fwd`). -/
def fwd (L : ℕ → ℕ → ℝ) (b : ℕ → ℝ) : ℕ → ℕ → ℝ
  | 0 => b
  | i + 1 => Function.update (fwd L b i) i
      (F.quot (F.acc (fwd L b i i) (products i (L i) (fwd L b i))) (L i i))

/-- Back substitution, the last `i` entries done (see `Chol.bwd`). -/
def bwd (m : ℕ) (L : ℕ → ℕ → ℝ) (y : ℕ → ℝ) : ℕ → ℕ → ℝ
  | 0 => y
  | i + 1 =>
    let r := m - (i + 1)
    Function.update (bwd m L y i) r
      (F.quot (F.acc (bwd m L y i r) ((List.range' (r + 1) (m - (r + 1))).map fun l => (L l r, bwd m L y i l))) (L r r))

/-- `LLT(M).info() == Success`. -/
noncomputable def ok (m : ℕ) (M : Matrix (Fin m) (Fin m) ℝ) : Bool := (F.factor m 0 (Chol.entries M)).1

/-- `LLT(M).solve(b)`. -/
noncomputable def solve (m : ℕ) (M : Matrix (Fin m) (Fin m) ℝ) (b : Fin m → ℝ) : Fin m → ℝ := fun i =>
  let L := (F.factor m 0 (Chol.entries M)).2
  F.bwd m L (F.fwd L (Chol.coords b) m) m i

/-- `CalcGains` (knot_point_function_type.hpp:199-208) with these operations; the changes of sign are exact. -/
noncomputable def routine {n m : ℕ} : GainRoutine n m ℝ := fun e =>
  if F.ok m e.dudu then
    some (Matrix.of fun i j => -(F.solve m e.dudu (fun l => e.dxdu j l) i), -(F.solve m e.dudu e.du))
  else none

end Floats
end Altro
