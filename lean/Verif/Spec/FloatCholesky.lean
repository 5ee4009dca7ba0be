import Verif.Model.FloatCholesky
import Verif.Spec.InexactGains
import Mathlib.Data.List.Perm.Basic
import Mathlib.Algebra.BigOperators.Group.List.Basic
import Mathlib.Data.Int.Log
import Mathlib.Algebra.Order.Round

/-!
# Sums of products with rounding, in any order
-/

namespace Altro.Spec

/-- How `a - ∑ x y` is put together: the number `a`, a product (rounded or, for a fused operation, not), a sum. -/
inductive Arrangement where
  | start (a : ℝ)
  | term (x y : ℝ) (fused : Bool)
  | add (s t : Arrangement)

namespace Arrangement

/-- The number that results when `fl` rounds. -/
def eval (fl : ℝ → ℝ) : Arrangement → ℝ
  | start a => a
  | term x y fused => -(if fused then x * y else fl (x * y))
  | add s t => fl (s.eval fl + t.eval fl)

/-- The numbers put in. -/
def starts : Arrangement → List ℝ
  | start a => [a]
  | term _ _ _ => []
  | add s t => s.starts ++ t.starts

/-- The products put in. -/
def terms : Arrangement → List (ℝ × ℝ)
  | start _ => []
  | term x y _ => [(x, y)]
  | add s t => s.terms ++ t.terms

end Arrangement

/-- The operations are those of an arithmetic with relative error `u`: every result is rounded by `fl`, which changes a number
`x` by at most `u |x|`.  (Overflow and underflow are left out.) -/
structure Accurate (u : ℝ) (fl : ℝ → ℝ) (F : Floats) : Prop where
  rounds : ∀ x, |fl x - x| ≤ u * |x|
  acc : ∀ a l, ∃ t : Arrangement, t.starts = [a] ∧ t.terms.Perm l ∧ F.acc a l = t.eval fl
  quot : ∀ s d, F.quot s d = fl (s / d) ∨ F.quot s d = fl (s * fl (1 / d))
  root : ∀ p, F.root p = fl (Real.sqrt p)

/-- The growth of the relative error over the operations for one entry of a system of size `m`. -/
noncomputable def unit (u : ℝ) (m : ℕ) : ℝ := (1 + u) ^ (m + 2) - 1

/-- `2 g / (1 - g)` with `g = unit u m`. -/
noncomputable def loss (u : ℝ) (m : ℕ) : ℝ := 2 * unit u m / (1 - unit u m)

/-- The factor of the bound on the residual: about `6 (m + 2) u`. -/
noncomputable def factorLoss (u : ℝ) (m : ℕ) : ℝ := loss u m * (3 + loss u m) * (1 + loss u m)

/-- How definite a matrix must be for the factorization to succeed: about `4 (m + 2) u`. -/
noncomputable def marginLoss (u : ℝ) (m : ℕ) : ℝ := loss u m * (1 + 2 * loss u m) * (1 + loss u m)

/-- The size of a vector, each entry measured by the diagonal of the matrix. -/
noncomputable def scaledNorm {m : ℕ} (M : Matrix (Fin m) (Fin m) ℝ) (v : Fin m → ℝ) : ℝ := ∑ i, Real.sqrt (M i i) * |v i|

/-- The regularised control Hessian of the action value at knot point `k`. -/
def quuReg {n m : ℕ} (r : ℕ → KP n m ℝ) (rho : ℝ) (k : ℕ) : Matrix (Fin m) (Fin m) ℝ := (r k).q.dudu + rho • 1

/-- The sizes of the terms of the control the policy asks for. -/
def askedSize {n m : ℕ} (r : ℕ → KP n m ℝ) (k : ℕ) (δx : Fin n → ℝ) (l : Fin m) : ℝ :=
  ∑ j, |(r k).gain l j| * |δx j| + |(r k).ff l|

/-- What the rounding of the gains leaves in the slope of the action value with respect to control `i`. -/
noncomputable def slopeError {n m : ℕ} (u : ℝ) (r : ℕ → KP n m ℝ) (rho : ℝ) (k : ℕ) (δx : Fin n → ℝ) (i : Fin m) : ℝ :=
  factorLoss u m * (Real.sqrt (quuReg r rho k i i) * scaledNorm (quuReg r rho k) (askedSize r k δx))

/-- The nearest number with 53 significant bits (the exponent is not limited). -/
noncomputable def nearest53 (x : ℝ) : ℝ := round (x / 2 ^ (Int.log 2 |x| - 52)) * 2 ^ (Int.log 2 |x| - 52)

/-- Sums from left to right and divisions, rounded to 53 bits after every operation. -/
noncomputable def leftToRight : Floats where
  acc a l := l.foldl (fun s q => nearest53 (s - nearest53 (q.1 * q.2))) a
  quot s d := nearest53 (s / d)
  root p := nearest53 (Real.sqrt p)

end Altro.Spec
