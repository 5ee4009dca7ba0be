import Mathlib.Algebra.Order.Field.Basic
import Mathlib.Algebra.Order.Field.Rat

/-!
# Law-free arithmetic

The solver's control flow is modelled over a type with the *operations* of C++ `double` but without any
laws.  A theorem that only assumes `Arith F` therefore holds for IEEE doubles (NaN, infinities and
rounding included) as well as for exact numbers.
-/

namespace Altro

/-- The operations used on `double` by the solver control flow.  Comparisons are Boolean tests, as in C++;
nothing is assumed about them (for NaN all of them return `false`). -/
class Arith (F : Type*) extends Add F, Sub F, Mul F, Div F, Neg F, Zero F, One F where
  /-- `a < b` -/
  lt : F → F → Bool
  /-- `a <= b` -/
  le : F → F → Bool
  /-- conversion of an integer counter to `double` -/
  ofN : ℕ → F

namespace Arith
variable {F : Type*} [Arith F]

/-- `a > b` is `b < a` (IEEE comparisons are mirror images of each other). -/
def gt (a b : F) : Bool := lt b a
/-- `a >= b` is `b <= a`. -/
def ge (a b : F) : Bool := le b a

/-- `std::max(a, b)`, i.e. `(a < b) ? b : a`. -/
def smax (a b : F) : F := if lt a b then b else a
/-- `std::min(a, b)`, i.e. `(b < a) ? b : a`. -/
def smin (a b : F) : F := if lt b a then b else a

/-- Eigen's `.sum()` of the entries `f 0, ..., f (n-1)`, as a left-to-right sum.
Eigen may associate the additions differently (vectorised reduction); no theorem depends on the order except
through the exact-arithmetic instance where it does not matter. -/
def sumTo (n : Nat) (f : Nat → F) : F := (List.range n).foldl (fun acc k => acc + f k) 0

end Arith

/-- Exact arithmetic: every linearly ordered field is an instance. -/
instance (priority := 100) Arith.ofField {K : Type*} [Field K] [LinearOrder K] : Arith K where
  lt a b := decide (a < b)
  le a b := decide (a ≤ b)
  ofN n := (n : K)

namespace Arith
variable {K : Type*} [Field K] [LinearOrder K]

@[simp] theorem lt_iff (a b : K) : Arith.lt a b = true ↔ a < b := by simp [Arith.lt]
@[simp] theorem le_iff (a b : K) : Arith.le a b = true ↔ a ≤ b := by simp [Arith.le]
@[simp] theorem gt_iff (a b : K) : Arith.gt a b = true ↔ b < a := by simp [Arith.gt]
@[simp] theorem ge_iff (a b : K) : Arith.ge a b = true ↔ b ≤ a := by simp [Arith.ge]
@[simp] theorem smax_eq (a b : K) : Arith.smax a b = max a b := by
  unfold smax; rcases lt_or_ge a b with h | h
  · simp [h, max_eq_right h.le]
  · simp [not_lt.mpr h, max_eq_left h]
@[simp] theorem smin_eq (a b : K) : Arith.smin a b = min a b := by
  unfold smin; rcases lt_or_ge b a with h | h
  · simp [h, min_eq_right h.le]
  · simp [not_lt.mpr h, min_eq_left h]

end Arith

example (a b : ℚ) : Arith.smax a b + a = max a b + a := by simp

end Altro
