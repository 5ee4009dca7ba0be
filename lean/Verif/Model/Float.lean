import Mathlib.Algebra.Order.Floor.Ring
import Mathlib.Data.Rat.Floor
import Mathlib.Algebra.Order.Field.Power

/-!
# Rounding of `float` and `double`

IEEE 754 round-to-nearest, ties to even, on rational numbers.  Overflow, infinities, NaN and the sign of zero are left
out: a number too large for the format is treated as if the exponent range were unbounded above.
-/

namespace Altro

/-- The exponent `e` with `2^e ≤ |x| < 2^(e+1)` (`x ≠ 0`). -/
def ilog2 (x : ℚ) : ℤ :=
  let e : ℤ := (x.num.natAbs.log2 : ℤ) - (x.den.log2 : ℤ)
  if (2 : ℚ) ^ e ≤ |x| then e else e - 1

/-- Nearest integer, ties to even. -/
def rhe (q : ℚ) : ℤ :=
  let f := ⌊q⌋
  if q - f < 1 / 2 then f else if 1 / 2 < q - f then f + 1 else if f % 2 = 0 then f else f + 1

/-- The exponent of the last place of `x` in a format with `p` significant bits and smallest exponent `emin`. -/
def ulpExp (p : ℕ) (emin : ℤ) (x : ℚ) : ℤ := max (ilog2 x - ((p : ℤ) - 1)) emin

/-- Round to the format. -/
def ieee (p : ℕ) (emin : ℤ) (x : ℚ) : ℚ :=
  if x = 0 then 0 else rhe (x / (2 : ℚ) ^ ulpExp p emin x) * (2 : ℚ) ^ ulpExp p emin x

/-- `float` (binary32): 24 bits, smallest positive number `2^-149`. -/
def f32 : ℚ → ℚ := ieee 24 (-149)

/-- `double` (binary64): 53 bits, smallest positive number `2^-1074`. -/
def f64 : ℚ → ℚ := ieee 53 (-1074)

/-- The roundings a piece of code uses. -/
structure Rounding (K : Type) where
  r32 : K → K
  r64 : K → K

/-- No rounding. -/
def Rounding.exact {K : Type} : Rounding K := ⟨id, id⟩

/-- What the hardware does. -/
def Rounding.ieee754 : Rounding ℚ := ⟨f32, f64⟩

end Altro
