import Verif.Model.Arith
import Verif.Model.Float

/-!
# IEEE 754 `double`

The values and operations of binary64 with round-to-nearest, ties to even: signed zeros, infinities, gradual underflow and
overflow included.  There is one NaN (payloads and signs of NaN are not represented).  `num q` is meant for numbers `q` of the
format (`Dbl.Ok`); the operations give such numbers (`Proofs/Double.lean`).

The compiler is taken to evaluate every operation in binary64 (no excess precision, no contraction to fused operations).
-/

namespace Altro

/-- A `double`. -/
inductive Dbl where
  | nan
  | inf (neg : Bool)
  /-- negative zero -/
  | nzero
  | num (q : ℚ)
  deriving DecidableEq

namespace Dbl

/-- The sign bit. -/
def neg? : Dbl → Bool
  | nan => false
  | inf s => s
  | nzero => true
  | num q => decide (q < 0)

/-- Round an exact result; `s` is the sign of zeros and overflows. -/
def round (s : Bool) (x : ℚ) : Dbl :=
  let r := f64 x
  if r = 0 then (if s then nzero else num 0)
  else if (2 : ℚ) ^ (1024 : ℕ) ≤ |r| then inf s
  else num r

/-- A literal in the source. -/
def lit (x : ℚ) : Dbl := round (decide (x < 0)) x

def neg : Dbl → Dbl
  | nan => nan
  | inf s => inf !s
  | nzero => num 0
  | num q => if q = 0 then nzero else num (-q)

/-- The sum of two finite numbers: a sum that is exactly zero is negative only if both are negative zeros. -/
def addFin (a b : ℚ) (both : Bool) : Dbl := round (if a + b = 0 then both else decide (a + b < 0)) (a + b)

def add : Dbl → Dbl → Dbl
  | nan, _ => nan
  | _, nan => nan
  | inf s, inf t => if s = t then inf s else nan
  | inf s, _ => inf s
  | _, inf t => inf t
  | nzero, nzero => nzero
  | nzero, num b => addFin 0 b false
  | num a, nzero => addFin a 0 false
  | num a, num b => addFin a b false

def mulFin (a b : ℚ) (s : Bool) : Dbl := round s (a * b)

def mul (x y : Dbl) : Dbl :=
  let s := x.neg? != y.neg?
  match x, y with
  | nan, _ => nan
  | _, nan => nan
  | inf _, inf _ => inf s
  | inf _, nzero => nan
  | nzero, inf _ => nan
  | inf _, num b => if b = 0 then nan else inf s
  | num a, inf _ => if a = 0 then nan else inf s
  | nzero, nzero => mulFin 0 0 s
  | nzero, num b => mulFin 0 b s
  | num a, nzero => mulFin a 0 s
  | num a, num b => mulFin a b s

/-- `a / b` for finite numbers: `0 / 0` is NaN, other divisions by zero are infinite. -/
def divFin (a b : ℚ) (s : Bool) : Dbl :=
  if b = 0 then (if a = 0 then nan else inf s) else round s (a / b)

def div (x y : Dbl) : Dbl :=
  let s := x.neg? != y.neg?
  match x, y with
  | nan, _ => nan
  | _, nan => nan
  | inf _, inf _ => nan
  | inf _, _ => inf s
  | _, inf _ => if s then nzero else num 0
  | nzero, nzero => divFin 0 0 s
  | nzero, num b => divFin 0 b s
  | num a, nzero => divFin a 0 s
  | num a, num b => divFin a b s

/-- Is it `-inf`, a finite number, or `inf`?  (not for NaN) -/
def level : Dbl → ℤ
  | inf true => -1
  | inf false => 1
  | _ => 0

/-- The value of a finite number. -/
def val : Dbl → ℚ
  | num q => q
  | _ => 0

/-- `a < b`; the zeros are equal. -/
def lt (a b : Dbl) : Bool :=
  match a, b with
  | nan, _ => false
  | _, nan => false
  | a, b => decide (a.level < b.level) || (decide (a.level = b.level) && decide (a.val < b.val))

/-- `a <= b`. -/
def le (a b : Dbl) : Bool :=
  match a, b with
  | nan, _ => false
  | _, nan => false
  | a, b => decide (a.level < b.level) || (decide (a.level = b.level) && decide (a.val ≤ b.val))

instance : Arith Dbl where
  add := add
  sub a b := add a b.neg
  mul := mul
  div := div
  neg := neg
  zero := num 0
  one := num 1
  lt := lt
  le := le
  ofN n := lit n

/-- A value of the format. -/
def Ok : Dbl → Prop
  | num q => f64 q = q ∧ |q| < (2 : ℚ) ^ (1024 : ℕ)
  | _ => True

end Dbl
end Altro
