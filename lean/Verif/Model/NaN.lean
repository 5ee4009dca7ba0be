import Verif.Model.Arith
import Verif.Model.ALCost

/-!
# Values that are not numbers

`double` values as numbers of an ordered field or NaN.  Comparisons with NaN are false, arithmetic with NaN gives NaN.
Infinities and rounding are not represented; division by zero gives NaN here (in IEEE arithmetic an infinity or NaN).

The parts of `ConstraintValues`, `ALCost` and the solver that read constraint values, written down a second time with
these values: `std::min`, `std::max` and Eigen's `maxCoeff` are comparisons followed by a choice, and which way they
choose matters for NaN.  Eigen's reduction is taken to go through the entries one after the other; a vectorised reduction
may choose differently.
-/

namespace Altro

/-- A number or NaN. -/
inductive Nx (K : Type) where
  | nan
  | num (a : K)
  deriving DecidableEq, Repr

namespace Nx
variable {K : Type} [Field K] [LinearOrder K]

def map (f : K → K) : Nx K → Nx K
  | nan => nan
  | num a => num (f a)

def map₂ (f : K → K → K) : Nx K → Nx K → Nx K
  | num a, num b => num (f a b)
  | _, _ => nan

def div : Nx K → Nx K → Nx K
  | num a, num b => if b = 0 then nan else num (a / b)
  | _, _ => nan

def cmp (r : K → K → Bool) : Nx K → Nx K → Bool
  | num a, num b => r a b
  | _, _ => false

instance : Arith (Nx K) where
  add := map₂ (· + ·)
  sub := map₂ (· - ·)
  mul := map₂ (· * ·)
  div := div
  neg := map (- ·)
  zero := num 0
  one := num 1
  lt := cmp fun a b => decide (a < b)
  le := cmp fun a b => decide (a ≤ b)
  ofN n := num n

/-- `std::abs`. -/
def abs (x : Nx K) : Nx K := map (|·|) x

/-- It is a number. -/
def IsNum (x : Nx K) : Prop := ∃ a, x = num a

end Nx

namespace NaN
variable {K : Type} [Field K] [LinearOrder K]

/-- `lpNorm<Infinity>`: `cwiseAbs().maxCoeff()`, the first entry and then `(a < b) ? b : a`; zero for an empty vector. -/
def infNorm : List (Nx K) → Nx K
  | [] => 0
  | x :: l => l.foldl (fun a y => Arith.smax a y.abs) x.abs

/-- `ConType::Projection` (constraint.hpp:33-37, 103-108); `std::min(0.0, x)`. -/
def proj : ConKind → List (Nx K) → List (Nx K)
  | .equality, v => v.map fun _ => 0
  | .inequality, v => v.map fun x => Arith.smin 0 x

/-- `ConType::DualCone::Projection` (constraint.hpp:70-73, 103-108). -/
def dualProj : ConKind → List (Nx K) → List (Nx K)
  | .equality, v => v
  | .inequality, v => v.map fun x => Arith.smin 0 x

/-- The values of one `ConstraintValues` object (constraint_values.hpp:260-263): `c_`, `lambda_`, `penalty_`. -/
structure CV (K : Type) where
  c : List (Nx K)
  lam : List (Nx K)
  pen : List (Nx K)
  deriving DecidableEq

/-- `squaredNorm`. -/
def sqNorm (v : List (Nx K)) : Nx K := v.foldl (fun a x => a + x * x) 0

/-- `penalty_(0)` (constraint_values.hpp:112). -/
def rho (s : CV K) : Nx K := s.pen.headD .nan

/-- `AugLag` for the stored value (constraint_values.hpp:115-118). -/
def augLag (κ : ConKind) (s : CV K) : Nx K :=
  (sqNorm (dualProj κ (List.zipWith (fun l c => l - rho s * c) s.lam s.c)) - sqNorm s.lam) / ((1 + 1) * rho s)

/-- `UpdateDuals` (constraint_values.hpp:192-194). -/
def updateDuals (κ : ConKind) (s : CV K) : CV K :=
  { s with lam := dualProj κ (List.zipWith (fun l pc => l - pc) s.lam (List.zipWith (· * ·) s.pen s.c)) }

/-- `c_ - Π(c_)` (constraint_values.hpp:217-218). -/
def violation (κ : ConKind) (c : List (Nx K)) : List (Nx K) := List.zipWith (· - ·) c (proj κ c)

/-- `MaxViolation` of one constraint (constraint_values.hpp:215-220). -/
def conMax (κ : ConKind) (c : List (Nx K)) : Nx K := infNorm (violation κ c)

/-- The constraint values at one knot point, `eq_` and `ineq_`. -/
structure Knot (K : Type) where
  eq : List (CV K)
  ineq : List (CV K)

/-- `MaxViolation` of one knot point (al_cost.hpp:343-353). -/
def knotMax (s : Knot K) : Nx K :=
  infNorm [infNorm (s.eq.map fun v => conMax .equality v.c), infNorm (s.ineq.map fun v => conMax .inequality v.c)]

/-- `GetMaxViolation` (al_solver.hpp:417-424). -/
def solverMax (l : List (Knot K)) : Nx K := infNorm (l.map knotMax)

/-- `Evaluate` (al_cost.hpp:264-274) after the constraints have been evaluated; `J` is the user's cost. -/
def evaluate (J : Nx K) (s : Knot K) : Nx K :=
  s.ineq.foldl (fun a v => a + augLag .inequality v) (s.eq.foldl (fun a v => a + augLag .equality v) J)

/-- The comparison by which `GetConstraintInfo(true)` sorts (al_solver.hpp:96-102), on the largest violations. -/
def worse (a b : Nx K) : Bool := Arith.gt a b

end NaN
end Altro
