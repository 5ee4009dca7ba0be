import Verif.Model.NaN
import Verif.Model.Double

/-!
# Constraint values with any arithmetic

The functions of `Model/NaN.lean` (and the penalty update) over any kind of numbers with an absolute value, so that they can be
run with `double`.  `Props/DoubleCon.lean` shows that over `Nx K` they are the functions of `Model/NaN.lean`.

Eigen's reductions are taken to go through the entries one after the other, starting from zero for sums.
-/

namespace Altro

/-- Arithmetic with `std::abs`. -/
class AbsArith (F : Type) extends Arith F where
  abs : F → F

instance {K : Type} [Field K] [LinearOrder K] : AbsArith (Nx K) := { (inferInstance : Arith (Nx K)) with abs := Nx.abs }

namespace Dbl

/-- `std::abs` clears the sign bit. -/
def abs : Dbl → Dbl
  | nan => nan
  | inf _ => inf false
  | nzero => num 0
  | num q => num |q|

instance : AbsArith Dbl := { (inferInstance : Arith Dbl) with abs := Dbl.abs }

end Dbl

namespace ConArith
variable {F : Type} [AbsArith F]

/-- `lpNorm<Infinity>`: `cwiseAbs().maxCoeff()`, the first entry and then `(a < b) ? b : a`; zero for an empty vector. -/
def infNorm : List F → F
  | [] => 0
  | x :: l => l.foldl (fun a y => Arith.smax a (AbsArith.abs y)) (AbsArith.abs x)

/-- `ConType::Projection` (constraint.hpp:33-37, 103-108); `std::min(0.0, x)`. -/
def proj : ConKind → List F → List F
  | .equality, v => v.map fun _ => 0
  | .inequality, v => v.map fun x => Arith.smin 0 x

/-- `ConType::DualCone::Projection` (constraint.hpp:70-73, 103-108). -/
def dualProj : ConKind → List F → List F
  | .equality, v => v
  | .inequality, v => v.map fun x => Arith.smin 0 x

/-- The values of one `ConstraintValues` object (constraint_values.hpp:260-263): `c_`, `lambda_`, `penalty_`. -/
structure CV (F : Type) where
  c : List F
  lam : List F
  pen : List F
  deriving DecidableEq

/-- `squaredNorm`. -/
def sqNorm (v : List F) : F := v.foldl (fun a x => a + x * x) 0

/-- `penalty_(0)` (constraint_values.hpp:112); `d` stands for what is read from an empty vector. -/
def rho (d : F) (s : CV F) : F := s.pen.headD d

/-- `AugLag` for the stored value (constraint_values.hpp:115-118). -/
def augLag (d : F) (κ : ConKind) (s : CV F) : F :=
  (sqNorm (dualProj κ (List.zipWith (fun l c => l - rho d s * c) s.lam s.c)) - sqNorm s.lam) / ((1 + 1) * rho d s)

/-- `UpdateDuals` (constraint_values.hpp:192-194). -/
def updateDuals (κ : ConKind) (s : CV F) : CV F :=
  { s with lam := dualProj κ (List.zipWith (fun l pc => l - pc) s.lam (List.zipWith (· * ·) s.pen s.c)) }

/-- `UpdatePenalties` (constraint_values.hpp:203-207): `penalty_ *= penalty_scaling_`. -/
def updatePenalties (φ : F) (s : CV F) : CV F := { s with pen := s.pen.map (· * φ) }

/-- `c_ - Π(c_)` (constraint_values.hpp:217-218). -/
def violation (κ : ConKind) (c : List F) : List F := List.zipWith (· - ·) c (proj κ c)

/-- `MaxViolation` of one constraint (constraint_values.hpp:215-220). -/
def conMax (κ : ConKind) (c : List F) : F := infNorm (violation κ c)

/-- The constraint values at one knot point, `eq_` and `ineq_`. -/
structure Knot (F : Type) where
  eq : List (CV F)
  ineq : List (CV F)

/-- `MaxViolation` of one knot point (al_cost.hpp:343-353). -/
def knotMax (s : Knot F) : F :=
  infNorm [infNorm (s.eq.map fun v => conMax .equality v.c), infNorm (s.ineq.map fun v => conMax .inequality v.c)]

/-- `GetMaxViolation` (al_solver.hpp:417-424). -/
def solverMax (l : List (Knot F)) : F := infNorm (l.map knotMax)

/-- `Evaluate` (al_cost.hpp:264-274) after the constraints have been evaluated; `J` is the user's cost. -/
def evaluate (d : F) (J : F) (s : Knot F) : F :=
  s.ineq.foldl (fun a v => a + augLag d .inequality v) (s.eq.foldl (fun a v => a + augLag d .equality v) J)

/-- `MaxPenalty` of one constraint (constraint_values.hpp:227): `penalty_.maxCoeff()`; `d` stands for what an empty vector
gives. -/
def maxPenalty (d : F) : List F → F
  | [] => d
  | x :: l => l.foldl Arith.smax x

/-- `MaxPenalty` of one knot point (al_cost.hpp:361-370), from zero with `std::max`. -/
def knotPenalty (d : F) (s : Knot F) : F :=
  s.ineq.foldl (fun a v => Arith.smax a (maxPenalty d v.pen)) (s.eq.foldl (fun a v => Arith.smax a (maxPenalty d v.pen)) 0)

/-- `GetMaxPenalty` (al_solver.hpp:427-434). -/
def solverPenalty (d : F) (l : List (Knot F)) : F := l.foldl (fun a s => Arith.smax a (knotPenalty d s)) 0

/-- `UpdateDuals` of every constraint (al_cost.hpp:314-321, al_solver.hpp:337-345). -/
def Knot.updateDuals (s : Knot F) : Knot F :=
  ⟨s.eq.map (ConArith.updateDuals .equality), s.ineq.map (ConArith.updateDuals .inequality)⟩

/-- `UpdatePenalties` of every constraint (al_cost.hpp:327-334, al_solver.hpp:348-355); all scale by the same `φ`. -/
def Knot.updatePenalties (φ : F) (s : Knot F) : Knot F :=
  ⟨s.eq.map (ConArith.updatePenalties φ), s.ineq.map (ConArith.updatePenalties φ)⟩

end ConArith
end Altro
