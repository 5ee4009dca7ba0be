import Verif.Model.ConArith
import Verif.Spec.Double

/-!
# Constraints in `double`: vocabulary
-/

namespace Altro.Spec
open ConArith

/-- What the violation of a constraint by the value `x` should be: `|x|` for an equality, the positive part for an inequality;
NaN for values that allow no answer. -/
def excess : ConKind → Dbl → Dbl
  | .equality, x => x.abs
  | .inequality, .num q => .num (max q 0)
  | .inequality, .nzero => .num 0
  | .inequality, .inf false => .inf false
  | .inequality, .inf true => .nan
  | .inequality, .nan => .nan

/-- The value meets its constraint up to a tolerance. -/
def Meets (t : Dbl) : ConKind → Dbl → Prop
  | .equality, x => Arith.lt x.abs t = true
  | .inequality, x => Arith.lt x t = true

/-- A value of the format that is neither NaN nor `-inf`. -/
def Clean (x : Dbl) : Prop := x.Ok ∧ x ≠ .nan ∧ x ≠ .inf true

/-- Something about every constraint value at every knot point. -/
def Each (P : ConKind → Dbl → Prop) (l : List (Knot Dbl)) : Prop :=
  ∀ s ∈ l, (∀ v ∈ s.eq, ∀ x ∈ v.c, P .equality x) ∧ (∀ v ∈ s.ineq, ∀ x ∈ v.c, P .inequality x)

/-- What can happen to one `ConstraintValues` object; the numbers may be any `double`s. -/
inductive Step where
  | eval (c : List Dbl)
  | setPenalty (ρ : Dbl)
  | updateDuals
  | updatePenalties (φ : Dbl)
  | resetDuals

/-- The effect of one of them. -/
def Step.run (κ : ConKind) (s : CV Dbl) : Step → CV Dbl
  | .eval c => { s with c := c }
  | .setPenalty ρ => { s with pen := s.pen.map fun _ => ρ }
  | .updateDuals => ConArith.updateDuals κ s
  | .updatePenalties φ => ConArith.updatePenalties φ s
  | .resetDuals => { s with lam := s.lam.map fun _ => .num 0 }

/-- A constraint that holds and whose multipliers have the right sign, with numbers that do not overflow when squared or
doubled. -/
structure Quiet (κ : ConKind) (s : CV Dbl) (r : ℚ) : Prop where
  len : s.c.length = s.lam.length
  pen : s.pen.head? = some (.num r)
  pos : 0 < r
  ok : f64 r = r
  holds : ∀ x ∈ s.c, match κ with
    | .equality => x = .num 0 ∨ x = .nzero
    | .inequality => Arith.le x 0 = true
  sign : ∀ x ∈ s.lam, match κ with
    | .equality => x.Ok ∧ Finite x
    | .inequality => x.Ok ∧ Arith.le x 0 = true
  square : Finite (ConArith.sqNorm s.lam)
  double : f64 (2 * r) < (2 : ℚ) ^ (1024 : ℕ)

/-- The penalties are at least `q`, and there is one. -/
def PenaltiesFrom (q : ℚ) (l : List (Knot Dbl)) : Prop :=
  (∀ s ∈ l, ∀ v ∈ s.eq ++ s.ineq, v.pen ≠ [] ∧ ∀ x ∈ v.pen, AtLeast q x) ∧ ∃ s ∈ l, s.eq ++ s.ineq ≠ []

end Altro.Spec
