import Verif.Model.Double
import Verif.Model.ILQR

/-!
# Vocabulary for `double`
-/

namespace Altro.Spec

/-- At least `q`: infinite or a number that is. -/
def AtLeast (q : ℚ) (x : Dbl) : Prop := x = .inf false ∨ ∃ r, q ≤ r ∧ x = .num r

/-- A finite number. -/
def Finite (x : Dbl) : Prop := x = .nzero ∨ ∃ q, x = .num q

/-- Usable settings of the regularization: the increase factor `f` is above one, `0 < lo ≤ hi` are its limits, and the initial
value is finite. -/
structure RegOk (o : Opts Dbl) (f lo hi : ℚ) : Prop where
  factor : o.regFactor = .num f
  factorOk : f64 f = f
  one_lt : 1 < f
  min : o.regMin = .num lo
  pos : 0 < lo
  max : o.regMax = .num hi
  maxOk : f64 hi = hi
  le : lo ≤ hi
  init : Finite o.regInitial

end Altro.Spec
