import Verif.Model.Logger

/-!
# Specification of the console logger: what a history of calls means for the table
-/

namespace Altro.Spec.Logger
open Altro.Logger SolverLogger

/-- Insert a column: `col ≥ 0` counts from the left, `col = -1` is the last column, `-2` the one before it, ... -/
def insertCol (col : ℤ) (t : String) (cols : List String) : List String :=
  if 0 ≤ col then cols.take col.toNat ++ t :: cols.drop col.toNat
  else
    let k := (-col - 1).toNat
    (cols.reverse.take k ++ t :: cols.reverse.drop k).reverse

/-- The columns of the table after further calls. -/
def columnsFrom (cols : List String) : List Op → List String
  | [] => cols
  | .add col t _ _ :: ops => columnsFrom (insertCol col t cols) ops
  | _ :: ops => columnsFrom cols ops

/-- The columns of the table. -/
def columns (ops : List Op) : List String := columnsFrom [] ops

/-- The level at which a column is enabled: the last one set, `kInner` by default. -/
def levelFrom (t : String) (lv : Level) : List Op → Level
  | [] => lv
  | .set t' (.level l) :: ops => levelFrom t (if t' = t then l else lv) ops
  | _ :: ops => levelFrom t lv ops

/-- The level at which a column is enabled. -/
def levelOf (t : String) (ops : List Op) : Level := levelFrom t kInner ops

/-- The verbosity after further calls. -/
def verbosityFrom (lv : Level) : List Op → Level
  | [] => lv
  | .level l :: ops => verbosityFrom l ops
  | _ :: ops => verbosityFrom lv ops

/-- Every title is added once, and before it is used. -/
def Tidy (known : List String) : List Op → Prop
  | [] => True
  | .add _ t _ _ :: ops => t ∉ known ∧ Tidy (t :: known) ops
  | .set t _ :: ops => t ∈ known ∧ Tidy known ops
  | .log t _ :: ops => t ∈ known ∧ Tidy known ops
  | _ :: ops => Tidy known ops

/-- The texts of a line. -/
def texts : Line → List String
  | .header cells _ _ => cells.map Cell.text
  | .data cells => cells.map Cell.text

/-- The number of characters a cell takes: padded to its width, longer texts in full. -/
def Cell.printed (c : Cell) : ℤ := max c.width c.text.length

/-- The number of characters of a line of cells, each followed by a space. -/
def lineLength (cells : List Cell) : ℤ := (cells.map fun c => Cell.printed c + 1).sum

/-- For every row of data, whether the line just before it is a header. -/
def headed (prev : Bool) : List Line → List Bool
  | [] => []
  | .header .. :: ls => headed true ls
  | .data _ :: ls => prev :: headed false ls

/-- `v` is below `b` as numbers: nothing is below or above not-a-number. -/
def Below : Dbl → Dbl → Prop
  | .val a, .val b => a < b
  | .val _, .pinf => True
  | .ninf, .val _ => True
  | .ninf, .pinf => True
  | _, _ => False

instance (a b : Dbl) : Decidable (Below a b) := by
  cases a <;> cases b <;> unfold Below <;> infer_instance

/-- The settings of the bounds made by a sequence of (accepted) setters: lower bound, its colour, upper bound, its
colour. -/
def bounds (b : Dbl × Color × Dbl × Color) : List Entry.Setter → Dbl × Color × Dbl × Color
  | [] => b
  | .lower lb c :: ss => bounds (lb, c, b.2.2) ss
  | .upper ub c :: ss => bounds (b.1, b.2.1, ub, c) ss
  | _ :: ss => bounds b ss

/-- The setters applied to an entry. -/
def settersOf (t : String) : List Op → List Entry.Setter
  | [] => []
  | .set t' s :: ops => if t' = t then s :: settersOf t ops else settersOf t ops
  | _ :: ops => settersOf t ops

/-- The colour of a value under given bounds. -/
def colourOf (b : Dbl × Color × Dbl × Color) (v : Dbl) : Color :=
  if Below v b.1 then b.2.1 else if Below b.2.2.1 v then b.2.2.2 else white

/-- No bounds. -/
def noBounds : Dbl × Color × Dbl × Color := (.ninf, green, .pinf, red)

end Altro.Spec.Logger
