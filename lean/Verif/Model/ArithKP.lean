import Verif.Model.KnotPoint
import Mathlib.Analysis.Real.Sqrt

/-!
# The per-knot-point matrix code with any arithmetic   (`altro/ilqr/knot_point_function_type.hpp`)

`Model.KnotPoint` over a type with the operations of `double` but without any laws (`Arith`): sums are added from the left, and the
factorization is the one with square roots (`Model.Cholesky`).  Eigen may add in another order, which the theorems about NaN do not
depend on.  Cost, constraints and dynamics are arbitrary functions.
-/

namespace Altro
open Matrix

/-- The functions of `double` that are not in `Arith`. -/
structure Fns (F : Type) where
  sqrt : F → F
  abs : F → F
  /-- Eigen's `maxCoeff()`; with NaN among the entries its result is unspecified -/
  maxCoeff : List F → F

/-- A problem as the solver sees it (see `DynProblem`, `alKernel`). -/
structure ArithProblem (n m : ℕ) (F C : Type) where
  N : ℕ
  x0 : Fin n → F
  f : ℕ → (Fin n → F) → (Fin m → F) → F → F → (Fin n → F)
  cost : ℕ → C → (Fin n → F) → (Fin m → F) → F × C
  /-- derivatives of the cost (`CalcCostExpansion`), with their side effect on the cost object -/
  costExp : ℕ → C → (Fin n → F) → (Fin m → F) → Expansion n m F × C
  /-- `CalcDynamicsExpansion` -/
  jac : ℕ → (Fin n → F) → (Fin m → F) → F → F → Matrix (Fin n) (Fin n) F × Matrix (Fin n) (Fin m) F
  normX : (Fin n → F) → F
  normU : (Fin m → F) → F
  viol : (ℕ → C) → F

namespace ArithKP
variable {F : Type} [Arith F] {a b c n m : ℕ}

/-- The sum of the entries of a vector. -/
def sum (f : Fin n → F) : F := (List.ofFn f).foldl (· + ·) 0

/-- `A * B` -/
def mul (A : Matrix (Fin a) (Fin b) F) (B : Matrix (Fin b) (Fin c) F) : Matrix (Fin a) (Fin c) F :=
  fun i j => sum fun l => A i l * B l j

/-- `A * v` -/
def mulV (A : Matrix (Fin a) (Fin b) F) (v : Fin b → F) : Fin a → F := fun i => sum fun l => A i l * v l

/-- `v.dot(w)` -/
def dot (v w : Fin a → F) : F := sum fun l => v l * w l

/-! ## Factorization (see `Model.Cholesky`) -/

/-- `s - ∑ x y` -/
def acc (s : F) (l : List (F × F)) : F := l.foldl (fun s q => s - q.1 * q.2) s

/-- The first `k` products of two rows. -/
def products (k : ℕ) (f g : ℕ → F) : List (F × F) := (List.range k).map fun l => (f l, g l)

variable (fn : Fns F)

/-- The number tested at column `k`. -/
def pivot (k : ℕ) (A : ℕ → ℕ → F) : F := acc (A k k) (products k (A k) (A k))

/-- Column `k`. -/
def column (k : ℕ) (A : ℕ → ℕ → F) : ℕ → ℕ → F := fun i j =>
  if j = k then
    if i = k then fn.sqrt (pivot k A)
    else if k < i then acc (A i k) (products k (A i) (A k)) / fn.sqrt (pivot k A)
    else A i j
  else A i j

/-- The loop over the columns; it fails if `x <= 0`, which is false for NaN. -/
def factor : (c k : ℕ) → (ℕ → ℕ → F) → Bool × (ℕ → ℕ → F)
  | 0, _, A => (true, A)
  | c + 1, k, A => if Arith.le (pivot k A) 0 then (false, A) else factor c (k + 1) (column fn k A)

/-- Forward substitution. -/
def fwd (L : ℕ → ℕ → F) (b : ℕ → F) : ℕ → ℕ → F
  | 0 => b
  | i + 1 => Function.update (fwd L b i) i (acc (fwd L b i i) (products i (L i) (fwd L b i)) / L i i)

/-- Back substitution. -/
def bwd (m : ℕ) (L : ℕ → ℕ → F) (y : ℕ → F) : ℕ → ℕ → F
  | 0 => y
  | i + 1 =>
    let r := m - (i + 1)
    Function.update (bwd m L y i) r
      (acc (bwd m L y i r) ((List.range' (r + 1) (m - (r + 1))).map fun l => (L l r, bwd m L y i l)) / L r r)

/-- The entries of a matrix, by natural numbers. -/
def entries (M : Matrix (Fin m) (Fin m) F) : ℕ → ℕ → F := fun i j => if h : i < m ∧ j < m then M ⟨i, h.1⟩ ⟨j, h.2⟩ else 0

/-- The entries of a vector, by natural numbers. -/
def coords (b : Fin m → F) : ℕ → F := fun i => if h : i < m then b ⟨i, h⟩ else 0

/-- `LLT(M).info() == Success`. -/
def ok (m : ℕ) (M : Matrix (Fin m) (Fin m) F) : Bool := (factor fn m 0 (entries M)).1

/-- `LLT(M).solve(b)`. -/
def solve (m : ℕ) (M : Matrix (Fin m) (Fin m) F) (b : Fin m → F) : Fin m → F := fun i =>
  let L := (factor fn m 0 (entries M)).2
  bwd m L (fwd L (coords b) m) m i

/-! ## The knot points -/

/-- `CalcTerminalCostToGo` (knot_point_function_type.hpp:135-138). -/
def term (d : KP n m F) : KP n m F := { d with Sxx := d.cost.dxdx, Sx := d.cost.dx }

/-- `CalcActionValueExpansion` (knot_point_function_type.hpp:149-164). -/
def actionValue (d nxt : KP n m F) : KP n m F :=
  { d with q :=
    { dxdx := fun i j => d.cost.dxdx i j + mul (mul d.Aᵀ nxt.Sxx) d.A i j
      dxdu := fun i j => d.cost.dxdu i j + mul (mul d.Aᵀ nxt.Sxx) d.B i j
      dudu := fun i j => d.cost.dudu i j + mul (mul d.Bᵀ nxt.Sxx) d.B i j
      dx := fun i => d.cost.dx i + mulV d.Aᵀ nxt.Sx i
      du := fun i => d.cost.du i + mulV d.Bᵀ nxt.Sx i } }

/-- `RegularizeActionValue(rho)` (knot_point_function_type.hpp:175-186): `Identity * rho` is added, which adds `0 * rho` to the other
entries. -/
def regularize (rho : F) (d : KP n m F) : KP n m F :=
  { d with qreg := { d.q with dudu := fun i j => d.q.dudu i j + (if i = j then 1 else 0) * rho } }

/-- `CalcGains` (knot_point_function_type.hpp:197-211); `*= -1` multiplies. -/
def gains (d : KP n m F) : KP n m F × Bool :=
  if ok fn m d.qreg.dudu then
    ({ d with
       gain := fun i j => solve fn m d.qreg.dudu (fun l => d.qreg.dxdu j l) i * (-1)
       ff := fun i => solve fn m d.qreg.dudu d.qreg.du i * (-1) }, true)
  else (d, false)

/-- `CalcCostToGo` (knot_point_function_type.hpp:220-230). -/
def costToGo (d : KP n m F) : KP n m F :=
  { d with
    Sx := fun i => d.q.dx i + mulV (mul d.gainᵀ d.q.dudu) d.ff i + mulV d.gainᵀ d.q.du i + mulV d.q.dxdu d.ff i
    Sxx := fun i j => d.q.dxdx i j + mul (mul d.gainᵀ d.q.dudu) d.gain i j + mul d.gainᵀ d.q.dxduᵀ i j + mul d.q.dxdu d.gain i j
    delta := (dot d.ff d.q.du, 1 / (1 + 1) * dot d.ff (mulV d.q.dudu d.ff)) }

/-- `u + K (xbar - x) + d * alpha` (ilqr.hpp:473-478). -/
def policy (d : KP n m F) (xbar x : Fin n → F) (u : Fin m → F) (alpha : F) : Fin m → F :=
  fun i => u i + mulV d.gain (fun j => xbar j - x j) i + d.ff i * alpha

/-- `(|d| / (|u| + 1)).maxCoeff()` (ilqr.hpp:665). -/
def gradTerm (d : KP n m F) (u : Fin m → F) : F := fn.maxCoeff (List.ofFn fun i => fn.abs (d.ff i) / (fn.abs (u i) + 1))

/-- The kernel of `iLQR<n, m>` (see `alKernel`). -/
def kernel {C : Type} (p : ArithProblem n m F C) : Kernel (Fin n → F) (Fin m → F) F C (KP n m F) where
  N := p.N
  x0 := p.x0
  dyn := p.f
  cost := p.cost
  expand := fun k c x u t h d =>
    let e := p.costExp k c x u
    let J := p.jac k x u t h
    ({ d with cost := e.1, A := J.1, B := J.2 }, e.2)
  term := term
  actionValue := actionValue
  regularize := regularize
  gains := gains fn
  costToGo := costToGo
  delta := fun d => d.delta
  policy := policy
  gradTerm := gradTerm fn
  normX := p.normX
  normU := p.normU
  viol := p.viol

/-- The functions of exact arithmetic. -/
noncomputable def exactFns : Fns ℝ where
  sqrt := Real.sqrt
  abs := fun x => |x|
  maxCoeff := fun l => l.foldl max 0

/-- A problem with exact arithmetic whose costs are `ALCost` objects (see `alKernel`). -/
noncomputable def exactProblem (p : DynProblem n m ℝ) : ArithProblem n m ℝ (ALCost n m ℝ) where
  N := p.N
  x0 := p.x0
  f := p.f
  cost := fun _ c x u => c.evaluate x u
  costExp := fun _ c x u =>
    let g := c.gradient x u
    let H := g.2.hessian x u
    ({ dxdx := H.1.dxdx, dxdu := H.1.dxdu, dudu := H.1.dudu, dx := g.1.1, du := g.1.2 }, H.2)
  jac := p.jac
  normX := p.normX
  normU := p.normU
  viol := fun cs => ALCosts.maxViolation ((List.range (p.N + 1)).map cs)

end ArithKP
end Altro
