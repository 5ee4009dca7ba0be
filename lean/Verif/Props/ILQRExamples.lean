import Verif.Props.ILQR

/-!
# A concrete problem for the iLQR theorems

One state, one control, rational numbers: `x' = a x + b u`, cost `q/2 x^2 + r_k/2 u^2` with a possibly negative
control weight.  The kernel uses the formulas of `knot_point_function_type.hpp` for dimension one.
-/

namespace Altro.Props
open Altro.Spec Altro.ILQR

/-- The data of `KnotPointFunctions` for one state and one control. -/
structure SD where
  (lxx lxu luu lx lu A B Qxx Qxu Quu Qx Qu QuuR QxuR K d Sxx Sx V0 V1 : ℚ)

def SD.zero : SD := ⟨0, 0, 0, 0, 0, 0, 0, 0, 0, 0, 0, 0, 0, 0, 0, 0, 0, 0, 0, 0⟩

/-- The scalar problem.  `eq` is added to the stage cost as a constant. -/
def scalarKernel (N : ℕ) (x0 a b q : ℚ) (r : ℕ → ℚ) (const : ℚ := 0) : Kernel ℚ ℚ ℚ Unit SD where
  N := N
  x0 := x0
  dyn _ x u _ _ := a * x + b * u
  cost k _ x u := (q / 2 * x * x + (if k < N then r k / 2 * u * u else 0) + const, ())
  expand k _ x u _ _ d :=
    ({ d with lxx := q, lxu := 0, luu := if k < N then r k else 0, lx := q * x,
              lu := if k < N then r k * u else 0, A := a, B := b }, ())
  term d := { d with Sxx := d.lxx, Sx := d.lx }
  actionValue d n :=
    { d with
      Qxx := d.lxx + d.A * n.Sxx * d.A
      Qxu := d.lxu + d.A * n.Sxx * d.B
      Quu := d.luu + d.B * n.Sxx * d.B
      Qx := d.lx + d.A * n.Sx
      Qu := d.lu + d.B * n.Sx }
  regularize rho d := { d with QuuR := d.Quu + rho, QxuR := d.Qxu }
  gains d := if d.QuuR ≤ 0 then (d, false) else ({ d with K := -(d.QxuR / d.QuuR), d := -(d.Qu / d.QuuR) }, true)
  costToGo d :=
    { d with
      Sx := d.Qx + d.K * d.Quu * d.d + d.K * d.Qu + d.Qxu * d.d
      Sxx := d.Qxx + d.K * d.Quu * d.K + d.K * d.Qxu + d.Qxu * d.K
      V0 := d.d * d.Qu
      V1 := d.d * d.Quu * d.d / 2 }
  delta d := (d.V0, d.V1)
  policy d xb x u alpha := u + d.K * (xb - x) + d.d * alpha
  gradTerm d u := |d.d| / (|u| + 1)
  normX x := |x|
  normU u := |u|
  viol _ := 0

/-- The scalar problem's cost functions are functions. -/
def scalarLaw (N : ℕ) (x0 a b q : ℚ) (r : ℕ → ℚ) (const : ℚ) : CostLaw (scalarKernel N x0 a b q r const) where
  I := Unit
  inv := id
  val k _ x u := q / 2 * x * x + (if k < N then r k / 2 * u * u else 0) + const
  cost_val _ _ _ _ := rfl
  cost_inv _ _ _ _ := rfl
  expand_inv _ _ _ _ _ _ _ := rfl

/-- Options: 3 inner iterations, 4 line-search steps, regularization between 1 and 8 starting at 0. -/
def scalarOpts : Opts ℚ where
  maxTotal := 10
  maxOuter := 5
  maxInner := 3
  costTol := 1 / 100
  gradTol := 1 / 100
  regFactor := 2
  regInitial := 0
  regMax := 8
  regMin := 1
  regFailThreshold := 2
  checkBounds := true
  stateMax := 100
  controlMax := 100
  lsMax := 4
  lsLower := 1 / 1000
  lsUpper := 10
  lsFactor := 2
  conTol := 1 / 100
  maxPenalty := 1000
  initialPenalty := 1
  resetDuals := true

def zeroTraj : Traj ℚ ℚ ℚ := { x := fun _ => 7, u := fun _ => 0, t := fun k => k / 10, h := fun _ => 1 / 10 }

/-- Solver state right after construction: nothing solved, junk in the state trajectory. -/
def scalarState : St ℚ ℚ ℚ Unit SD where
  Z := zeroTraj
  Zbar := { zeroTraj with x := fun _ => 0, t := fun _ => 0, h := fun _ => 0 }
  kd := fun _ => SD.zero
  cs := fun _ => ()
  costs := fun _ => 0
  status := .kUnsolved
  rho := 0
  drho := 0
  dV0 := 0
  dV1 := 0
  stats := Stats.new

/-- What the examples look at. -/
structure Report where
  status : Status
  inner : ℕ
  total : ℕ
  x : List ℚ
  u : List ℚ
  dJ : List ℚ
  initialCost : ℚ
  deriving DecidableEq

def report (N : ℕ) (s : Option (St ℚ ℚ ℚ Unit SD)) : Option Report :=
  s.map fun s => Report.mk s.status s.stats.inner s.stats.total ((List.range (N + 1)).map s.Z.x)
    ((List.range N).map s.Z.u) (s.stats.col .dJ) s.stats.initialCost

/-- A convex problem: `x' = x + u`, two segments. -/
abbrev convexK : Kernel ℚ ℚ ℚ Unit SD := scalarKernel 2 1 1 1 1 (fun _ => 1)

/-- A first solve of the convex problem. -/
def solvedConvex : Option (St ℚ ℚ ℚ Unit SD) := solve convexK scalarOpts 5 scalarState

/-- The convex problem is solved in two iterations: initial cost 3/2, the first step lowers it by 7/10. -/
theorem solvedConvex_report : report 2 solvedConvex =
    some ⟨.kSolved, 2, 2, [1, 2 / 5, 1 / 5], [-3 / 5, -1 / 5], [7 / 10, 0, 0], 3 / 2⟩ := by decide +kernel

/-- The hypotheses of C17-C20 hold for this run (it returns, at least one iteration is allowed, the bounds of the
regularization are ordered), and so do its conclusions, with a trajectory that differs from the initial guess. -/
example : ∃ s', solve convexK scalarOpts 5 scalarState = some s' ∧ DynFeasible convexK s'.Z ∧
    SameTimes convexK s'.Z zeroTraj ∧ s'.Z.u 0 = -3 / 5 ∧ s'.status = .kSolved ∧ StatusMeaning scalarOpts s' ∧
    (scalarLaw 2 1 1 1 1 (fun _ => 1) 0).total scalarState.cs s'.Z = 4 / 5 ∧ 1 ≤ s'.rho := by
  obtain ⟨s', hs⟩ : ∃ s', solve convexK scalarOpts 5 scalarState = some s' := by
    have h := solvedConvex_report
    unfold solvedConvex report at h
    cases hs : solve convexK scalarOpts 5 scalarState with
    | none => rw [hs] at h; cases h
    | some s' => exact ⟨s', rfl⟩
  have hrep := solvedConvex_report
  unfold solvedConvex report at hrep
  rw [hs] at hrep
  simp only [Option.map_some, Option.some.injEq, Report.mk.injEq] at hrep
  obtain ⟨hst, _, _, hx, hu, _, _⟩ := hrep
  obtain ⟨h1, h2⟩ := C17_dynamically_feasible _ _ _ _ _ hs
  have h3 := (C19_status convexK scalarOpts OrderLaws.ofField 5 _ _ (by decide) hs).1
  have h4 := C20_after_solve convexK scalarOpts (by decide +kernel) 5 _ _ (by decide) hs
  simp only [List.range, List.range.loop, List.map, List.cons.injEq] at hx hu
  refine ⟨s', hs, h1, h2, hu.1, hst, h3, ?_, h4.1⟩
  show Arith.sumTo 3 (fun k => (1 : ℚ) / 2 * s'.Z.x k * s'.Z.x k +
    (if k < 2 then 1 / 2 * s'.Z.u k * s'.Z.u k else 0) + 0) = 4 / 5
  simp only [Arith.sumTo, List.range, List.range.loop, List.foldl, hx.1, hx.2.1, hx.2.2.1, hu.1, hu.2.1]
  norm_num

/-- The cost after this run is strictly below that of the initial rollout, which C18 bounds it by. -/
example : (4 : ℚ) / 5 < 3 / 2 := by norm_num

/-! ## C24: the third step length is accepted -/

/-- One segment of `x' = x + u` from 1. -/
abbrev longK : Kernel ℚ ℚ ℚ Unit SD := scalarKernel 1 1 1 1 1 (fun _ => 1)

abbrev longLaw : CostLaw longK := scalarLaw 1 1 1 1 1 (fun _ => 1) 0

/-- The feedforward term is four times the Newton step `-1/2`. -/
def longState : St ℚ ℚ ℚ Unit SD :=
  { scalarState with
    Z := { zeroTraj with x := fun _ => 1 }
    kd := fun _ => { SD.zero with d := -2 }
    costs := fun _ => 1 / 2
    dV0 := -2
    dV1 := 4 }

/-- The steps 1 and 1/2 do not lower the cost, 1/4 does by exactly what was predicted. -/
theorem long_qualifies : Qualifies longLaw scalarOpts longState 1 (stepLength 2 2) ∧
    ¬ Qualifies longLaw scalarOpts longState 1 (stepLength 2 0) ∧
    ¬ Qualifies longLaw scalarOpts longState 1 (stepLength 2 1) := by
  refine ⟨⟨fun k hk _ => ?_, ⟨1, ?_, ?_, ?_, ?_⟩, ?_⟩, fun h => ?_, fun h => ?_⟩
  · obtain rfl : k = 0 := by have : k < 1 := hk; omega
    constructor <;> decide +kernel
  · decide +kernel
  · decide +kernel
  · decide +kernel
  · decide +kernel
  · decide +kernel
  · exact absurd h.lower (by decide +kernel)
  · exact absurd h.lower (by decide +kernel)

/-- C24 for this line search: it ends at `u = -1/2` with step length 1/4. -/
example : (forwardPass longK scalarOpts longState).Z.u 0 = -1 / 2 ∧
    (forwardPass longK scalarOpts longState).status = .kUnsolved := by
  obtain ⟨h1, h2, h3⟩ := long_qualifies
  have hJ : longLaw.total longState.cs longState.Z = 1 := by decide +kernel
  have := C24_accepts_first scalarOpts longLaw OrderLaws.ofField longState (by decide +kernel) 2 (by decide)
    (by rw [hJ]; exact h1) (fun j hj => by
      rw [hJ]
      have : j = 0 ∨ j = 1 := by omega
      rcases this with rfl | rfl
      · exact h2
      · exact h3)
  refine ⟨?_, this.2.1⟩
  rw [this.1.u 0 (by decide)]
  decide +kernel

end Altro.Props
