import Verif.Props.LQSolve
import Verif.Props.Sweep
import Verif.Props.ILQRExamples
import Verif.Props.ConInfo
import Mathlib.LinearAlgebra.Matrix.Notation
import Mathlib.Tactic.FinCases
import Mathlib.Tactic.NormNum

/-!
# Concrete cases for C10 and C27 - C32

A double integrator with a cross term in the cost: two states, one control, two segments.
-/

namespace Altro.Props
open Altro.Spec Matrix ILQR

/-- `x₀' = x₀ + x₁`, `x₁' = x₁ + u`, from `(1, 0)`. -/
def dblProblem : DynProblem 2 1 ℚ where
  N := 2
  x0 := ![1, 0]
  f _ x u _ _ := ![x 0 + x 1, x 1 + u 0]
  jac _ _ _ _ _ := (!![1, 1; 0, 1], !![0; 1])
  normX x := |x 0|
  normU u := |u 0|

/-- `(x₀² + x₁² + x₁ u + u²) / 2`. -/
def dblStage : CostFun 2 1 ℚ where
  eval x u := (x 0 ^ 2 + x 1 ^ 2 + x 1 * u 0 + u 0 ^ 2) / 2
  grad x u := (![x 0, x 1 + u 0 / 2], ![x 1 / 2 + u 0])
  hess _ _ := { dxdx := !![1, 0; 0, 1], dxdu := !![0; 1 / 2], dudu := !![1] }

/-- `x₀² + x₁²`. -/
def dblTerm : CostFun 2 1 ℚ where
  eval x _ := x 0 ^ 2 + x 1 ^ 2
  grad x _ := (![2 * x 0, 2 * x 1], ![0])
  hess _ _ := { dxdx := !![2, 0; 0, 2], dxdu := !![0; 0], dudu := !![0] }

def dblCosts : ℕ → ALCost 2 1 ℚ := fun k => ALCost.new (if k = 2 then dblTerm else dblStage) [] []

theorem dblStage_quad : IsQuadratic dblStage where
  exact x u δx δu := by
    simp [dblStage, quadModel, dotProduct, mulVec, Fin.sum_univ_succ]
    ring

theorem dblTerm_quad : IsQuadratic dblTerm where
  exact x u δx δu := by
    simp [dblTerm, quadModel, dotProduct, mulVec, Fin.sum_univ_succ]
    ring

/-- The hypotheses of C32. -/
theorem dbl_lq : LQProblem dblProblem dblCosts where
  dyn k _ x u t h δx δu := by
    funext i
    fin_cases i <;> simp [dblProblem, dotProduct, Fin.sum_univ_succ] <;> ring
  free k _ := ⟨rfl, rfl⟩
  quad k _ := by
    show IsQuadratic (if k = 2 then dblTerm else dblStage)
    split
    · exact dblTerm_quad
    · exact dblStage_quad
  term _ _ _ := rfl
  symx k _ x u := by
    show ((if k = 2 then dblTerm else dblStage).hess x u).dxdx.IsSymm
    split <;> (ext i j; fin_cases i <;> fin_cases j <;> simp [dblTerm, dblStage])
  symu k _ x u := by
    show ((if k = 2 then dblTerm else dblStage).hess x u).dudu.IsSymm
    split <;> (ext i j; fin_cases i; fin_cases j; rfl)

theorem dbl_convex (k : ℕ) (x : Fin 2 → ℚ) (u : Fin 1 → ℚ) :
    ConvexExp ⟨((dblCosts k).cost.hess x u).dxdx, ((dblCosts k).cost.hess x u).dxdu, ((dblCosts k).cost.hess x u).dudu,
      ((dblCosts k).cost.grad x u).1, ((dblCosts k).cost.grad x u).2⟩ := by
  by_cases hk : k = 2
  · have e : (dblCosts k).cost = dblTerm := by simp [dblCosts, ALCost.new, hk]
    rw [e]
    refine ⟨?_, ?_, fun δx δu => ?_⟩
    · ext i j; fin_cases i <;> fin_cases j <;> simp [dblTerm]
    · ext i j; fin_cases i; fin_cases j; rfl
    · simp [dblTerm, dotProduct, mulVec, Fin.sum_univ_succ]
      nlinarith [sq_nonneg (δx 0), sq_nonneg (δx 1)]
  · have e : (dblCosts k).cost = dblStage := by simp [dblCosts, ALCost.new, hk]
    rw [e]
    refine ⟨?_, ?_, fun δx δu => ?_⟩
    · ext i j; fin_cases i <;> fin_cases j <;> simp [dblStage]
    · ext i j; fin_cases i; fin_cases j; rfl
    · simp [dblStage, dotProduct, mulVec, Fin.sum_univ_succ]
      nlinarith [sq_nonneg (δx 0), sq_nonneg (δx 1 + δu 0), sq_nonneg (δx 1), sq_nonneg (δu 0)]

theorem dbl_posdef (k : ℕ) (hk : k < 2) (x : Fin 2 → ℚ) (u : Fin 1 → ℚ) : PosDef ((dblCosts k).cost.hess x u).dudu := by
  have e : (dblCosts k).cost = dblStage := by simp [dblCosts, ALCost.new, (show k ≠ 2 by omega)]
  rw [e]
  intro v hv
  have : v 0 ≠ 0 := fun h => hv (by funext i; fin_cases i; exact h)
  simp [dblStage, dotProduct, mulVec]
  positivity

def dblOpts : Opts ℚ := { scalarOpts with checkBounds := false }

def dblState : St (Fin 2 → ℚ) (Fin 1 → ℚ) ℚ (ALCost 2 1 ℚ) (KP 2 1 ℚ) where
  Z := { x := fun _ => 0, u := fun _ => ![1], t := fun k => k / 10, h := fun _ => 1 / 10 }
  Zbar := { x := fun _ => 0, u := fun _ => 0, t := fun _ => 0, h := fun _ => 0 }
  kd := fun _ => KP.new
  cs := dblCosts
  costs := fun _ => 0
  status := .kUnsolved
  rho := 0
  drho := 0
  dV0 := 0
  dV1 := 0
  stats := Stats.new

def dblRun := solve (alKernel dblProblem) dblOpts 3 dblState

theorem dblRun_report : (dblRun.map fun s => (s.status, s.stats.inner, [s.Z.u 0 0, s.Z.u 1 0])) =
    some (.kSolved, 2, [-24 / 47, 20 / 47]) := by decide +kernel

/-- C32 for the whole solve: `(-24/47, 20/47)` costs no more than any other pair of controls. -/
example (Z' : Traj (Fin 2 → ℚ) (Fin 1 → ℚ) ℚ) (hZ' : Alternative dblProblem dblState.Z Z') :
    ∃ s', dblRun = some s' ∧ s'.Z.u 0 0 = -24 / 47 ∧ s'.Z.u 1 0 = 20 / 47 ∧
      trajCost dblProblem dblCosts s'.Z ≤ trajCost dblProblem dblCosts Z' := by
  have h := dblRun_report
  cases hb : dblRun with
  | none => rw [hb] at h; cases h
  | some s' =>
    rw [hb] at h
    simp only [Option.map_some, Option.some.injEq, Prod.mk.injEq, List.cons.injEq, and_true] at h
    exact ⟨s', rfl, h.2.2.1, h.2.2.2, C32_solve dblProblem dblOpts 2 dblState s' dbl_lq (by decide)
      (fun k _ x u => dbl_convex k x u) (fun k hk x u => dbl_posdef k hk x u) rfl (by decide) (by decide)
      (by decide +kernel) (by decide +kernel) rfl hb Z' hZ'⟩

/-- The knot points after the expansions along the simulated initial controls. -/
def dblExp := (updateExpansions (alKernel dblProblem) (rollout (alKernel dblProblem) dblState)).kd

/-- C27: the action-value model of knot point 1, entries computed by hand. -/
example : let q := ((dblExp 1).actionValue (dblExp 2).term).q
    [q.dxdx 0 0, q.dxdx 0 1, q.dxdx 1 1, q.dxdu 0 0, q.dxdu 1 0, q.dudu 0 0, q.dx 0, q.dx 1, q.du 0] =
      [3, 2, 5, 0, 5 / 2, 3, 5, 19 / 2, 11 / 2] := by decide +kernel

/-- C28: with regularization 1 the factorization succeeds and the gains are `-(dudu + 1)⁻¹ (dxduᵀ, du)`; with
regularization -3 the matrix is zero, the factorization fails and the gains are kept. -/
example : let d := (dblExp 1).actionValue (dblExp 2).term
    ((d.regularize 1).gains.2, (d.regularize 1).gains.1.gain 0 0, (d.regularize 1).gains.1.gain 0 1,
      (d.regularize 1).gains.1.ff 0, (d.regularize (-3)).gains.2) =
      ((true, 0, -5 / 8, -11 / 8, false) : Bool × ℚ × ℚ × ℚ × Bool) := by decide +kernel

/-- The same entry of the matrix in the hypotheses of `C28_minimiser`. -/
example : (((dblExp 1).actionValue (dblExp 2).term).regularize 1).qreg.dudu.IsSymm := by
  ext i j; fin_cases i; fin_cases j; rfl

/-- C29: the predicted change and the cost-to-go of knot point 1 with these gains. -/
example : let d := (((dblExp 1).actionValue (dblExp 2).term).regularize 0).gains.1.costToGo
    [d.delta.1, d.delta.2, d.costToGoDelta (1 / 2), d.Sx 0, d.Sx 1, d.Sxx 0 0, d.Sxx 0 1, d.Sxx 1 1] =
      [-121 / 12, 121 / 24, -121 / 32, 5, 59 / 12, 3, 2, 35 / 12] := by
  decide +kernel

/-- C30 and C31: the sweep over both knot points succeeds, the predicted improvement of the half step is positive. -/
example : let r := bpSweep (alKernel dblProblem) 0 2 (upd dblExp 2 (dblExp 2).term) (0, 0)
    (r.2, decide (0 < predicted r.1.2.1 r.1.2.2 (1 / 2))) = (true, true) := by decide +kernel

/-- The hypothesis of `C30_sweep` on the costs. -/
example : ∀ k < 2, ConvexExp (dblExp k).cost ∧ PosDef (dblExp k).cost.dudu := by
  intro k hk
  obtain ⟨e, _, _⟩ := expansion_free dblProblem (rollout (alKernel dblProblem) dblState) k hk.le ⟨rfl, rfl⟩
  unfold dblExp
  rw [e]
  exact ⟨dbl_convex k _ _, dbl_posdef k hk _ _⟩

/-! ## C10 -/

/-- `x₀ = 3` -/
def infoGoal : Con 2 1 ℚ where
  p := 1
  hp := by decide
  label := "goal"
  eval x _ := fun _ => x 0 - 3
  jac _ _ := 0

/-- `-1 ≤ u ≤ 1` -/
def infoBound : Con 2 1 ℚ where
  p := 2
  hp := by decide
  label := "bound"
  eval _ u := ![-1 - u 0, u 0 - 1]
  jac _ _ := 0

/-- Bounds at knot points 0 and 1, evaluated at `u = 5/2` and `u = -4`; both constraints at 2, evaluated at `x₀ = 1`,
`u = 0`. -/
def infoCosts : ℕ → ALCost 2 1 ℚ
  | 0 => ((ALCost.new dblStage [] [infoBound]).evaluate ![0, 0] ![5 / 2]).2
  | 1 => ((ALCost.new dblStage [] [infoBound]).evaluate ![0, 0] ![-4]).2
  | _ => ((ALCost.new dblTerm [infoGoal] [infoBound]).evaluate ![1, 0] ![0]).2

/-- The report: four records, the goal violated by -2. -/
example : ((infoLoop infoCosts 3).1.map fun c => (c.label, c.index, c.violation, c.type)) =
    [("bound", 0, [0, 3 / 2], "Inequality Constraint"), ("bound", 1, [3, 0], "Inequality Constraint"),
     ("goal", 2, [-2], "Equality Constraint"), ("bound", 2, [0, 0], "Inequality Constraint")] := by decide +kernel

/-- Sorted, they come in the order of the norms 3, 2, 3/2, 0. -/
example (l : List (ConInfo ℚ)) (h : ConInfoResult infoCosts 2 true l) : l.map ConInfo.norm = [3, 2, 3 / 2, 0] := by
  obtain ⟨h1, h2⟩ := C10_sorted infoCosts 2 l h
  have h3 : (l.map ConInfo.norm).Perm [3, 2, 3 / 2, 0] := by
    refine (h1.map ConInfo.norm).trans ?_
    have e : (expectedRecords infoCosts 2).map ConInfo.norm = [3 / 2, 3, 2, 0] := by decide +kernel
    rw [e]
    decide +kernel
  have h4 : (l.map ConInfo.norm).Pairwise (fun a b => b ≤ a) := List.pairwise_map.mpr h2
  exact h3.eq_of_pairwise (fun a b _ _ h h' => le_antisymm h' h) h4 (by decide +kernel)

end Altro.Props
