import Verif.Props.Constraints

/-!
# Concrete cases for the constraint properties

Each `example` exhibits a non-trivial object meeting the hypotheses of the theorem named in its comment, or
evaluates the model on it.
-/

namespace Altro.Props
open Matrix Spec

/-- Two components on one state and one control: `x - 1` and `u + x`. -/
def demoCon : Con 1 1 ℚ where
  p := 2
  hp := by decide
  eval := fun x u => ![x 0 - 1, u 0 + x 0]
  jac := fun _ _ i j => Sum.elim (fun _ => 1) (fun _ => if i = 0 then 0 else 1) j

/-- A history that leaves nonzero multipliers and a non-default penalty. -/
def demoOps : List (ConOp 1 1 ℚ) :=
  [.setPenalty 2, .setScaling 3, .augLag (fun _ => 3) (fun _ => -5), .updateDuals, .updatePenalties]

def demoEq : ConVal .equality 1 1 ℚ := ConVal.history .equality demoCon demoOps
def demoIneq : ConVal .inequality 1 1 ℚ := ConVal.history .inequality demoCon demoOps

/-- A quadratic objective `x² + u²`. -/
def demoCost : CostFun 1 1 ℚ where
  eval := fun x u => x 0 ^ 2 + u 0 ^ 2
  grad := fun x u => (fun _ => 2 * x 0, fun _ => 2 * u 0)
  hess := fun _ _ => { dxdx := fun _ _ => 2, dxdu := 0, dudu := fun _ _ => 2 }

def demoAL : ALCost 1 1 ℚ := ALCost.history demoCost [demoCon] [demoCon, demoCon] demoOps

-- C01: violations of the stored values 2 and -2.
example : List.ofFn demoEq.violation = [2, -2] := by decide +kernel
example : List.ofFn demoIneq.violation = [2, 0] := by decide +kernel
example : Feasible (K := ℚ) (p := 2) .inequality ![-1, 0] := by
  intro i; fin_cases i <;> norm_num
example : DualFeasible (K := ℚ) (p := 2) .inequality ![-1, 0] := by
  intro i; fin_cases i <;> norm_num

-- C02: positive penalty, nonzero multipliers; the value at a feasible and at an infeasible point.
example : 0 < demoEq.rho ∧ demoEq.rho = 6 ∧ List.ofFn demoEq.lam = [-4, 4] := by decide +kernel
example : 0 < demoIneq.rho ∧ List.ofFn demoIneq.lam = [-4, 0] := by decide +kernel
example : (demoEq.augLag (fun _ => 2) (fun _ => 0)).1 = 11 := by decide +kernel
example : (demoIneq.augLag (fun _ => 0) (fun _ => 0)).1 = -(4 / 3) := by decide +kernel
example : Feasible .inequality (demoIneq.con.eval (fun _ => 0) (fun _ => 0)) ∧
    DualFeasible .inequality demoIneq.lam := by
  constructor
  · intro i; fin_cases i <;> decide +kernel
  · exact C05_duals_feasible demoCon demoOps
example : Feasible .equality (demoEq.con.eval (fun _ => 1) (fun _ => -1)) := by
  intro i; fin_cases i <;> decide +kernel
example : (demoAL.eq.map (·.rho)) = [6] ∧ (demoAL.ineq.map (·.rho)) = [6, 6] := by decide +kernel

-- C04: an active and an inactive inequality row; a convex objective.
example : (List.ofFn fun i => decide (Active .inequality
      (demoIneq.lam i - demoIneq.rho * demoIneq.con.eval (fun _ => 3) (fun _ => -5) i))) = [true, false] := by
  decide +kernel
example : (demoIneq.augLagHessian (fun _ => 3) (fun _ => -5)).1.dxdx 0 0 = 6 ∧
    (demoIneq.augLagHessian (fun _ => 3) (fun _ => -5)).1.dudu 0 0 = 0 := by decide +kernel
example : BlockPSD (demoCost.hess (fun _ => 0) (fun _ => 0)) where
  symx := rfl
  symu := rfl
  nonneg := by
    intro dx du
    simp only [quadForm, demoCost, dotProduct, mulVec, Fin.sum_univ_succ, Fin.sum_univ_zero,
      Matrix.zero_apply, Fin.isValue, zero_mul, mul_zero, add_zero]
    nlinarith [sq_nonneg (dx 0), sq_nonneg (du 0)]
example (dx du : Fin 1 → ℚ) (x u : Fin 1 → ℚ) :
    demoEq.con.eval (x + dx) (u + du)
      = demoEq.con.eval x u + (demoEq.con.jac x u).toCols₁ *ᵥ dx + (demoEq.con.jac x u).toCols₂ *ᵥ du := by
  funext i
  change Fin 2 at i
  change (demoCon.eval (x + dx) (u + du) : Fin 2 → ℚ) i = (demoCon.eval x u : Fin 2 → ℚ) i
    + ((demoCon.jac x u).toCols₁ *ᵥ dx : Fin 2 → ℚ) i + ((demoCon.jac x u).toCols₂ *ᵥ du : Fin 2 → ℚ) i
  fin_cases i
  · change x 0 + dx 0 - 1 = x 0 - 1 + (∑ j, 1 * dx j) + ∑ j, 0 * du j
    simp; ring
  · change u 0 + du 0 + (x 0 + dx 0) = u 0 + x 0 + (∑ j, 1 * dx j) + ∑ j, 1 * du j
    simp; ring

-- C06: a fixed point of the dual update with a nonzero multiplier, and a non-fixed one.
example :
    let s : ConVal .inequality 1 1 ℚ := { ConVal.new .inequality demoCon with
      lam := ![-3, 0], c := ![0, -2], pen := fun _ => 5 }
    List.ofFn s.updateDuals.lam = List.ofFn s.lam := by decide +kernel
example : List.ofFn demoIneq.updateDuals.lam ≠ List.ofFn demoIneq.lam := by decide +kernel

-- C07: two penalty updates without resets.
example : ∀ op ∈ ([.updatePenalties, .updateDuals, .updatePenalties] : List (ConOp 1 1 ℚ)),
    ¬ op.SetsPenalty := by
  intro op h; simp at h; rcases h with rfl | rfl | rfl <;> simp [ConOp.SetsPenalty]
example : List.ofFn (([.updatePenalties, .updateDuals, .updatePenalties] : List (ConOp 1 1 ℚ)).foldl
    ConOp.apply demoEq).pen = [54, 54] := by decide +kernel
example : ∀ op ∈ demoOps, op.Ok := by
  intro op h
  simp only [demoOps, List.mem_cons, List.not_mem_nil, or_false] at h
  rcases h with rfl | rfl | rfl | rfl | rfl <;>
    simp [ConOp.Ok, ConVal.setPenaltyOk, ConVal.setPenaltyScalingOk]
example : ALCosts.maxPenalty [demoAL] = 6 := by decide +kernel

-- C08: violations of a two-knot-point trajectory.
example : ALCosts.maxViolation [demoAL, (demoAL.evaluate (fun _ => 8) (fun _ => -5)).2] = 7 := by
  decide +kernel
example : ALCosts.maxViolation1 [demoAL] = 8 := by decide +kernel

end Altro.Props
