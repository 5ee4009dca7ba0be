import Verif.Model.Concrete
import Verif.Spec.ALSolver

/-!
# The model of `ALCost` satisfies the laws assumed of the cost objects
-/

namespace Altro
open Spec
variable {K : Type} [Field K] [LinearOrder K] {n m : ℕ} {κ : ConKind}

/-- What an evaluation of the projection Jacobian leaves of the old content of the buffer: nothing for equality constraints, the
entries off the diagonal for inequality constraints. -/
def _root_.Altro.ConKind.stale : ConKind → {q : ℕ} → Matrix (Fin q) (Fin q) K → Matrix (Fin q) (Fin q) K
  | .equality, _, _ => 0
  | .inequality, _, B => fun i j => if i = j then 0 else B i j

theorem stale_stale (κ : ConKind) {q : ℕ} (B : Matrix (Fin q) (Fin q) K) : κ.stale (κ.stale B) = κ.stale B := by
  cases κ
  · rfl
  · funext i j; by_cases h : i = j <;> simp [ConKind.stale, h]

theorem stale_dualProjJac (κ : ConKind) {q : ℕ} (y : Fin q → K) (B : Matrix (Fin q) (Fin q) K) :
    κ.stale (κ.dualProjJac y B) = κ.stale B := by
  cases κ
  · rfl
  · funext i j; by_cases h : i = j <;> simp [ConKind.stale, ConKind.dualProjJac, negProjJac, h]

/-- A `ConstraintValues` object with its stored constraint value and projection Jacobian cleared, except for the entries of the
latter that are never overwritten. -/
def ConVal.core (v : ConVal κ n m K) : ConVal κ n m K := { v with c := 0, projJac := κ.stale v.projJac }

/-- ... and its multipliers and penalties cleared too: the constraint and the penalty scaling are left. -/
def ConVal.static (v : ConVal κ n m K) : ConVal κ n m K :=
  { v with c := 0, projJac := κ.stale v.projJac, lam := 0, pen := 0 }

theorem ConVal.core_core (v : ConVal κ n m K) : v.core.core = v.core := by
  simp only [ConVal.core, stale_stale]; rfl

theorem ConVal.static_core (v : ConVal κ n m K) : v.core.static = v.static := by
  simp only [ConVal.core, ConVal.static, stale_stale]; rfl

theorem ConVal.evalProjJac_core (v : ConVal κ n m K) (x : Fin n → K) (u : Fin m → K) : (v.evalProjJac x u).core = v.core := by
  simp only [ConVal.evalProjJac, ConVal.evalC, ConVal.core, stale_dualProjJac]; rfl

/-- The stored constraint value. -/
def ConVal.value (v : ConVal κ n m K) : Σ p : ℕ, Fin p → K := ⟨v.con.p, v.c⟩

/-- The infinity norm of the violation of a constraint value. -/
def violNorm (κ : ConKind) (c : Σ p : ℕ, Fin p → K) : K := ConVal.infNorm (c.2 - κ.proj c.2)

namespace ALCost

def core (c : ALCost n m K) : ALCost n m K := { c with eq := c.eq.map (·.core), ineq := c.ineq.map (·.core) }
def static (c : ALCost n m K) : ALCost n m K := { c with eq := c.eq.map (·.static), ineq := c.ineq.map (·.static) }

/-- The stored values of the equality and of the inequality constraints. -/
def values (c : ALCost n m K) : List (Σ p : ℕ, Fin p → K) × List (Σ p : ℕ, Fin p → K) :=
  (c.eq.map (·.value), c.ineq.map (·.value))

/-- The constraint values at `(x, u)`. -/
def valuesAt (c : ALCost n m K) (x : Fin n → K) (u : Fin m → K) :
    List (Σ p : ℕ, Fin p → K) × List (Σ p : ℕ, Fin p → K) :=
  (c.eq.map fun v => ⟨v.con.p, v.con.eval x u⟩, c.ineq.map fun v => ⟨v.con.p, v.con.eval x u⟩)

variable (c : ALCost n m K) (x : Fin n → K) (u : Fin m → K)

theorem evaluate_core : (c.evaluate x u).2.core = c.core := by
  simp only [evaluate, core, List.map_map]; rfl
theorem gradient_core : (c.gradient x u).2.core = c.core := by
  simp only [gradient, core, List.map_map, mk.injEq, true_and]
  exact ⟨List.map_congr_left fun v _ => v.evalProjJac_core x u, List.map_congr_left fun v _ => v.evalProjJac_core x u⟩
theorem hessian_core : (c.hessian x u).2.core = c.core := by
  simp only [hessian, core, List.map_map, mk.injEq, true_and]
  exact ⟨List.map_congr_left fun v _ => v.evalProjJac_core x u, List.map_congr_left fun v _ => v.evalProjJac_core x u⟩
theorem evaluate_of_core : (c.core.evaluate x u).1 = (c.evaluate x u).1 := by
  simp only [evaluate, core, List.map_map, List.foldl_map]; rfl
theorem static_of_core : c.core.static = c.static := by
  simp only [static, core, List.map_map, mk.injEq, true_and]
  exact ⟨List.map_congr_left fun v _ => v.static_core, List.map_congr_left fun v _ => v.static_core⟩
theorem evaluate_static : (c.evaluate x u).2.static = c.static := by
  rw [← static_of_core, evaluate_core, static_of_core]
theorem gradient_static : (c.gradient x u).2.static = c.static := by
  rw [← static_of_core, gradient_core, static_of_core]
theorem hessian_static : (c.hessian x u).2.static = c.static := by
  rw [← static_of_core, hessian_core, static_of_core]
theorem evaluate_values : (c.evaluate x u).2.values = c.static.valuesAt x u := by
  simp only [evaluate, values, valuesAt, static, List.map_map]; rfl
theorem updateDuals_values : c.updateDuals.values = c.values := by
  simp only [updateDuals, values, List.map_map]; rfl
theorem updateDuals_static : c.updateDuals.static = c.static := by
  simp only [updateDuals, static, List.map_map]; rfl
theorem reset_static (r : K) : (c.resetDuals.setPenalty r).static = c.static := by
  simp only [resetDuals, setPenalty, static, List.map_map]; rfl
theorem reset_core (r : K) : (c.resetDuals.setPenalty r).core = (c.static.resetDuals.setPenalty r).core := by
  simp only [resetDuals, setPenalty, static, core, List.map_map, mk.injEq, true_and]
  constructor <;>
  · refine List.map_congr_left fun v _ => ?_
    show ConVal.core { v with lam := _, pen := _ } = ConVal.core { v.static with lam := _, pen := _ }
    simp only [ConVal.core, ConVal.static, stale_stale]; rfl
theorem maxPenalty_core : c.core.maxPenalty = c.maxPenalty := by
  simp only [maxPenalty, core, List.foldl_map]; rfl
theorem maxViolation_values : c.maxViolation = infNormL
    [infNormL (c.values.1.map (violNorm .equality)), infNormL (c.values.2.map (violNorm .inequality))] := by
  simp only [maxViolation, values, List.map_map]; rfl

end ALCost

/-- `ALCost` objects are cost functions: the value does not depend on what was evaluated before. -/
def alCostLaw (p : DynProblem n m K) : CostLaw (alKernel p) where
  I := ALCost n m K
  inv := ALCost.core
  val _ c x u := (c.evaluate x u).1
  cost_val _ c x u := (c.evaluate_of_core x u).symm
  cost_inv _ c x u := c.evaluate_core x u
  expand_inv _ c x u _ _ _ := by
    show ((c.gradient x u).2.hessian x u).2.core = c.core
    rw [ALCost.hessian_core, ALCost.gradient_core]

/-- The stored constraint values, and the effect of the outer solver's operations, are as assumed. -/
def alLaw (p : DynProblem n m K) : ALLaw (alKernel p) alOps where
  S := ALCost n m K
  sig := ALCost.static
  V := List (Σ p : ℕ, Fin p → K) × List (Σ p : ℕ, Fin p → K)
  stored := ALCost.values
  con _ c x u := c.valuesAt x u
  agg v := ALCost.infNormL ((List.range (p.N + 1)).map fun k => ALCost.infNormL
    [ALCost.infNormL ((v k).1.map (violNorm .equality)), ALCost.infNormL ((v k).2.map (violNorm .inequality))])
  stored_cost _ c x u := c.evaluate_values x u
  cost_sig _ c x u := c.evaluate_static x u
  expand_sig _ c x u _ _ _ := by
    show ((c.gradient x u).2.hessian x u).2.static = c.static
    rw [ALCost.hessian_static, ALCost.gradient_static]
  agg_congr v v' h := by
    refine congrArg ALCost.infNormL (List.map_congr_left fun k hk => ?_)
    rw [h k (by simp at hk; exact Nat.lt_succ_iff.mp hk)]
  viol_eq cs := by
    show ALCost.infNormL (((List.range (p.N + 1)).map cs).map ALCost.maxViolation) = _
    rw [List.map_map]
    exact congrArg ALCost.infNormL (List.map_congr_left fun k _ => (cs k).maxViolation_values)
  W := ALCost n m K
  work := ALCost.core
  cost_work _ c x u := c.evaluate_core x u
  dual_stored c := c.updateDuals_values
  dual_sig c := c.updateDuals_static
  reset_work r c c' h := by
    show ((c.resetDuals).setPenalty r).core = ((c'.resetDuals).setPenalty r).core
    rw [ALCost.reset_core, ALCost.reset_core c', h]
  reset_sig r c := c.reset_static r
  maxPenalty_work c c' h := by
    show c.maxPenalty = c'.maxPenalty
    rw [← c.maxPenalty_core, ← c'.maxPenalty_core, h]

end Altro
