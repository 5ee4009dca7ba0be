import Verif.Proofs.Calculus
import Verif.Model.TwoNorm
import Verif.Props.Constraints

/-!
# Properties C03 (true derivative) and the 2-norm part of C08
-/

namespace Altro.Props
open Matrix Spec

variable {n m : ℕ} {κ : ConKind}

/-! ## C03 -/

/-- C03: after any history of calls that leaves a nonzero penalty, if the user's Jacobian is right at `(x, u)` then
the reported augmented Lagrangian gradient is the derivative of the reported value at `(x, u)`, for both constraint
types and with no exclusion of the switching surface. -/
theorem C03_gradient_is_derivative (con : Con n m ℝ) (ops : List (ConOp n m ℝ))
    (x : Fin n → ℝ) (u : Fin m → ℝ) (hρ : (ConVal.history κ con ops).rho ≠ 0)
    (hJ : IsJacAt con.eval (con.jac x u) x u) :
    let s := ConVal.history κ con ops
    IsGradAt (fun x u => (s.augLag x u).1) (s.augLagGradient x u).1.1 (s.augLagGradient x u).1.2 x u := by
  intro s
  have hcon : s.con = con := C06_history_con con ops
  have hJs : IsJacAt s.con.eval (s.con.jac x u) x u := by rw [hcon]; exact hJ
  have h := isGradAt_auglag κ s.rho hρ s.lam s.con.eval (s.con.jac x u) x u hJs
  have key := projJac_mulVec κ (s.lam - s.rho • s.con.eval x u) s.projJac (ConVal.history_bufOk con ops)
  refine h.congr (fun _ _ => rfl) ?_ ?_
  · show -((κ.dualProjJac (s.lam - s.rho • s.con.eval x u) s.projJac * (s.con.jac x u).toCols₁)ᵀ
      *ᵥ κ.dualProj (s.lam - s.rho • s.con.eval x u)) = _
    rw [Matrix.transpose_mul, ← Matrix.mulVec_mulVec, key]
  · show -((κ.dualProjJac (s.lam - s.rho • s.con.eval x u) s.projJac * (s.con.jac x u).toCols₂)ᵀ
      *ᵥ κ.dualProj (s.lam - s.rho • s.con.eval x u)) = _
    rw [Matrix.transpose_mul, ← Matrix.mulVec_mulVec, key]

/-- A constraint of an augmented cost that is ready to be differentiated at `(x, u)`. -/
def DiffReady (x : Fin n → ℝ) (u : Fin m → ℝ) (v : ConVal κ n m ℝ) : Prop :=
  v.BufOk ∧ v.rho ≠ 0 ∧ IsJacAt v.con.eval (v.con.jac x u) x u

theorem diffReady_isGradAt (x : Fin n → ℝ) (u : Fin m → ℝ) (s : ConVal κ n m ℝ) (h : DiffReady x u s) :
    IsGradAt (fun x u => (s.augLag x u).1) (s.augLagGradient x u).1.1 (s.augLagGradient x u).1.2 x u := by
  obtain ⟨hb, hρ, hJs⟩ := h
  have h := isGradAt_auglag κ s.rho hρ s.lam s.con.eval (s.con.jac x u) x u hJs
  have key := projJac_mulVec κ (s.lam - s.rho • s.con.eval x u) s.projJac hb
  refine h.congr (fun _ _ => rfl) ?_ ?_
  · show -((κ.dualProjJac (s.lam - s.rho • s.con.eval x u) s.projJac * (s.con.jac x u).toCols₁)ᵀ
      *ᵥ κ.dualProj (s.lam - s.rho • s.con.eval x u)) = _
    rw [Matrix.transpose_mul, ← Matrix.mulVec_mulVec, key]
  · show -((κ.dualProjJac (s.lam - s.rho • s.con.eval x u) s.projJac * (s.con.jac x u).toCols₂)ᵀ
      *ᵥ κ.dualProj (s.lam - s.rho • s.con.eval x u)) = _
    rw [Matrix.transpose_mul, ← Matrix.mulVec_mulVec, key]

/-- C03 for the complete augmented cost of a knot point, after any history of calls: if the objective's reported
gradient and every constraint's reported Jacobian are right at `(x, u)`, and no penalty is zero, the gradient
reported by the augmented cost is the derivative of its reported value. -/
theorem C03_augmented_gradient_is_derivative (cost : CostFun n m ℝ) (eqs ineqs : List (Con n m ℝ))
    (ops : List (ConOp n m ℝ)) (x : Fin n → ℝ) (u : Fin m → ℝ)
    (hpen : ∀ r, .setPenalty r ∈ ops → r ≠ 0) (hscal : ∀ r, .setScaling r ∈ ops → r ≠ 0)
    (hcost : IsGradAt cost.eval (cost.grad x u).1 (cost.grad x u).2 x u)
    (heq : ∀ c ∈ eqs, IsJacAt c.eval (c.jac x u) x u)
    (hineq : ∀ c ∈ ineqs, IsJacAt c.eval (c.jac x u) x u) :
    let s := ALCost.history cost eqs ineqs ops
    IsGradAt (fun x u => (s.evaluate x u).1) (s.gradient x u).1.1 (s.gradient x u).1.2 x u := by
  intro s
  -- every constraint object of `s` comes from a single-constraint history
  have hcost' : s.cost = cost := ALCost.history_cost cost eqs ineqs ops
  have heqs := ALCost.history_eq cost eqs ineqs ops
  have hineqs := ALCost.history_ineq cost eqs ineqs ops
  have hready : ∀ (κ : ConKind) (c : Con n m ℝ), IsJacAt c.eval (c.jac x u) x u →
      DiffReady x u (ConVal.history κ c ops) := by
    intro κ c hc
    refine ⟨ConVal.history_bufOk c ops, ConVal.history_rho_ne_zero c ops hpen hscal, ?_⟩
    rw [C06_history_con c ops]; exact hc
  have g1 := foldl_grad_isGradAt s.eq (fun v x u => (v.augLag x u).1) (fun v => (v.augLagGradient x u).1) x u
    (by
      intro v hv
      rw [show s.eq = _ from heqs] at hv
      obtain ⟨c, hc, rfl⟩ := List.mem_map.mp hv
      exact diffReady_isGradAt x u _ (hready _ c (heq c hc)))
    s.cost.eval (s.cost.grad x u) (by rw [hcost']; exact hcost)
  have g2 := foldl_grad_isGradAt s.ineq (fun v x u => (v.augLag x u).1) (fun v => (v.augLagGradient x u).1) x u
    (by
      intro v hv
      rw [show s.ineq = _ from hineqs] at hv
      obtain ⟨c, hc, rfl⟩ := List.mem_map.mp hv
      exact diffReady_isGradAt x u _ (hready _ c (hineq c hc)))
    _ _ g1
  refine g2.congr (fun x' u' => ?_) ?_ ?_
  · simp only [ALCost.evaluate, List.foldl_map]
  · simp only [ALCost.gradient, List.foldl_map]
  · simp only [ALCost.gradient, List.foldl_map]

/-- The first component of the test constraint: `x - 1`, over the reals. -/
def realCon : Con 1 1 ℝ where
  p := 1
  hp := by decide
  eval := fun x _ _ => x 0 - 1
  jac := fun _ _ _ j => Sum.elim (fun _ => 1) (fun _ => 0) j

/-- The Jacobian hypothesis holds for a concrete constraint; `(x, u) = (1, 5)` is on the switching surface of the
freshly constructed inequality (`λ - ρ c = 0`), where the gradient is still the derivative. -/
example : IsJacAt realCon.eval (realCon.jac (fun _ => 1) (fun _ => 5)) (fun _ => 1) (fun _ => 5) := by
  intro i
  have h : HasFDerivAt (fun z : Z 1 1 => gradCLM (fun _ => 1) (fun _ => 0) z + -1)
      (gradCLM (fun _ : Fin 1 => (1 : ℝ)) (fun _ : Fin 1 => 0)) ((fun _ => 1), (fun _ => 5)) :=
    (ContinuousLinearMap.hasFDerivAt _).add_const (-1)
  refine IsGradAt.congr (f := fun x u => gradCLM (fun _ => 1) (fun _ => 0) (x, u) + -1) h ?_ rfl rfl
  intro x u
  simp [realCon, dotProduct]; ring

example : (ConVal.history .inequality realCon []).rho ≠ 0 := by
  show (1 : ℝ) ≠ 0; norm_num

/-! ## C08, 2-norm -/

theorem foldl_sq (l : List ℝ) (a : ℝ) : l.foldl (fun a x => a + x ^ 2) a = a + (l.map (· ^ 2)).sum := by
  induction l generalizing a with
  | nil => simp
  | cons x l ih => simp only [List.foldl_cons, ih, List.map_cons, List.sum_cons]; ring

theorem twoNormL_sq (l : List ℝ) : twoNormL l ^ 2 = (l.map (· ^ 2)).sum := by
  have h : 0 ≤ l.foldl (fun a x => a + x ^ 2) 0 := by
    rw [foldl_sq, zero_add]
    exact List.sum_nonneg fun a ha => by
      obtain ⟨b, _, rfl⟩ := List.mem_map.mp ha; exact sq_nonneg b
  rw [twoNormL, Real.sq_sqrt h, foldl_sq, zero_add]

theorem compViolation_sq (s : ConVal κ n m ℝ) (i : Fin s.con.p) :
    s.violation i ^ 2 = compViolation κ (s.c i) ^ 2 := by
  cases κ
  · rw [C01_violation_equality]; exact (sq_abs _).symm
  · rw [C01_violation_inequality]; rfl

/-- C08, 2-norm: the square of the nested norm is the sum of all squared individual violations. -/
theorem C08_two_norm_sq (cs : List (ALCost n m ℝ)) :
    ALCosts.maxViolation2 cs ^ 2 =
      (cs.map fun c => (c.eq.map fun v => ∑ i, compViolation .equality (v.c i) ^ 2).sum
        + (c.ineq.map fun v => ∑ i, compViolation .inequality (v.c i) ^ 2).sum).sum := by
  have hv : ∀ {κ : ConKind} (v : ConVal κ n m ℝ), v.maxViolation2 ^ 2 = ∑ i, compViolation κ (v.c i) ^ 2 := by
    intro κ v
    rw [ConVal.maxViolation2, twoNormL_sq, List.map_ofFn, List.sum_ofFn]
    exact Finset.sum_congr rfl fun i _ => compViolation_sq v i
  rw [ALCosts.maxViolation2, twoNormL_sq, List.map_map]
  congr 1
  refine List.map_congr_left fun c _ => ?_
  simp only [Function.comp_apply, ALCost.maxViolation2, twoNormL_sq, List.map_cons, List.map_nil,
    List.sum_cons, List.sum_nil, add_zero, List.map_map]
  congr 1
  · congr 1; exact List.map_congr_left fun v _ => hv v
  · congr 1; exact List.map_congr_left fun v _ => hv v

end Altro.Props
