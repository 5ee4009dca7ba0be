import Verif.Proofs.Constraints

/-!
# Properties C01, C02, C04, C05, C06 (algebraic part of the constraint layer)

All statements are over an arbitrary linearly ordered field.
-/

set_option linter.unusedSectionVars false

namespace Altro.Props
open Matrix Spec

variable {K : Type*} [Field K] [LinearOrder K] [IsStrictOrderedRing K] {p n m : ℕ} {κ : ConKind}

/-! ## C01 -/

/-- C01: the violation reported for an equality constraint is the stored constraint value. -/
theorem C01_violation_equality (s : ConVal .equality n m K) (i : Fin s.con.p) :
    s.violation i = s.c i := by
  simp [ConVal.violation, ConKind.proj, zeroProj]

/-- C01: the violation reported for an inequality constraint is the positive part of the stored value. -/
theorem C01_violation_inequality (s : ConVal .inequality n m K) (i : Fin s.con.p) :
    s.violation i = max 0 (s.c i) := by
  simp only [ConVal.violation, ConKind.proj, negProj, Pi.sub_apply]
  rcases le_total (s.c i) 0 with h | h
  · rw [min_eq_right h, max_eq_left h]; ring
  · rw [min_eq_left h, max_eq_right h]; ring

/-- C01: the violation vector is zero exactly when the constraint is satisfied. -/
theorem C01_violation_zero_iff (s : ConVal κ n m K) : s.violation = 0 ↔ Feasible κ s.c := by
  cases κ
  · constructor
    · intro h i; rw [← C01_violation_equality s i, h]; rfl
    · intro h; funext i; rw [C01_violation_equality s i]; exact h i
  · constructor
    · intro h i
      have := congrFun h i
      rw [C01_violation_inequality s i] at this
      exact max_eq_left_iff.mp this
    · intro h; funext i; rw [C01_violation_inequality s i]; exact max_eq_left (h i)

/-- C01: the projection lands in the feasible set. -/
theorem C01_projection_feasible (x : Fin p → K) : Feasible κ (κ.proj x) := by
  cases κ
  · intro i; rfl
  · intro i; exact min_le_left _ _

/-- C01: the projection is the nearest feasible point, and the only one at that distance. -/
theorem C01_projection_nearest (x y : Fin p → K) (hy : Feasible κ y) :
    sqDist x (κ.proj x) ≤ sqDist x y ∧ (sqDist x (κ.proj x) = sqDist x y → y = κ.proj x) := by
  have key : ∀ i, (x i - κ.proj x i) ^ 2 ≤ (x i - y i) ^ 2 ∧
      ((x i - κ.proj x i) ^ 2 = (x i - y i) ^ 2 → y i = κ.proj x i) := by
    intro i
    cases κ
    · have h0 : y i = 0 := hy i
      simp [ConKind.proj, zeroProj, h0]
    · exact ⟨neg_proj_sq_le _ _ (hy i), fun h => neg_proj_sq_eq _ _ (hy i) h⟩
  refine ⟨Finset.sum_le_sum fun i _ => (key i).1, fun h => ?_⟩
  funext i
  refine (key i).2 ?_
  have := (Finset.sum_eq_sum_iff_of_le (s := Finset.univ) (fun i _ => (key i).1)).mp h
  exact this i (Finset.mem_univ i)

/-- C01: the projection is idempotent and fixes exactly the feasible points. -/
theorem C01_projection_fixed_iff (x : Fin p → K) :
    (κ.proj x = x ↔ Feasible κ x) ∧ κ.proj (κ.proj x) = κ.proj x := by
  have h1 : ∀ x : Fin p → K, κ.proj x = x ↔ Feasible κ x := by
    intro x
    cases κ
    · constructor
      · intro h i; rw [← h]; rfl
      · intro h; funext i; exact (h i).symm
    · constructor
      · intro h i; have := congrFun h i; exact min_eq_right_iff.mp this
      · intro h; funext i; exact min_eq_right (h i)
  exact ⟨h1 x, (h1 _).mpr (C01_projection_feasible x)⟩

/-- C01: the reported violation after evaluating the constraint at `(x, u)` is the distance (componentwise)
from the constraint function's value to the feasible set. -/
theorem C01_violation_after_eval (s : ConVal κ n m K) (x : Fin n → K) (u : Fin m → K)
    (i : Fin s.con.p) :
    |(s.augLag x u).2.violation i| = compViolation κ (s.con.eval x u i) := by
  cases κ
  · exact congrArg abs (C01_violation_equality (s.augLag x u).2 i)
  · refine (congrArg abs (C01_violation_inequality (s.augLag x u).2 i)).trans ?_
    exact abs_of_nonneg (le_max_left _ _)

/-- C01 for the dual cone: the multiplier projection lands in the dual-feasible set and is the nearest
dual-feasible point. -/
theorem C01_dual_projection_nearest (x y : Fin p → K) (hy : DualFeasible κ y) :
    DualFeasible κ (κ.dualProj x) ∧ sqDist x (κ.dualProj x) ≤ sqDist x y := by
  cases κ
  · refine ⟨trivial, ?_⟩
    simp only [ConKind.dualProj, idProj, sqDist, sub_self]
    simpa using Finset.sum_nonneg fun i _ => sq_nonneg (x i - y i)
  · exact ⟨fun i => min_le_left _ _, (C01_projection_nearest (κ := .inequality) x y hy).1⟩

/-! ## C02 -/

/-- C02: value of the augmented Lagrangian term of an equality constraint. -/
theorem C02_auglag_equality (s : ConVal .equality n m K) (x : Fin n → K) (u : Fin m → K)
    (hρ : 0 < s.rho) :
    (s.augLag x u).1 = ∑ i, eqTerm s.rho (s.lam i) (s.con.eval x u i) := by
  show ((_ : K) - _) / _ = _
  simp only [dotProduct]
  rw [sum_div_sub]
  refine Finset.sum_congr rfl fun i _ => ?_
  exact eqTerm_id _ _ _ hρ.ne'

/-- C02: the same in vector notation, `-λᵀc + ρ/2 ‖c‖²`. -/
theorem C02_auglag_equality_vec (s : ConVal .equality n m K) (x : Fin n → K) (u : Fin m → K)
    (hρ : 0 < s.rho) :
    (s.augLag x u).1 = -(s.lam ⬝ᵥ s.con.eval x u)
      + s.rho / 2 * (s.con.eval x u ⬝ᵥ s.con.eval x u) := by
  rw [C02_auglag_equality s x u hρ]
  simp only [eqTerm, dotProduct, Finset.sum_add_distrib, Finset.sum_neg_distrib, Finset.mul_sum, sq]

/-- C02: value of the augmented Lagrangian term of an inequality constraint. -/
theorem C02_auglag_inequality (s : ConVal .inequality n m K) (x : Fin n → K) (u : Fin m → K)
    (hρ : 0 < s.rho) :
    (s.augLag x u).1 = ∑ i, ineqTerm s.rho (s.lam i) (s.con.eval x u i) := by
  show ((_ : K) - _) / _ = _
  simp only [dotProduct]
  rw [sum_div_sub]
  refine Finset.sum_congr rfl fun i _ => ?_
  exact ineqTerm_id _ _ _ hρ.ne'

/-- C02: a satisfied constraint with dual-feasible multipliers never adds cost. -/
theorem C02_auglag_nonpos_of_feasible (s : ConVal κ n m K) (x : Fin n → K) (u : Fin m → K)
    (hρ : 0 < s.rho) (hf : Feasible κ (s.con.eval x u)) (hd : DualFeasible κ s.lam) :
    (s.augLag x u).1 ≤ 0 := by
  cases κ
  · rw [C02_auglag_equality s x u hρ]
    refine Finset.sum_nonpos fun i _ => ?_
    have : s.con.eval x u i = 0 := hf i
    simp [eqTerm, this]
  · rw [C02_auglag_inequality s x u hρ]
    exact Finset.sum_nonpos fun i _ => ineqTerm_nonpos _ _ _ hρ (hd i) (hf i)

/-- C02: an equality constraint that is satisfied adds exactly nothing. -/
theorem C02_auglag_equality_feasible (s : ConVal .equality n m K) (x : Fin n → K) (u : Fin m → K)
    (hρ : 0 < s.rho) (hf : Feasible .equality (s.con.eval x u)) : (s.augLag x u).1 = 0 := by
  rw [C02_auglag_equality s x u hρ]
  refine Finset.sum_eq_zero fun i _ => ?_
  have : s.con.eval x u i = 0 := hf i
  simp [eqTerm, this]

/-- C02: the augmented cost is the objective plus the constraints' augmented Lagrangian terms. -/
theorem C02_evaluate_eq (s : ALCost n m K) (x : Fin n → K) (u : Fin m → K) :
    (s.evaluate x u).1 = s.cost.eval x u + (s.eq.map fun v => (v.augLag x u).1).sum
      + (s.ineq.map fun v => (v.augLag x u).1).sum := by
  simp only [ALCost.evaluate, foldl_fst_add, List.map_map, Function.comp_def]

/-- C02: at a point satisfying all constraints, with dual-feasible multipliers and positive penalties, the
augmented cost does not exceed the objective. -/
theorem C02_evaluate_le_of_feasible (s : ALCost n m K) (x : Fin n → K) (u : Fin m → K)
    (heq : ∀ v ∈ s.eq, 0 < v.rho ∧ Feasible .equality (v.con.eval x u))
    (hineq : ∀ v ∈ s.ineq, 0 < v.rho ∧ Feasible .inequality (v.con.eval x u) ∧
      DualFeasible .inequality v.lam) :
    (s.evaluate x u).1 ≤ s.cost.eval x u := by
  rw [C02_evaluate_eq]
  have h1 : (s.eq.map fun v => (v.augLag x u).1).sum ≤ 0 := by
    refine list_sum_nonpos _ fun a ha => ?_
    obtain ⟨v, hv, rfl⟩ := List.mem_map.mp ha
    exact C02_auglag_nonpos_of_feasible v x u (heq v hv).1 (heq v hv).2 trivial
  have h2 : (s.ineq.map fun v => (v.augLag x u).1).sum ≤ 0 := by
    refine list_sum_nonpos _ fun a ha => ?_
    obtain ⟨v, hv, rfl⟩ := List.mem_map.mp ha
    exact C02_auglag_nonpos_of_feasible v x u (hineq v hv).1 (hineq v hv).2.1 (hineq v hv).2.2
  linarith

/-! ## C04 -/

/-- C04: along every direction the reported Hessian blocks give `ρ Σ (J (dx, du))ᵢ²`, summed over the active
components: the Gauss-Newton approximation with inactive inequality rows dropped. -/
theorem C04_hessian_quadForm (con : Con n m K) (ops : List (ConOp n m K))
    (x : Fin n → K) (u : Fin m → K) (dx : Fin n → K) (du : Fin m → K) :
    let s := ConVal.history κ con ops
    quadForm (s.augLagHessian x u).1 dx du =
      s.rho * ∑ i, if Active κ (s.lam i - s.rho * s.con.eval x u i)
        then ((s.con.jac x u).toCols₁ *ᵥ dx + (s.con.jac x u).toCols₂ *ᵥ du) i ^ 2 else 0 :=
  hessian_quadForm_active _ x u dx du (ConVal.history_bufOk con ops)

/-- C04: the Hessian contribution of a constraint is jointly symmetric positive semidefinite. -/
theorem C04_hessian_psd (s : ConVal κ n m K) (x : Fin n → K) (u : Fin m → K) (hρ : 0 ≤ s.rho) :
    BlockPSD (s.augLagHessian x u).1 where
  symx := by
    simp [ConVal.augLagHessian, Matrix.transpose_smul, Matrix.transpose_mul]
  symu := by
    simp [ConVal.augLagHessian, Matrix.transpose_smul, Matrix.transpose_mul]
  nonneg dx du := by
    rw [hessian_quadForm_raw]
    exact mul_nonneg hρ (Finset.sum_nonneg fun i _ => sq_nonneg _)

/-- C04: adding constraints keeps a convex cost expansion convex: if the objective's Hessian blocks are
symmetric positive semidefinite, so are those of the augmented cost. -/
theorem C04_augmented_hessian_psd (s : ALCost n m K) (x : Fin n → K) (u : Fin m → K)
    (h0 : BlockPSD (s.cost.hess x u)) (heq : ∀ v ∈ s.eq, 0 ≤ v.rho) (hineq : ∀ v ∈ s.ineq, 0 ≤ v.rho) :
    BlockPSD (s.hessian x u).1 := by
  unfold ALCost.hessian
  simp only
  apply foldl_addHess_psd
  · apply foldl_addHess_psd _ _ h0
    intro r hr
    obtain ⟨v, hv, rfl⟩ := List.mem_map.mp hr
    exact C04_hessian_psd v x u (heq v hv)
  · intro r hr
    obtain ⟨v, hv, rfl⟩ := List.mem_map.mp hr
    exact C04_hessian_psd v x u (hineq v hv)

/-- C04: for an affine equality constraint the reported blocks are the exact second derivative: the reported
gradient changes by exactly `H (dx, du)` when the point moves by `(dx, du)`. -/
theorem C04_hessian_exact_affine_equality (s : ConVal .equality n m K)
    (x : Fin n → K) (u : Fin m → K) (dx : Fin n → K) (du : Fin m → K)
    (hJ : ∀ x' u', s.con.jac x' u' = s.con.jac x u)
    (hc : s.con.eval (x + dx) (u + du)
      = s.con.eval x u + (s.con.jac x u).toCols₁ *ᵥ dx + (s.con.jac x u).toCols₂ *ᵥ du) :
    (s.augLagGradient (x + dx) (u + du)).1.1 =
        (s.augLagGradient x u).1.1 + (s.augLagHessian x u).1.dxdx *ᵥ dx
          + (s.augLagHessian x u).1.dxdu *ᵥ du ∧
    (s.augLagGradient (x + dx) (u + du)).1.2 =
        (s.augLagGradient x u).1.2 + (s.augLagHessian x u).1.dxduᵀ *ᵥ dx
          + (s.augLagHessian x u).1.dudu *ᵥ du := by
  have hJ' := hJ (x + dx) (u + du)
  have h := affine_equality_gradient s.rho s.lam (s.con.eval x u) (s.con.jac x u) dx du
  rw [← hc] at h
  have e1 : ∀ x' u', (s.augLagGradient x' u').1 =
      (-(((1 : Matrix (Fin s.con.p) (Fin s.con.p) K) * (s.con.jac x' u').toCols₁)ᵀ *ᵥ (s.lam - s.rho • s.con.eval x' u')),
       -(((1 : Matrix (Fin s.con.p) (Fin s.con.p) K) * (s.con.jac x' u').toCols₂)ᵀ *ᵥ (s.lam - s.rho • s.con.eval x' u'))) := fun _ _ => rfl
  have e2 : (s.augLagHessian x u).1 =
      { dxdx := s.rho • (((1 : Matrix (Fin s.con.p) (Fin s.con.p) K) * s.con.jac x u).toCols₁ᵀ * ((1 : Matrix (Fin s.con.p) (Fin s.con.p) K) * s.con.jac x u).toCols₁)
        dxdu := s.rho • (((1 : Matrix (Fin s.con.p) (Fin s.con.p) K) * s.con.jac x u).toCols₁ᵀ * ((1 : Matrix (Fin s.con.p) (Fin s.con.p) K) * s.con.jac x u).toCols₂)
        dudu := s.rho • (((1 : Matrix (Fin s.con.p) (Fin s.con.p) K) * s.con.jac x u).toCols₂ᵀ * ((1 : Matrix (Fin s.con.p) (Fin s.con.p) K) * s.con.jac x u).toCols₂) } := rfl
  rw [e1, e1, e2, hJ']
  simpa only [Matrix.one_mul] using h

/-! ## C05 -/

/-- C05: after every history of calls the multipliers of an inequality constraint are dual feasible. -/
theorem C05_duals_feasible (con : Con n m K) (ops : List (ConOp n m K)) :
    DualFeasible .inequality (ConVal.history .inequality con ops).lam := by
  have : ∀ s : ConVal .inequality n m K, DualFeasible .inequality s.lam →
      DualFeasible .inequality (ops.foldl ConOp.apply s).lam := by
    induction ops with
    | nil => intro s h; exact h
    | cons op ops ih =>
      intro s h
      refine ih _ ?_
      cases op <;> try exact h
      · intro i; exact min_le_left _ _
      · intro i; exact le_refl _
  exact this _ (fun i => le_refl _)

/-- C05 at a knot point: after every history of calls on the augmented cost, all inequality multipliers are
dual feasible, whatever the constraints, penalties and evaluation points. -/
theorem C05_duals_feasible_cost (cost : CostFun n m K) (eqs ineqs : List (Con n m K))
    (ops : List (ConOp n m K)) :
    ∀ v ∈ (ALCost.history cost eqs ineqs ops).ineq, ∀ i, v.lam i ≤ 0 := by
  have : ∀ s : ALCost n m K, (∀ v ∈ s.ineq, ∀ i, v.lam i ≤ 0) →
      ∀ v ∈ (ops.foldl ConOp.applyAL s).ineq, ∀ i, v.lam i ≤ 0 := by
    induction ops with
    | nil => intro s h; exact h
    | cons op ops ih =>
      intro s h
      refine ih _ ?_
      rw [applyAL_ineq]
      intro v hv
      obtain ⟨w, hw, rfl⟩ := List.mem_map.mp hv
      have hw' := h w hw
      cases op <;> try exact hw'
      · intro i; exact min_le_left _ _
      · intro i; exact le_refl _
  refine this _ ?_
  intro v hv
  obtain ⟨c, _, rfl⟩ := List.mem_map.mp hv
  intro i; exact le_refl _

/-- C05: what the update computes, componentwise, for each constraint type. -/
theorem C05_update_value (s : ConVal κ n m K) (i : Fin s.con.p) :
    s.updateDuals.lam i = match κ with
      | .equality => s.lam i - s.pen i * s.c i
      | .inequality => min 0 (s.lam i - s.pen i * s.c i) := by
  cases κ <;> rfl

/-! ## C06 -/

/-- C06: after any history, the gradient reported at `(x, u)` equals `-Jᵀ λ⁺` where `λ⁺` are the multipliers
the following dual update produces. -/
theorem C06_gradient_is_lagrangian_gradient (con : Con n m K) (ops : List (ConOp n m K))
    (x : Fin n → K) (u : Fin m → K) :
    let s := ConVal.history κ con ops
    let r := s.augLagGradient x u
    r.1.1 = -((s.con.jac x u).toCols₁ᵀ *ᵥ r.2.updateDuals.lam) ∧
    r.1.2 = -((s.con.jac x u).toCols₂ᵀ *ᵥ r.2.updateDuals.lam) :=
  gradient_eq_of_uniform _ x u (ConVal.history_bufOk con ops) (ConVal.history_uniform con ops)

/-- C06: the history does not change which constraint is being evaluated. -/
theorem C06_history_con (con : Con n m K) (ops : List (ConOp n m K)) :
    (ConVal.history κ con ops).con = con := by
  unfold ConVal.history
  have : ∀ s : ConVal κ n m K, (ops.foldl ConOp.apply s).con = s.con := by
    induction ops with
    | nil => intro s; rfl
    | cons op ops ih => intro s; rw [List.foldl_cons, ih, ConOp.apply_con]
  exact this _

/-- C06: with positive penalties and dual-feasible multipliers the dual update changes nothing exactly when
the constraint is satisfied and complementary slackness holds. -/
theorem C06_update_fixed_iff (s : ConVal κ n m K) (hpen : ∀ i, 0 < s.pen i)
    (hd : DualFeasible κ s.lam) :
    s.updateDuals.lam = s.lam ↔ Feasible κ s.c ∧ ∀ i, s.lam i * s.c i = 0 ∨ κ = .equality := by
  cases κ
  · constructor
    · intro h
      refine ⟨fun i => ?_, fun i => Or.inr rfl⟩
      have h1 : s.lam i - s.pen i * s.c i = s.lam i := congrFun h i
      have h2 : s.pen i * s.c i = 0 := by linarith
      rcases mul_eq_zero.mp h2 with h3 | h3
      · exact absurd h3 (hpen i).ne'
      · exact h3
    · rintro ⟨h, -⟩
      funext i
      show s.lam i - s.pen i * s.c i = s.lam i
      rw [h i]; ring
  · constructor
    · intro h
      have key : ∀ i, min 0 (s.lam i - s.pen i * s.c i) = s.lam i := fun i => congrFun h i
      have hc : ∀ i, s.c i ≤ 0 ∧ s.lam i * s.c i = 0 := by
        intro i
        have hk := key i
        have hp := hpen i
        rcases le_total (s.lam i - s.pen i * s.c i) 0 with hle | hle
        · rw [min_eq_right hle] at hk
          have h2 : s.pen i * s.c i = 0 := by linarith
          rcases mul_eq_zero.mp h2 with h3 | h3
          · exact absurd h3 hp.ne'
          · rw [h3]; simp
        · rw [min_eq_left hle] at hk
          rw [← hk] at hle ⊢
          have : s.pen i * s.c i ≤ 0 := by linarith
          refine ⟨?_, by ring⟩
          by_contra hcon
          push Not at hcon
          have := mul_pos hp hcon
          linarith
      exact ⟨fun i => (hc i).1, fun i => Or.inl (hc i).2⟩
    · rintro ⟨hf, hcs⟩
      funext i
      show min 0 (s.lam i - s.pen i * s.c i) = s.lam i
      have hl : s.lam i ≤ 0 := hd i
      have hc : s.c i ≤ 0 := hf i
      rcases hcs i with h0 | h0
      · rcases mul_eq_zero.mp h0 with h1 | h1
        · rw [h1]
          refine min_eq_left ?_
          have := mul_nonneg (hpen i).le (neg_nonneg.mpr hc)
          nlinarith
        · rw [h1]; simp [hl]
      · exact absurd h0 (by decide)

/-! ## C07 -/

/-- C07: penalties after any history of calls that does not set penalties or the scaling: each penalty is
multiplied by the scaling factor once per penalty update. -/
theorem C07_penalty_geometric (s : ConVal κ n m K) (ops : List (ConOp n m K))
    (hops : ∀ op ∈ ops, ¬ op.SetsPenalty) (i : Fin s.con.p) :
    ((ops.foldl ConOp.apply s).pen (Fin.cast (by rw [foldl_apply_con]) i))
      = s.pen i * s.scaling ^ (ops.countP ConOp.isUpdatePenalties) :=
  foldl_apply_pen s ops hops i

/-- C07: setting the penalty to `ρ` and the scaling to `φ` and then performing any calls, of which `k` are
penalty updates and none sets penalties, leaves every penalty at `ρ φ^k`. -/
theorem C07_penalty_after_set (s : ConVal κ n m K) (ρ φ : K) (ops : List (ConOp n m K))
    (hops : ∀ op ∈ ops, ¬ op.SetsPenalty) :
    ∀ j, (ops.foldl ConOp.apply ((s.setPenalty ρ).setPenaltyScaling φ)).pen j
      = ρ * φ ^ (ops.countP ConOp.isUpdatePenalties) := by
  intro j
  have h := foldl_apply_pen ((s.setPenalty ρ).setPenaltyScaling φ) ops hops
    (Fin.cast (by rw [foldl_apply_con]) j)
  exact h

/-- C07: after every history of accepted calls all penalties are nonnegative, the scaling factor is at least
one, and a further penalty update never decreases a penalty. -/
theorem C07_penalty_monotone (con : Con n m K) (ops : List (ConOp n m K)) (hok : ∀ op ∈ ops, op.Ok) :
    let s := ConVal.history κ con ops
    (∀ i, 0 ≤ s.pen i) ∧ 1 ≤ s.scaling ∧ ∀ i, s.pen i ≤ s.updatePenalties.pen i := by
  have : ∀ s : ConVal κ n m K, (∀ op ∈ ops, op.Ok) → (∀ i, 0 ≤ s.pen i) → 1 ≤ s.scaling →
      (∀ i, 0 ≤ (ops.foldl ConOp.apply s).pen i) ∧ 1 ≤ (ops.foldl ConOp.apply s).scaling := by
    clear hok
    induction ops with
    | nil => intro s _ h1 h2; exact ⟨h1, h2⟩
    | cons op ops ih =>
      intro s hok h1 h2
      have hop := hok op (by simp)
      refine ih _ (fun o ho => hok o (by simp [ho])) ?_ ?_
      · cases op <;> try exact h1
        · intro i; exact mul_nonneg (h1 i) (le_trans zero_le_one h2)
        · intro i; exact hop
      · cases op <;> try exact h2
        exact hop
  obtain ⟨h1, h2⟩ := this (ConVal.new κ con) hok (fun i => zero_le_one)
    (by show (1 : K) ≤ 10; norm_num)
  exact ⟨h1, h2, fun i => le_mul_of_one_le_right (h1 i) h2⟩

/-- C07: the solver's reported maximum penalty bounds the penalty of every component of every constraint at
every knot point. -/
theorem C07_max_penalty_bound (cs : List (ALCost n m K)) (c : ALCost n m K) (hc : c ∈ cs) :
    (∀ v ∈ c.eq, ∀ i, v.pen i ≤ ALCosts.maxPenalty cs) ∧
    (∀ v ∈ c.ineq, ∀ i, v.pen i ≤ ALCosts.maxPenalty cs) := by
  have h1 : c.maxPenalty ≤ ALCosts.maxPenalty cs := (foldl_max_ge cs _ 0).2 c hc
  constructor
  · intro v hv i
    exact ((ConVal.pen_le_maxPenalty v i).trans (ALCost.eq_maxPenalty_le c v hv)).trans h1
  · intro v hv i
    exact ((ConVal.pen_le_maxPenalty v i).trans (ALCost.ineq_maxPenalty_le c v hv)).trans h1

/-- C07: the reported maximum penalty is attained by some component (or is zero: there are no constraints, or
none has a positive penalty). -/
theorem C07_max_penalty_attained (cs : List (ALCost n m K)) :
    ALCosts.maxPenalty cs = 0 ∨
    (∃ c ∈ cs, ∃ v ∈ c.eq, ∃ i, v.pen i = ALCosts.maxPenalty cs) ∨
    (∃ c ∈ cs, ∃ v ∈ c.ineq, ∃ i, v.pen i = ALCosts.maxPenalty cs) := by
  rcases foldl_max_mem cs (fun c => c.maxPenalty) 0 with h | ⟨c, hc, h⟩
  · exact Or.inl h
  · rcases ALCost.maxPenalty_attained c with h0 | ⟨v, hv, i, hi⟩ | ⟨v, hv, i, hi⟩
    · left; exact h.symm.trans h0
    · right; left; exact ⟨c, hc, v, hv, i, hi.trans h⟩
    · right; right; exact ⟨c, hc, v, hv, i, hi.trans h⟩

/-! ## C08 -/

/-- C08: the solver's maximum violation is below a positive tolerance exactly when every component of every
constraint at every knot point is within that tolerance. -/
theorem C08_max_violation_lt_iff (cs : List (ALCost n m K)) (tol : K) (htol : 0 < tol) :
    ALCosts.maxViolation cs < tol ↔
      ∀ c ∈ cs, (∀ v ∈ c.eq, ∀ i, |v.c i| < tol) ∧ (∀ v ∈ c.ineq, ∀ i, v.c i < tol) := by
  unfold ALCosts.maxViolation
  rw [infNormL_lt_iff _ _ htol]
  simp only [List.mem_map, forall_exists_index, and_imp, forall_apply_eq_imp_iff₂]
  refine forall_congr' fun c => imp_congr_right fun _ => ?_
  unfold ALCost.maxViolation
  rw [abs_infNormL_lt_iff, infNormL_lt_iff _ _ htol]
  simp only [List.mem_cons, List.not_mem_nil, or_false, forall_eq_or_imp, forall_eq]
  rw [abs_infNormL_lt_iff, abs_infNormL_lt_iff, infNormL_lt_iff _ _ htol, infNormL_lt_iff _ _ htol]
  simp only [List.mem_map, forall_exists_index, and_imp, forall_apply_eq_imp_iff₂]
  refine and_congr ?_ ?_
  · refine forall_congr' fun v => imp_congr_right fun _ => ?_
    unfold ConVal.maxViolation
    rw [abs_infNorm_lt_iff _ _ htol]
    refine forall_congr' fun i => ?_
    rw [C01_violation_equality]
  · refine forall_congr' fun v => imp_congr_right fun _ => ?_
    unfold ConVal.maxViolation
    rw [abs_infNorm_lt_iff _ _ htol]
    refine forall_congr' fun i => ?_
    rw [C01_violation_inequality, abs_of_nonneg (le_max_left _ _)]
    exact ⟨fun h => lt_of_le_of_lt (le_max_right _ _) h, fun h => max_lt htol h⟩

/-- C08: the maximum violation is zero exactly when every constraint is satisfied. -/
theorem C08_max_violation_zero_iff (cs : List (ALCost n m K)) :
    ALCosts.maxViolation cs = 0 ↔
      ∀ c ∈ cs, (∀ v ∈ c.eq, Feasible .equality v.c) ∧ (∀ v ∈ c.ineq, Feasible .inequality v.c) := by
  have hnn : 0 ≤ ALCosts.maxViolation cs := infNormL_nonneg _
  constructor
  · intro h c hc
    have key := fun tol htol => (C08_max_violation_lt_iff cs tol htol).mp (by rw [h]; exact htol)
    refine ⟨fun v hv i => ?_, fun v hv i => ?_⟩
    · by_contra hne
      exact lt_irrefl _ (((key _ (abs_pos.mpr hne)) c hc).1 v hv i)
    · by_contra hlt
      push Not at hlt
      exact lt_irrefl _ (((key _ hlt) c hc).2 v hv i)
  · intro h
    by_contra hne
    have hpos : 0 < ALCosts.maxViolation cs := lt_of_le_of_ne hnn (Ne.symm hne)
    refine lt_irrefl _ ((C08_max_violation_lt_iff cs _ hpos).mpr fun c hc => ⟨fun v hv i => ?_, fun v hv i => ?_⟩)
    · have : v.c i = 0 := (h c hc).1 v hv i
      rw [this, abs_zero]; exact hpos
    · exact lt_of_le_of_lt ((h c hc).2 v hv i) hpos

/-- C08, 1-norm: the nested norm is the sum of all individual violations. -/
theorem C08_one_norm_sum (cs : List (ALCost n m K)) :
    ALCosts.maxViolation1 cs =
      (cs.map fun c => (c.eq.map fun v => ∑ i, compViolation .equality (v.c i)).sum
        + (c.ineq.map fun v => ∑ i, compViolation .inequality (v.c i)).sum).sum := by
  unfold ALCosts.maxViolation1
  rw [oneNormL_of_nonneg]
  · refine congrArg List.sum (List.map_congr_left fun c _ => ?_)
    unfold ALCost.maxViolation1
    rw [oneNormL_of_nonneg]
    · simp only [List.map_cons, List.map_nil, List.sum_cons, List.sum_nil, add_zero]
      rw [oneNormL_of_nonneg _ (by
          intro a ha; obtain ⟨v, _, rfl⟩ := List.mem_map.mp ha
          exact Finset.sum_nonneg (s := Finset.univ) fun i _ => abs_nonneg (v.violation i)),
        oneNormL_of_nonneg _ (by
          intro a ha; obtain ⟨v, _, rfl⟩ := List.mem_map.mp ha
          exact Finset.sum_nonneg (s := Finset.univ) fun i _ => abs_nonneg (v.violation i))]
      refine congrArg₂ (· + ·) (congrArg List.sum (List.map_congr_left fun v _ => ?_))
        (congrArg List.sum (List.map_congr_left fun v _ => ?_))
      · unfold ConVal.maxViolation1 ConVal.oneNorm
        refine Finset.sum_congr rfl fun i _ => ?_
        rw [C01_violation_equality]; rfl
      · unfold ConVal.maxViolation1 ConVal.oneNorm
        refine Finset.sum_congr rfl fun i _ => ?_
        rw [C01_violation_inequality, abs_of_nonneg (le_max_left _ _)]; rfl
    · intro a ha
      simp only [List.mem_cons, List.not_mem_nil, or_false] at ha
      rcases ha with rfl | rfl <;> exact oneNormL_nonneg _
  · intro a ha
    obtain ⟨c, _, rfl⟩ := List.mem_map.mp ha
    exact oneNormL_nonneg _

end Altro.Props
