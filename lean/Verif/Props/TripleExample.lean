import Verif.Proofs.TripleExample
import Verif.Props.Slater
import Verif.Props.LQConstrained

/-!
# C102: the triple integrator example
-/

namespace Altro.Props
open Altro.Spec Matrix ILQR Prob AL

section triple102
variable {dof : ℕ} (s : TripleFields dof) (uref : Fin dof → ℝ)

/-- The dynamics of the triple integrator problem: the triple integrator with a fourth order Runge-Kutta step
(problems/triple_integrator.hpp:45, 62-68; `CalcDynamicsExpansion` clears the buffer of the Jacobian first,
knot_point_function_type.hpp:121-128). -/
noncomputable def tripleProblem (normX : (Fin (3 * dof) → ℝ) → ℝ) (normU : (Fin dof → ℝ) → ℝ) : DynProblem (3 * dof) dof ℝ where
  N := s.N
  x0 := s.x0
  f _ x u t h := (tripleIntegrator dof).rk4 x u t h
  jac _ x u t h := (((tripleIntegrator dof).rk4Jac x u t h 0).toCols₁, ((tripleIntegrator dof).rk4Jac x u t h 0).toCols₂)
  normX := normX
  normU := normU

/-- What `BuildAugLagProblem` puts at a knot point: `mk` of C09. -/
noncomputable def tripleAL (c : QuadCost (3 * dof) dof ℝ) (es is : List (ExCon (3 * dof) dof)) : ALCost (3 * dof) dof ℝ :=
  ALCost.new c.costFun (es.filterMap ExCon.con') (is.filterMap ExCon.con')

/-- The augmented Lagrangian costs of the triple integrator problem. -/
noncomputable def tripleCosts (add : Bool) (k : ℕ) : ALCost (3 * dof) dof ℝ :=
  tripleAL (if k < s.N then s.stageCost uref else s.termCost uref) (eqsAt (s.calls uref add) k) (ineqsAt (s.calls uref add) k)

/-- They are the costs of the calls of `MakeProblem`, so those of the solver that is built from its result (C09). -/
theorem C102_built (add : Bool) {k : ℕ} (hk : k ≤ s.N) : alAt tripleAL (s.calls uref add) k = some (tripleCosts s uref add k) := by
  unfold alAt tripleCosts
  have : costAt (s.calls uref add) k = some (if k < s.N then s.stageCost uref else s.termCost uref) := by
    by_cases hkN : k < s.N
    · rw [if_pos hkN]
      refine costAt_eq ((triple_mem s uref add _).mpr (.inl ⟨k, hkN, rfl⟩)) fun d hd => ?_
      have := (triple_mem s uref add _).mp hd
      simp at this
      rcases this with ⟨_, rfl⟩ | ⟨rfl, _⟩
      · rfl
      · omega
    · obtain rfl : k = s.N := by omega
      rw [if_neg hkN]
      refine costAt_eq ((triple_mem s uref add _).mpr (.inr (.inl rfl))) fun d hd => ?_
      have := (triple_mem s uref add _).mp hd
      simp at this
      rcases this with rfl
      rfl
  rw [this]
  rfl

/-- The weights are symmetric, positive semidefinite, and at least `μ` in the controls. -/
structure TripleWeights (μ : ℝ) : Prop where
  symQ : s.Q.IsSymm
  symR : s.R.IsSymm
  symQf : s.Qf.IsSymm
  Q : ∀ x, 0 ≤ x ⬝ᵥ s.Q *ᵥ x
  Qf : ∀ x, 0 ≤ x ⬝ᵥ s.Qf *ᵥ x
  R : ∀ u, μ * (u ⬝ᵥ u) ≤ u ⬝ᵥ s.R *ᵥ u

variable {s uref} {μ : ℝ} {add : Bool} {cs : ℕ → ALCost (3 * dof) dof ℝ} (hw : TripleWeights s μ)
  (hs : ∀ k ≤ s.N, (cs k).static = (tripleCosts s uref add k).static)
include hs

theorem triple_stage {k : ℕ} (hk : k < s.N) : (cs k).cost = (QuadCost.lqr s.Q s.R s.xf uref).costFun := by
  rw [(static_mem_eq (hs k hk.le)).1]
  show (if k < s.N then s.stageCost uref else s.termCost uref).costFun = _
  rw [if_pos hk]; rfl

theorem triple_term : (cs s.N).cost = (QuadCost.lqr s.Qf (0 : Matrix _ _ ℝ) s.xf uref).costFun := by
  rw [(static_mem_eq (hs s.N le_rfl)).1]
  show (if s.N < s.N then s.stageCost uref else s.termCost uref).costFun = _
  rw [if_neg (lt_irrefl _)]; rfl

theorem triple_eqs {k : ℕ} (hk : k ≤ s.N) {v : ConVal .equality (3 * dof) dof ℝ} (hv : v ∈ (cs k).eq) :
    add = true ∧ k = s.N ∧ (ExCon.goal s.xf).con' = some v.con := by
  obtain ⟨v', h1, h2⟩ := (static_mem_eq (hs k hk)).2.1 v hv
  obtain ⟨c, h3, rfl⟩ := List.mem_map.mp h1
  obtain ⟨e, he, e1⟩ := List.mem_filterMap.mp h3
  have := (triple_mem s uref add _).mp (eqsAt_mem he)
  simp at this
  obtain ⟨ha, rfl, rfl⟩ := this
  exact ⟨ha, rfl, by rw [← h2]; exact e1⟩

theorem triple_ineqs {k : ℕ} (hk : k ≤ s.N) {v : ConVal .inequality (3 * dof) dof ℝ} (hv : v ∈ (cs k).ineq) :
    (add = true ∧ k < s.N ∧ (ExCon.bound (n := 3 * dof) s.bounds).con' = some v.con) ∧ ∀ i j, i ≠ j → v.projJac i j = 0 := by
  obtain ⟨v', h1, h2, h4⟩ := (static_mem_eq (hs k hk)).2.2 v hv
  obtain ⟨c, h3, rfl⟩ := List.mem_map.mp h1
  obtain ⟨e, he, e1⟩ := List.mem_filterMap.mp h3
  have := (triple_mem s uref add _).mp (ineqsAt_mem he)
  simp at this
  obtain ⟨ha, hk, rfl⟩ := this
  exact ⟨⟨ha, hk, by rw [← h2]; exact e1⟩, h4 fun i j _ => rfl⟩

include hw

/-- The problem is linear-quadratic, with affine equality and inequality constraints. -/
theorem C102_linear_quadratic (hμ : 0 ≤ μ) (normX : (Fin (3 * dof) → ℝ) → ℝ) (normU : (Fin dof → ℝ) → ℝ) :
    LQInequality (tripleProblem s normX normU) cs μ := by
  have hQ0 : ∀ u : Fin dof → ℝ, 0 ≤ u ⬝ᵥ (0 : Matrix (Fin dof) (Fin dof) ℝ) *ᵥ u := fun u => by rw [zero_mulVec, dotProduct_zero]
  have hR0 : ∀ u, 0 ≤ u ⬝ᵥ s.R *ᵥ u := fun u => (mul_nonneg hμ (nsq_nonneg u)).trans (hw.R u)
  have hsym0 : (0 : Matrix (Fin dof) (Fin dof) ℝ).IsSymm := transpose_zero
  refine ⟨fun k _ x u t h dx du => triple_affine x dx u du t h 0, fun k hk => ?_, fun k hk x u dx du => ?_, fun x u u' => ?_,
    fun v hv x u u' => ?_, fun v hv x u u' => ?_⟩
  · have hk : k ≤ s.N := hk
    refine ⟨?_, fun x u => ?_, fun v hv => (exCon'_facts (triple_eqs hs hk hv).2.2).1,
      fun v hv => (exCon'_facts (triple_ineqs hs hk hv).1.2.2).1, fun v hv => (triple_ineqs hs hk hv).2⟩
    · rcases lt_or_eq_of_le hk with hk | rfl
      · rw [triple_stage hs hk]; exact C37_expansion _ hw.symQ hw.symR
      · rw [triple_term hs]; exact C37_expansion _ hw.symQf hsym0
    · rcases lt_or_eq_of_le hk with hk | rfl
      · rw [triple_stage hs hk]; exact lqr_psd _ _ _ _ hw.symQ hw.symR hw.Q hR0 x u
      · rw [triple_term hs]; exact lqr_psd _ _ _ _ hw.symQf hsym0 hw.Qf hQ0 x u
  · rw [triple_stage hs hk]; exact lqr_strong _ _ _ _ hw.Q hw.R x u dx du
  · show (cs s.N).cost.eval x u = (cs s.N).cost.eval x u'
    rw [triple_term hs, C37_lqr _ _ hw.symQf hsym0, C37_lqr _ _ hw.symQf hsym0]
    simp
  · obtain ⟨-, -, h⟩ := triple_eqs hs le_rfl hv
    simp only [ExCon.con', Option.dite_none_right_eq_some, Option.some.injEq] at h
    obtain ⟨h0, h⟩ := h
    rw [← h]; rfl
  · exact absurd (triple_ineqs hs le_rfl hv).1.2.1 (lt_irrefl _)

/-- It is smooth, on every time grid. -/
theorem triple_smooth (hμ : 0 < μ) (hp : ∀ k ≤ s.N, (∀ v ∈ (cs k).eq, ∀ i, 0 < v.pen i) ∧ ∀ v ∈ (cs k).ineq, ∀ i, 0 < v.pen i)
    (normX : (Fin (3 * dof) → ℝ) → ℝ) (normU : (Fin dof → ℝ) → ℝ) (Y : Traj (Fin (3 * dof) → ℝ) (Fin dof → ℝ) ℝ) :
    SmoothProblem (tripleProblem s normX normU) cs Y μ := by
  have hL := C102_linear_quadratic hw hs hμ.le normX normU
  have hsym0 : (0 : Matrix (Fin dof) (Fin dof) ℝ).IsSymm := transpose_zero
  have sm : ∀ k ≤ s.N, (∀ v ∈ (cs k).eq, SmoothCon v.con ∧ ∀ i, 0 < v.pen i) ∧
      ∀ v ∈ (cs k).ineq, SmoothCon v.con ∧ ∀ i, 0 < v.pen i := fun k hk =>
    ⟨fun v hv => ⟨(exCon'_facts (triple_eqs hs hk hv).2.2).2, (hp k hk).1 v hv⟩,
     fun v hv => ⟨(exCon'_facts (triple_ineqs hs hk hv).1.2.2).2, (hp k hk).2 v hv⟩⟩
  refine ⟨⟨fun k hk => (hL.knot k hk).conv, hL.strong, fun k hk v hv i => ((hp k hk).1 v hv i).le,
    fun k hk v hv i => ((hp k hk).2 v hv i).le⟩, fun k hk x u => ?_, fun k hk => ?_, fun k hk => ?_, ?_, hL.term, fun x u u' => ?_,
    hL.termEq, hL.termIneq⟩
  · show IsJacAt _ (fromCols ((tripleIntegrator dof).rk4Jac x u (Y.t k) (Y.h k) 0).toCols₁ ((tripleIntegrator dof).rk4Jac x u (Y.t k) (Y.h k) 0).toCols₂) x u
    rw [fromCols_toCols]
    exact C34_triple_integrator_partial dof x u (Y.t k) (Y.h k) 0
  · have h := (triple_continuous (dof := dof)).rk4Jac (Y.t k) (Y.h k) 0
    exact (toCols₁_continuous h).prodMk (toCols₂_continuous h)
  · have hk' : k ≤ s.N := hk
    rcases lt_or_eq_of_le hk' with hkN | rfl
    · exact smoothKnot_lqr _ _ _ _ hw.symQ hw.symR (triple_stage hs hkN) (sm k hk').1 (sm k hk').2 fun v hv => (triple_ineqs hs hk' hv).2
    · exact smoothKnot_lqr _ _ _ _ hw.symQf hsym0 (triple_term hs) (sm s.N le_rfl).1 (sm s.N le_rfl).2 fun v hv => (triple_ineqs hs hk' hv).2
  · refine ⟨μ / 4, μ / 2 * (uref ⬝ᵥ uref), by positivity, fun k hk x u => ?_, fun x u => ?_⟩
    · rw [triple_stage hs hk]; exact lqr_lower _ _ _ _ hμ hw.symQ hw.symR hw.Q hw.R x u
    · show _ ≤ (cs s.N).cost.eval x u
      rw [triple_term hs, C37_lqr _ _ hw.symQf hsym0]
      have h1 := hw.Qf (x - s.xf)
      have h3 : 0 ≤ μ / 2 * (uref ⬝ᵥ uref) := mul_nonneg (by positivity) (nsq_nonneg _)
      rw [zero_mulVec, dotProduct_zero]
      linarith
  · show (cs s.N).cost.hess x u = (cs s.N).cost.hess x u'
    rw [triple_term hs]; rfl

theorem triple_strong (hμ : 0 ≤ μ) (normX : (Fin (3 * dof) → ℝ) → ℝ) (normU : (Fin dof → ℝ) → ℝ)
    (Z : Traj (Fin (3 * dof) → ℝ) (Fin dof → ℝ) ℝ) : StrongFrom (tripleProblem s normX normU) cs Z μ := by
  intro k hk dx du
  have hL := C102_linear_quadratic hw hs hμ normX normU
  have h1 := (hL.knot k (le_of_lt hk)).quad.exact (Z.x k) (Z.u k) dx du
  have h2 := hL.strong k hk (Z.x k) (Z.u k) dx du
  rw [h1]
  simp only [quadModel, quadForm] at h2 ⊢
  linarith

end triple102

/-! ## Which goals can be met -/

section reach
variable {dof : ℕ}

/-- The trajectory of a control sequence on the time grid of `Y`. -/
noncomputable def drive (p : DynProblem (3 * dof) dof ℝ) (Y : Traj (Fin (3 * dof) → ℝ) (Fin dof → ℝ) ℝ) (U : ℕ → Fin dof → ℝ) :
    Traj (Fin (3 * dof) → ℝ) (Fin dof → ℝ) ℝ :=
  { Y with x := fun k => Nat.rec p.x0 (fun k x => p.f k x (U k) (Y.t k) (Y.h k)) k, u := U }

theorem drive_alternative (p : DynProblem (3 * dof) dof ℝ) (Y : Traj (Fin (3 * dof) → ℝ) (Fin dof → ℝ) ℝ) (U : ℕ → Fin dof → ℝ) :
    Alternative p Y (drive p Y U) := ⟨rfl, fun _ _ => rfl⟩

/-- Three steps are enough to get from any state to any other. -/
theorem three_steps (x y : Fin (3 * dof) → ℝ) (t0 t1 t2 : ℝ) {h : ℝ} (hh : h ≠ 0) : ∃ u0 u1 u2 : Fin dof → ℝ,
    (tripleIntegrator dof).rk4 ((tripleIntegrator dof).rk4 ((tripleIntegrator dof).rk4 x u0 t0 h) u1 t1 h) u2 t2 h = y := by
  let A i := (y (tiIx 2 i) - x (tiIx 2 i)) / h
  let V i := (y (tiIx 1 i) - x (tiIx 1 i) - 3 * h * x (tiIx 2 i)) / h ^ 2
  let P i := (y (tiIx 0 i) - x (tiIx 0 i) - 3 * h * x (tiIx 1 i) - 9 / 2 * h ^ 2 * x (tiIx 2 i)) / h ^ 3
  refine ⟨fun i => A i / 3 - V i + P i, fun i => -7 / 6 * A i + 3 * V i - 2 * P i, fun i => 11 / 6 * A i - 2 * V i + P i, ti_ext fun i => ?_⟩
  obtain ⟨a1, a2, a3⟩ := C35_triple_integrator x (fun i => A i / 3 - V i + P i) t0 h i
  obtain ⟨b1, b2, b3⟩ := C35_triple_integrator ((tripleIntegrator dof).rk4 x (fun i => A i / 3 - V i + P i) t0 h)
    (fun i => -7 / 6 * A i + 3 * V i - 2 * P i) t1 h i
  obtain ⟨c1, c2, c3⟩ := C35_triple_integrator ((tripleIntegrator dof).rk4 ((tripleIntegrator dof).rk4 x (fun i => A i / 3 - V i + P i) t0 h)
    (fun i => -7 / 6 * A i + 3 * V i - 2 * P i) t1 h) (fun i => 11 / 6 * A i - 2 * V i + P i) t2 h i
  rw [c1, c2, c3, b1, b2, b3, a1, a2, a3]
  have hA : A i * h = y (tiIx 2 i) - x (tiIx 2 i) := div_mul_cancel₀ _ hh
  have hV : V i * h ^ 2 = y (tiIx 1 i) - x (tiIx 1 i) - 3 * h * x (tiIx 2 i) := div_mul_cancel₀ _ (pow_ne_zero _ hh)
  have hP : P i * h ^ 3 = y (tiIx 0 i) - x (tiIx 0 i) - 3 * h * x (tiIx 1 i) - 9 / 2 * h ^ 2 * x (tiIx 2 i) :=
    div_mul_cancel₀ _ (pow_ne_zero _ hh)
  refine ⟨?_, ?_, ?_⟩
  · linear_combination hP
  · linear_combination hV
  · linear_combination hA

/-- Every goal can be reached from every initial state in three or more steps of the same length. -/
theorem C102_reachable (s : TripleFields dof) (hN : 3 ≤ s.N) (normX : (Fin (3 * dof) → ℝ) → ℝ) (normU : (Fin dof → ℝ) → ℝ)
    (Y : Traj (Fin (3 * dof) → ℝ) (Fin dof → ℝ) ℝ) {h : ℝ} (hh : h ≠ 0) (hY : ∀ k < s.N, Y.h k = h) :
    ∃ Z, Alternative (tripleProblem s normX normU) Y Z ∧ Z.x s.N = s.xf := by
  set p := tripleProblem s normX normU
  obtain ⟨N, hN⟩ : ∃ N, s.N = N + 3 := ⟨s.N - 3, by omega⟩
  obtain ⟨u0, u1, u2, e⟩ := three_steps ((drive p Y fun _ => 0).x N) s.xf (Y.t N) (Y.t (N + 1)) (Y.t (N + 2)) hh
  let U : ℕ → Fin dof → ℝ := fun k => if k < N then 0 else if k = N then u0 else if k = N + 1 then u1 else u2
  refine ⟨drive p Y U, drive_alternative p Y U, ?_⟩
  have key : ∀ k ≤ N, (drive p Y U).x k = (drive p Y fun _ => 0).x k := by
    intro k
    induction k with
    | zero => intro _; rfl
    | succ k ih =>
      intro hk
      have e1 : (drive p Y U).x (k + 1) = p.f k ((drive p Y U).x k) (U k) (Y.t k) (Y.h k) := rfl
      have e2 : U k = 0 := if_pos (by omega)
      rw [e1, ih (by omega), e2]
      rfl
  have U0 : U N = u0 := by simp [U]
  have U1 : U (N + 1) = u1 := by simp [U]
  have U2 : U (N + 2) = u2 := by simp [U]
  rw [hN]
  show p.f (N + 2) (p.f (N + 1) (p.f N ((drive p Y U).x N) (U N) (Y.t N) (Y.h N)) (U (N + 1)) (Y.t (N + 1)) (Y.h (N + 1))) (U (N + 2))
    (Y.t (N + 2)) (Y.h (N + 2)) = s.xf
  rw [key N le_rfl, U0, U1, U2, hY N (by omega), hY (N + 1) (by omega), hY (N + 2) (by omega)]
  exact e

end reach

/-! ## The solver -/

section solves102
variable {dof : ℕ}

/-- What the problem asks for: reach the goal and respect the bounds, both up to `ν`. -/
structure TripleMet (s : TripleFields dof) (Z : Traj (Fin (3 * dof) → ℝ) (Fin dof → ℝ) ℝ) (ν : ℝ) : Prop where
  goal : ∀ i, |Z.x s.N i - s.xf i| ≤ ν
  bound : ∀ k < s.N, ∀ j, |Z.u k j| ≤ s.ubnd j + ν

/-- What it minimises. -/
noncomputable def tripleObjective (s : TripleFields dof) (uref : Fin dof → ℝ) (Z : Traj (Fin (3 * dof) → ℝ) (Fin dof → ℝ) ℝ) : ℝ :=
  ∑ k ∈ Finset.range s.N, (1 / 2 * ((Z.x k - s.xf) ⬝ᵥ s.Q *ᵥ (Z.x k - s.xf)) + 1 / 2 * ((Z.u k - uref) ⬝ᵥ s.R *ᵥ (Z.u k - uref)))
    + 1 / 2 * ((Z.x s.N - s.xf) ⬝ᵥ s.Qf *ᵥ (Z.x s.N - s.xf))

variable {s : TripleFields dof} {uref : Fin dof → ℝ}

theorem triple_objective {μ : ℝ} (hw : TripleWeights s μ) (add : Bool) (normX : (Fin (3 * dof) → ℝ) → ℝ) (normU : (Fin dof → ℝ) → ℝ) :
    objective (tripleProblem s normX normU) (tripleCosts s uref add) = tripleObjective s uref := by
  funext Z
  show ∑ k ∈ Finset.range (s.N + 1), (tripleCosts s uref add k).cost.eval (Z.x k) (Z.u k) = _
  rw [Finset.sum_range_succ, triple_term (cs := tripleCosts s uref add) fun _ _ => rfl, C37_lqr _ _ hw.symQf transpose_zero, zero_mulVec,
    dotProduct_zero, mul_zero, add_zero]
  unfold tripleObjective
  congr 1
  refine Finset.sum_congr rfl fun k hk => ?_
  rw [triple_stage (cs := tripleCosts s uref add) (fun _ _ => rfl) (Finset.mem_range.mp hk), C37_lqr _ _ hw.symQ hw.symR]

theorem triple_eq_rows (hd : 0 < dof) (Z : Traj (Fin (3 * dof) → ℝ) (Fin dof → ℝ) ℝ) (P : ℝ → Prop) :
    (∀ k ≤ s.N, ∀ v ∈ (tripleCosts s uref true k).eq, ∀ i, P (v.con.eval (Z.x k) (Z.u k) i)) ↔ ∀ i, P (Z.x s.N i - s.xf i) := by
  have h3 : 0 < 3 * dof := by omega
  have e : ∀ k, (tripleCosts s uref true k).eq
      = if k = s.N then [ConVal.new .equality ⟨3 * dof, h3, goalEval s.xf, fun _ _ => goalJac 0, "Goal Constraint"⟩] else [] := by
    intro k
    show ((eqsAt (s.calls uref true) k).filterMap ExCon.con').map (ConVal.new .equality) = _
    rw [(C71_triple_constraints s uref k).2.1]
    split
    · simp [ExCon.con', h3]
    · rfl
  constructor
  · intro h i
    exact h s.N le_rfl _ (by rw [e, if_pos rfl]; exact List.mem_singleton.mpr rfl) i
  · intro h k hk v hv i
    rw [e] at hv
    split at hv
    · next hk =>
      subst hk
      obtain rfl := List.mem_singleton.mp hv
      exact h i
    · cases hv

theorem triple_ineq_rows (hd : 0 < dof) (Z : Traj (Fin (3 * dof) → ℝ) (Fin dof → ℝ) ℝ) (P : ℝ → Prop) :
    (∀ k ≤ s.N, ∀ v ∈ (tripleCosts s uref true k).ineq, ∀ i, P (v.con.eval (Z.x k) (Z.u k) i)) ↔
      ∀ k < s.N, ∀ j, P (-s.ubnd j - Z.u k j) ∧ P (Z.u k j - s.ubnd j) := by
  have h3 : 0 < s.bounds.dim := by
    show 0 < (ControlBound.ofBounds _ _).dim
    rw [bounds_dim]; omega
  have e : ∀ k, (tripleCosts s uref true k).ineq = if k < s.N then
      [ConVal.new .inequality ⟨s.bounds.dim, h3, fun _ u => s.bounds.eval u, fun _ _ => s.bounds.jac 0, "Control Bound"⟩] else [] := by
    intro k
    show ((ineqsAt (s.calls uref true) k).filterMap ExCon.con').map (ConVal.new .inequality) = _
    rw [(C71_triple_constraints s uref k).1]
    split
    · simp [ExCon.con', h3]
    · rfl
  constructor
  · intro h k hk
    refine (bounds_rows s.ubnd (Z.u k) P).mp fun i => ?_
    exact h k hk.le _ (by rw [e, if_pos hk]; exact List.mem_singleton.mpr rfl) i
  · intro h k hk v hv i
    rw [e] at hv
    split at hv
    · next hk =>
      obtain rfl := List.mem_singleton.mp hv
      exact (bounds_rows s.ubnd (Z.u k) P).mpr (h k hk) i
    · cases hv

theorem triple_met (hd : 0 < dof) (Z : Traj (Fin (3 * dof) → ℝ) (Fin dof → ℝ) ℝ) (ν : ℝ) (normX : (Fin (3 * dof) → ℝ) → ℝ)
    (normU : (Fin dof → ℝ) → ℝ) : SatisfiesUpTo (tripleProblem s normX normU) (tripleCosts s uref true) Z ν ↔ TripleMet s Z ν := by
  constructor
  · rintro ⟨h1, h2⟩
    refine ⟨(triple_eq_rows (uref := uref) hd Z fun a => |a| ≤ ν).mp h1, fun k hk j => ?_⟩
    obtain ⟨a, b⟩ := (triple_ineq_rows (uref := uref) hd Z fun a => a ≤ ν).mp h2 k hk j
    exact abs_le.mpr ⟨by linarith, by linarith⟩
  · rintro ⟨h1, h2⟩
    refine ⟨(triple_eq_rows (uref := uref) hd Z fun a => |a| ≤ ν).mpr h1,
      (triple_ineq_rows (uref := uref) hd Z fun a => a ≤ ν).mpr fun k hk j => ?_⟩
    obtain ⟨a, b⟩ := abs_le.mp (h2 k hk j)
    exact ⟨by linarith, by linarith⟩

theorem satisfies_upTo {n m : ℕ} {p : DynProblem n m ℝ} {cs : ℕ → ALCost n m ℝ} {Z : Traj (Fin n → ℝ) (Fin m → ℝ) ℝ} :
    Satisfies p cs Z ↔ SatisfiesUpTo p cs Z 0 :=
  ⟨fun ⟨a, b⟩ => ⟨fun k hk v hv i => abs_nonpos_iff.mpr (a k hk v hv i), b⟩,
   fun ⟨a, b⟩ => ⟨fun k hk v hv i => abs_nonpos_iff.mp (a k hk v hv i), b⟩⟩

/-- With constraints.  If some controls strictly inside the bounds reach the goal, then there is an optimal trajectory and, given all other
options and the starting point, there are tolerances, an initial penalty and limits with which the solver reports success, with the goal reached and
the bounds respected up to `η`, the objective within `η` of the optimum and all controls together within `η` of the optimal ones. -/
theorem C102_solves {μ : ℝ} (hμ : 0 < μ) (hw : TripleWeights s μ) (hd : 0 < dof) (hN : s.N ≠ 0) (normX : (Fin (3 * dof) → ℝ) → ℝ)
    (normU : (Fin dof → ℝ) → ℝ) (d : Opts ℝ) {η : ℝ} (hη : 0 < η)
    (q : ALSt (Fin (3 * dof) → ℝ) (Fin dof → ℝ) ℝ (ALCost (3 * dof) dof ℝ) (KP (3 * dof) dof ℝ)) (hq : q.st.cs = tripleCosts s uref true)
    (hz : ∃ Z, Alternative (tripleProblem s normX normU) q.st.Z Z ∧ Z.x s.N = s.xf ∧ ∀ k < s.N, ∀ j, |Z.u k j| < s.ubnd j)
    (d1 : 0 ≤ d.regMax) (d2 : 1 ≤ d.regFactor) (d3 : 0 < d.lsLower) (d4 : d.lsLower ≤ 1 / 4) (d5 : 3 ≤ d.lsUpper) (d6 : 1 < d.lsFactor)
    (d7 : 0 < d.costTol) (d8 : d.resetDuals = true) :
    ∃ zs, (Alternative (tripleProblem s normX normU) q.st.Z zs ∧ TripleMet s zs 0 ∧
        ∀ Z, Alternative (tripleProblem s normX normU) q.st.Z Z → TripleMet s Z 0 → tripleObjective s uref zs ≤ tripleObjective s uref Z) ∧
      ∃ (τ ρ γ r mp W : ℝ) (i j k l : ℤ), 0 < τ ∧ 0 < ρ ∧ 0 < γ ∧ 0 < r ∧ ∀ (o : Opts ℝ) (w1 w2 : ℝ),
      (d.checkBounds = true → Clears (tripleProblem s normX normU) W w1 w2) →
      o = { d with conTol := τ, initialPenalty := ρ, gradTol := γ, regInitial := 0, regMin := r, lsMax := i, maxInner := j, maxTotal := k,
                   maxOuter := l, maxPenalty := mp, stateMax := w1, controlMax := w2 } →
      ∀ fuel, ∃ q', AL.solve (alKernel (tripleProblem s normX normU)) alOps o (ILQR.solve (alKernel (tripleProblem s normX normU)) o (fuel + 1)) q
          = some q' ∧ q'.status = .kSolved ∧ Alternative (tripleProblem s normX normU) q.st.Z q'.st.Z ∧ TripleMet s q'.st.Z η ∧
        |tripleObjective s uref q'.st.Z - tripleObjective s uref zs| ≤ η ∧
        ∑ k ∈ Finset.range s.N, (zs.u k - q'.st.Z.u k) ⬝ᵥ (zs.u k - q'.st.Z.u k) ≤ η := by
  have hst : ∀ k ≤ s.N, (q.st.cs k).static = (tripleCosts s uref true k).static := fun k _ => by rw [hq]
  have hL := C102_linear_quadratic hw hst hμ.le normX normU
  have hpen : ∀ k ≤ s.N, (∀ v ∈ (q.st.cs k).eq, ∀ i, 0 < v.pen i) ∧ ∀ v ∈ (q.st.cs k).ineq, ∀ i, 0 < v.pen i := by
    intro k _
    rw [hq]
    constructor <;>
    · intro v hv i
      obtain ⟨c, -, rfl⟩ := List.mem_map.mp hv
      exact one_pos
  have hsc : ∀ k ≤ s.N, ScaleU (q.st.cs k) 10 := by
    intro k _
    rw [hq]
    constructor <;>
    · intro v hv
      obtain ⟨c, -, rfl⟩ := List.mem_map.mp hv
      rfl
  obtain ⟨z0, za, zg, zb⟩ := hz
  have hstrict : Strict (tripleProblem s normX normU) q.st.cs q.st.Z z0 := by
    rw [hq]
    refine ⟨za, (triple_eq_rows hd z0 fun a => a = 0).mpr fun i => ?_, (triple_ineq_rows hd z0 fun a => a < 0).mpr fun k hk j => ?_⟩
    · rw [zg, sub_self]
    · obtain ⟨a, b⟩ := abs_lt.mp (zb k hk j)
      exact ⟨by linarith, by linarith⟩
  have hη' : 0 < min η (μ * η) := lt_min hη (mul_pos hμ hη)
  obtain ⟨zs, hzs, τ, ρ, γ, r, mp, W, i, j, k, l, h1, h2, h3, h4, H⟩ := C96_solves (p := tripleProblem s normX normU) hμ hN (φ := 10) (by norm_num) d hη' q
    (triple_smooth hw hst hμ hpen normX normU q.st.Z) hsc hL.convexProblem (triple_strong hw hst hμ.le normX normU) hμ.le hstrict d1 d2 d3 d4 d5 d6 d7 d8
  have hobj := triple_objective (uref := uref) hw true normX normU
  refine ⟨zs, ⟨hzs.alt, ?_, fun Z hZ hm => ?_⟩, τ, ρ, γ, r, mp, W, i, j, k, l, h1, h2, h3, h4, fun o w1 w2 hc ho fuel => ?_⟩
  · have := hzs.sat
    rw [hq, satisfies_upTo] at this
    exact (triple_met hd zs 0 normX normU).mp this
  · have := hzs.best Z hZ (by rw [hq, satisfies_upTo]; exact (triple_met hd Z 0 normX normU).mpr hm)
    rwa [hq, hobj] at this
  · obtain ⟨q', r1, r2, r0, r3, r4, r5⟩ := H o w1 w2 hc ho fuel
    rw [hq] at r3 r4
    rw [hobj] at r4
    obtain ⟨m1, m2⟩ := (triple_met hd q'.st.Z _ normX normU).mp r3
    refine ⟨q', r1, r2, r0, ⟨fun i => (m1 i).trans (min_le_left _ _), fun k hk j => (m2 k hk j).trans (by have := min_le_left η (μ * η); linarith)⟩,
      r4.trans (min_le_left _ _), ?_⟩
    unfold controlDist at r5
    have hnn : 0 ≤ ∑ k ∈ Finset.range (tripleProblem s normX normU).N, (zs.u k - q'.st.Z.u k) ⬝ᵥ (zs.u k - q'.st.Z.u k) :=
      Finset.sum_nonneg fun k _ => nsq_nonneg _
    rw [Real.sq_sqrt hnn] at r5
    exact le_of_mul_le_mul_left (r5.trans (min_le_right _ _)) hμ

/-- Without constraints.  One solve of the inner solver returns an optimal trajectory, from every start. -/
theorem C102_unconstrained {μ : ℝ} (hμ : 0 < μ) (hw : TripleWeights s μ) (hN : s.N ≠ 0) (normX : (Fin (3 * dof) → ℝ) → ℝ)
    (normU : (Fin dof → ℝ) → ℝ) {o : Opts ℝ} (ho : LQOptions o) (fuel : ℕ)
    (q : St (Fin (3 * dof) → ℝ) (Fin dof → ℝ) ℝ (ALCost (3 * dof) dof ℝ) (KP (3 * dof) dof ℝ)) (hq : q.cs = tripleCosts s uref false)
    (htot : (q.stats.total : ℤ) + 1 < o.maxTotal) :
    ∃ t, ILQR.solve (alKernel (tripleProblem s normX normU)) o (fuel + 1) q = some t ∧ t.status = .kSolved ∧
      t.stats.total ≤ q.stats.total + 2 ∧ Alternative (tripleProblem s normX normU) q.Z t.Z ∧
      ∀ Z, Alternative (tripleProblem s normX normU) q.Z Z → tripleObjective s uref t.Z ≤ tripleObjective s uref Z := by
  have hst : ∀ k ≤ s.N, (q.cs k).static = (tripleCosts s uref false k).static := fun k _ => by rw [hq]
  have hL := C102_linear_quadratic hw hst hμ.le normX normU
  have he : ∀ k ≤ s.N, (q.cs k).eq = [] := fun k hk => List.eq_nil_iff_forall_not_mem.mpr fun v hv => by
    cases (triple_eqs hst hk hv).1
  have hi : ∀ k ≤ s.N, (q.cs k).ineq = [] := fun k hk => List.eq_nil_iff_forall_not_mem.mpr fun v hv => by
    cases (triple_ineqs hst hk hv).1.1
  have hE : LQEquality (tripleProblem s normX normU) q.cs := by
    refine ⟨hL.dyn, fun k hk => ⟨hi k hk, (hL.knot k hk).quad, (hL.knot k hk).conv, fun v hv => ?_⟩, fun k hk x u => ?_, hL.term, hL.termEq⟩
    · rw [he k hk] at hv; cases hv
    · rw [triple_stage hst hk]
      intro du hdu
      have h1 := hw.R du
      have h2 : 0 < du ⬝ᵥ du := by
        rcases (nsq_nonneg du).lt_or_eq with h | h
        · exact h
        · exact absurd (dotProduct_self_eq_zero.mp h.symm) hdu
      exact lt_of_lt_of_le (mul_pos hμ h2) h1
  obtain ⟨t, r1, r2, r3, r4⟩ := C80_inner (fuel := fuel) hE ho hN one_pos (fun k hk => ⟨fun v hv => (by rw [he k hk] at hv; cases hv),
    fun v hv => (by rw [hi k hk] at hv; cases hv)⟩) htot
  have hcost : ∀ Z, trajCost (tripleProblem s normX normU) q.cs Z = tripleObjective s uref Z := by
    intro Z
    rw [← triple_objective hw false normX normU]
    refine Finset.sum_congr rfl fun k hk => ?_
    have hk : k ≤ s.N := by have := Finset.mem_range.mp hk; show k ≤ (tripleProblem s normX normU).N; omega
    have e1 := he k hk
    have e2 := hi k hk
    rw [hq] at e1 e2
    rw [hq]
    simp [ALCost.evaluate, e1, e2]
  refine ⟨t, r1, r3, r4, r2.alt, fun Z hZ => ?_⟩
  rw [← hcost, ← hcost]
  exact r2.best Z hZ

/-! ### As it comes -/

/-- The default weights qualify. -/
theorem tripleDefault_weights (dof : ℕ) : TripleWeights (tripleDefault dof) 0.001 where
  symQ := isSymm_diagonal _
  symR := isSymm_diagonal _
  symQf := isSymm_diagonal _
  Q x := by
    show 0 ≤ x ⬝ᵥ (diagonal fun _ => (1 : ℝ)) *ᵥ x
    rw [diag_form]; exact mul_nonneg (by norm_num) (nsq_nonneg x)
  Qf x := by
    show 0 ≤ x ⬝ᵥ (diagonal fun _ => (1e5 : ℝ)) *ᵥ x
    rw [diag_form]; exact mul_nonneg (by norm_num) (nsq_nonneg x)
  R u := by
    show _ ≤ u ⬝ᵥ (diagonal fun _ => (0.001 : ℝ)) *ᵥ u
    rw [diag_form]

/-- Speed up, slow down, and the same backwards. -/
def jerk (k : ℕ) : ℚ := if k < 2 then 1 else if k = 2 then 0 else if k < 7 then -1 else if k = 7 then 0 else 1

/-- Acceleration, speed and position under `jerk` with unit steps. -/
def jerkSum : ℕ → ℚ × ℚ × ℚ
  | 0 => (0, 0, 0)
  | k + 1 => ((jerkSum k).1 + jerk k, (jerkSum k).2.1 + (jerkSum k).1 + jerk k / 2,
      (jerkSum k).2.2 + (jerkSum k).2.1 + (jerkSum k).1 / 2 + jerk k / 6)

theorem jerk_end : jerkSum 10 = (0, 0, 30) := by decide +kernel

theorem jerk_abs (k : ℕ) : |jerk k| ≤ 1 := by
  unfold jerk
  split_ifs <;> norm_num

/-- The default problem can be solved strictly inside the bounds if the time step is not too short; the default is `0.1`. -/
theorem C102_default_met (dof : ℕ) (normX : (Fin (3 * dof) → ℝ) → ℝ) (normU : (Fin dof → ℝ) → ℝ)
    (Y : Traj (Fin (3 * dof) → ℝ) (Fin dof → ℝ) ℝ) {h : ℝ} (hh : 0.09 ≤ h) (hY : ∀ k < 10, Y.h k = h) :
    ∃ Z, Alternative (tripleProblem (tripleDefault dof) normX normU) Y Z ∧ Z.x 10 = (tripleDefault dof).xf ∧
      ∀ k < 10, ∀ j, |Z.u k j| < (tripleDefault dof).ubnd j := by
  set p := tripleProblem (tripleDefault dof) normX normU
  have h0 : 0 < h := lt_of_lt_of_le (by norm_num) hh
  let c : Fin dof → ℝ := fun i => (i.val + 1) / (15 * h ^ 3)
  let U : ℕ → Fin dof → ℝ := fun k i => c i * jerk k
  refine ⟨drive p Y U, drive_alternative p Y U, ?_, fun k _ j => ?_⟩
  · have x0 : ∀ i : Fin dof, (tripleDefault dof).x0 (tiIx 0 i) = -(i.val + 1) ∧ (tripleDefault dof).x0 (tiIx 1 i) = 0 ∧
        (tripleDefault dof).x0 (tiIx 2 i) = 0 := fun i => by
      have := i.isLt
      refine ⟨?_, ?_, ?_⟩
      · simp [tripleDefault, tiIx]
      · simp [tripleDefault, tiIx]
      · simp [tripleDefault, tiIx]; omega
    have key : ∀ k ≤ 10, ∀ i, (drive p Y U).x k (tiIx 0 i) = -(i.val + 1) + c i * h ^ 3 * (jerkSum k).2.2 ∧
        (drive p Y U).x k (tiIx 1 i) = c i * h ^ 2 * (jerkSum k).2.1 ∧ (drive p Y U).x k (tiIx 2 i) = c i * h * (jerkSum k).1 := by
      intro k
      induction k with
      | zero =>
        intro _ i
        obtain ⟨a, b, d⟩ := x0 i
        refine ⟨?_, ?_, ?_⟩
        · show (tripleDefault dof).x0 _ = _
          rw [a]; simp [jerkSum]
        · show (tripleDefault dof).x0 _ = _
          rw [b]; simp [jerkSum]
        · show (tripleDefault dof).x0 _ = _
          rw [d]; simp [jerkSum]
      | succ k ih =>
        intro hk i
        obtain ⟨a, b, d⟩ := ih (by omega) i
        have e : (drive p Y U).x (k + 1) = (tripleIntegrator dof).rk4 ((drive p Y U).x k) (U k) (Y.t k) (Y.h k) := rfl
        obtain ⟨e1, e2, e3⟩ := C35_triple_integrator ((drive p Y U).x k) (U k) (Y.t k) (Y.h k) i
        rw [e, e1, e2, e3, a, b, d, hY k (by omega)]
        have eU : U k i = c i * jerk k := rfl
        rw [eU]
        simp only [jerkSum]
        push_cast
        refine ⟨by ring, by ring, by ring⟩
    refine ti_ext fun i => ?_
    obtain ⟨a, b, d⟩ := key 10 le_rfl i
    rw [a, b, d, jerk_end]
    have := i.isLt
    have hc : c i * h ^ 3 * 30 = 2 * (i.val + 1) := by
      show (i.val + 1) / (15 * h ^ 3) * h ^ 3 * 30 = 2 * ((i.val : ℝ) + 1)
      field_simp
      ring
    refine ⟨?_, ?_, ?_⟩
    · push_cast
      rw [hc]
      simp [tripleDefault, tiIx]
      ring
    · simp [tripleDefault, tiIx]
    · simp [tripleDefault, tiIx]; omega
  · show |c j * jerk k| < 100 * (j.val + 1)
    have hj : (0 : ℝ) < j.val + 1 := by positivity
    have hc : 0 < c j := by show 0 < (j.val + 1) / (15 * h ^ 3); positivity
    have h1 : |(jerk k : ℝ)| ≤ 1 := by exact_mod_cast jerk_abs k
    rw [abs_mul, abs_of_pos hc]
    refine lt_of_le_of_lt (mul_le_of_le_one_right hc.le h1) ?_
    show (j.val + 1) / (15 * h ^ 3) < 100 * ((j.val : ℝ) + 1)
    rw [div_lt_iff₀ (by positivity)]
    have h3 : (0.09 : ℝ) ^ 3 ≤ h ^ 3 := pow_le_pow_left₀ (by norm_num) hh 3
    nlinarith

/-- `InitialTrajectory` (problems/triple_integrator.hpp:95-100). -/
noncomputable def tripleTraj (N : ℕ) (h : ℝ) : Traj (Fin (3 * dof) → ℝ) (Fin dof → ℝ) ℝ where
  x _ := 0
  u _ := 0
  t k := k * h
  h k := if k < N then h else 0

/-- A new solver for the problem with this trajectory. -/
noncomputable def tripleStart (s : TripleFields dof) (uref : Fin dof → ℝ) (add : Bool) (h : ℝ) :
    ALSt (Fin (3 * dof) → ℝ) (Fin dof → ℝ) ℝ (ALCost (3 * dof) dof ℝ) (KP (3 * dof) dof ℝ) where
  st := { Z := tripleTraj s.N h, Zbar := tripleTraj s.N h, kd := fun _ => KP.new, cs := tripleCosts s uref add, costs := fun _ => 0,
          status := .kUnsolved, rho := 0, drho := 0, dV0 := 0, dV1 := 0, stats := Stats.new }
  status := .kUnsolved

/-- The example as it comes, for any number of joints and any contents of the uninitialised reference, with the default options except for
those that are tuned. -/
theorem C102_default (hd : 0 < dof) (uref : Fin dof → ℝ) (normX : (Fin (3 * dof) → ℝ) → ℝ) (normU : (Fin dof → ℝ) → ℝ) {h : ℝ} (hh : 0.09 ≤ h) {η : ℝ}
    (hη : 0 < η) :
    ∃ zs, (Alternative (tripleProblem (tripleDefault dof) normX normU) (tripleTraj 10 h) zs ∧ TripleMet (tripleDefault dof) zs 0 ∧
        ∀ Z, Alternative (tripleProblem (tripleDefault dof) normX normU) (tripleTraj 10 h) Z → TripleMet (tripleDefault dof) Z 0 →
          tripleObjective (tripleDefault dof) uref zs ≤ tripleObjective (tripleDefault dof) uref Z) ∧
      ∃ (τ ρ γ r mp W : ℝ) (i j k l : ℤ), 0 < τ ∧ 0 < ρ ∧ 0 < γ ∧ 0 < r ∧ ∀ (o : Opts ℝ) (w1 w2 : ℝ),
      Clears (tripleProblem (tripleDefault dof) normX normU) W w1 w2 →
      o = { Opts.default (fun q : ℚ => (q : ℝ)) with
                   conTol := τ, initialPenalty := ρ, gradTol := γ, regInitial := 0, regMin := r, lsMax := i, maxInner := j, maxTotal := k, maxOuter := l, maxPenalty := mp, stateMax := w1, controlMax := w2 } →
      ∀ fuel, ∃ q', AL.solve (alKernel (tripleProblem (tripleDefault dof) normX normU)) alOps o
          (ILQR.solve (alKernel (tripleProblem (tripleDefault dof) normX normU)) o (fuel + 1)) (tripleStart (tripleDefault dof) uref true h)
          = some q' ∧ q'.status = .kSolved ∧
        Alternative (tripleProblem (tripleDefault dof) normX normU) (tripleTraj 10 h) q'.st.Z ∧ TripleMet (tripleDefault dof) q'.st.Z η ∧
        |tripleObjective (tripleDefault dof) uref q'.st.Z - tripleObjective (tripleDefault dof) uref zs| ≤ η ∧
        ∑ k ∈ Finset.range 10, (zs.u k - q'.st.Z.u k) ⬝ᵥ (zs.u k - q'.st.Z.u k) ≤ η := by
  obtain ⟨zs, hzs, τ, ρ, γ, r, mp, W, i, j, k, l, h1, h2, h3, h4, H⟩ := C102_solves (uref := uref) (by norm_num) (tripleDefault_weights dof) hd
    (show (10 : ℕ) ≠ 0 by norm_num) normX normU (Opts.default fun q : ℚ => (q : ℝ)) hη (tripleStart (tripleDefault dof) uref true h) rfl
    (C102_default_met dof normX normU _ hh fun k hk => if_pos hk) (by simp only [Opts.default]; norm_num) (by simp only [Opts.default]; norm_num)
    (by simp only [Opts.default]; norm_num) (by simp only [Opts.default]; norm_num) (by simp only [Opts.default]; norm_num)
    (by simp only [Opts.default]; norm_num) (by simp only [Opts.default]; norm_num) rfl
  exact ⟨zs, hzs, τ, ρ, γ, r, mp, W, i, j, k, l, h1, h2, h3, h4, fun o w1 w2 hc ho fuel => H o w1 w2 (fun _ => hc) ho fuel⟩

/-- Without constraints, default options with the limits switched off: one solve is enough. -/
example (dof : ℕ) (uref : Fin dof → ℝ) (normX : (Fin (3 * dof) → ℝ) → ℝ) (normU : (Fin dof → ℝ) → ℝ) (h : ℝ) :
    ∃ t, ILQR.solve (alKernel (tripleProblem (tripleDefault dof) normX normU)) { Opts.default (fun q : ℚ => (q : ℝ)) with checkBounds := false } 1
        (tripleStart (tripleDefault dof) uref false h).st = some t ∧ t.status = .kSolved ∧ t.stats.total ≤ 2 := by
  obtain ⟨t, r1, r2, r3, -⟩ := C102_unconstrained (uref := uref) (by norm_num) (tripleDefault_weights dof) (show (10 : ℕ) ≠ 0 by norm_num) normX normU
    (o := { Opts.default (fun q : ℚ => (q : ℝ)) with checkBounds := false })
    (by constructor <;> simp only [Opts.default] <;> norm_num) 0 (tripleStart (tripleDefault dof) uref false h).st rfl
    (by show ((0 : ℕ) : ℤ) + 1 < _; simp only [Opts.default]; norm_num)
  exact ⟨t, r1, r2, by simpa [tripleStart, Stats.new] using r3⟩

end solves102

end Altro.Props
