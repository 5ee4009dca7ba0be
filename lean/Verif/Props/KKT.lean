import Verif.Proofs.KKT
import Verif.Props.Descent

/-!
# C67: fixed points of the augmented Lagrangian iteration are Karush-Kuhn-Tucker points
-/

namespace Altro
open Spec Matrix Props
variable {n m : ℕ} {κ : ConKind}

theorem ConVal.history_pen_pos (con : Con n m ℝ) (ops : List (ConOp n m ℝ)) (hpen : ∀ r, .setPenalty r ∈ ops → 0 < r)
    (hscal : ∀ r, .setScaling r ∈ ops → 0 < r) : ∀ i, 0 < (ConVal.history κ con ops).pen i := by
  have : ∀ (ops : List (ConOp n m ℝ)) (v : ConVal κ n m ℝ), (∀ r, .setPenalty r ∈ ops → 0 < r) →
      (∀ r, .setScaling r ∈ ops → 0 < r) → (∀ i, 0 < v.pen i) → 0 < v.scaling →
      ∀ i, 0 < (ops.foldl ConOp.apply v).pen i := by
    intro ops
    induction ops with
    | nil => intro v _ _ h _; exact h
    | cons op ops ih =>
      intro v hp hs h hsc
      have hp' : ∀ r, .setPenalty r ∈ ops → 0 < r := fun r hr => hp r (by simp [hr])
      have hs' : ∀ r, .setScaling r ∈ ops → 0 < r := fun r hr => hs r (by simp [hr])
      cases op with
      | updatePenalties => exact ih v.updatePenalties hp' hs' (fun i => mul_pos (h i) hsc) hsc
      | setPenalty r => exact ih (v.setPenalty r) hp' hs' (fun _ => hp r (by simp)) hsc
      | setScaling r => exact ih (v.setPenaltyScaling r) hp' hs' h (hs r (by simp))
      | augLag x u => exact ih (v.augLag x u).2 hp' hs' h hsc
      | gradient x u => exact ih (v.augLagGradient x u).2 hp' hs' h hsc
      | hessian x u => exact ih (v.augLagHessian x u).2 hp' hs' h hsc
      | updateDuals => exact ih v.updateDuals hp' hs' h hsc
      | resetDuals => exact ih v.resetDuals hp' hs' h hsc
  exact this ops _ hpen hscal (fun _ => one_pos) (by show (0 : ℝ) < 10; norm_num)

end Altro

namespace Altro.Props
open Altro.Spec Matrix ILQR
variable {n m : ℕ} {κ : ConKind}

/-- What is known of a constraint object after any sequence of calls that sets positive penalties, when the user's
Jacobian is right at `(x, u)`. -/
structure Ready (x : Fin n → ℝ) (u : Fin m → ℝ) (v : ConVal κ n m ℝ) : Prop where
  buf : v.BufOk
  uniform : v.Uniform
  pos : ∀ i, 0 < v.pen i
  jac : IsJacAt v.con.eval (v.con.jac x u) x u
  dual : DualFeasible κ v.lam

/-- The problem data report their derivatives along `Z`, and the constraint objects are ready. -/
structure ReadyAt (p : DynProblem n m ℝ) (cs : ℕ → ALCost n m ℝ) (Z : Traj (Fin n → ℝ) (Fin m → ℝ) ℝ) : Prop where
  dyn : ∀ k < p.N, IsJacAt (fun x u => p.f k x u (Z.t k) (Z.h k))
    (fromCols (p.jac k (Z.x k) (Z.u k) (Z.t k) (Z.h k)).1 (p.jac k (Z.x k) (Z.u k) (Z.t k) (Z.h k)).2) (Z.x k) (Z.u k)
  cost : ∀ k ≤ p.N, IsGradAt (cs k).cost.eval ((cs k).cost.grad (Z.x k) (Z.u k)).1
    ((cs k).cost.grad (Z.x k) (Z.u k)).2 (Z.x k) (Z.u k)
  eq : ∀ k ≤ p.N, ∀ v ∈ (cs k).eq, Ready (Z.x k) (Z.u k) v
  ineq : ∀ k ≤ p.N, ∀ v ∈ (cs k).ineq, Ready (Z.x k) (Z.u k) v

theorem ready_history (con : Con n m ℝ) (ops : List (ConOp n m ℝ)) (hpen : ∀ r, .setPenalty r ∈ ops → 0 < r)
    (hscal : ∀ r, .setScaling r ∈ ops → 0 < r) (x : Fin n → ℝ) (u : Fin m → ℝ)
    (hJ : IsJacAt con.eval (con.jac x u) x u) : Ready x u (ConVal.history κ con ops) where
  buf := ConVal.history_bufOk con ops
  uniform := ConVal.history_uniform con ops
  pos := ConVal.history_pen_pos con ops hpen hscal
  jac := by rw [C06_history_con con ops]; exact hJ
  dual := by
    cases κ
    · trivial
    · exact C05_duals_feasible con ops

/-- The augmented costs that the solver holds (any calls since construction, positive penalties, `ops k` for knot point
`k`) are ready wherever the user's derivatives are right. -/
theorem readyAt_history (p : DynProblem n m ℝ) (cost : ℕ → CostFun n m ℝ) (eqs ineqs : ℕ → List (Con n m ℝ))
    (ops : ℕ → List (ConOp n m ℝ)) (Z : Traj (Fin n → ℝ) (Fin m → ℝ) ℝ)
    (hpen : ∀ k r, .setPenalty r ∈ ops k → 0 < r) (hscal : ∀ k r, .setScaling r ∈ ops k → 0 < r)
    (hdyn : ∀ k < p.N, IsJacAt (fun x u => p.f k x u (Z.t k) (Z.h k))
      (fromCols (p.jac k (Z.x k) (Z.u k) (Z.t k) (Z.h k)).1 (p.jac k (Z.x k) (Z.u k) (Z.t k) (Z.h k)).2)
      (Z.x k) (Z.u k))
    (hcost : ∀ k ≤ p.N, IsGradAt (cost k).eval ((cost k).grad (Z.x k) (Z.u k)).1
      ((cost k).grad (Z.x k) (Z.u k)).2 (Z.x k) (Z.u k))
    (heq : ∀ k ≤ p.N, ∀ c ∈ eqs k, IsJacAt c.eval (c.jac (Z.x k) (Z.u k)) (Z.x k) (Z.u k))
    (hineq : ∀ k ≤ p.N, ∀ c ∈ ineqs k, IsJacAt c.eval (c.jac (Z.x k) (Z.u k)) (Z.x k) (Z.u k)) :
    ReadyAt p (fun k => ALCost.history (cost k) (eqs k) (ineqs k) (ops k)) Z where
  dyn := hdyn
  cost k hk := by rw [ALCost.history_cost]; exact hcost k hk
  eq k hk v hv := by
    rw [ALCost.history_eq] at hv
    obtain ⟨c, hc, rfl⟩ := List.mem_map.mp hv
    exact ready_history c (ops k) (hpen k) (hscal k) _ _ (heq k hk c hc)
  ineq k hk v hv := by
    rw [ALCost.history_ineq] at hv
    obtain ⟨c, hc, rfl⟩ := List.mem_map.mp hv
    exact ready_history c (ops k) (hpen k) (hscal k) _ _ (hineq k hk c hc)

section
variable {p : DynProblem n m ℝ} {cs : ℕ → ALCost n m ℝ} {Z : Traj (Fin n → ℝ) (Fin m → ℝ) ℝ}

/-- A carrier of first derivatives. -/
noncomputable def withGrad (p : DynProblem n m ℝ) (Z : Traj (Fin n → ℝ) (Fin m → ℝ) ℝ)
    (g : ℕ → (Fin n → ℝ) × (Fin m → ℝ)) (k : ℕ) : KP n m ℝ :=
  { (KP.new : KP n m ℝ) with
    A := (p.jac k (Z.x k) (Z.u k) (Z.t k) (Z.h k)).1
    B := (p.jac k (Z.x k) (Z.u k) (Z.t k) (Z.h k)).2
    cost := ⟨0, 0, 0, (g k).1, (g k).2⟩ }

theorem ready_gradient (c : ALCost n m ℝ) (x : Fin n → ℝ) (u : Fin m → ℝ)
    (hc : IsGradAt c.cost.eval (c.cost.grad x u).1 (c.cost.grad x u).2 x u)
    (he : ∀ v ∈ c.eq, Ready x u v) (hi : ∀ v ∈ c.ineq, Ready x u v) :
    IsGradAt (fun x u => (c.evaluate x u).1) (c.gradient x u).1.1 (c.gradient x u).1.2 x u := by
  have hd : ∀ {κ : ConKind} (v : ConVal κ n m ℝ), Ready x u v → DiffReady x u v :=
    fun v h => ⟨h.buf, (h.pos ⟨0, v.con.hp⟩).ne', h.jac⟩
  have g1 := foldl_grad_isGradAt c.eq (fun v x u => (v.augLag x u).1) (fun v => (v.augLagGradient x u).1) x u
    (fun v hv => diffReady_isGradAt x u v (hd v (he v hv))) c.cost.eval (c.cost.grad x u) hc
  have g2 := foldl_grad_isGradAt c.ineq (fun v x u => (v.augLag x u).1) (fun v => (v.augLagGradient x u).1) x u
    (fun v hv => diffReady_isGradAt x u v (hd v (hi v hv))) _ _ g1
  refine g2.congr (fun x' u' => ?_) ?_ ?_
  · simp only [ALCost.evaluate, List.foldl_map]
  · simp only [ALCost.gradient, List.foldl_map]
  · simp only [ALCost.gradient, List.foldl_map]

/-- One knot point's costs after its constraint values have been evaluated on `Z` and its multipliers updated
(al_cost.hpp:264-274, 314-321). -/
noncomputable def updatedAt (cs : ℕ → ALCost n m ℝ) (Z : Traj (Fin n → ℝ) (Fin m → ℝ) ℝ) (k : ℕ) : ALCost n m ℝ :=
  ((cs k).evaluate (Z.x k) (Z.u k)).2.updateDuals

theorem updatedAt_eq (k : ℕ) : (updatedAt cs Z k).eq = (cs k).eq.map fun v => (v.evalC (Z.x k) (Z.u k)).updateDuals := by
  simp [updatedAt, ALCost.evaluate, ALCost.updateDuals, ConVal.augLag, Function.comp_def]

theorem updatedAt_ineq (k : ℕ) :
    (updatedAt cs Z k).ineq = (cs k).ineq.map fun v => (v.evalC (Z.x k) (Z.u k)).updateDuals := by
  simp [updatedAt, ALCost.evaluate, ALCost.updateDuals, ConVal.augLag, Function.comp_def]

/-- The reported gradient of the augmented Lagrangian is the gradient of the Lagrangian with the multipliers that the
next dual update produces. -/
theorem gradient_eq_lagGrad_updated (h : ReadyAt p cs Z) (k : ℕ) (hk : k ≤ p.N) :
    ((cs k).gradient (Z.x k) (Z.u k)).1 = lagGrad (updatedAt cs Z k) (Z.x k) (Z.u k) := by
  have key : ∀ {κ : ConKind} (v : ConVal κ n m ℝ), Ready (Z.x k) (Z.u k) v →
      (v.augLagGradient (Z.x k) (Z.u k)).1
        = ((v.evalC (Z.x k) (Z.u k)).updateDuals).lagGrad (Z.x k) (Z.u k) := by
    intro κ v hv
    obtain ⟨e1, e2⟩ := gradient_eq_of_uniform v (Z.x k) (Z.u k) hv.buf hv.uniform
    exact Prod.ext e1 e2
  have fold : ∀ {κ : ConKind} (l : List (ConVal κ n m ℝ)) (g : (Fin n → ℝ) × (Fin m → ℝ)),
      (∀ v ∈ l, Ready (Z.x k) (Z.u k) v) →
      l.foldl (fun g v => (g.1 + (v.augLagGradient (Z.x k) (Z.u k)).1.1,
          g.2 + (v.augLagGradient (Z.x k) (Z.u k)).1.2)) g
        = (l.map fun v => (v.evalC (Z.x k) (Z.u k)).updateDuals).foldl
          (fun g v => (g.1 + (v.lagGrad (Z.x k) (Z.u k)).1, g.2 + (v.lagGrad (Z.x k) (Z.u k)).2)) g := by
    intro κ l
    induction l with
    | nil => intro g _; rfl
    | cons a l ih =>
      intro g hl
      rw [List.map_cons, List.foldl_cons, List.foldl_cons, key a (hl a (by simp))]
      exact ih _ fun v hv => hl v (by simp [hv])
  have hcost : (updatedAt cs Z k).cost = (cs k).cost := rfl
  unfold ALCost.gradient lagGrad
  dsimp only
  rw [List.foldl_map, List.foldl_map, updatedAt_eq, updatedAt_ineq, hcost, fold _ _ (h.eq k hk), fold _ _ (h.ineq k hk)]

theorem firstOrder_aug (h : ReadyAt p cs Z) :
    FirstOrder p cs Z (withGrad p Z fun k => ((cs k).gradient (Z.x k) (Z.u k)).1) where
  dyn := h.dyn
  cost k hk := ready_gradient _ _ _ (h.cost k hk) (h.eq k hk) (h.ineq k hk)

/-- **C67**, stationarity.  At any dynamically feasible trajectory, the augmented cost is stationary exactly when the
Lagrangian *with the multipliers produced by the next dual update* is. -/
theorem C67_updated_multipliers (h : ReadyAt p cs Z) (hZ : DynFeasible (alKernel p) Z) :
    Stationary p cs Z ↔ StationaryOf p (fun k => lagrangian (updatedAt cs Z k)) Z := by
  have hJ : ∀ {κ : ConKind} (k : ℕ) (l : List (ConVal κ n m ℝ)), (∀ v ∈ l, Ready (Z.x k) (Z.u k) v) →
      ∀ v ∈ l.map fun v => (v.evalC (Z.x k) (Z.u k)).updateDuals,
        IsJacAt v.con.eval (v.con.jac (Z.x k) (Z.u k)) (Z.x k) (Z.u k) := by
    intro κ k l hl v hv
    obtain ⟨w, hw, rfl⟩ := List.mem_map.mp hv
    exact (hl w hw).jac
  have hL : FirstOrderOf p (fun k => lagrangian (updatedAt cs Z k)) Z
      (withGrad p Z fun k => ((cs k).gradient (Z.x k) (Z.u k)).1) := by
    refine ⟨h.dyn, fun k hk => ?_⟩
    have := lagrangian_isGradAt (updatedAt cs Z k) (Z.x k) (Z.u k) (h.cost k hk)
      (by rw [updatedAt_eq]; exact hJ k _ (h.eq k hk)) (by rw [updatedAt_ineq]; exact hJ k _ (h.ineq k hk))
    rw [← gradient_eq_lagGrad_updated h k hk] at this
    exact this
  exact (stationary_iff_grad (firstOrder_aug h) hZ).trans (stationary_iff_grad hL hZ).symm

/-- The Lagrangian with the current multipliers, where a dual update changes none of them. -/
theorem lagrangian_settled (hd : DualsSettled p cs Z) (k : ℕ) (hk : k ≤ p.N) :
    lagrangian (updatedAt cs Z k) = lagrangian (cs k) := by
  funext x u
  unfold lagrangian
  rw [updatedAt_eq, updatedAt_ineq, List.map_map, List.map_map]
  have he : List.map ((fun v : ConVal .equality n m ℝ => v.lam ⬝ᵥ v.con.eval x u) ∘
      fun v => (v.evalC (Z.x k) (Z.u k)).updateDuals) (cs k).eq
      = List.map (fun v => v.lam ⬝ᵥ v.con.eval x u) (cs k).eq := by
    refine List.map_congr_left fun v hv => ?_
    show (v.evalC (Z.x k) (Z.u k)).updateDuals.lam ⬝ᵥ v.con.eval x u = _
    rw [hd.eq k hk v hv]
    rfl
  have hi : List.map ((fun v : ConVal .inequality n m ℝ => v.lam ⬝ᵥ v.con.eval x u) ∘
      fun v => (v.evalC (Z.x k) (Z.u k)).updateDuals) (cs k).ineq
      = List.map (fun v => v.lam ⬝ᵥ v.con.eval x u) (cs k).ineq := by
    refine List.map_congr_left fun v hv => ?_
    show (v.evalC (Z.x k) (Z.u k)).updateDuals.lam ⬝ᵥ v.con.eval x u = _
    rw [hd.ineq k hk v hv]
    rfl
  rw [he, hi]
  rfl

theorem stationaryOf_congr {ℓ ℓ' : ℕ → (Fin n → ℝ) → (Fin m → ℝ) → ℝ} (h : ∀ k ≤ p.N, ℓ k = ℓ' k) :
    StationaryOf p ℓ Z ↔ StationaryOf p ℓ' Z := by
  have : controlCostOf p ℓ Z = controlCostOf p ℓ' Z := by
    funext u
    refine Finset.sum_congr rfl fun k hk => ?_
    rw [h k (by have := Finset.mem_range.mp hk; omega)]
  unfold StationaryOf
  rw [this]

/-- A dual update changes nothing exactly when the constraints hold with complementary slackness. -/
theorem settled_iff (h : ReadyAt p cs Z) : DualsSettled p cs Z ↔ Satisfies p cs Z ∧
    ∀ k ≤ p.N, ∀ v ∈ (cs k).ineq, ∀ i, v.lam i * v.con.eval (Z.x k) (Z.u k) i = 0 := by
  constructor
  · intro hd
    refine ⟨⟨fun k hk v hv i => ?_, fun k hk v hv i => ?_⟩, fun k hk v hv i => ?_⟩
    · exact ((C06_update_fixed_iff (v.evalC (Z.x k) (Z.u k)) (h.eq k hk v hv).pos (h.eq k hk v hv).dual).mp
        (hd.eq k hk v hv)).1 i
    · exact ((C06_update_fixed_iff (v.evalC (Z.x k) (Z.u k)) (h.ineq k hk v hv).pos (h.ineq k hk v hv).dual).mp
        (hd.ineq k hk v hv)).1 i
    · rcases ((C06_update_fixed_iff (v.evalC (Z.x k) (Z.u k)) (h.ineq k hk v hv).pos (h.ineq k hk v hv).dual).mp
        (hd.ineq k hk v hv)).2 i with e | e
      · exact e
      · exact absurd e (by decide)
  · rintro ⟨hs, hc⟩
    refine ⟨fun k hk v hv => ?_, fun k hk v hv => ?_⟩
    · exact (C06_update_fixed_iff (v.evalC (Z.x k) (Z.u k)) (h.eq k hk v hv).pos (h.eq k hk v hv).dual).mpr
        ⟨hs.eq k hk v hv, fun _ => .inr rfl⟩
    · exact (C06_update_fixed_iff (v.evalC (Z.x k) (Z.u k)) (h.ineq k hk v hv).pos (h.ineq k hk v hv).dual).mpr
        ⟨hs.ineq k hk v hv, fun i => .inl (hc k hk v hv i)⟩

/-- **C67.**  A dynamically feasible trajectory is a fixed point of the augmented Lagrangian iteration (the augmented
cost is stationary and the dual update changes no multiplier) exactly when it is a Karush-Kuhn-Tucker point with the
current multipliers. -/
theorem C67_fixed_point_iff_kkt (h : ReadyAt p cs Z) (hZ : DynFeasible (alKernel p) Z) :
    (Stationary p cs Z ∧ DualsSettled p cs Z) ↔ KKT p cs Z := by
  constructor
  · rintro ⟨hs, hd⟩
    obtain ⟨h1, h2⟩ := (settled_iff h).mp hd
    refine ⟨hZ.init, hZ.step, h1, ?_, fun k hk v hv => (h.ineq k hk v hv).dual, h2⟩
    exact (stationaryOf_congr (lagrangian_settled hd)).mp ((C67_updated_multipliers h hZ).mp hs)
  · intro hk
    have hd := (settled_iff h).mpr ⟨hk.primal, hk.slack⟩
    exact ⟨(C67_updated_multipliers h hZ).mpr ((stationaryOf_congr (lagrangian_settled hd)).mpr hk.stationary), hd⟩

/-- **C67**, in terms of what the solver measures: after expansions and a backward pass that did not give up, the
gradient measure of the iteration is zero and the dual update would change nothing exactly at Karush-Kuhn-Tucker
points. -/
theorem C67_solver (o : Opts ℝ) (fuel : ℕ) (hN : p.N ≠ 0)
    (s s1 : St (Fin n → ℝ) (Fin m → ℝ) ℝ (ALCost n m ℝ) (KP n m ℝ)) (h : ReadyAt p s.cs s.Z)
    (hsym : ∀ k ≤ p.N, ((s.cs k).cost.hess (s.Z.x k) (s.Z.u k)).dxdx.IsSymm ∧
      ((s.cs k).cost.hess (s.Z.x k) (s.Z.u k)).dudu.IsSymm)
    (hZ : DynFeasible (alKernel p) s.Z)
    (hb : backwardPass (alKernel p) o fuel (updateExpansions (alKernel p) s) = some s1)
    (hst : s1.status ≠ .kBackwardPassRegularizationFailed) :
    (normalizedGain (alKernel p) (forwardPass (alKernel p) o s1) = 0 ∧ DualsSettled p s.cs s.Z) ↔ KKT p s.cs s.Z := by
  have hD : ReportsDerivatives p s := ⟨h.dyn, (firstOrder_aug h).cost, hsym⟩
  rw [C65_gradient_measure p o fuel hN s s1 hD hZ hb hst]
  exact C67_fixed_point_iff_kkt h hZ

/-- **C67**, convex problems: the objective of a Karush-Kuhn-Tucker trajectory is minimal among all trajectories on the
same time grid that obey the dynamics and the constraints.  (The control of the last knot point, which drives no
segment, is held fixed.) -/
theorem C67_convex_optimal (h : ReadyAt p cs Z) (hk : KKT p cs Z) (hc : ConvexFrom p cs Z)
    (Z' : Traj (Fin n → ℝ) (Fin m → ℝ) ℝ) (ha : Alternative p Z Z') (hs : Satisfies p cs Z')
    (hu : Z'.u p.N = Z.u p.N) : objective p cs Z ≤ objective p cs Z' := by
  have hZ : DynFeasible (alKernel p) Z := ⟨hk.init, hk.step⟩
  -- sums over the constraints
  have sum_le : ∀ {α : Type} (l : List α) (f g : α → ℝ), (∀ v ∈ l, f v ≤ g v) → (l.map f).sum ≤ (l.map g).sum := by
    intro α l f g hfg
    exact List.sum_le_sum hfg
  -- the Lagrangian is below its value elsewhere, to first order
  have hlow : ∀ k ≤ p.N, lagrangian (cs k) (Z.x k) (Z.u k)
      + ((lagGrad (cs k) (Z.x k) (Z.u k)).1 ⬝ᵥ (Z'.x k - Z.x k) + (lagGrad (cs k) (Z.x k) (Z.u k)).2 ⬝ᵥ (Z'.u k - Z.u k))
      ≤ lagrangian (cs k) (Z'.x k) (Z'.u k) := by
    intro k hk'
    have e1 : Z.x k + (Z'.x k - Z.x k) = Z'.x k := by abel
    have e2 : Z.u k + (Z'.u k - Z.u k) = Z'.u k := by abel
    have c0 := hc.cost k hk' (Z'.x k - Z.x k) (Z'.u k - Z.u k)
    rw [e1, e2] at c0
    have c1 : ((cs k).eq.map fun v => v.lam ⬝ᵥ v.con.eval (Z'.x k) (Z'.u k)).sum
        ≤ ((cs k).eq.map fun v => v.lam ⬝ᵥ v.con.eval (Z.x k) (Z.u k)
          + v.lam ⬝ᵥ (v.con.jac (Z.x k) (Z.u k) *ᵥ Sum.elim (Z'.x k - Z.x k) (Z'.u k - Z.u k))).sum := by
      refine sum_le _ _ _ fun v hv => le_of_eq ?_
      rw [← dotProduct_add]
      congr 1
      funext i
      have := hc.eq k hk' v hv (Z'.x k - Z.x k) (Z'.u k - Z.u k) i
      rwa [e1, e2] at this
    have c2 : ((cs k).ineq.map fun v => v.lam ⬝ᵥ v.con.eval (Z'.x k) (Z'.u k)).sum
        ≤ ((cs k).ineq.map fun v => v.lam ⬝ᵥ v.con.eval (Z.x k) (Z.u k)
          + v.lam ⬝ᵥ (v.con.jac (Z.x k) (Z.u k) *ᵥ Sum.elim (Z'.x k - Z.x k) (Z'.u k - Z.u k))).sum := by
      refine sum_le _ _ _ fun v hv => ?_
      rw [← dotProduct_add]
      refine Finset.sum_le_sum fun i _ => ?_
      have := hc.ineq k hk' v hv (Z'.x k - Z.x k) (Z'.u k - Z.u k) i
      rw [e1, e2] at this
      exact mul_le_mul_of_nonpos_left this (hk.dual k hk' v hv i)
    rw [List.sum_map_add] at c1 c2
    rw [lagGrad_dot]
    unfold lagrangian
    linarith
  -- stationarity removes the first-order terms
  have hL : FirstOrderOf p (fun k => lagrangian (cs k)) Z (withGrad p Z fun k => lagGrad (cs k) (Z.x k) (Z.u k)) :=
    ⟨h.dyn, fun k hk' => lagrangian_isGradAt _ _ _ (h.cost k hk') (fun v hv => (h.eq k hk' v hv).jac)
      fun v hv => (h.ineq k hk' v hv).jac⟩
  have hg := (stationary_iff_grad hL hZ).mp hk.stationary
  have hsum : ∑ k ∈ Finset.range (p.N + 1), ((lagGrad (cs k) (Z.x k) (Z.u k)).1 ⬝ᵥ (Z'.x k - Z.x k)
      + (lagGrad (cs k) (Z.x k) (Z.u k)).2 ⬝ᵥ (Z'.u k - Z.u k)) = 0 := by
    have := adjoint_sum p.N (withGrad p Z fun k => lagGrad (cs k) (Z.x k) (Z.u k))
      (adj (withGrad p Z fun k => lagGrad (cs k) (Z.x k) (Z.u k)) p.N) (fun k => Z'.x k - Z.x k)
      (fun k => Z'.u k - Z.u k) (adj_N _ _) (by rw [ha.init, hk.init, sub_self]) (by rw [hu, sub_self])
      (fun k hk' => by
        have e := hc.dyn k hk' (Z'.x k - Z.x k) (Z'.u k - Z.u k)
        rw [add_sub_cancel, add_sub_cancel] at e
        rw [ha.step k hk', hk.step k hk', e]
        show _ = (p.jac k (Z.x k) (Z.u k) (Z.t k) (Z.h k)).1 *ᵥ (Z'.x k - Z.x k)
          + (p.jac k (Z.x k) (Z.u k) (Z.t k) (Z.h k)).2 *ᵥ (Z'.u k - Z.u k)
        abel)
    refine this.trans (Finset.sum_eq_zero fun k hk' => ?_)
    have hk' := Finset.mem_range.mp hk'
    rw [← adj_step _ hk', add_sub_cancel_left]
    have := hg k hk'
    unfold grad at this
    rw [this, zero_dotProduct]
  -- the multiplier terms
  have hZL : ∀ k ≤ p.N, lagrangian (cs k) (Z.x k) (Z.u k) = (cs k).cost.eval (Z.x k) (Z.u k) := by
    intro k hk'
    unfold lagrangian
    have s1 : ((cs k).eq.map fun v => v.lam ⬝ᵥ v.con.eval (Z.x k) (Z.u k)).sum = 0 := by
      refine List.sum_eq_zero fun a ha' => ?_
      obtain ⟨v, hv, rfl⟩ := List.mem_map.mp ha'
      exact Finset.sum_eq_zero fun i _ => by rw [hk.primal.eq k hk' v hv i, mul_zero]
    have s2 : ((cs k).ineq.map fun v => v.lam ⬝ᵥ v.con.eval (Z.x k) (Z.u k)).sum = 0 := by
      refine List.sum_eq_zero fun a ha' => ?_
      obtain ⟨v, hv, rfl⟩ := List.mem_map.mp ha'
      exact Finset.sum_eq_zero fun i _ => hk.slack k hk' v hv i
    rw [s1, s2, sub_zero, sub_zero]
  have hZ'L : ∀ k ≤ p.N, lagrangian (cs k) (Z'.x k) (Z'.u k) ≤ (cs k).cost.eval (Z'.x k) (Z'.u k) := by
    intro k hk'
    unfold lagrangian
    have s1 : ((cs k).eq.map fun v => v.lam ⬝ᵥ v.con.eval (Z'.x k) (Z'.u k)).sum = 0 := by
      refine List.sum_eq_zero fun a ha' => ?_
      obtain ⟨v, hv, rfl⟩ := List.mem_map.mp ha'
      exact Finset.sum_eq_zero fun i _ => by rw [hs.eq k hk' v hv i, mul_zero]
    have s2 : 0 ≤ ((cs k).ineq.map fun v => v.lam ⬝ᵥ v.con.eval (Z'.x k) (Z'.u k)).sum := by
      refine List.sum_nonneg fun a ha' => ?_
      obtain ⟨v, hv, rfl⟩ := List.mem_map.mp ha'
      exact Finset.sum_nonneg fun i _ => mul_nonneg_of_nonpos_of_nonpos (hk.dual k hk' v hv i) (hs.ineq k hk' v hv i)
    rw [s1]
    linarith
  have hle : ∀ k ∈ Finset.range (p.N + 1), (cs k).cost.eval (Z.x k) (Z.u k)
      + ((lagGrad (cs k) (Z.x k) (Z.u k)).1 ⬝ᵥ (Z'.x k - Z.x k)
        + (lagGrad (cs k) (Z.x k) (Z.u k)).2 ⬝ᵥ (Z'.u k - Z.u k)) ≤ (cs k).cost.eval (Z'.x k) (Z'.u k) := by
    intro k hk'
    have hk' : k ≤ p.N := by have := Finset.mem_range.mp hk'; omega
    have a := hlow k hk'
    rw [hZL k hk'] at a
    exact a.trans (hZ'L k hk')
  have := Finset.sum_le_sum hle
  rw [Finset.sum_add_distrib, hsum, add_zero] at this
  exact this

end

/-! ## A concrete case: reach `x ≥ 1` in one step `x + u` with `u ≤ 2`, cost `u²/2` -/

namespace KKTDemo

/-- The problem. -/
noncomputable def prob : DynProblem 1 1 ℝ where
  N := 1
  x0 := 0
  f := fun _ x u _ _ => fun _ => x 0 + u 0
  jac := fun _ _ _ _ _ => (1, of fun _ _ => 1)
  normX := fun x => |x 0|
  normU := fun u => |u 0|

/-- No terminal cost. -/
noncomputable def none : CostFun 1 1 ℝ where
  eval := fun _ _ => 0
  grad := fun _ _ => (0, 0)
  hess := fun _ _ => { dxdx := 0, dxdu := 0, dudu := 0 }

/-- `1 - x ≤ 0`. -/
def reach : Con 1 1 ℝ where
  p := 1
  hp := by decide
  eval := fun x _ _ => 1 - x 0
  jac := fun _ _ _ j => Sum.elim (fun _ => -1) (fun _ => 0) j

/-- `u - 2 ≤ 0`. -/
def limit : Con 1 1 ℝ where
  p := 1
  hp := by decide
  eval := fun _ u _ => u 0 - 2
  jac := fun _ _ _ j => Sum.elim (fun _ => 0) (fun _ => 1) j

theorem reach_jac (x u : Fin 1 → ℝ) : IsJacAt reach.eval (reach.jac x u) x u := fun _ => by
  have := (IsGradAt.const 1 x u).add (DescentDemo.coordX x u).neg
  refine this.congr (fun _ _ => ?_) ?_ ?_
  · simp [reach, sub_eq_add_neg]
  · funext j; simp [reach]
  · funext j; simp [reach]

theorem limit_jac (x u : Fin 1 → ℝ) : IsJacAt limit.eval (limit.jac x u) x u := fun _ => by
  have := (DescentDemo.coordU x u).add (IsGradAt.const (-2) x u)
  refine this.congr (fun _ _ => ?_) ?_ ?_
  · simp [limit, sub_eq_add_neg]
  · funext j; simp [limit]
  · funext j; simp [limit]

/-- The augmented costs after one evaluation at rest and one dual update: multipliers `0` and `-1`. -/
noncomputable def costs (k : ℕ) : ALCost 1 1 ℝ :=
  ALCost.history (if k < 1 then DescentDemo.stage else none) [] [if k < 1 then limit else reach]
    [.augLag (fun _ => 0) (fun _ => 0), .updateDuals]

/-- The solution: control `1`. -/
noncomputable def sol : Traj (Fin 1 → ℝ) (Fin 1 → ℝ) ℝ :=
  ⟨fun k _ => if k = 0 then 0 else 1, fun k _ => if k = 0 then 1 else 0, fun _ => 0, fun _ => 0⟩

theorem feasible : DynFeasible (alKernel prob) sol where
  init := by funext i; simp [sol, alKernel, prob]
  step k hk := by
    have : k = 0 := by have : k < 1 := hk; omega
    subst this
    funext i; simp [alKernel, prob, sol]

theorem ready : ReadyAt prob costs sol := by
  refine readyAt_history prob (fun k => if k < 1 then DescentDemo.stage else none) (fun _ => [])
    (fun k => [if k < 1 then limit else reach]) (fun _ => [.augLag (fun _ => 0) (fun _ => 0), .updateDuals]) sol
    (by simp) (by simp) (fun k _ i => ?_) (fun k _ => ?_) (by simp) (fun k _ c hc => ?_)
  · have h1 := (DescentDemo.coordX (sol.x k) (sol.u k)).add (DescentDemo.coordU (sol.x k) (sol.u k))
    refine h1.congr (fun x u => ?_) ?_ ?_
    · simp [prob]
    · funext j; simp [prob, fromCols, Subsingleton.elim i j]
    · funext j; simp [prob, fromCols]
  · by_cases h : k < 1
    · simp only [h, if_true]; exact DescentDemo.stage_grad _ _
    · simp only [h, if_false]; exact IsGradAt.const 0 _ _
  · by_cases h : k < 1
    · simp only [h, if_true, List.mem_singleton] at hc; subst hc; exact limit_jac _ _
    · simp only [h, if_false, List.mem_singleton] at hc; subst hc; exact reach_jac _ _

theorem costs0 : costs 0 = ⟨DescentDemo.stage, [],
    [⟨limit, fun _ => -2, fun _ => 0, fun _ => 1, 0, 10⟩]⟩ := by
  simp only [costs, ALCost.history, ALCost.new, List.foldl, ConOp.applyAL, ALCost.evaluate, ALCost.updateDuals,
    Nat.zero_lt_one, if_true, List.map, ConVal.augLag, ConVal.evalC, ConVal.new, ConVal.updateDuals]
  congr 2
  have e : negProj ((0 : Fin 1 → ℝ) - fun _ => (1 : ℝ) * (0 - 2)) = fun _ => 0 := by funext i; norm_num [negProj]
  have mk : ∀ (c l : Fin 1 → ℝ) (q : Fin 1 → ℝ), c = (fun _ => -2) → l = (fun _ => 0) → q = (fun _ => 1) →
      (⟨limit, c, l, q, 0, 10⟩ : ConVal .inequality 1 1 ℝ) = ⟨limit, fun _ => -2, fun _ => 0, fun _ => 1, 0, 10⟩ := by
    rintro _ _ _ rfl rfl rfl; rfl
  exact mk _ _ _ (by funext i; simp [limit]) e rfl

theorem costs1 : costs 1 = ⟨none, [], [⟨reach, fun _ => 1, fun _ => -1, fun _ => 1, 0, 10⟩]⟩ := by
  simp only [costs, ALCost.history, ALCost.new, List.foldl, ConOp.applyAL, ALCost.evaluate, ALCost.updateDuals,
    lt_irrefl, if_false, List.map, ConVal.augLag, ConVal.evalC, ConVal.new, ConVal.updateDuals]
  congr 2
  have e : negProj ((0 : Fin 1 → ℝ) - fun _ => (1 : ℝ) * (1 - 0)) = fun _ => -1 := by funext i; norm_num [negProj]
  have mk : ∀ (c l : Fin 1 → ℝ) (q : Fin 1 → ℝ), c = (fun _ => 1) → l = (fun _ => -1) → q = (fun _ => 1) →
      (⟨reach, c, l, q, 0, 10⟩ : ConVal .inequality 1 1 ℝ) = ⟨reach, fun _ => 1, fun _ => -1, fun _ => 1, 0, 10⟩ := by
    rintro _ _ _ rfl rfl rfl; rfl
  exact mk _ _ _ (by funext i; simp [reach]) e rfl

theorem atMost {P : ℕ → Prop} (h0 : P 0) (h1 : P 1) : ∀ k ≤ prob.N, P k := by
  intro k hk
  have : k ≤ 1 := hk
  interval_cases k
  · exact h0
  · exact h1

theorem kkt : KKT prob costs sol := by
  have hL : FirstOrderOf prob (fun k => lagrangian (costs k)) sol
      (withGrad prob sol fun k => lagGrad (costs k) (sol.x k) (sol.u k)) :=
    ⟨ready.dyn, fun k hk' => lagrangian_isGradAt _ _ _ (ready.cost k hk') (fun v hv => (ready.eq k hk' v hv).jac)
      fun v hv => (ready.ineq k hk' v hv).jac⟩
  refine ⟨feasible.init, feasible.step, ⟨atMost ?_ ?_, atMost ?_ ?_⟩, (stationary_iff_grad hL feasible).mpr ?_,
    atMost ?_ ?_, atMost ?_ ?_⟩
  · rw [costs0]; simp
  · rw [costs1]; simp
  · rw [costs0]; simp [limit, sol]
  · rw [costs1]; simp [reach, sol]
  · intro k hk
    have : k = 0 := by have : k < 1 := hk; omega
    subst this
    unfold grad
    rw [show 0 + 1 = prob.N from rfl, adj_N]
    funext i
    simp only [withGrad, show prob.N = 1 from rfl, costs0, costs1]
    simp [lagGrad, ConVal.lagGrad, DescentDemo.stage, none, reach, limit, sol, mulVec, dotProduct, toCols₁, toCols₂, prob]
  · rw [costs0]; simp
  · rw [costs1]; simp
  · rw [costs0]; simp
  · rw [costs1]; simp [reach, sol]

theorem convex : ConvexFrom prob costs sol where
  dyn k _ δx δu := by funext i; simp [prob, mulVec, dotProduct, Subsingleton.elim i 0]; ring
  cost := atMost (by
      rw [costs0]; intro δx δu
      simp [DescentDemo.stage, sol, dotProduct]; nlinarith [sq_nonneg (δu 0)]) (by rw [costs1]; simp [none])
  eq := atMost (by rw [costs0]; simp) (by rw [costs1]; simp)
  ineq := atMost (by
      rw [costs0]; simp [limit, sol, mulVec, dotProduct]; intros; linarith) (by
      rw [costs1]; simp [reach, sol, mulVec, dotProduct])

/-- The fixed-point characterisation applies: the gradient of the augmented cost vanishes and the multipliers are
settled. -/
example : Stationary prob costs sol ∧ DualsSettled prob costs sol := (C67_fixed_point_iff_kkt ready feasible).mpr kkt

/-- Any other way to reach `x ≥ 1` costs at least `1/2`. -/
example (Z' : Traj (Fin 1 → ℝ) (Fin 1 → ℝ) ℝ) (ha : Alternative prob sol Z') (hs : Satisfies prob costs Z')
    (hu : Z'.u 1 = 0) : 1 / 2 ≤ objective prob costs Z' := by
  have h := C67_convex_optimal ready kkt convex Z' ha hs (by rw [show prob.N = 1 from rfl, hu]; funext i; simp [sol])
  have e : objective prob costs sol = 1 / 2 := by
    unfold objective
    rw [show prob.N + 1 = 2 from rfl, Finset.sum_range_succ, Finset.sum_range_one, costs0, costs1]
    simp [DescentDemo.stage, none, sol]
  rw [e] at h
  exact h

end KKTDemo
end Altro.Props
