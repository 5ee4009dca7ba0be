import Verif.Proofs.Descent
import Verif.Props.LQSolve
import Verif.Props.ILQRRecords
import Verif.Props.AugLagCalculus
import Mathlib.Analysis.Calculus.Deriv.Slope

/-!
# C65, C66: stationary points and descent
-/

namespace Altro.Props
open Altro.Spec Matrix ILQR

/-! ## What the expansions computed by the solver are -/

section expansions
variable {K : Type} [Field K] [LinearOrder K] {n m : ℕ}

theorem addHess_foldl_symm {α : Type} (f : α → ConVal.HessBlocks n m K)
    (hf : ∀ a, (f a).dxdx.IsSymm ∧ (f a).dudu.IsSymm) (l : List α) (g : ConVal.HessBlocks n m K)
    (hg : g.dxdx.IsSymm ∧ g.dudu.IsSymm) :
    (l.foldl (fun g a => ALCost.addHess g (f a)) g).dxdx.IsSymm ∧
    (l.foldl (fun g a => ALCost.addHess g (f a)) g).dudu.IsSymm := by
  induction l generalizing g with
  | nil => exact hg
  | cons a l ih => exact ih _ ⟨hg.1.add (hf a).1, hg.2.add (hf a).2⟩

theorem gram_symm {a b : ℕ} (r : K) (A : Matrix (Fin a) (Fin b) K) : (r • (Aᵀ * A)).IsSymm := by
  unfold IsSymm
  rw [transpose_smul, transpose_mul, transpose_transpose]

/-- The Hessian blocks of the augmented cost are symmetric when those of the objective are. -/
theorem hessian_symm (c : ALCost n m K) (x : Fin n → K) (u : Fin m → K)
    (h : (c.cost.hess x u).dxdx.IsSymm ∧ (c.cost.hess x u).dudu.IsSymm) :
    (c.hessian x u).1.dxdx.IsSymm ∧ (c.hessian x u).1.dudu.IsSymm := by
  unfold ALCost.hessian
  dsimp only
  rw [List.foldl_map, List.foldl_map]
  refine addHess_foldl_symm _ (fun v => ⟨gram_symm _ _, gram_symm _ _⟩) _ _ ?_
  exact addHess_foldl_symm _ (fun v => ⟨gram_symm _ _, gram_symm _ _⟩) _ _ h

theorem expansion_symm (p : DynProblem n m K) (s : St (Fin n → K) (Fin m → K) K (ALCost n m K) (KP n m K))
    (h : ∀ k ≤ p.N, ((s.cs k).cost.hess (s.Z.x k) (s.Z.u k)).dxdx.IsSymm ∧
      ((s.cs k).cost.hess (s.Z.x k) (s.Z.u k)).dudu.IsSymm) (k : ℕ) (hk : k ≤ p.N) :
    ((updateExpansions (alKernel p) s).kd k).cost.dxdx.IsSymm ∧
    ((updateExpansions (alKernel p) s).kd k).cost.dudu.IsSymm := by
  rw [updateExpansions_at (alKernel p) s k hk]
  exact hessian_symm _ _ _ (h k hk)

theorem expansion_first (p : DynProblem n m K) (s : St (Fin n → K) (Fin m → K) K (ALCost n m K) (KP n m K)) (k : ℕ)
    (hk : k ≤ p.N) :
    ((updateExpansions (alKernel p) s).kd k).A = (p.jac k (s.Z.x k) (s.Z.u k) (s.Z.t k) (s.Z.h k)).1 ∧
    ((updateExpansions (alKernel p) s).kd k).B = (p.jac k (s.Z.x k) (s.Z.u k) (s.Z.t k) (s.Z.h k)).2 ∧
    ((updateExpansions (alKernel p) s).kd k).cost.dx = ((s.cs k).gradient (s.Z.x k) (s.Z.u k)).1.1 ∧
    ((updateExpansions (alKernel p) s).kd k).cost.du = ((s.cs k).gradient (s.Z.x k) (s.Z.u k)).1.2 := by
  rw [updateExpansions_at (alKernel p) s k hk]
  exact ⟨rfl, rfl, rfl, rfl⟩

end expansions

variable {n m : ℕ}

/-- The augmented costs and the discrete dynamics report their derivatives along the current trajectory, and the
objectives report symmetric Hessian blocks (which need not be second derivatives). -/
structure ReportsDerivatives (p : DynProblem n m ℝ)
    (s : St (Fin n → ℝ) (Fin m → ℝ) ℝ (ALCost n m ℝ) (KP n m ℝ)) : Prop where
  dyn : ∀ k < p.N, IsJacAt (fun x u => p.f k x u (s.Z.t k) (s.Z.h k))
    (fromCols (p.jac k (s.Z.x k) (s.Z.u k) (s.Z.t k) (s.Z.h k)).1
      (p.jac k (s.Z.x k) (s.Z.u k) (s.Z.t k) (s.Z.h k)).2) (s.Z.x k) (s.Z.u k)
  cost : ∀ k ≤ p.N, IsGradAt (fun x u => ((s.cs k).evaluate x u).1)
    ((s.cs k).gradient (s.Z.x k) (s.Z.u k)).1.1 ((s.cs k).gradient (s.Z.x k) (s.Z.u k)).1.2 (s.Z.x k) (s.Z.u k)
  symm : ∀ k ≤ p.N, ((s.cs k).cost.hess (s.Z.x k) (s.Z.u k)).dxdx.IsSymm ∧
    ((s.cs k).cost.hess (s.Z.x k) (s.Z.u k)).dudu.IsSymm

theorem ReportsDerivatives.firstOrder {p : DynProblem n m ℝ}
    {s : St (Fin n → ℝ) (Fin m → ℝ) ℝ (ALCost n m ℝ) (KP n m ℝ)} (h : ReportsDerivatives p s) :
    FirstOrder p s.cs s.Z (updateExpansions (alKernel p) s).kd where
  dyn k hk := by
    obtain ⟨e1, e2, _, _⟩ := expansion_first p s k hk.le
    rw [e1, e2]; exact h.dyn k hk
  cost k hk := by
    obtain ⟨_, _, e3, e4⟩ := expansion_first p s k hk
    rw [e3, e4]; exact h.cost k hk

/-! ## C65 -/

/-- **C65**, for one successful sweep with any regularization. -/
theorem C65_sweep (p : DynProblem n m ℝ) (cs : ℕ → ALCost n m ℝ) (Z : Traj (Fin n → ℝ) (Fin m → ℝ) ℝ)
    (kd r : ℕ → KP n m ℝ) (rho : ℝ) (hF : FirstOrder p cs Z kd) (hZ : DynFeasible (alKernel p) Z)
    (hS : Swept p.N kd r rho) : (∀ k < p.N, (r k).ff = 0) ↔ Stationary p cs Z := by
  rw [hS.ff_iff_grad]
  exact (stationary_iff_grad hF hZ).symm

/-- **C65.**  After a backward pass that did not give up, however often it restarted, all feedforward terms vanish
exactly when the trajectory is stationary. -/
theorem C65_backward_pass (p : DynProblem n m ℝ) (o : Opts ℝ) (fuel : ℕ)
    (s s1 : St (Fin n → ℝ) (Fin m → ℝ) ℝ (ALCost n m ℝ) (KP n m ℝ)) (hD : ReportsDerivatives p s)
    (hZ : DynFeasible (alKernel p) s.Z)
    (hb : backwardPass (alKernel p) o fuel (updateExpansions (alKernel p) s) = some s1)
    (hst : s1.status ≠ .kBackwardPassRegularizationFailed) :
    (∀ k < p.N, (s1.kd k).ff = 0) ↔ Stationary p s.cs s.Z := by
  obtain ⟨rho, hS⟩ := backwardPass_swept p o fuel _ s1 (fun k hk => (expansion_symm p s hD.symm k hk).1)
    (fun k hk => (expansion_symm p s hD.symm k hk.le).2) hb hst
  exact C65_sweep p s.cs s.Z _ _ rho hD.firstOrder hZ hS

theorem gradTerm_nonneg {K : Type} [Field K] [LinearOrder K] [IsStrictOrderedRing K] (d : KP n m K) (u : Fin m → K) :
    0 ≤ d.gradTerm u := (foldl_max_id_ge _ _).1

theorem gradTerm_zero {K : Type} [Field K] [LinearOrder K] [IsStrictOrderedRing K] (d : KP n m K) (u : Fin m → K) :
    d.gradTerm u = 0 ↔ d.ff = 0 := by
  unfold KP.gradTerm
  constructor
  · intro h
    funext i
    have := (foldl_max_id_ge (List.ofFn fun i => |d.ff i| / (|u i| + 1)) 0).2 _ (List.mem_ofFn.mpr ⟨i, rfl⟩)
    rw [h] at this
    have hp : 0 < |u i| + 1 := by positivity
    rw [div_le_iff₀ hp, zero_mul] at this
    exact abs_eq_zero.mp (le_antisymm this (abs_nonneg _))
  · intro h
    rcases foldl_max_mem (List.ofFn fun i => |d.ff i| / (|u i| + 1)) id 0 with e | ⟨x, hx, e⟩
    · exact e
    · obtain ⟨i, rfl⟩ := List.mem_ofFn.mp hx
      refine e.symm.trans ?_
      simp [h]

theorem normalizedGain_zero {K : Type} [Field K] [LinearOrder K] [IsStrictOrderedRing K] (p : DynProblem n m K)
    (s : St (Fin n → K) (Fin m → K) K (ALCost n m K) (KP n m K)) (hN : p.N ≠ 0) :
    normalizedGain (alKernel p) s = 0 ↔ ∀ k < p.N, (s.kd k).ff = 0 := by
  unfold normalizedGain
  have hne : (Arith.ofN (alKernel p).N : K) ≠ 0 := by
    show ((p.N : ℕ) : K) ≠ 0
    exact Nat.cast_ne_zero.mpr hN
  rw [div_eq_zero_iff, or_iff_left hne, sumTo_eq_sum]
  show ∑ k ∈ Finset.range p.N, (s.kd k).gradTerm (s.Z.u k) = 0 ↔ _
  rw [Finset.sum_eq_zero_iff_of_nonneg fun k _ => gradTerm_nonneg (s.kd k) (s.Z.u k)]
  exact ⟨fun h k hk => (gradTerm_zero _ _).mp (h k (Finset.mem_range.mpr hk)),
    fun h k hk => (gradTerm_zero _ _).mpr (h k (Finset.mem_range.mp hk))⟩

/-- **C65** for the convergence test: the gradient measure an iteration computes (and compares with
`gradient_tolerance`) is zero exactly when the trajectory the iteration started from is stationary. -/
theorem C65_gradient_measure (p : DynProblem n m ℝ) (o : Opts ℝ) (fuel : ℕ) (hN : p.N ≠ 0)
    (s s1 : St (Fin n → ℝ) (Fin m → ℝ) ℝ (ALCost n m ℝ) (KP n m ℝ)) (hD : ReportsDerivatives p s)
    (hZ : DynFeasible (alKernel p) s.Z)
    (hb : backwardPass (alKernel p) o fuel (updateExpansions (alKernel p) s) = some s1)
    (hst : s1.status ≠ .kBackwardPassRegularizationFailed) :
    normalizedGain (alKernel p) (forwardPass (alKernel p) o s1) = 0 ↔ Stationary p s.cs s.Z := by
  rw [normalizedGain_zero p _ hN, ← C65_backward_pass p o fuel s s1 hD hZ hb hst]
  have : (forwardPass (alKernel p) o s1).kd = s1.kd := (forwardPass_frame (alKernel p) o s1).kd
  rw [this]

/-! ## C66 -/

section slope
variable {p : DynProblem n m ℝ} {cs : ℕ → ALCost n m ℝ} {Z Zbar : Traj (Fin n → ℝ) (Fin m → ℝ) ℝ}
  {kd r : ℕ → KP n m ℝ} {rho : ℝ}

/-- The first-order change of the cost along the closed loop. -/
noncomputable def slope (N : ℕ) (kd r : ℕ → KP n m ℝ) (rho : ℝ) : ℝ :=
  ∑ k ∈ Finset.range N, ((r k).delta.1 + rho * ((r k).ff ⬝ᵥ (r k).gain *ᵥ closedResponse kd r k))

theorem closed_sum (hS : Swept p.N kd r rho) :
    ∑ k ∈ Finset.range (p.N + 1), ((kd k).cost.dx ⬝ᵥ closedResponse kd r k
      + (kd k).cost.du ⬝ᵥ closedControl p.N kd r k) = slope p.N kd r rho := by
  rw [adjoint_sum p.N kd (fun k => (r k).Sx) (closedResponse kd r) (closedControl p.N kd r) hS.term.1 rfl
    (if_neg (lt_irrefl _)) (fun k hk => by unfold closedControl; rw [if_pos hk]; rfl)]
  refine Finset.sum_congr rfl fun k hk => ?_
  have hk := Finset.mem_range.mp hk
  have st := hS.step k hk
  obtain ⟨-, e2, -⟩ := hS.eqs hk
  obtain ⟨hq1, hq2⟩ := st.qdx
  have hsym := (st.q_symm (hS.symx k hk) (hS.symu k hk) (hS.Sxx_symm (k + 1) hk)).2
  rw [← hq1, ← hq2, st.Sx, st.ctg.2.1]
  unfold closedControl
  rw [if_pos hk]
  set ξ := closedResponse kd r k
  have e := congrArg (fun v => (r k).ff ⬝ᵥ v) (e2 ξ)
  simp only [add_mulVec, dotProduct_add, smul_mulVec, one_mulVec, dotProduct_smul, smul_eq_mul, dotProduct_neg] at e
  have h1 : ((r k).gainᵀ * (r k).q.dudu) *ᵥ (r k).ff ⬝ᵥ ξ = (r k).ff ⬝ᵥ (r k).q.dudu *ᵥ ((r k).gain *ᵥ ξ) := by
    rw [← mulVec_mulVec, t_dot, dotProduct_comm, dot_symm hsym]
  have h2 : (r k).q.dxdu *ᵥ (r k).ff ⬝ᵥ ξ = (r k).ff ⬝ᵥ (r k).q.dxduᵀ *ᵥ ξ := by
    rw [dotProduct_comm, ← t_dot, dotProduct_comm]
  simp only [add_dotProduct, dotProduct_add, h1, h2, t_dot]
  rw [dotProduct_comm (r k).q.du (r k).ff]
  linarith

/-- **C66.**  The cost of the candidate trajectory, as a function of the step length, has a derivative at zero: the
accumulated expected decrease `deltaV(0)`, plus a term for the regularization. -/
theorem C66_slope (hF : FirstOrder p cs Z kd) (hZ : DynFeasible (alKernel p) Z) (hS : Swept p.N kd r rho)
    (ht : SameTimes (alKernel p) Zbar Z)
    (hterm : ∀ x, ((cs p.N).evaluate x (Zbar.u p.N)).1 = ((cs p.N).evaluate x (Z.u p.N)).1) :
    HasDerivAt (fun α : ℝ => trajCost p cs (candidateTraj (alKernel p) r Z Zbar α)) (slope p.N kd r rho) 0 ∧
    trajCost p cs (candidateTraj (alKernel p) r Z Zbar 0) = trajCost p cs Z := by
  have hfun : ∀ α, trajCost p cs (candidateTraj (alKernel p) r Z Zbar α) = ∑ k ∈ Finset.range (p.N + 1),
      ((cs k).evaluate (candidate (alKernel p) r Z Zbar.t Zbar.h α k)
        (if k < p.N then candidateU (alKernel p) r Z Zbar.t Zbar.h α k else Z.u k)).1 := by
    intro α
    unfold trajCost
    refine Finset.sum_congr rfl fun k hk => ?_
    by_cases h : k < p.N
    · rw [if_pos h]
      show ((cs k).evaluate _ (if k < p.N then _ else _)).1 = _
      rw [if_pos h]; rfl
    · have : k = p.N := by have := Finset.mem_range.mp hk; omega
      subst this
      rw [if_neg h]
      show ((cs p.N).evaluate _ (if p.N < p.N then _ else _)).1 = _
      rw [if_neg h, hterm]
      rfl
  have h0 := candidate_zero (r := r) hZ ht
  have hd := candidate_deriv (r := r) hF hZ ht
  have hfam : Fam p Z (fun k α => candidate (alKernel p) r Z Zbar.t Zbar.h α k)
      (fun k α => if k < p.N then candidateU (alKernel p) r Z Zbar.t Zbar.h α k else Z.u k)
      (closedResponse kd r) (closedControl p.N kd r) := by
    refine ⟨fun k hk => (h0 k hk).1, fun k hk => ?_, fun k hk => (hd k hk).1, fun k hk => ?_⟩
    · by_cases h : k < p.N
      · simp only [if_pos h]; exact (h0 k hk).2 h
      · simp only [if_neg h]
    · unfold closedControl
      by_cases h : k < p.N
      · simp only [if_pos h]; exact (hd k hk).2
      · simp only [if_neg h]; exact hasDerivAt_const _ _
  constructor
  · have := hfam.cost hF
    rw [closed_sum hS] at this
    simp only [hfun]
    exact this
  · rw [hfun]
    unfold trajCost
    refine Finset.sum_congr rfl fun k hk => ?_
    have hk : k ≤ p.N := by have := Finset.mem_range.mp hk; omega
    have e1 := hfam.x0 k hk
    have e2 := hfam.u0 k hk
    rw [e1, e2]

/-- Without regularization the derivative is exactly `deltaV(0)`. -/
theorem C66_slope_unregularized (kd r : ℕ → KP n m ℝ) (N : ℕ) :
    slope N kd r 0 = ∑ k ∈ Finset.range N, (r k).delta.1 := by
  unfold slope
  exact Finset.sum_congr rfl fun k _ => by rw [zero_mul, add_zero]

/-- The two parts of the expected decrease, per knot point. -/
theorem swept_delta_bounds {N : ℕ} (hS : Swept N kd r rho) (hr : 0 ≤ rho) {k : ℕ} (hk : k < N) :
    (r k).delta.1 ≤ 0 ∧ (r k).delta.2 ≤ -(1 / 2) * (r k).delta.1 ∧ ((r k).delta.1 = 0 ↔ (r k).ff = 0) := by
  obtain ⟨e1, -, e3⟩ := hS.eqs hk
  rw [(hS.step k hk).ctg.2.1]
  set f := (r k).ff
  have h1 : f ⬝ᵥ (r k).q.du = -(f ⬝ᵥ (r k).q.dudu *ᵥ f) - rho * (f ⬝ᵥ f) := by
    have := congrArg (fun v => f ⬝ᵥ v) e3
    simp only [add_mulVec, dotProduct_add, smul_mulVec, one_mulVec, dotProduct_smul, smul_eq_mul,
      dotProduct_neg] at this
    linarith
  have hff : 0 ≤ f ⬝ᵥ f := Finset.sum_nonneg fun i _ => mul_self_nonneg _
  by_cases h0 : f = 0
  · simp [h0]
  · have hpd := e1 f h0
    simp only [add_mulVec, dotProduct_add, smul_mulVec, one_mulVec, dotProduct_smul, smul_eq_mul] at hpd
    have h2 : 0 ≤ rho * (f ⬝ᵥ f) := mul_nonneg hr hff
    dsimp only
    refine ⟨by linarith, by linarith, fun h => ?_, fun h => absurd h h0⟩
    linarith

/-- For convex expansions the derivative is at most half of `deltaV(0)`, whatever the regularization. -/
theorem C66_slope_convex (hS : Swept p.N kd r rho) (hr : 0 ≤ rho) (hc : ∀ k ≤ p.N, ConvexExp (kd k).cost) :
    slope p.N kd r rho ≤ ∑ k ∈ Finset.range p.N, ((r k).delta.1 + (r k).delta.2) ∧
    ∑ k ∈ Finset.range p.N, ((r k).delta.1 + (r k).delta.2) ≤ (1 / 2) * ∑ k ∈ Finset.range p.N, (r k).delta.1 := by
  constructor
  · rw [← closed_sum hS]
    -- linear part below the quadratic model, and the models telescope
    have hlin : ∀ k ≤ p.N, ∀ δx δu, (kd k).cost.dx ⬝ᵥ δx + (kd k).cost.du ⬝ᵥ δu ≤ quadModel (kd k).cost δx δu := by
      intro k hk δx δu
      have := (hc k hk).psd δx δu
      unfold quadModel
      linarith
    have htel : ∀ j ≤ p.N, ∑ k ∈ Finset.range j, quadModel (kd k).cost (closedResponse kd r k)
          (closedControl p.N kd r k) + ctgModel (r j).Sx (r j).Sxx (closedResponse kd r j)
        = ∑ k ∈ Finset.range j, ((r k).delta.1 + (r k).delta.2) := by
      intro j hj
      induction j with
      | zero => simp [ctgModel, closedResponse]
      | succ j ih =>
        have hk : j < p.N := hj
        have st := hS.step j hk
        have hn := hS.Sxx_symm (j + 1) hk
        have hqu := (st.q_symm (hS.symx j hk) (hS.symu j hk) hn).2
        have e1 := C27_action_value (kd j) (r (j + 1)) hn (closedResponse kd r j) (closedControl p.N kd r j)
        rw [← st.q] at e1
        have hu : closedControl p.N kd r j = (r j).gain *ᵥ closedResponse kd r j + (r j).ff := if_pos hk
        have e2 := C29_cost_to_go (r j) hqu (closedResponse kd r j)
        rw [st.ctg.2.2, ← hu, e1] at e2
        have hx : closedResponse kd r (j + 1) = (kd j).A *ᵥ closedResponse kd r j + (kd j).B *ᵥ closedControl p.N kd r j := by
          rw [hu]; rfl
        rw [Finset.sum_range_succ, Finset.sum_range_succ, ← ih (by omega), hx]
        linarith
    rw [← htel p.N le_rfl, Finset.sum_range_succ]
    refine add_le_add (Finset.sum_le_sum fun k hk => hlin k (Finset.mem_range.mp hk).le _ _) ?_
    have := hlin p.N le_rfl (closedResponse kd r p.N) (closedControl p.N kd r p.N)
    rw [show closedControl p.N kd r p.N = 0 from if_neg (lt_irrefl _)] at this ⊢
    rw [hS.term.1, hS.term.2]
    refine this.trans (le_of_eq ?_)
    unfold quadModel ctgModel
    simp
  · rw [Finset.mul_sum]
    refine Finset.sum_le_sum fun k hk => ?_
    have := (swept_delta_bounds hS hr (Finset.mem_range.mp hk)).2.1
    linarith

theorem deltaV_neg (hS : Swept p.N kd r rho) (hr : 0 ≤ rho) (hne : ∃ k < p.N, (r k).ff ≠ 0) :
    ∑ k ∈ Finset.range p.N, (r k).delta.1 < 0 := by
  obtain ⟨k, hk, h⟩ := hne
  refine Finset.sum_neg' (fun j hj => (swept_delta_bounds hS hr (Finset.mem_range.mp hj)).1) ⟨k, Finset.mem_range.mpr hk, ?_⟩
  obtain ⟨a, -, b⟩ := swept_delta_bounds hS hr hk
  exact lt_of_le_of_ne a fun e => h (b.mp e)

end slope

/-! ### The line search -/

/-- Step lengths shrink to zero. -/
theorem stepLength_small {f ε : ℝ} (hf : 1 < f) (hε : 0 < ε) : ∃ M : ℕ, ∀ i, 0 < stepLength f i ∧ (M ≤ i → stepLength f i < ε) := by
  have e : ∀ i, stepLength f i = (1 / f) ^ i := by
    intro i
    induction i with
    | zero => simp [stepLength]
    | succ i ih => rw [stepLength, ih, pow_succ, div_eq_mul_one_div]
  have hpos : 0 < 1 / f := by positivity
  have hlt : 1 / f < 1 := by rw [div_lt_one (by linarith)]; exact hf
  obtain ⟨M, hM⟩ := exists_pow_lt_of_lt_one hε hlt
  refine ⟨M, fun i => ⟨by rw [e]; positivity, fun hi => ?_⟩⟩
  rw [e]
  exact (pow_le_pow_of_le_one hpos.le hlt.le hi).trans_lt hM

/-- One-dimensional core: near zero the improvement ratio is near the ratio of the derivative to `dV0`. -/
theorem ratio_near {J : ℝ → ℝ} {D dV0 dV1 lo up : ℝ} (hJ : HasDerivAt J D 0) (hD : D < 0) (h0 : dV0 < 0)
    (hlo : lo < D / dV0) (hup : D / dV0 < up) :
    ∃ ε > 0, ∀ α, 0 < α → α < ε → J α < J 0 ∧ 0 < predicted dV0 dV1 α ∧
      lo ≤ (J 0 - J α) / predicted dV0 dV1 α ∧ (J 0 - J α) / predicted dV0 dV1 α ≤ up := by
  have h1 := hasDerivAt_iff_tendsto_slope_zero.mp hJ
  have h2 : Filter.Tendsto (fun t : ℝ => dV0 + t * dV1) (nhdsWithin 0 {0}ᶜ) (nhds dV0) := by
    have : Filter.Tendsto (fun t : ℝ => dV0 + t * dV1) (nhds 0) (nhds (dV0 + 0 * dV1)) :=
      (Continuous.tendsto (by fun_prop) 0)
    rw [zero_mul, add_zero] at this
    exact this.mono_left nhdsWithin_le_nhds
  have h3 := h1.div h2 h0.ne
  have ev := ((h1.eventually (gt_mem_nhds hD)).and (h2.eventually (gt_mem_nhds h0))).and
    ((h3.eventually (lt_mem_nhds hlo)).and (h3.eventually (gt_mem_nhds hup)))
  rw [Filter.Eventually, mem_nhdsWithin_iff_exists_mem_nhds_inter] at ev
  obtain ⟨V, hV, hsub⟩ := ev
  obtain ⟨ε, hε, hb⟩ := Metric.mem_nhds_iff.mp hV
  refine ⟨ε, hε, fun α ha hae => ?_⟩
  have hmem : α ∈ V ∩ {0}ᶜ := ⟨hb (by rw [Metric.mem_ball, Real.dist_eq, sub_zero, abs_of_pos ha]; exact hae),
    by simpa using ha.ne'⟩
  obtain ⟨⟨c1, c2⟩, c3, c4⟩ := hsub hmem
  simp only [zero_add, smul_eq_mul, Pi.div_apply] at c1 c2 c3 c4
  have hai : 0 < α⁻¹ := inv_pos.mpr ha
  have hlt : J α < J 0 := by
    by_contra hn
    have : 0 ≤ α⁻¹ * (J α - J 0) := mul_nonneg hai.le (by linarith)
    linarith
  have hp : 0 < predicted dV0 dV1 α := by
    unfold predicted
    have := mul_pos ha (neg_pos.mpr c2)
    linarith
  have e : (J 0 - J α) / predicted dV0 dV1 α = α⁻¹ * (J α - J 0) / (dV0 + α * dV1) := by
    unfold predicted
    have hne : dV0 + α * dV1 ≠ 0 := c2.ne
    field_simp
    ring
  rw [e]
  exact ⟨hlt, hp, c3.le, c4.le⟩

/-- What a backward pass whose first sweep succeeds leaves behind. -/
theorem backwardPass_first {K : Type} [Field K] [LinearOrder K] [IsStrictOrderedRing K] (p : DynProblem n m K)
    (o : Opts K) (fuel : ℕ) (s s1 : St (Fin n → K) (Fin m → K) K (ALCost n m K) (KP n m K)) (hN : p.N ≠ 0)
    (hsx : ∀ k ≤ p.N, (s.kd k).cost.dxdx.IsSymm) (hsu : ∀ k < p.N, (s.kd k).cost.dudu.IsSymm)
    (hok : (bpSweep (alKernel p) s.rho p.N (upd s.kd p.N (s.kd p.N).term) (0, 0)).2 = true)
    (hb : backwardPass (alKernel p) o (fuel + 1) s = some s1) :
    Swept p.N s.kd s1.kd s.rho ∧
    s1.dV0 = ∑ k ∈ Finset.range p.N, (s1.kd k).delta.1 ∧ s1.dV1 = ∑ k ∈ Finset.range p.N, (s1.kd k).delta.2 := by
  unfold backwardPass bpLoop at hb
  extract_lets r w w2 count' at hb
  have hr' : r = bpSweep (alKernel p) s.rho p.N (upd s.kd p.N (s.kd p.N).term) (0, 0) := rfl
  have hr2 : r.2 = true := by rw [hr']; exact hok
  rw [if_pos hr2, if_neg (show ¬(alKernel p).N = 0 from hN)] at hb
  simp only at hb
  injection hb with hb
  have hkd : s1.kd = r.1.1 := by rw [← hb]; rfl
  have hd0 : s1.dV0 = r.1.2.1 := by rw [← hb]; rfl
  have hd1 : s1.dV1 = r.1.2.2 := by rw [← hb]; rfl
  obtain ⟨i1, i2, i3, i4⟩ := bpSweep_spec (alKernel p) s.rho p.N _ _ hok
  rw [← hr'] at i1 i2 i3 i4
  rw [hkd, hd0, hd1]
  refine ⟨⟨?_, hsx p.N le_rfl, fun k hk => hsx k hk.le, hsu, fun k hk => ?_⟩, ?_, ?_⟩
  · rw [i1 p.N le_rfl, upd_self]; exact ⟨rfl, rfl⟩
  · have := i2 k hk
    rw [upd_of_ne (by omega)] at this
    exact ⟨this.1, this.2⟩
  · rw [i3]; simp only [zero_add]; rfl
  · rw [i4]; simp only [zero_add]; rfl

/-- The situation in which the descent theorems speak: the state before an iteration whose first sweep succeeds, and
the state `s1` after the backward pass. -/
structure Situation (p : DynProblem n m ℝ) (o : Opts ℝ) (fuel : ℕ)
    (s s1 : St (Fin n → ℝ) (Fin m → ℝ) ℝ (ALCost n m ℝ) (KP n m ℝ)) : Prop where
  N : p.N ≠ 0
  derivs : ReportsDerivatives p s
  feasible : DynFeasible (alKernel p) s.Z
  times : SameTimes (alKernel p) s.Zbar s.Z
  rho : 0 ≤ s.rho
  /-- The terminal cost does not notice that a candidate carries the terminal control of `Zbar`. -/
  term : ∀ x, ((s.cs p.N).evaluate x (s.Zbar.u p.N)).1 = ((s.cs p.N).evaluate x (s.Z.u p.N)).1
  sweep : (bpSweep (alKernel p) s.rho p.N (upd (updateExpansions (alKernel p) s).kd p.N
      ((updateExpansions (alKernel p) s).kd p.N).term) (0, 0)).2 = true
  back : backwardPass (alKernel p) o (fuel + 1) (updateExpansions (alKernel p) s) = some s1

section
variable {p : DynProblem n m ℝ} {o : Opts ℝ} {fuel : ℕ}
  {s s1 : St (Fin n → ℝ) (Fin m → ℝ) ℝ (ALCost n m ℝ) (KP n m ℝ)}

theorem Situation.swept (h : Situation p o fuel s s1) :
    Swept p.N (updateExpansions (alKernel p) s).kd s1.kd s.rho ∧
    s1.dV0 = ∑ k ∈ Finset.range p.N, (s1.kd k).delta.1 ∧ s1.dV1 = ∑ k ∈ Finset.range p.N, (s1.kd k).delta.2 := by
  have := backwardPass_first p o fuel (updateExpansions (alKernel p) s) s1 h.N
    (fun k hk => (expansion_symm p s h.derivs.symm k hk).1)
    (fun k hk => (expansion_symm p s h.derivs.symm k hk.le).2)
    (by rw [updateExpansions_rho]; exact h.sweep) h.back
  rwa [updateExpansions_rho] at this

/-- The derivative at zero of the cost of the candidates, in a situation. -/
noncomputable def Situation.D (_ : Situation p o fuel s s1) : ℝ :=
  slope p.N (updateExpansions (alKernel p) s).kd s1.kd s.rho

/-- **C66**: it is the derivative; without regularization it is the accumulated `deltaV(0)`. -/
theorem C66_derivative (h : Situation p o fuel s s1) :
    HasDerivAt (fun α : ℝ => trajCost p s.cs (candidateTraj (alKernel p) s1.kd s.Z s.Zbar α)) h.D 0 ∧
    (s.rho = 0 → h.D = s1.dV0) := by
  obtain ⟨hS, hd, -⟩ := h.swept
  refine ⟨(C66_slope h.derivs.firstOrder h.feasible hS h.times h.term).1, fun h0 => ?_⟩
  unfold Situation.D
  rw [h0, C66_slope_unregularized, hd]

/-- **C66**: descent.  If the trajectory is not stationary, then `deltaV(0) < 0`; and if the regularization is zero or the
expansions are convex, the derivative is negative: all sufficiently small steps lower the cost. -/
theorem C66_descent (h : Situation p o fuel s s1) (hns : ¬ Stationary p s.cs s.Z)
    (hc : s.rho = 0 ∨ ∀ k ≤ p.N, ConvexExp ((updateExpansions (alKernel p) s).kd k).cost) :
    s1.dV0 < 0 ∧ h.D ≤ (1 / 2) * s1.dV0 ∧
    ∃ ε > 0, ∀ α, 0 < α → α < ε →
      trajCost p s.cs (candidateTraj (alKernel p) s1.kd s.Z s.Zbar α) < trajCost p s.cs s.Z := by
  obtain ⟨hS, hd, -⟩ := h.swept
  have hne : ∃ k < p.N, (s1.kd k).ff ≠ 0 := by
    by_contra hn
    refine hns ((C65_sweep p s.cs s.Z _ _ s.rho h.derivs.firstOrder h.feasible hS).mp fun k hk => ?_)
    by_contra h0
    exact hn ⟨k, hk, h0⟩
  have hneg : s1.dV0 < 0 := by rw [hd]; exact deltaV_neg hS h.rho hne
  have hhalf : h.D ≤ (1 / 2) * s1.dV0 := by
    rcases hc with hc | hc
    · rw [(C66_derivative h).2 hc]; linarith
    · obtain ⟨a, b⟩ := C66_slope_convex hS h.rho hc
      rw [hd]; exact a.trans b
  refine ⟨hneg, hhalf, ?_⟩
  obtain ⟨hder, hzero⟩ := C66_slope h.derivs.firstOrder h.feasible hS h.times h.term
  have hDneg : h.D < 0 := by linarith
  obtain ⟨ε, hε, hall⟩ := ratio_near (dV0 := -1) (dV1 := 0) (lo := h.D / -1 - 1) (up := h.D / -1 + 1) hder hDneg
    (by norm_num) (by show _ < h.D / -1; linarith) (by show h.D / -1 < _; linarith)
  refine ⟨ε, hε, fun α ha hae => ?_⟩
  have := (hall α ha hae).1
  rw [hzero] at this
  exact this

/-- The current trajectory is strictly inside the limits of the line search (if they are checked at all). -/
def InsideLimits (p : DynProblem n m ℝ) (o : Opts ℝ) (Z : Traj (Fin n → ℝ) (Fin m → ℝ) ℝ) : Prop :=
  o.checkBounds = true → Continuous p.normX ∧ Continuous p.normU ∧
    ∀ k < p.N, p.normX (Z.x (k + 1)) < o.stateMax ∧ p.normU (Z.u k) < o.controlMax

theorem withinLimits_near (h : Situation p o fuel s s1) (hin : InsideLimits p o s.Z) :
    ∃ ε > 0, ∀ α, 0 < α → α < ε → withinLimits o (alKernel p) s1.kd s.Z s.Zbar.t s.Zbar.h α := by
  have hd := candidate_deriv (r := s1.kd) h.derivs.firstOrder h.feasible h.times
  have h0 := candidate_zero (r := s1.kd) h.feasible h.times
  have hev : ∀ k < p.N, ∀ᶠ α in nhds (0 : ℝ), stepWithin o (alKernel p) s1.kd s.Z s.Zbar.t s.Zbar.h α k := by
    intro k hk
    by_cases hb : o.checkBounds = true
    · obtain ⟨c1, c2, c3⟩ := hin hb
      have e1 : ContinuousAt (fun α : ℝ => p.normX (candidate (alKernel p) s1.kd s.Z s.Zbar.t s.Zbar.h α (k + 1))) 0 :=
        c1.continuousAt.comp (hd (k + 1) hk).1.continuousAt
      have e2 : ContinuousAt (fun α : ℝ => p.normU (candidateU (alKernel p) s1.kd s.Z s.Zbar.t s.Zbar.h α k)) 0 :=
        c2.continuousAt.comp (hd k hk.le).2.continuousAt
      have l1 := e1.eventually (gt_mem_nhds (show p.normX
        (candidate (alKernel p) s1.kd s.Z s.Zbar.t s.Zbar.h 0 (k + 1)) < o.stateMax by
          rw [(h0 (k + 1) hk).1]; exact (c3 k hk).1))
      have l2 := e2.eventually (gt_mem_nhds (show p.normU
        (candidateU (alKernel p) s1.kd s.Z s.Zbar.t s.Zbar.h 0 k) < o.controlMax by
          rw [(h0 k hk.le).2 hk]; exact (c3 k hk).2))
      filter_upwards [l1, l2] with α a1 a2 _
      refine ⟨?_, ?_⟩
      · rw [← Bool.not_eq_true, Arith.gt_iff]; exact not_lt.mpr a1.le
      · rw [← Bool.not_eq_true, Arith.gt_iff]; exact not_lt.mpr a2.le
    · exact Filter.Eventually.of_forall fun α hb' => absurd hb' hb
  have hall : ∀ᶠ α in nhds (0 : ℝ), ∀ k ∈ Finset.range p.N,
      stepWithin o (alKernel p) s1.kd s.Z s.Zbar.t s.Zbar.h α k :=
    (Finset.eventually_all _).mpr fun k hk => hev k (Finset.mem_range.mp hk)
  obtain ⟨ε, hε, hb⟩ := Metric.eventually_nhds_iff.mp hall
  refine ⟨ε, hε, fun α ha hae k hk => hb ?_ k (Finset.mem_range.mpr hk)⟩
  rw [Real.dist_eq, sub_zero, abs_of_pos ha]; exact hae

/-- **C66**: the line search.  If the trajectory is not stationary, strictly inside the limits, and the ratio of the
true derivative to `deltaV(0)` lies strictly between the two bounds of the acceptance test (without regularization
the ratio is one; for convex expansions it is at least one half), the forward pass accepts a step as soon as enough
step lengths are allowed, and the accepted step lowers the cost. -/
theorem C66_line_search (h : Situation p o fuel s s1) (hns : ¬ Stationary p s.cs s.Z)
    (hc : s.rho = 0 ∨ ∀ k ≤ p.N, ConvexExp ((updateExpansions (alKernel p) s).kd k).cost)
    (hin : InsideLimits p o s.Z) (hf : 1 < o.lsFactor) (hlo : o.lsLower < h.D / s1.dV0)
    (hup : h.D / s1.dV0 < o.lsUpper) :
    ∃ M : ℤ, ∀ L ≥ M,
      (forwardPass (alKernel p) { o with lsMax := L } s1).status = .kUnsolved ∧
      (forwardPass (alKernel p) { o with lsMax := L } s1).rho = s1.rho ∧
      trajCost p s.cs (forwardPass (alKernel p) { o with lsMax := L } s1).Z < trajCost p s.cs s.Z := by
  obtain ⟨hS, hd, -⟩ := h.swept
  obtain ⟨hneg, hhalf, -⟩ := C66_descent h hns hc
  obtain ⟨hder, hzero⟩ := C66_slope h.derivs.firstOrder h.feasible hS h.times h.term
  obtain ⟨ε1, hε1, hr⟩ := ratio_near (dV1 := s1.dV1) hder (show h.D < 0 by linarith) hneg hlo hup
  obtain ⟨ε2, hε2, hl⟩ := withinLimits_near h hin
  obtain ⟨M, hM⟩ := stepLength_small hf (lt_min hε1 hε2)
  -- the state at the forward pass
  obtain ⟨hbZ, hbZb, hbcs, -, -, -⟩ := backwardPass_frame _ _ _ _ _ h.back
  rw [updateExpansions_Z] at hbZ
  rw [updateExpansions_Zbar] at hbZb
  have hcore : ∀ k, (s1.cs k).core = (s.cs k).core := fun k => by
    rw [hbcs]; exact (updateExpansions_law (alCostLaw p) s).2 k
  have hJ : costSum (alKernel p) s1 = (alCostLaw p).total s1.cs s1.Z :=
    (C24_reference_cost o (alCostLaw p) (fuel + 1) s s1 h.back).1
  have htot : ∀ Y, (alCostLaw p).total s1.cs Y = trajCost p s.cs Y := fun Y => by
    rw [total_eq_trajCost]; exact trajCost_congr p _ _ _ _ hcore (fun _ _ => rfl) (fun _ _ => rfl)
  refine ⟨M + 1, fun L hL => ?_⟩
  have hqM : Qualifies (alCostLaw p) { o with lsMax := L } s1 ((alCostLaw p).total s1.cs s1.Z)
      (stepLength o.lsFactor M) := by
    obtain ⟨hpos, hsmall⟩ := hM M
    have hsm := hsmall le_rfl
    obtain ⟨r1, r2, r3, r4⟩ := hr _ hpos (hsm.trans_le (min_le_left _ _))
    rw [hzero] at r1 r3 r4
    have hw := hl _ hpos (hsm.trans_le (min_le_right _ _))
    rw [hbZ]
    refine ⟨by rw [hbZ, hbZb]; exact hw, ⟨_, fun _ => rfl, fun hn => ?_, ?_, ?_⟩, ?_⟩
    · rw [← Bool.not_eq_true, Arith.gt_iff] at hn; exact absurd r2 hn
    · rw [Arith.le_iff, hbZ, hbZb, htot, htot]; exact r3
    · rw [Arith.le_iff, hbZ, hbZb, htot, htot]; exact r4
    · rw [Arith.lt_iff, hbZ, hbZb, htot, htot]; exact r1
  classical
  let Q : ℕ → Prop := fun i => Qualifies (alCostLaw p) { o with lsMax := L } s1 ((alCostLaw p).total s1.cs s1.Z)
      (stepLength o.lsFactor i)
  have hex : ∃ i, Q i := ⟨M, hqM⟩
  have hle : Nat.find hex ≤ M := Nat.find_min' hex hqM
  obtain ⟨hT, hst, hrho, -⟩ := C24_accepts_first { o with lsMax := L } (alCostLaw p) OrderLaws.ofField s1 hJ
    (Nat.find hex) (by show ((Nat.find hex : ℕ) : ℤ) < L; omega) (Nat.find_spec hex)
    (fun j hj => Nat.find_min hex hj)
  refine ⟨hst, hrho, ?_⟩
  have hlow := (Nat.find_spec hex : Q (Nat.find hex)).lower
  rw [Arith.lt_iff, htot, htot, hbZ] at hlow
  refine lt_of_eq_of_lt (trajCost_congr p _ _ _ _ (fun _ => rfl) hT.x hT.u) ?_
  rw [hbZ]
  exact hlow

/-- **C66**, without regularization: bounds around one (the defaults are `1e-8` and `10`) suffice. -/
theorem C66_line_search_unregularized (h : Situation p o fuel s s1) (hns : ¬ Stationary p s.cs s.Z) (hr : s.rho = 0)
    (hin : InsideLimits p o s.Z) (hf : 1 < o.lsFactor) (hlo : o.lsLower < 1) (hup : 1 < o.lsUpper) :
    ∃ M : ℤ, ∀ L ≥ M,
      (forwardPass (alKernel p) { o with lsMax := L } s1).status = .kUnsolved ∧
      (forwardPass (alKernel p) { o with lsMax := L } s1).rho = s1.rho ∧
      trajCost p s.cs (forwardPass (alKernel p) { o with lsMax := L } s1).Z < trajCost p s.cs s.Z := by
  have h1 : h.D / s1.dV0 = 1 := by
    rw [(C66_derivative h).2 hr, div_self (C66_descent h hns (.inl hr)).1.ne]
  exact C66_line_search h hns (.inl hr) hin hf (by rw [h1]; exact hlo) (by rw [h1]; exact hup)

/-- For convex expansions with positive regularization or positive definite control Hessians the situation arises. -/
theorem situation_of_convex (o : Opts ℝ) (fuel : ℕ) (hN : p.N ≠ 0) (hD : ReportsDerivatives p s)
    (hZ : DynFeasible (alKernel p) s.Z) (ht : SameTimes (alKernel p) s.Zbar s.Z) (hr : 0 ≤ s.rho)
    (hterm : ∀ x, ((s.cs p.N).evaluate x (s.Zbar.u p.N)).1 = ((s.cs p.N).evaluate x (s.Z.u p.N)).1)
    (hc : ∀ k ≤ p.N, ConvexExp ((updateExpansions (alKernel p) s).kd k).cost)
    (hpos : ∀ k < p.N, 0 < s.rho ∨ PosDef ((updateExpansions (alKernel p) s).kd k).cost.dudu) :
    ∃ s1, Situation p o fuel s s1 := by
  have hrho : (updateExpansions (alKernel p) s).rho = s.rho := updateExpansions_rho ..
  obtain ⟨s1, hb, -⟩ := C30_backward_pass p o fuel (updateExpansions (alKernel p) s) hN (by rw [hrho]; exact hr) hc
    (by rw [hrho]; exact hpos)
  refine ⟨s1, hN, hD, hZ, ht, hr, hterm, ?_, hb⟩
  exact (C30_sweep p s.rho hr p.N (upd (updateExpansions (alKernel p) s).kd p.N
      ((updateExpansions (alKernel p) s).kd p.N).term) (0, 0)
    (fun k hk => by rw [upd_of_ne (by omega)]; exact hc k hk.le)
    (fun k hk => by rw [upd_of_ne (by omega)]; exact hpos k hk)
    (by rw [upd_self]; exact (hc p.N le_rfl).symx)
    (by
      rw [upd_self]
      intro x
      have := (hc p.N le_rfl).psd x 0
      have h2 : 0 ≤ x ⬝ᵥ ((updateExpansions (alKernel p) s).kd p.N).cost.dxdx *ᵥ x := by simpa using this
      exact h2)).1

end

/-! ## A concrete case: nonlinear dynamics `x + u + u²`, cost `u²/2`, terminal cost `(x - 1)²/2` -/

namespace DescentDemo

theorem coordX (x u : Fin 1 → ℝ) : IsGradAt (fun x _ => x 0) (fun _ => 1) 0 x u := by
  have : HasFDerivAt (fun z : Z 1 1 => z.1 0) (gradCLM (fun _ => 1) 0) (x, u) := by
    have e : (fun z : Z 1 1 => z.1 0) = gradCLM (fun _ => 1) 0 := by
      funext z; simp [gradCLM, dotProduct]
    rw [e]
    exact (gradCLM (fun _ => (1 : ℝ)) (0 : Fin 1 → ℝ)).hasFDerivAt
  exact this

theorem coordU (x u : Fin 1 → ℝ) : IsGradAt (fun _ u => u 0) 0 (fun _ => 1) x u := by
  have : HasFDerivAt (fun z : Z 1 1 => z.2 0) (gradCLM 0 (fun _ => 1)) (x, u) := by
    have e : (fun z : Z 1 1 => z.2 0) = gradCLM 0 (fun _ => 1) := by
      funext z; simp [gradCLM, dotProduct]
    rw [e]
    exact (gradCLM (0 : Fin 1 → ℝ) (fun _ => (1 : ℝ))).hasFDerivAt
  exact this

theorem sq (c r y : ℝ) : HasDerivAt (fun y : ℝ => c * (y - r) ^ 2) (2 * c * (y - r)) y := by
  have := (((hasDerivAt_id y).sub_const r).pow 2).const_mul c
  refine this.congr_deriv ?_
  simp
  ring

/-- The problem. -/
noncomputable def prob : DynProblem 1 1 ℝ where
  N := 1
  x0 := 0
  f := fun _ x u _ _ => fun _ => x 0 + u 0 + u 0 ^ 2
  jac := fun _ _ u _ _ => (1, of fun _ _ => 1 + 2 * u 0)
  normX := fun x => |x 0|
  normU := fun u => |u 0|

/-- Stage cost `u²/2`. -/
noncomputable def stage : CostFun 1 1 ℝ where
  eval := fun _ u => 1 / 2 * (u 0 - 0) ^ 2
  grad := fun _ u => (0, fun _ => u 0)
  hess := fun _ _ => { dxdx := 0, dxdu := 0, dudu := 1 }

/-- Terminal cost `(x - 1)²/2`. -/
noncomputable def terminal : CostFun 1 1 ℝ where
  eval := fun x _ => 1 / 2 * (x 0 - 1) ^ 2
  grad := fun x _ => (fun _ => x 0 - 1, 0)
  hess := fun _ _ => { dxdx := 1, dxdu := 0, dudu := 0 }

/-- At rest in the origin, with zero control. -/
noncomputable def rest : Traj (Fin 1 → ℝ) (Fin 1 → ℝ) ℝ := ⟨fun _ => 0, fun _ => 0, fun _ => 0, fun _ => 0⟩

/-- The solver state. -/
noncomputable def st : St (Fin 1 → ℝ) (Fin 1 → ℝ) ℝ (ALCost 1 1 ℝ) (KP 1 1 ℝ) where
  Z := rest
  Zbar := rest
  kd := fun _ => KP.new
  cs := fun k => ⟨if k < 1 then stage else terminal, [], []⟩
  costs := fun _ => 0
  status := .kUnsolved
  rho := 0
  drho := 0
  dV0 := 0
  dV1 := 0
  stats := Stats.new

theorem stage_grad (x u : Fin 1 → ℝ) : IsGradAt stage.eval (stage.grad x u).1 (stage.grad x u).2 x u := by
  have := IsGradAt.comp (sq (1 / 2) 0 (u 0)) (coordU x u)
  refine this.congr (fun _ _ => rfl) ?_ ?_
  · simp [stage]
  · funext i; simp [stage]

theorem terminal_grad (x u : Fin 1 → ℝ) : IsGradAt terminal.eval (terminal.grad x u).1 (terminal.grad x u).2 x u := by
  have := IsGradAt.comp (sq (1 / 2) 1 (x 0)) (coordX x u)
  refine this.congr (fun _ _ => rfl) ?_ ?_
  · funext i; simp [terminal]
  · simp [terminal]

theorem reports : ReportsDerivatives prob st where
  dyn k _ i := by
    have h1 := ((coordX (st.Z.x k) (st.Z.u k)).add (coordU (st.Z.x k) (st.Z.u k))).add
      (IsGradAt.comp (sq 1 0 (st.Z.u k 0)) (coordU (st.Z.x k) (st.Z.u k)))
    refine h1.congr (fun x u => ?_) ?_ ?_
    · simp [prob]
    · funext j; simp [prob, fromCols, Subsingleton.elim i j]
    · funext j; simp [prob, fromCols]
  cost k _ := by
    show IsGradAt (if k < 1 then stage else terminal).eval ((if k < 1 then stage else terminal).grad _ _).1
      ((if k < 1 then stage else terminal).grad _ _).2 _ _
    by_cases h : k < 1
    · rw [if_pos h]; exact stage_grad _ _
    · rw [if_neg h]; exact terminal_grad _ _
  symm k _ := by
    show ((if k < 1 then stage else terminal).hess _ _).dxdx.IsSymm ∧
      ((if k < 1 then stage else terminal).hess _ _).dudu.IsSymm
    by_cases h : k < 1
    · rw [if_pos h]; exact ⟨by simp [stage, IsSymm], by simp [stage, IsSymm]⟩
    · rw [if_neg h]; exact ⟨by simp [terminal, IsSymm], by simp [terminal, IsSymm]⟩

theorem feasible : DynFeasible (alKernel prob) st.Z where
  init := rfl
  step k _ := by funext i; simp [alKernel, prob, st, rest]

theorem kd_cost (k : ℕ) (hk : k ≤ 1) : ((updateExpansions (alKernel prob) st).kd k).cost
    = if k < 1 then ⟨0, 0, 1, 0, 0⟩ else ⟨1, 0, 0, fun _ => -1, 0⟩ := by
  rw [(expansion_free prob st k hk ⟨rfl, rfl⟩).1]
  have e : (st.cs k).cost = if k < 1 then stage else terminal := rfl
  rw [e]
  by_cases h : k < 1
  · rw [if_pos h, if_pos h]; rfl
  · rw [if_neg h, if_neg h]; simp [st, terminal, rest]

theorem not_stationary : ¬ Stationary prob st.cs st.Z := by
  intro hs
  have h := (stationary_iff_grad reports.firstOrder feasible).mp hs
  have h0 := congrFun (h 0 (by show 0 < 1; omega)) 0
  have e1 : adj (updateExpansions (alKernel prob) st).kd prob.N (0 + 1) = fun _ => -1 := by
    have := adj_N (updateExpansions (alKernel prob) st).kd prob.N
    rw [show (0 + 1) = prob.N from rfl, this, show prob.N = 1 from rfl, kd_cost 1 le_rfl]
    rfl
  unfold grad at h0
  rw [e1, kd_cost 0 (by omega), (expansion_first prob st 0 (by show 0 ≤ 1; omega)).2.1] at h0
  simp [prob, st, rest, mulVec, dotProduct] at h0

theorem convex (k : ℕ) (hk : k ≤ prob.N) : ConvexExp ((updateExpansions (alKernel prob) st).kd k).cost := by
  rw [kd_cost k hk]
  by_cases h : k < 1
  · rw [if_pos h]
    refine ⟨by simp [IsSymm], by simp [IsSymm], fun δx δu => ?_⟩
    simp only [zero_mulVec, dotProduct_zero, one_mulVec, mul_zero, zero_add]
    exact Finset.sum_nonneg fun i _ => mul_self_nonneg _
  · rw [if_neg h]
    refine ⟨by simp [IsSymm], by simp [IsSymm], fun δx δu => ?_⟩
    simp only [zero_mulVec, dotProduct_zero, one_mulVec, mul_zero, add_zero]
    exact Finset.sum_nonneg fun i _ => mul_self_nonneg _

theorem situation (o : Opts ℝ) : ∃ s1, Situation prob o 0 st s1 := by
  refine situation_of_convex o 0 (by show (1 : ℕ) ≠ 0; omega) reports feasible ⟨fun _ _ => rfl, fun _ _ => rfl⟩ le_rfl
    (fun _ => rfl) convex fun k hk => .inr ?_
  have hk1 : k < 1 := hk
  rw [kd_cost k hk1.le, if_pos hk1]
  intro x hx
  simp only [one_mulVec]
  obtain ⟨i, hi⟩ := Function.ne_iff.mp hx
  exact Finset.sum_pos' (fun i _ => mul_self_nonneg _) ⟨i, Finset.mem_univ _, mul_self_pos.mpr hi⟩

/-- The hypotheses of C65 and C66 are met: the gradient measure is not zero, the first-order change is negative and
equals the expected one, and the forward pass lowers the cost once enough step lengths are allowed. -/
example (o : Opts ℝ) (hb : o.checkBounds = false) (hf : 1 < o.lsFactor) (hlo : o.lsLower < 1) (hup : 1 < o.lsUpper) :
    ∃ s1, ∃ h : Situation prob o 0 st s1, h.D = s1.dV0 ∧ h.D < 0 ∧
      normalizedGain (alKernel prob) (forwardPass (alKernel prob) o s1) ≠ 0 ∧
      ∃ M : ℤ, ∀ L ≥ M,
        trajCost prob st.cs (forwardPass (alKernel prob) { o with lsMax := L } s1).Z < trajCost prob st.cs st.Z := by
  obtain ⟨s1, h⟩ := situation o
  have hst : s1.status ≠ .kBackwardPassRegularizationFailed := by
    obtain ⟨s2, hb2, e, -⟩ := C30_backward_pass prob o 0 (updateExpansions (alKernel prob) st) h.N
      (by rw [updateExpansions_rho]; exact le_rfl) convex (fun k hk => by
        have hk1 : k < 1 := hk
        rw [kd_cost k hk1.le, if_pos hk1]
        refine .inr fun x hx => ?_
        simp only [one_mulVec]
        obtain ⟨i, hi⟩ := Function.ne_iff.mp hx
        exact Finset.sum_pos' (fun i _ => mul_self_nonneg _) ⟨i, Finset.mem_univ _, mul_self_pos.mpr hi⟩)
    rw [h.back] at hb2
    injection hb2 with e12
    rw [e12, e, updateExpansions_status]
    exact Status.noConfusion
  obtain ⟨d1, d2⟩ := C66_derivative h
  obtain ⟨n1, n2, -⟩ := C66_descent h not_stationary (.inl rfl)
  obtain ⟨M, hM⟩ := C66_line_search_unregularized h not_stationary rfl (fun hb' => by rw [hb] at hb'; cases hb') hf hlo hup
  refine ⟨s1, h, d2 rfl, by linarith, fun h0 => ?_, M, fun L hL => (hM L hL).2.2⟩
  exact not_stationary ((C65_gradient_measure prob o 1 h.N st s1 reports feasible h.back hst).mp h0)

end DescentDemo
end Altro.Props
