import Verif.Props.FloatCholesky
import Verif.Props.Descent

/-!
# C111, continued: descent and stationarity with rounded gains
-/

namespace Altro.Props
open Altro.Spec Altro.ILQR Matrix Finset

section descent
variable {u : ℝ} {fl : ℝ → ℝ} {F : Floats} {n m : ℕ} {p : DynProblem n m ℝ} {rho : ℝ} {kd r : ℕ → KP n m ℝ}

/-- The residual of the feedforward gain. -/
theorem ff_residual (hu : 0 ≤ u) (h1 : unit u m < 1) (hF : Accurate u fl F) (h : Spec.Swept F.routine p rho kd r) {k : ℕ} (hk : k < p.N)
    (i : Fin m) : |(r k).q.du i + (quuReg r rho k *ᵥ (r k).ff) i| ≤
      factorLoss u m * (Real.sqrt (quuReg r rho k i i) * scaledNorm (quuReg r rho k) (r k).ff) := by
  obtain ⟨hok, hlow, -, hf⟩ := swept_rounded h hk
  have := C111_residual hu h1 hF (quuReg r rho k) (r k).q.du hok i
  rw [hlow] at this
  rw [hf, mulVec_neg]
  simpa only [Pi.neg_apply, abs_neg, ← sub_eq_add_neg, scaledNorm] using this

theorem dot_residual (e v : Fin m → ℝ) (M : Matrix (Fin m) (Fin m) ℝ) (c : ℝ)
    (h : ∀ i, |e i| ≤ c * (Real.sqrt (M i i) * scaledNorm M v)) : |v ⬝ᵥ e| ≤ c * scaledNorm M v ^ 2 := by
  have h2 : ∑ i, |v i| * (c * (Real.sqrt (M i i) * scaledNorm M v)) = c * scaledNorm M v ^ 2 := by
    have : ∀ i, |v i| * (c * (Real.sqrt (M i i) * scaledNorm M v)) = (c * scaledNorm M v) * (Real.sqrt (M i i) * |v i|) := fun i => by ring
    rw [sum_congr rfl fun i _ => this i, ← mul_sum, pow_two, ← mul_assoc]; rfl
  rw [← h2]
  refine (abs_sum_le_sum_abs _ _).trans (sum_le_sum fun i _ => ?_)
  rw [abs_mul]
  exact mul_le_mul_of_nonneg_left (h i) (abs_nonneg _)

/-- **C111, the announced change.**  At every knot point the first-order part of the announced change is minus the regularised
form of the feedforward gain, as without rounding, up to a few roundings of the size of that form. -/
theorem C111_delta (hu : 0 ≤ u) (h1 : unit u m < 1) (hF : Accurate u fl F) (h : Spec.Swept F.routine p rho kd r) {k : ℕ} (hk : k < p.N) :
    |(r k).delta.1 + (r k).ff ⬝ᵥ quuReg r rho k *ᵥ (r k).ff| ≤ factorLoss u m * scaledNorm (quuReg r rho k) (r k).ff ^ 2 := by
  have t3 := (treated_by (h.complete.done k hk)).2.2.1
  rw [t3]
  have e : (r k).ff ⬝ᵥ (r k).q.du + (r k).ff ⬝ᵥ quuReg r rho k *ᵥ (r k).ff
      = (r k).ff ⬝ᵥ ((r k).q.du + quuReg r rho k *ᵥ (r k).ff) := (dotProduct_add _ _ _).symm
  rw [e]
  exact dot_residual _ _ _ _ fun i => ff_residual hu h1 hF h hk i

/-- A regularised control Hessian that is positive definite to working precision. -/
def ClearlyDefinite (u : ℝ) (r : ℕ → KP n m ℝ) (rho : ℝ) (k : ℕ) : Prop :=
  ∀ v, v ≠ 0 → factorLoss u m * scaledNorm (quuReg r rho k) v ^ 2 < v ⬝ᵥ quuReg r rho k *ᵥ v

/-- **C111, descent.**  Where the regularised control Hessian is positive definite to working precision, the first-order part of the
announced change is negative unless the feedforward gain is zero. -/
theorem C111_descent (hu : 0 ≤ u) (h1 : unit u m < 1) (hF : Accurate u fl F) (h : Spec.Swept F.routine p rho kd r) {k : ℕ} (hk : k < p.N)
    (hd : ClearlyDefinite u r rho k) : (r k).delta.1 ≤ 0 ∧ ((r k).delta.1 = 0 ↔ (r k).ff = 0) := by
  have hb := abs_le.mp (C111_delta hu h1 hF h hk)
  have hz : (r k).ff = 0 → (r k).delta.1 = 0 := fun e => by
    rw [(treated_by (h.complete.done k hk)).2.2.1, e]; simp
  by_cases e : (r k).ff = 0
  · exact ⟨(hz e).le, fun _ => e, hz⟩
  · have := hd _ e
    exact ⟨by linarith [hb.2], fun h0 => by linarith [hb.2], hz⟩

/-- **C111, zero gains.**  The feedforward gain is zero exactly when the control gradient of the action value is. -/
theorem C111_ff_zero (hu : 0 ≤ u) (h1 : unit u m < 1) (hF : Accurate u fl F) (h : Spec.Swept F.routine p rho kd r) {k : ℕ} (hk : k < p.N)
    (hd : ClearlyDefinite u r rho k) : (r k).ff = 0 ↔ (r k).q.du = 0 := by
  constructor
  · intro e
    funext i
    have := ff_residual hu h1 hF h hk i
    rw [e] at this
    simpa [scaledNorm] using this
  · intro e
    by_contra hne
    have hr := C111_delta hu h1 hF h hk
    rw [(treated_by (h.complete.done k hk)).2.2.1, e, dotProduct_zero, zero_add] at hr
    linarith [hd _ hne, le_abs_self ((r k).ff ⬝ᵥ quuReg r rho k *ᵥ (r k).ff)]

/-- The gradients of the cost-to-go after segments without feedforward gain. -/
theorem sx_by {solve : GainRoutine n m ℝ} (h : Spec.Swept solve p rho kd r) {k : ℕ} (hk : k < p.N) :
    (r k).q.du = (kd k).cost.du + (kd k).Bᵀ *ᵥ (r (k + 1)).Sx ∧
    ((r k).ff = 0 → (r k).q.du = 0 → (r k).Sx = (kd k).cost.dx + (kd k).Aᵀ *ᵥ (r (k + 1)).Sx) := by
  obtain ⟨t1, -, -, t4, -⟩ := treated_by (h.complete.done k hk)
  refine ⟨by rw [t1]; rfl, fun e0 e1 => ?_⟩
  have : (r k).Sx = (r k).costToGo.Sx := by rw [t4]
  rw [this]
  unfold KP.costToGo
  simp only [e0, e1, mulVec_zero, add_zero]
  rw [t1]; rfl

/-- **C111, stationarity (C65 with rounding).**  After a sweep with rounded gains whose regularised control Hessians are positive
definite to working precision, all feedforward gains are zero exactly when the trajectory is stationary. -/
theorem C111_stationary (hu : 0 ≤ u) (h1 : unit u m < 1) (hF : Accurate u fl F) (h : Spec.Swept F.routine p rho kd r)
    (hd : ∀ k < p.N, ClearlyDefinite u r rho k) {cs : ℕ → ALCost n m ℝ} {Z : Traj (Fin n → ℝ) (Fin m → ℝ) ℝ}
    (hE : FirstOrder p cs Z kd) (hZ : DynFeasible (alKernel p) Z) : (∀ k < p.N, (r k).ff = 0) ↔ Stationary p cs Z := by
  refine Iff.trans ?_ (stationary_iff_grad hE hZ).symm
  have key : ∀ k < p.N, (r (k + 1)).Sx = adj kd p.N (k + 1) → (r k).q.du = grad kd p.N k := by
    intro k hk e
    rw [(sx_by h hk).1, e]; rfl
  have stepx : ∀ k < p.N, (r k).ff = 0 → (r (k + 1)).Sx = adj kd p.N (k + 1) → (r k).Sx = adj kd p.N k := by
    intro k hk h0 e
    rw [(sx_by h hk).2 h0 ((C111_ff_zero hu h1 hF h hk (hd k hk)).mp h0), e, adj_step kd hk]
  have hN : (r p.N).Sx = adj kd p.N p.N := by
    rw [adj_N, h.complete.keeps p.N le_rfl, h.term.1]
  constructor
  · intro hff
    have hS := down_induct (P := fun k => (r k).Sx = adj kd p.N k) hN (fun k hk e => stepx k hk (hff k hk) e)
    intro k hk
    rw [← key k hk (hS (k + 1) hk)]
    exact (C111_ff_zero hu h1 hF h hk (hd k hk)).mp (hff k hk)
  · intro hg
    have hS := down_induct (P := fun k => (r k).Sx = adj kd p.N k) hN (fun k hk e => by
      refine stepx k hk ((C111_ff_zero hu h1 hF h hk (hd k hk)).mpr ?_) e
      rw [key k hk e, hg k hk])
    intro k hk
    exact (C111_ff_zero hu h1 hF h hk (hd k hk)).mpr (by rw [key k hk (hS (k + 1) hk), hg k hk])

/-- **C111, the line search.**  The change announced for step `alpha` differs from the change on the expansions by `1 - alpha` times
the regularization and the rounding of the feedback gains; for the full step there is no difference. -/
theorem C111_announced (hu : 0 ≤ u) (h1 : unit u m < 1) (hF : Accurate u fl F) (h : Spec.Swept F.routine p rho kd r) (alpha : ℝ)
    (δ : ℕ → Fin n → ℝ) (v : ℕ → Fin m → ℝ) (hl : Linearised p.N kd δ v) (h0 : δ 0 = 0) (ho : Obeys p.N r alpha δ v) :
    |modelChange p.N kd δ v - announced p r alpha| ≤ |1 - alpha| *
      ∑ k ∈ range p.N, ∑ i, (|rho * ((r k).gain *ᵥ δ k) i| + slopeError u r rho k (δ k) i) * |(r k).ff i| := by
  rw [C110_step h alpha δ v hl h0 ho, sub_sub_cancel_left, abs_neg, abs_mul]
  refine mul_le_mul_of_nonneg_left ((abs_sum_le_sum_abs _ _).trans (sum_le_sum fun k hk => ?_)) (abs_nonneg _)
  refine (abs_sum_le_sum_abs _ _).trans (sum_le_sum fun i _ => ?_)
  rw [abs_mul]
  refine mul_le_mul_of_nonneg_right ?_ (abs_nonneg _)
  have hs := (C111_gains hu h1 hF h (mem_range.mp hk) (δ k) i).2
  have := abs_sub (feedbackSlope r k (δ k) i + rho * ((r k).gain *ᵥ δ k) i) (rho * ((r k).gain *ᵥ δ k) i)
  rw [add_sub_cancel_right] at this
  linarith

end descent

/-! ### The derivative of the cost along the policy -/

section derivative
variable {n m : ℕ} {p : DynProblem n m ℝ} {rho : ℝ} {kd r : ℕ → KP n m ℝ} {solve : GainRoutine n m ℝ}
  {cs : ℕ → ALCost n m ℝ} {Z Zbar : Traj (Fin n → ℝ) (Fin m → ℝ) ℝ}

/-- The first-order change of the cost along the policy in `r`, whatever routine calculated it. -/
noncomputable def policySlope (N : ℕ) (kd r : ℕ → KP n m ℝ) : ℝ :=
  ∑ k ∈ range N, ((r k).delta.1 - feedbackSlope r k (closedResponse kd r k) ⬝ᵥ (r k).ff)

theorem closed_sum_by (h : Spec.Swept solve p rho kd r) :
    ∑ k ∈ range (p.N + 1), ((kd k).cost.dx ⬝ᵥ closedResponse kd r k + (kd k).cost.du ⬝ᵥ closedControl p.N kd r k)
      = policySlope p.N kd r := by
  have hterm : (r p.N).Sx = (kd p.N).cost.dx := by rw [h.complete.keeps p.N le_rfl, h.term.1]
  rw [adjoint_sum p.N kd (fun k => (r k).Sx) (closedResponse kd r) (closedControl p.N kd r) hterm rfl
    (if_neg (lt_irrefl _)) (fun k hk => by unfold closedControl; rw [if_pos hk]; rfl)]
  refine sum_congr rfl fun k hk => ?_
  have hk := mem_range.mp hk
  obtain ⟨t1, -, t3, t4, -⟩ := treated_by (h.complete.done k hk)
  have hsym := (swept_symm h).2 k hk
  have hq1 : (r k).q.dx = (kd k).cost.dx + (kd k).Aᵀ *ᵥ (r (k + 1)).Sx := by rw [t1]; rfl
  have hq2 : (r k).q.du = (kd k).cost.du + (kd k).Bᵀ *ᵥ (r (k + 1)).Sx := (sx_by h hk).1
  have hSx : (r k).Sx = (r k).costToGo.Sx := by rw [t4]
  rw [← hq1, ← hq2, hSx, t3]
  unfold closedControl KP.costToGo feedbackSlope
  rw [if_pos hk]
  set ξ := closedResponse kd r k
  have h1 : ((r k).gainᵀ * (r k).q.dudu) *ᵥ (r k).ff ⬝ᵥ ξ = (r k).q.dudu *ᵥ ((r k).gain *ᵥ ξ) ⬝ᵥ (r k).ff := by
    rw [← mulVec_mulVec, t_dot, dotProduct_comm, dot_symm hsym, dotProduct_comm]
  have h2 : (r k).q.dxdu *ᵥ (r k).ff ⬝ᵥ ξ = (r k).q.dxduᵀ *ᵥ ξ ⬝ᵥ (r k).ff := by
    rw [dotProduct_comm, ← t_dot]
  simp only [add_dotProduct, dotProduct_add, h1, h2, t_dot]
  rw [dotProduct_comm (r k).q.du (r k).ff]
  linarith

/-- The candidates of the line search depend on the gains, not on the routine they come from. -/
theorem candidateTraj_by (alpha : ℝ) : candidateTraj (kernelBy solve p) r Z Zbar alpha = candidateTraj (alKernel p) r Z Zbar alpha := by
  have h : ∀ k, candidate (kernelBy solve p) r Z Zbar.t Zbar.h alpha k = candidate (alKernel p) r Z Zbar.t Zbar.h alpha k := by
    intro k
    induction k with
    | zero => rfl
    | succ k ih =>
      simp only [candidate, ih]
      rfl
  unfold candidateTraj candidateU
  rw [funext h]
  rfl

/-- **C110, the derivative.**  With gains from any routine, the cost of the candidate of the line search has a derivative at step zero:
the first-order part of the announced change minus the residuals of the feedback gains. -/
theorem C110_derivative (h : Spec.Swept solve p rho kd r) (hE : FirstOrder p cs Z kd) (hZ : DynFeasible (alKernel p) Z)
    (ht : SameTimes (alKernel p) Zbar Z)
    (hterm : ∀ x, ((cs p.N).evaluate x (Zbar.u p.N)).1 = ((cs p.N).evaluate x (Z.u p.N)).1) :
    HasDerivAt (fun α : ℝ => trajCost p cs (candidateTraj (kernelBy solve p) r Z Zbar α)) (policySlope p.N kd r) 0 := by
  simp only [candidateTraj_by]
  have hfun : ∀ α, trajCost p cs (candidateTraj (alKernel p) r Z Zbar α) = ∑ k ∈ Finset.range (p.N + 1),
      ((cs k).evaluate (candidate (alKernel p) r Z Zbar.t Zbar.h α k)
        (if k < p.N then candidateU (alKernel p) r Z Zbar.t Zbar.h α k else Z.u k)).1 := by
    intro α
    unfold trajCost
    refine Finset.sum_congr rfl fun k hk => ?_
    by_cases h : k < p.N
    · rw [if_pos h]
      show ((cs k).evaluate _ (if k < p.N then _ else _)).1 = _
      rw [if_pos h]; rfl
    · have : k = p.N := by have := Finset.mem_range.mp hk; omega
      subst this
      rw [if_neg h]
      show ((cs p.N).evaluate _ (if p.N < p.N then _ else _)).1 = _
      rw [if_neg h, hterm]
      rfl
  have h0 := candidate_zero (r := r) hZ ht
  have hd := candidate_deriv (r := r) hE hZ ht
  have hfam : Fam p Z (fun k α => candidate (alKernel p) r Z Zbar.t Zbar.h α k)
      (fun k α => if k < p.N then candidateU (alKernel p) r Z Zbar.t Zbar.h α k else Z.u k)
      (closedResponse kd r) (closedControl p.N kd r) := by
    refine ⟨fun k hk => (h0 k hk).1, fun k hk => ?_, fun k hk => (hd k hk).1, fun k hk => ?_⟩
    · by_cases h : k < p.N
      · simp only [if_pos h]; exact (h0 k hk).2 h
      · simp only [if_neg h]
    · unfold closedControl
      by_cases h : k < p.N
      · simp only [if_pos h]; exact (hd k hk).2
      · simp only [if_neg h]; exact hasDerivAt_const _ _
  have := hfam.cost hE
  rw [closed_sum_by h] at this
  simp only [hfun]
  exact this

/-- **C110, descent on convex expansions.**  The derivative is at most the change announced for the full step, with gains from any
routine. -/
theorem C110_slope_convex (h : Spec.Swept solve p rho kd r) (hc : ∀ k < p.N, ConvexExp (kd k).cost)
    (hN : Spec.PosSemidef (kd p.N).cost.dxdx) : policySlope p.N kd r ≤ announced p r 1 := by
  have hl : Linearised p.N kd (closedResponse kd r) (closedControl p.N kd r) := fun k hk => by
    unfold closedControl
    rw [if_pos hk]; rfl
  have ho : Obeys p.N r 1 (closedResponse kd r) (closedControl p.N kd r) := fun k hk => by
    unfold closedControl
    rw [if_pos hk, one_smul]
  have e := C110_step h 1 _ _ hl rfl ho
  rw [sub_self, zero_mul, sub_zero] at e
  rw [← e, ← closed_sum_by h, sum_range_succ]
  unfold modelChange
  refine add_le_add (sum_le_sum fun k hk => ?_) ?_
  · have := (hc k (mem_range.mp hk)).psd (closedResponse kd r k) (closedControl p.N kd r k)
    unfold quadModel
    linarith
  · have := hN (closedResponse kd r p.N)
    rw [show closedControl p.N kd r p.N = 0 from if_neg (lt_irrefl _), dotProduct_zero, add_zero]
    unfold ctgModel
    linarith

variable {u : ℝ} {fl : ℝ → ℝ} {F : Floats}

/-- **C111, descent of the cost.**  Convex expansions, any nonnegative regularization, gains with rounding: along the policy the cost
falls with a slope of at least half the regularised form of the feedforward gains, less a few roundings of its size. -/
theorem C111_slope (hu : 0 ≤ u) (h1 : unit u m < 1) (hF : Accurate u fl F) (h : Spec.Swept F.routine p rho kd r) (hrho : 0 ≤ rho)
    (hc : ∀ k < p.N, ConvexExp (kd k).cost) (hN : Spec.PosSemidef (kd p.N).cost.dxdx) :
    policySlope p.N kd r ≤ ∑ k ∈ range p.N, (factorLoss u m * scaledNorm (quuReg r rho k) (r k).ff ^ 2
      - (1 / 2) * ((r k).ff ⬝ᵥ quuReg r rho k *ᵥ (r k).ff)) := by
  refine (C110_slope_convex h hc hN).trans (sum_le_sum fun k hk => ?_)
  have hk := mem_range.mp hk
  have hb := (abs_le.mp (C111_delta hu h1 hF h hk)).2
  have t3 := (treated_by (h.complete.done k hk)).2.2.1
  have e2 : (r k).delta.2 = (1 / 2) * ((r k).ff ⬝ᵥ (r k).q.dudu *ᵥ (r k).ff) := by rw [t3]
  have eq : (r k).ff ⬝ᵥ quuReg r rho k *ᵥ (r k).ff = (r k).ff ⬝ᵥ (r k).q.dudu *ᵥ (r k).ff + rho * ((r k).ff ⬝ᵥ (r k).ff) := by
    unfold quuReg
    rw [add_mulVec, smul_mulVec, one_mulVec, dotProduct_add, dotProduct_smul, smul_eq_mul]
  have hff : 0 ≤ rho * ((r k).ff ⬝ᵥ (r k).ff) := mul_nonneg hrho (sum_nonneg fun i _ => mul_self_nonneg _)
  rw [e2]
  linarith

/-- **C111, improvement.**  If moreover the regularised Hessians are positive definite with twice the margin of `ClearlyDefinite`, and
the trajectory is not stationary, all small steps along the policy lower the cost. -/
theorem C111_improves (hu : 0 ≤ u) (h1 : unit u m < 1) (hF : Accurate u fl F) (h : Spec.Swept F.routine p rho kd r) (hrho : 0 ≤ rho)
    (hc : ∀ k < p.N, ConvexExp (kd k).cost) (hN : Spec.PosSemidef (kd p.N).cost.dxdx)
    (hd : ∀ k < p.N, ∀ v, v ≠ 0 → 2 * factorLoss u m * scaledNorm (quuReg r rho k) v ^ 2 < v ⬝ᵥ quuReg r rho k *ᵥ v)
    (hE : FirstOrder p cs Z kd) (hZ : DynFeasible (alKernel p) Z) (ht : SameTimes (alKernel p) Zbar Z)
    (hterm : ∀ x, ((cs p.N).evaluate x (Zbar.u p.N)).1 = ((cs p.N).evaluate x (Z.u p.N)).1) (hns : ¬ Stationary p cs Z) :
    ∃ ε > 0, ∀ α, 0 < α → α < ε → trajCost p cs (candidateTraj (kernelBy F.routine p) r Z Zbar α)
      < trajCost p cs (candidateTraj (kernelBy F.routine p) r Z Zbar 0) := by
  have hloss : 0 ≤ factorLoss u m := by
    have := loss_nonneg hu h1
    unfold factorLoss
    positivity
  have hcd : ∀ k < p.N, ClearlyDefinite u r rho k := fun k hk v hv => by
    refine lt_of_le_of_lt ?_ (hd k hk v hv)
    have := mul_nonneg hloss (sq_nonneg (scaledNorm (quuReg r rho k) v))
    linarith
  obtain ⟨k, hk, hne⟩ : ∃ k < p.N, (r k).ff ≠ 0 := by
    by_contra hno
    refine hns ((C111_stationary hu h1 hF h hcd hE hZ).mp fun k hk => ?_)
    by_contra h0
    exact hno ⟨k, hk, h0⟩
  have hneg : policySlope p.N kd r < 0 := by
    refine lt_of_le_of_lt (C111_slope hu h1 hF h hrho hc hN) (sum_neg' (fun j hj => ?_) ⟨k, mem_range.mpr hk, ?_⟩)
    · by_cases e : (r j).ff = 0
      · simp [e, scaledNorm]
      · have := hd j (mem_range.mp hj) _ e
        linarith
    · have := hd k hk _ hne
      linarith
  have hder := hasDerivAt_iff_tendsto_slope_zero.mp (C110_derivative h hE hZ ht hterm)
  have hev := hder.eventually (gt_mem_nhds hneg)
  rw [eventually_nhdsWithin_iff, Metric.eventually_nhds_iff] at hev
  obtain ⟨ε, hε, hb⟩ := hev
  refine ⟨ε, hε, fun α h0 hα => ?_⟩
  have := hb (show dist α 0 < ε by rw [Real.dist_eq, sub_zero, abs_of_pos h0]; exact hα) h0.ne'
  rw [zero_add, smul_eq_mul] at this
  have h2 := mul_neg_of_pos_of_neg h0 this
  rw [← mul_assoc, mul_inv_cancel₀ h0.ne', one_mul] at h2
  linarith

end derivative

/-! ### The case of `oneSwept` -/

/-- The control Hessian is definite to working precision, with a margin. -/
theorem oneSwept_definite {c : ℝ} (hc : c ≤ 1 / 2) (v : Fin 1 → ℝ) (hv : v ≠ 0) :
    c * scaledNorm (quuReg oneSwept 0 0) v ^ 2 < v ⬝ᵥ quuReg oneSwept 0 0 *ᵥ v := by
  obtain ⟨-, hQ⟩ := oneSwept_swept
  have h2 : Real.sqrt 2 * Real.sqrt 2 = 2 := Real.mul_self_sqrt (by norm_num)
  have hv0 : v 0 ≠ 0 := fun e => hv (by ext i; fin_cases i; exact e)
  have hp : 0 < v 0 * v 0 := mul_self_pos.mpr hv0
  have e1 : scaledNorm (quuReg oneSwept 0 0) v ^ 2 = 2 * (v 0 * v 0) := by
    rw [hQ]
    simp [scaledNorm, Matrix.ofNat_apply]
    have := abs_mul_abs_self (v 0)
    linear_combination |v 0| ^ 2 * h2 + 2 * this
  have e2 : v ⬝ᵥ quuReg oneSwept 0 0 *ᵥ v = 2 * (v 0 * v 0) := by
    rw [hQ]
    simp [mulVec, dotProduct, Matrix.ofNat_apply]
    ring
  rw [e1, e2]
  have := mul_le_mul_of_nonneg_right hc (show 0 ≤ 2 * (v 0 * v 0) by linarith)
  refine this.trans_lt ?_
  linarith

/-- The gain is not zero and the announced change negative. -/
example : ClearlyDefinite (2 ^ (-53 : ℤ)) oneSwept 0 0 ∧ (oneSwept 0).ff ≠ 0 ∧ (oneSwept 0).delta.1 < 0 := by
  have hu : (0 : ℝ) ≤ 2 ^ (-53 : ℤ) := by positivity
  obtain ⟨s1, s2, s3⟩ := C111_size hu 1 (by norm_num)
  obtain ⟨hsw, hQ⟩ := oneSwept_swept
  have hd : ClearlyDefinite (2 ^ (-53 : ℤ)) oneSwept 0 0 := oneSwept_definite (s2.trans (by norm_num))
  have hff : (oneSwept 0).ff ≠ 0 := by
    intro h0
    have := congrFun ((C111_ff_zero hu s1 leftToRight_accurate hsw (k := 0) Nat.one_pos hd).mp h0) 0
    rw [(sx_by hsw (k := 0) Nat.one_pos).1] at this
    simp [oneData, oneSwept] at this
  obtain ⟨d1, d2⟩ := C111_descent hu s1 leftToRight_accurate hsw (k := 0) Nat.one_pos hd
  exact ⟨hd, hff, lt_of_le_of_ne d1 fun e => hff (d2.mp e)⟩

/-- The costs whose expansions at zero are `oneData`. -/
noncomputable def oneCost : CostFun 1 1 ℝ where
  eval x u := (1 / 2 * (x 0 * x 0) + x 0) + (1 / 2 * (u 0 * u 0) + u 0)
  grad x u := (x + 1, u + 1)
  hess _ _ := ⟨1, 0, 1⟩

/-- The trajectory that rests at zero. -/
def oneRest : Traj (Fin 1 → ℝ) (Fin 1 → ℝ) ℝ where
  x _ := 0
  u _ := 0
  t _ := 0
  h _ := 1

/-- All hypotheses of `C111_improves` are met: small steps along the policy calculated with rounding lower the cost. -/
example : ∃ ε > 0, ∀ α, 0 < α → α < ε →
    trajCost oneProblem (fun _ => .new oneCost [] []) (candidateTraj (kernelBy leftToRight.routine oneProblem) oneSwept oneRest oneRest α)
      < trajCost oneProblem (fun _ => .new oneCost [] []) (candidateTraj (kernelBy leftToRight.routine oneProblem) oneSwept oneRest oneRest 0) := by
  have hu : (0 : ℝ) ≤ 2 ^ (-53 : ℤ) := by positivity
  obtain ⟨s1, s2, s3⟩ := C111_size hu 1 (by norm_num)
  obtain ⟨hsw, hQ⟩ := oneSwept_swept
  have h4 : 2 * factorLoss (2 ^ (-53 : ℤ)) 1 ≤ 1 / 2 := by
    have h5 : factorLoss (2 ^ (-53 : ℤ)) 1 ≤ 1 / 4 := s2.trans (by norm_num)
    generalize factorLoss (2 ^ (-53 : ℤ)) 1 = c at h5
    linarith
  have lin : ∀ (a b x u : Fin 1 → ℝ), IsGradAt (fun x u => a ⬝ᵥ x + b ⬝ᵥ u) a b x u := fun a b x u => (gradCLM a b).hasFDerivAt
  have hE : FirstOrder oneProblem (fun _ => .new oneCost [] []) oneRest oneData := by
    refine ⟨fun k hk i => ?_, fun k hk => ?_⟩
    · refine (lin 1 1 _ _).congr (fun x u => ?_) ?_ ?_
      · fin_cases i
        simp [oneProblem, dotProduct]
      · funext j; fin_cases i; fin_cases j; simp [oneData]
      · funext j; fin_cases i; fin_cases j; simp [oneData]
    · have hφ : HasDerivAt (fun t : ℝ => 1 / 2 * (t * t) + t) 1 0 := by
        have := ((hasDerivAt_sq 0).const_mul (1 / 2)).add (hasDerivAt_id (0 : ℝ))
        refine HasDerivAt.congr_deriv this ?_
        norm_num
      have hx := (IsGradAt.comp (φ := fun t : ℝ => 1 / 2 * (t * t) + t) (d := 1) (by simpa [dotProduct] using hφ) (lin 1 0 0 0)).add
        (IsGradAt.comp (φ := fun t : ℝ => 1 / 2 * (t * t) + t) (d := 1) (by simpa [dotProduct] using hφ) (lin 0 1 0 0))
      refine hx.congr (fun x u => ?_) ?_ ?_
      · simp [ALCost.evaluate, ALCost.new, oneCost, dotProduct]
      · simp [oneData]
      · simp [oneData]
  have hZ : DynFeasible (alKernel oneProblem) oneRest := ⟨rfl, fun k _ => (add_zero (0 : Fin 1 → ℝ)).symm⟩
  have hsq : ∀ v : Fin 1 → ℝ, 0 ≤ v ⬝ᵥ (1 : Matrix (Fin 1) (Fin 1) ℝ) *ᵥ v := fun v => by
    rw [one_mulVec]; exact sum_nonneg fun i _ => mul_self_nonneg _
  refine C111_improves hu s1 leftToRight_accurate hsw le_rfl (fun k _ => ⟨isSymm_one, isSymm_one, fun x u => ?_⟩) hsq (fun k hk v hv => ?_)
    hE hZ ⟨fun _ _ => rfl, fun _ _ => rfl⟩ (fun _ => rfl) (fun hst => ?_)
  · have h1 := hsq x
    have h2 := hsq u
    show 0 ≤ x ⬝ᵥ (1 : Matrix (Fin 1) (Fin 1) ℝ) *ᵥ x + 2 * (x ⬝ᵥ (0 : Matrix (Fin 1) (Fin 1) ℝ) *ᵥ u)
      + u ⬝ᵥ (1 : Matrix (Fin 1) (Fin 1) ℝ) *ᵥ u
    rw [zero_mulVec, dotProduct_zero]
    linarith
  · have hk : k < 1 := hk
    obtain rfl : k = 0 := by omega
    exact oneSwept_definite h4 v hv
  · have h0 := congrFun ((stationary_iff_grad hE hZ).mp hst 0 Nat.one_pos) 0
    have ha : adj oneData oneProblem.N 1 = 1 := adj_N oneData 1
    unfold grad at h0
    rw [ha] at h0
    simp [oneData] at h0

end Altro.Props
