import Verif.Props.Integration
import Verif.Proofs.Examples
import Verif.Proofs.Quadratic

/-!
# C35 (triple integrator), C37, C38, C39, C40, C62: the example models, costs and constraints
-/

namespace Altro.Props
open Altro.Spec Matrix

/-! ## Triple integrator -/

section ti
variable {dof : ℕ}

/-- The reported Jacobian of the triple integrator is its derivative, for every output buffer. -/
theorem C40_triple_integrator (dof : ℕ) : JacobianCorrect (tripleIntegrator (K := ℝ) dof) fun _ => True where
  zero := trivial
  keep _ _ _ _ _ := trivial
  exact x u t b _ := by
    refine isJacAt_affine _ _ 0 (fun x u => ?_) x u
    funext j
    obtain ⟨k, i, rfl⟩ := tiIx_surj j
    obtain ⟨e0, e1, e2⟩ := tiEval_ix x u 0 i
    have J := tiJac_ix b i
    fin_cases k <;> simp only [tripleIntegrator, zero_add, Pi.add_apply, mulVec, dotProduct, toCols₁_apply, toCols₂_apply,
      Fin.reduceFinMk, Fin.mk_one, Fin.zero_eta, (J _).1, (J _).2.1, (J _).2.2, e0, e1, e2, Sum.inl.injEq, Sum.inr.injEq,
      reduceCtorEq, ite_mul, one_mul, zero_mul, Finset.sum_ite_eq', Finset.mem_univ, if_true, if_false,
      Finset.sum_const_zero, add_zero, Pi.zero_apply]

theorem C40_triple_integrator_invariant (dof : ℕ) : TimeInvariant (tripleIntegrator (K := ℝ) dof) :=
  ⟨fun _ _ _ _ => rfl, fun _ _ _ _ _ => rfl⟩

/-- The RK4 step of the triple integrator: position, velocity and acceleration of motion with constant jerk. -/
theorem C35_triple_integrator {K : Type*} [Field K] [CharZero K] (x : Fin (3 * dof) → K) (u : Fin dof → K) (t h : K)
    (i : Fin dof) :
    (tripleIntegrator dof).rk4 x u t h (tiIx 0 i)
      = x (tiIx 0 i) + h * x (tiIx 1 i) + h ^ 2 / 2 * x (tiIx 2 i) + h ^ 3 / 6 * u i ∧
    (tripleIntegrator dof).rk4 x u t h (tiIx 1 i) = x (tiIx 1 i) + h * x (tiIx 2 i) + h ^ 2 / 2 * u i ∧
    (tripleIntegrator dof).rk4 x u t h (tiIx 2 i) = x (tiIx 2 i) + h * u i := by
  have e : ∀ (x : Fin (3 * dof) → K) u t, (tripleIntegrator dof).f x u t = tiEval dof x u 0 := fun _ _ _ => rfl
  refine ⟨?_, ?_, ?_⟩ <;>
  · simp only [ContDyn.rk4, ContDyn.k1, ContDyn.k2, ContDyn.k3, ContDyn.k4, e, Pi.add_apply, Pi.smul_apply,
      smul_eq_mul, (tiEval_ix _ _ _ i).1, (tiEval_ix _ _ _ i).2.1, (tiEval_ix _ _ _ i).2.2]
    have h2 : (2 : K) ≠ 0 := by norm_num
    have h6 : (6 : K) ≠ 0 := by norm_num
    field_simp
    ring

/-- The discretised triple integrator is exact for every step size: as a function of the step, the RK4 result is the
solution of the differential equation through `x`. -/
theorem C35_triple_integrator_exact (x : Fin (3 * dof) → ℝ) (u : Fin dof → ℝ) (t : ℝ) :
    (tripleIntegrator dof).rk4 x u t 0 = x ∧
    IsSolution (tripleIntegrator dof) u t fun s => (tripleIntegrator dof).rk4 x u t s := by
  have hc := fun (s : ℝ) (i : Fin dof) => C35_triple_integrator x u t s i
  refine ⟨by simp [ContDyn.rk4], ⟨fun s j => ?_⟩⟩
  obtain ⟨k, i, rfl⟩ := tiIx_surj j
  have e : ∀ (x : Fin (3 * dof) → ℝ) u t, (tripleIntegrator dof).f x u t = tiEval dof x u 0 := fun _ _ _ => rfl
  have d1 : HasDerivAt (fun s : ℝ => s) 1 s := hasDerivAt_id s
  have d2 : HasDerivAt (fun s : ℝ => s ^ 2 / 2) s s := by
    exact ((hasDerivAt_pow 2 s).div_const 2).congr_deriv (by simp)
  have d3 : HasDerivAt (fun s : ℝ => s ^ 3 / 6) (s ^ 2 / 2) s := by
    exact ((hasDerivAt_pow 3 s).div_const 6).congr_deriv (by push_cast; ring)
  rw [e]
  fin_cases k
  · show HasDerivAt (fun s => (tripleIntegrator dof).rk4 x u t s (tiIx 0 i)) (tiEval dof _ u 0 (tiIx 0 i)) s
    rw [(tiEval_ix _ _ _ i).1, (hc s i).2.1]
    simp only [(hc _ i).1]
    have := (((hasDerivAt_const s (x (tiIx 0 i))).add (d1.mul_const (x (tiIx 1 i)))).add
      (d2.mul_const (x (tiIx 2 i)))).add (d3.mul_const (u i))
    exact this.congr_deriv (by ring)
  · show HasDerivAt (fun s => (tripleIntegrator dof).rk4 x u t s (tiIx 1 i)) (tiEval dof _ u 0 (tiIx 1 i)) s
    rw [(tiEval_ix _ _ _ i).2.1, (hc s i).2.2]
    simp only [(hc _ i).2.1]
    have := ((hasDerivAt_const s (x (tiIx 1 i))).add (d1.mul_const (x (tiIx 2 i)))).add (d2.mul_const (u i))
    exact this.congr_deriv (by ring)
  · show HasDerivAt (fun s => (tripleIntegrator dof).rk4 x u t s (tiIx 2 i)) (tiEval dof _ u 0 (tiIx 2 i)) s
    rw [(tiEval_ix _ _ _ i).2.2]
    simp only [(hc _ i).2.2]
    have := (hasDerivAt_const s (x (tiIx 2 i))).add (d1.mul_const (u i))
    exact this.congr_deriv (by ring)

end ti

/-! ## Unicycle -/

/-- Buffers whose entries that `Unicycle::Jacobian` does not write are zero. -/
def UnicycleClean (b : Matrix (Fin 3) (Fin 3 ⊕ Fin 2) ℝ) : Prop :=
  ∀ x u t, unicycle.jac x u t b = unicycle.jac x u t 0

theorem unicycle_clean (x : Fin 3 → ℝ) (u : Fin 2 → ℝ) (t : ℝ) (b : Matrix (Fin 3) (Fin 3 ⊕ Fin 2) ℝ)
    (h : UnicycleClean b) : UnicycleClean (unicycle.jac x u t b) := by
  intro x' u' t'
  rw [h x u t]
  funext i j
  fin_cases i <;> rcases j with j | j <;> fin_cases j <;> rfl

/-- The unicycle dynamics only depend on `θ`, `v`, `ω`. -/
theorem C40_unicycle_row (i : Fin 3) (x : Fin 3 → ℝ) (u : Fin 2 → ℝ) :
    IsGradAt (fun x u => unicycle.f x u 0 i) (fun j => unicycle.jac x u 0 0 i (.inl j))
      (fun j => unicycle.jac x u 0 0 i (.inr j)) x u := by
  have hθ : HasFDerivAt (fun z : Z 3 2 => z.1 2) (gradCLM (Pi.single 2 1) 0) (x, u) := by
    have : (fun z : Z 3 2 => z.1 2) = fun z => gradCLM (Pi.single 2 1) 0 z := by funext z; simp
    rw [this]; exact ContinuousLinearMap.hasFDerivAt _
  have hv : HasFDerivAt (fun z : Z 3 2 => z.2 0) (gradCLM 0 (Pi.single 0 1)) (x, u) := by
    have : (fun z : Z 3 2 => z.2 0) = fun z => gradCLM 0 (Pi.single 0 1) z := by funext z; simp
    rw [this]; exact ContinuousLinearMap.hasFDerivAt _
  have hw : HasFDerivAt (fun z : Z 3 2 => z.2 1) (gradCLM 0 (Pi.single 1 1)) (x, u) := by
    have : (fun z : Z 3 2 => z.2 1) = fun z => gradCLM 0 (Pi.single 1 1) z := by funext z; simp
    rw [this]; exact ContinuousLinearMap.hasFDerivAt _
  have hcos := (Real.hasDerivAt_cos (x 2)).comp_hasFDerivAt (x, u) hθ
  have hsin := (Real.hasDerivAt_sin (x 2)).comp_hasFDerivAt (x, u) hθ
  unfold IsGradAt
  fin_cases i
  · refine (hv.mul hcos).congr_fderiv (ContinuousLinearMap.ext fun z => ?_)
    simp [unicycle, writesM, writes, dotProduct, Fin.sum_univ_three, Function.update]
    ring
  · refine (hv.mul hsin).congr_fderiv (ContinuousLinearMap.ext fun z => ?_)
    simp [unicycle, writesM, writes, dotProduct, Fin.sum_univ_three, Function.update]
    ring
  · refine hw.congr_fderiv (ContinuousLinearMap.ext fun z => ?_)
    simp [unicycle, writesM, writes, dotProduct, Fin.sum_univ_three, Function.update]

/-- The reported Jacobian of the unicycle is its derivative, for output buffers that are zero where it does not
write. -/
theorem C40_unicycle : JacobianCorrect unicycle UnicycleClean where
  zero := fun _ _ _ => rfl
  keep x u t b h := unicycle_clean x u t b h
  exact x u t b hb := fun i => by
    have := C40_unicycle_row i x u
    rw [hb x u t]
    exact this

theorem C40_unicycle_invariant : TimeInvariant unicycle := ⟨fun _ _ _ _ => rfl, fun _ _ _ _ _ => rfl⟩

/-- The zero-buffer assumption is needed: the method keeps what was in the entries it does not write. -/
theorem C40_unicycle_buffer : ∃ b x u t, ¬ IsJacAt (fun x u => unicycle.f x u t) (unicycle.jac x u t b) x u := by
  refine ⟨fun _ _ => 1, 0, 0, 0, fun h => ?_⟩
  have h1 := h 2
  have h2 := C40_unicycle_row 2 0 0
  have h3 := congrArg (fun D : Z 3 2 →L[ℝ] ℝ => D (Pi.single 0 1, 0)) (h1.unique h2)
  simp [unicycle, writesM, writes, Function.update] at h3

/-- The derivative of the weighted Jacobian `Jᵀ b` is the reported Hessian (zero buffer). -/
theorem C40_unicycle_hessian (x : Fin 3 → ℝ) (u : Fin 2 → ℝ) (b : Fin 3 → ℝ) (c : Fin 3 ⊕ Fin 2) :
    IsGradAt (fun x u => ∑ i, b i * unicycle.jac x u 0 0 i c) (fun j => unicycleHess x u b 0 c (.inl j))
      (fun j => unicycleHess x u b 0 c (.inr j)) x u := by
  have hθ : HasFDerivAt (fun z : Z 3 2 => z.1 2) (gradCLM (Pi.single 2 1) 0) (x, u) := by
    have : (fun z : Z 3 2 => z.1 2) = fun z => gradCLM (Pi.single 2 1) 0 z := by funext z; simp
    rw [this]; exact ContinuousLinearMap.hasFDerivAt _
  have hv : HasFDerivAt (fun z : Z 3 2 => z.2 0) (gradCLM 0 (Pi.single 0 1)) (x, u) := by
    have : (fun z : Z 3 2 => z.2 0) = fun z => gradCLM 0 (Pi.single 0 1) z := by funext z; simp
    rw [this]; exact ContinuousLinearMap.hasFDerivAt _
  have hcos := (Real.hasDerivAt_cos (x 2)).comp_hasFDerivAt (x, u) hθ
  have hsin := (Real.hasDerivAt_sin (x 2)).comp_hasFDerivAt (x, u) hθ
  unfold IsGradAt
  have hconst : ∀ (r : ℝ) (D : Z 3 2 →L[ℝ] ℝ), (∀ z, D z = 0) → HasFDerivAt (fun _ : Z 3 2 => r) D (x, u) := by
    intro r D hD
    have : D = 0 := ContinuousLinearMap.ext hD
    rw [this]; exact hasFDerivAt_const _ _
  rcases c with c | c <;> fin_cases c
  · refine HasFDerivAt.congr_of_eventuallyEq (hconst 0 _ fun z => ?_) (Filter.Eventually.of_forall fun z => ?_)
    · simp [unicycleHess, writesM, writes, dotProduct, Fin.sum_univ_three, Function.update]
    · simp [unicycle, writesM, writes, Fin.sum_univ_three, Function.update]
  · refine HasFDerivAt.congr_of_eventuallyEq (hconst 0 _ fun z => ?_) (Filter.Eventually.of_forall fun z => ?_)
    · simp [unicycleHess, writesM, writes, dotProduct, Fin.sum_univ_three, Function.update]
    · simp [unicycle, writesM, writes, Fin.sum_univ_three, Function.update]
  · have h := (((hv.neg.mul hsin).const_mul (b 0))).add ((hv.mul hcos).const_mul (b 1))
    refine HasFDerivAt.congr_of_eventuallyEq (h.congr_fderiv (ContinuousLinearMap.ext fun z => ?_))
      (Filter.Eventually.of_forall fun z => ?_)
    · simp [unicycleHess, writesM, writes, dotProduct, Fin.sum_univ_three, Function.update]
      ring
    · simp [unicycle, writesM, writes, Fin.sum_univ_three, Function.update]
  · have h := (hcos.const_mul (b 0)).add (hsin.const_mul (b 1))
    refine HasFDerivAt.congr_of_eventuallyEq (h.congr_fderiv (ContinuousLinearMap.ext fun z => ?_))
      (Filter.Eventually.of_forall fun z => ?_)
    · simp [unicycleHess, writesM, writes, dotProduct, Fin.sum_univ_three, Function.update]
      ring
    · simp [unicycle, writesM, writes, Fin.sum_univ_three, Function.update]
  · refine HasFDerivAt.congr_of_eventuallyEq (hconst (b 2) _ fun z => ?_) (Filter.Eventually.of_forall fun z => ?_)
    · simp [unicycleHess, writesM, writes, dotProduct, Fin.sum_univ_three, Function.update]
    · simp [unicycle, writesM, writes, Fin.sum_univ_three, Function.update]

/-- The discretised unicycle (RK4, the default integrator): its reported Jacobian is the derivative of its step. -/
theorem C34_unicycle_partial (x : Fin 3 → ℝ) (u : Fin 2 → ℝ) (t h : ℝ) :
    IsJacAt (fun x u => unicycle.rk4 x u t h) (unicycle.rk4Jac x u t h 0) x u :=
  C34_rk4_partial _ C40_unicycle C40_unicycle_invariant x u t h 0 C40_unicycle.zero

/-- The discretised triple integrator. -/
theorem C34_triple_integrator_partial (dof : ℕ) (x : Fin (3 * dof) → ℝ) (u : Fin dof → ℝ) (t h : ℝ)
    (buf : Matrix (Fin (3 * dof)) (Fin (3 * dof) ⊕ Fin dof) ℝ) :
    IsJacAt (fun x u => (tripleIntegrator dof).rk4 x u t h) ((tripleIntegrator dof).rk4Jac x u t h buf) x u :=
  C34_rk4_partial _ (C40_triple_integrator dof) (C40_triple_integrator_invariant dof) x u t h buf trivial

/-- An instance of C33: the Euler-discretised unicycle. -/
example (x : Fin 3 → ℝ) (u : Fin 2 → ℝ) (t h : ℝ) :
    IsJacAt (fun x u => unicycle.euler x u t h) (unicycle.eulerJac x u t h 0) x u :=
  C33_euler _ C40_unicycle x u t h 0 C40_unicycle.zero

/-- An instance of C33 with time-varying dynamics. -/
example : IsJacAt (fun x u => rampDyn.euler x u 3 2) (rampDyn.eulerJac 1 1 3 2 0) 1 1 :=
  C33_euler _ rampDyn_correct 1 1 3 2 0 trivial

/-- An instance of C35: one degree of freedom at rest, unit jerk, step 6. -/
example : (tripleIntegrator 1).rk4 (0 : Fin 3 → ℚ) 1 0 6 (tiIx 0 0) = 36 := by
  have := (C35_triple_integrator (dof := 1) (K := ℚ) 0 1 0 6 0).1
  rw [this]; norm_num

end Altro.Props
