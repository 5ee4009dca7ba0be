import Verif.Proofs.Integration

/-!
# C33-C35: integrators
-/

namespace Altro.Props
open Altro.Spec Matrix
variable {n m : ℕ}

/-- C33: the Jacobian of the Euler step. -/
theorem C33_euler (d : ContDyn n m ℝ) {Clean} (hd : JacobianCorrect d Clean) (x : Fin n → ℝ) (u : Fin m → ℝ) (t h : ℝ)
    (buf : Matrix (Fin n) (Fin n ⊕ Fin m) ℝ) (hb : Clean buf) :
    IsJacAt (fun x u => d.euler x u t h) (d.eulerJac x u t h buf) x u := by
  have h1 := (isJacAt_iff _ _ _ _).mp (hd.exact x u t buf hb)
  rw [isJacAt_iff]
  have h2 : HasFDerivAt (fun z : Z n m => z.1 + h • d.f z.1 z.2 t)
      (ContinuousLinearMap.fst ℝ _ _ + h • jacCLM (d.jac x u t buf)) (x, u) := hasFDerivAt_fst.add (h1.const_smul h)
  refine h2.congr_fderiv (ContinuousLinearMap.ext fun z => ?_)
  funext i
  simp [jacCLM_apply, ContDyn.eulerJac, mulVec, dotProduct, toCols₁, toCols₂, Finset.mul_sum, mul_add, add_mul,
    Finset.sum_add_distrib, one_apply, mul_assoc]
  ring

/-- The assembly formula is the chain rule: with the stage Jacobians taken at the stage points and stage times, the
result is the derivative of the RK4 step, for every (time-varying) dynamics. -/
theorem C34_assembly (d : ContDyn n m ℝ) (x : Fin n → ℝ) (u : Fin m → ℝ) (t h : ℝ)
    (J0 J1 J2 J3 : Matrix (Fin n) (Fin n ⊕ Fin m) ℝ) (h0 : IsJacAt (fun x u => d.f x u t) J0 x u)
    (h1 : IsJacAt (fun x u => d.f x u (t + 1 / 2 * h)) J1 (x + (1 / 2 * h) • d.k1 x u t) u)
    (h2 : IsJacAt (fun x u => d.f x u (t + 1 / 2 * h)) J2 (x + (1 / 2 * h) • d.k2 x u t h) u)
    (h3 : IsJacAt (fun x u => d.f x u (t + h)) J3 (x + h • d.k3 x u t h) u) :
    IsJacAt (fun x u => d.rk4 x u t h) (ContDyn.rk4Assemble h J0 J1 J2 J3) x u := by
  have e1 := (isJacAt_iff _ _ _ _).mp h0
  have e2 := stage_deriv (k := fun x u => d.k1 x u t) (1 / 2 * h) e1 h1
  have e3 := stage_deriv (k := fun x u => d.k2 x u t h) (1 / 2 * h) e2 h2
  have e4 := stage_deriv (k := fun x u => d.k3 x u t h) h e3 h3
  rw [isJacAt_iff, rk4Assemble_apply]
  exact hasFDerivAt_fst.add ((((e1.add (e2.const_smul (2 : ℝ))).add (e3.const_smul (2 : ℝ))).add e4).const_smul (h / 6))

/-- C34 for time-invariant dynamics.  Missing for the full property: time-varying dynamics, where the code evaluates
the stage Jacobians at times `t/2, t/2, t` instead of `t + h/2, t + h/2, t + h` (`C34_counterexample`). -/
theorem C34_rk4_partial (d : ContDyn n m ℝ) {Clean} (hd : JacobianCorrect d Clean) (ht : TimeInvariant d)
    (x : Fin n → ℝ) (u : Fin m → ℝ) (t h : ℝ) (buf : Matrix (Fin n) (Fin n ⊕ Fin m) ℝ) (hb : Clean buf) :
    IsJacAt (fun x u => d.rk4 x u t h) (d.rk4Jac x u t h buf) x u := by
  have hf : ∀ t t', (fun x u => d.f x u t) = fun x u => d.f x u t' := fun t t' => by
    funext x u; exact ht.f x u t t'
  refine C34_assembly d x u t h _ _ _ _ (hd.exact _ _ _ _ hb) ?_ ?_ ?_
  · rw [hf _ (1 / 2 * t)]; exact hd.exact _ _ _ _ (hd.keep _ _ _ _ hb)
  · rw [hf _ (1 / 2 * t)]; exact hd.exact _ _ _ _ (hd.keep _ _ _ _ (hd.keep _ _ _ _ hb))
  · rw [hf _ t]; exact hd.exact _ _ _ _ (hd.keep _ _ _ _ (hd.keep _ _ _ _ (hd.keep _ _ _ _ hb)))

/-- The dynamics `x' = t x` with their exact Jacobian. -/
def rampDyn : ContDyn 1 1 ℝ where
  f x _ t := t • x
  jac _ _ t _ := fromCols (t • 1) 0

theorem rampDyn_correct : JacobianCorrect rampDyn fun _ => True where
  zero := trivial
  keep _ _ _ _ _ := trivial
  exact x u t b _ := by
    rw [isJacAt_iff]
    have h : HasFDerivAt (fun z : Z 1 1 => t • z.1) (t • ContinuousLinearMap.fst ℝ _ _) (x, u) :=
      hasFDerivAt_fst.const_smul t
    refine h.congr_fderiv (ContinuousLinearMap.ext fun z => ?_)
    simp [jacCLM_apply, rampDyn, smul_mulVec]

/-- C34 fails: for `x' = t x`, starting at `t = 0` with step 1, the code returns the Jacobian 1, the derivative of the
step is `1 + 31/48`. -/
theorem C34_counterexample : ∃ (d : ContDyn 1 1 ℝ), JacobianCorrect d (fun _ => True) ∧
    ∃ (x u : Fin 1 → ℝ) (t h : ℝ), ¬ IsJacAt (fun x u => d.rk4 x u t h) (d.rk4Jac x u t h 0) x u := by
  refine ⟨rampDyn, rampDyn_correct, 0, 0, 0, 1, fun hJ => ?_⟩
  have hgood := C34_assembly rampDyn 0 0 0 1 (fromCols (0 : Matrix (Fin 1) (Fin 1) ℝ) 0)
    (fromCols ((1 / 2 : ℝ) • 1) 0) (fromCols ((1 / 2 : ℝ) • 1) 0) (fromCols ((1 : ℝ) • 1) 0)
    (by have := rampDyn_correct.exact 0 0 0 0 trivial; simpa [rampDyn] using this)
    (by
      have := rampDyn_correct.exact (0 + (1 / 2 * 1 : ℝ) • rampDyn.k1 0 0 0) 0 (0 + 1 / 2 * 1) 0 trivial
      simpa [rampDyn] using this)
    (by
      have := rampDyn_correct.exact (0 + (1 / 2 * 1 : ℝ) • rampDyn.k2 0 0 0 1) 0 (0 + 1 / 2 * 1) 0 trivial
      simpa [rampDyn] using this)
    (by
      have := rampDyn_correct.exact (0 + (1 : ℝ) • rampDyn.k3 0 0 0 1) 0 (0 + 1) 0 trivial
      simpa [rampDyn] using this)
  rw [isJacAt_iff] at hJ hgood
  have h := congrFun (congrArg (fun D : Z 1 1 →L[ℝ] (Fin 1 → ℝ) => D (1, 0)) (hJ.unique hgood)) 0
  have z : (toCols₁ (0 : Matrix (Fin 1) (Fin 1 ⊕ Fin 1) ℝ)) = 0 := rfl
  simp [jacCLM_apply, ContDyn.rk4Jac, ContDyn.rk4Assemble, rampDyn, z] at h
  norm_num [mulVec, dotProduct, smul_mulVec] at h

/-- C35: for linear time-invariant dynamics the RK4 step is the fourth-order Taylor polynomial. -/
theorem C35_lti {K : Type*} [Field K] [CharZero K] (A : Matrix (Fin n) (Fin n) K) (B : Matrix (Fin n) (Fin m) K) (d : ContDyn n m K)
    (hf : ∀ x u t, d.f x u t = A *ᵥ x + B *ᵥ u) (x : Fin n → K) (u : Fin m → K) (t h : K) :
    d.rk4 x u t h = (1 + h • A + (h ^ 2 / 2) • A ^ 2 + (h ^ 3 / 6) • A ^ 3 + (h ^ 4 / 24) • A ^ 4) *ᵥ x
      + (h • 1 + (h ^ 2 / 2) • A + (h ^ 3 / 6) • A ^ 2 + (h ^ 4 / 24) • A ^ 3) *ᵥ (B *ᵥ u) := by
  simp only [ContDyn.rk4, ContDyn.k1, ContDyn.k2, ContDyn.k3, ContDyn.k4, hf, pow_succ, pow_zero, one_mul, add_mulVec,
    smul_mulVec, one_mulVec, mulVec_add, mulVec_smul, ← mulVec_mulVec, smul_add, smul_smul]
  have h2 : (2 : K) ≠ 0 := by norm_num
  have h6 : (6 : K) ≠ 0 := by norm_num
  have h24 : (24 : K) ≠ 0 := by norm_num
  match_scalars <;> field_simp <;> ring

end Altro.Props
