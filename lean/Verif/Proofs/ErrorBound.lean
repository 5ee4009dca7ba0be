import Mathlib.Analysis.Calculus.FDeriv.Basic
import Mathlib.Analysis.Calculus.FDeriv.Prod
import Mathlib.Analysis.Calculus.FDeriv.Pi
import Mathlib.Analysis.Calculus.FDeriv.Mul
import Mathlib.Analysis.Calculus.ContDiff.Comp
import Mathlib.Analysis.Normed.Module.FiniteDimension

/-!
# Error bounds at regular stationary points of constrained functions
-/

namespace Altro.Props
open Filter
open scoped Topology
variable {E ι : Type} [NormedAddCommGroup E] [NormedSpace ℝ E] [FiniteDimensional ℝ E] [Fintype ι]

/-- Derivative of the Lagrangian of the function `J` with constraints `c`. -/
noncomputable def lagD (J : E → ℝ) (c : ι → E → ℝ) (U : E) (lam : ι → ℝ) : E →L[ℝ] ℝ := fderiv ℝ J U - ∑ i, lam i • fderiv ℝ (c i) U

variable {J : E → ℝ} {c : ι → E → ℝ} {U0 : E} {lam0 : ι → ℝ}

theorem fderiv_diff {f : E → ℝ} (h : ContDiff ℝ 2 f) : DifferentiableAt ℝ (fderiv ℝ f) U0 :=
  ((h.fderiv_right (m := 1) (by norm_num)).differentiable (by norm_num)).differentiableAt

theorem bound_near {F : Type} [NormedAddCommGroup F] [NormedSpace ℝ F] {f : E → F} (h : DifferentiableAt ℝ f U0) :
    ∃ C r : ℝ, 0 < C ∧ 0 < r ∧ ∀ U, ‖U - U0‖ ≤ r → ‖f U - f U0‖ ≤ C * ‖U - U0‖ := by
  obtain ⟨C, hC, hb⟩ := h.isBigO_sub.exists_pos
  obtain ⟨r, hr, H⟩ := Metric.eventually_nhds_iff.mp hb.bound
  refine ⟨C, r / 2, hC, by positivity, fun U hU => H ?_⟩
  rw [dist_eq_norm]
  linarith

/-- With linearly independent derivatives of the constraints, near the stationary point the multipliers are determined by the derivative of
the Lagrangian up to a multiple of the distance. -/
theorem mults_near (hJ : ContDiff ℝ 2 J) (hc : ∀ i, ContDiff ℝ 2 (c i)) (hstat : lagD J c U0 lam0 = 0)
    (hind : ∀ η : ι → ℝ, ∑ i, η i • fderiv ℝ (c i) U0 = 0 → η = 0) :
    ∃ C r : ℝ, 0 < C ∧ 0 < r ∧ ∀ U lam, ‖U - U0‖ ≤ r → ‖lam - lam0‖ ≤ C * (‖U - U0‖ + ‖lagD J c U lam‖) := by
  let A : (ι → ℝ) →ₗ[ℝ] (E →L[ℝ] ℝ) := ∑ i, (LinearMap.proj i).smulRight (fderiv ℝ (c i) U0)
  have hA : ∀ η : ι → ℝ, A η = ∑ i, η i • fderiv ℝ (c i) U0 := fun η => by simp [A]
  obtain ⟨K, hK, ha⟩ := A.exists_antilipschitzWith (LinearMap.ker_eq_bot'.mpr fun η h => hind η (by rw [← hA, h]))
  have ha' : ∀ η : ι → ℝ, ‖η‖ ≤ K * ‖∑ i, η i • fderiv ℝ (c i) U0‖ := fun η => by
    have := ha.le_mul_dist η 0
    rwa [dist_zero_right, map_zero, dist_zero_right, hA] at this
  -- the Lagrangian with the multipliers of the point
  have hd : DifferentiableAt ℝ (fun U => lagD J c U lam0) U0 :=
    (fderiv_diff hJ).sub (DifferentiableAt.fun_sum fun i _ => (fderiv_diff (hc i)).const_smul (lam0 i))
  obtain ⟨C1, r1, hC1, hr1, H1⟩ := bound_near hd
  have hci := fun i => bound_near (U0 := U0) (fderiv_diff (hc i))
  choose C2 r2 hC2 hr2 H2 using hci
  set S : ℝ := ∑ i, C2 i with hS
  have hS0 : 0 ≤ S := Finset.sum_nonneg fun i _ => (hC2 i).le
  have hKpos : (0 : ℝ) < K := hK
  -- a radius below all of these
  obtain ⟨r3, hr3, hr3'⟩ : ∃ r : ℝ, 0 < r ∧ ∀ i, r ≤ r2 i := by
    by_cases hne : Nonempty ι
    · obtain ⟨i, hi⟩ := Finite.exists_min r2
      exact ⟨r2 i, hr2 i, hi⟩
    · exact ⟨1, one_pos, fun i => absurd ⟨i⟩ hne⟩
  refine ⟨2 * K * (C1 + 1), min r1 (min r3 (1 / (2 * K * (S + 1)))), by positivity, by positivity, fun U lam hU => ?_⟩
  have u1 : ‖U - U0‖ ≤ r1 := hU.trans (min_le_left _ _)
  have u2 : ‖U - U0‖ ≤ r3 := hU.trans ((min_le_right _ _).trans (min_le_left _ _))
  have u3 : ‖U - U0‖ ≤ 1 / (2 * K * (S + 1)) := hU.trans ((min_le_right _ _).trans (min_le_right _ _))
  have e1 : ∑ i, (lam - lam0) i • fderiv ℝ (c i) U0 = lagD J c U lam0 - lagD J c U lam
      - ∑ i, (lam - lam0) i • (fderiv ℝ (c i) U - fderiv ℝ (c i) U0) := by
    simp only [lagD, Pi.sub_apply, smul_sub, sub_smul, Finset.sum_sub_distrib]
    abel
  have h1 := H1 U u1
  rw [hstat, sub_zero] at h1
  have h2 : ‖∑ i, (lam - lam0) i • (fderiv ℝ (c i) U - fderiv ℝ (c i) U0)‖ ≤ ‖lam - lam0‖ * (S * ‖U - U0‖) := by
    refine (norm_sum_le _ _).trans ?_
    rw [hS, Finset.sum_mul, Finset.mul_sum]
    refine Finset.sum_le_sum fun i _ => ?_
    rw [norm_smul]
    exact mul_le_mul (norm_le_pi_norm (lam - lam0) i) (H2 i U (u2.trans (hr3' i))) (norm_nonneg _) (norm_nonneg _)
  have h3 := ha' (lam - lam0)
  rw [e1] at h3
  have h4 : ‖lagD J c U lam0 - lagD J c U lam - ∑ i, (lam - lam0) i • (fderiv ℝ (c i) U - fderiv ℝ (c i) U0)‖
      ≤ C1 * ‖U - U0‖ + ‖lagD J c U lam‖ + ‖lam - lam0‖ * (S * ‖U - U0‖) :=
    (norm_sub_le _ _).trans (add_le_add ((norm_sub_le _ _).trans (add_le_add h1 le_rfl)) h2)
  have h5 : K * (S * ‖U - U0‖) ≤ 1 / 2 := by
    have := mul_le_mul_of_nonneg_left u3 (show (0 : ℝ) ≤ K * (S + 1) by positivity)
    have e : (K : ℝ) * (S + 1) * (1 / (2 * K * (S + 1))) = 1 / 2 := by field_simp
    rw [e] at this
    have := norm_nonneg (U - U0)
    nlinarith
  have h6 := h3.trans (mul_le_mul_of_nonneg_left h4 hKpos.le)
  have n1 := norm_nonneg (lam - lam0)
  have n2 := norm_nonneg (U - U0)
  have n3 := norm_nonneg (lagD J c U lam)
  have h7 : ‖lam - lam0‖ * (K * (S * ‖U - U0‖)) ≤ ‖lam - lam0‖ * (1 / 2) := mul_le_mul_of_nonneg_left h5 n1
  have h8 : ‖lam - lam0‖ ≤ 2 * K * (C1 * ‖U - U0‖ + ‖lagD J c U lam‖) := by nlinarith
  refine h8.trans ?_
  have : C1 * ‖U - U0‖ + ‖lagD J c U lam‖ ≤ (C1 + 1) * (‖U - U0‖ + ‖lagD J c U lam‖) := by nlinarith
  calc 2 * K * (C1 * ‖U - U0‖ + ‖lagD J c U lam‖) ≤ 2 * K * ((C1 + 1) * (‖U - U0‖ + ‖lagD J c U lam‖)) := mul_le_mul_of_nonneg_left this (by positivity)
    _ = _ := by ring

/-- With the second-order condition as well, points where the derivative of the Lagrangian and the constraint values are small are close. -/
theorem kkt_error_bound (hJ : ContDiff ℝ 2 J) (hc : ∀ i, ContDiff ℝ 2 (c i)) (hstat : lagD J c U0 lam0 = 0) (h0 : ∀ i, c i U0 = 0)
    (hind : ∀ η : ι → ℝ, ∑ i, η i • fderiv ℝ (c i) U0 = 0 → η = 0)
    (hsec : ∀ d : E, d ≠ 0 → (∀ i, fderiv ℝ (c i) U0 d = 0) → 0 < fderiv ℝ (fun U => lagD J c U lam0) U0 d d) :
    ∃ κ r : ℝ, 0 < κ ∧ 0 < r ∧ ∀ U lam, ‖U - U0‖ ≤ r → ‖lam - lam0‖ ≤ r →
      ‖U - U0‖ ≤ κ * (‖lagD J c U lam‖ + ‖fun i => c i U‖) ∧ ‖lam - lam0‖ ≤ κ * (‖lagD J c U lam‖ + ‖fun i => c i U‖) := by
  let F : E × (ι → ℝ) → (E →L[ℝ] ℝ) × (ι → ℝ) := fun w => (lagD J c w.1 w.2, fun i => c i w.1)
  have hd0 : HasFDerivAt (fun U => lagD J c U lam0) (fderiv ℝ (fun U => lagD J c U lam0) U0) U0 :=
    ((fderiv_diff hJ).sub (DifferentiableAt.fun_sum fun i _ => (fderiv_diff (hc i)).const_smul (lam0 i))).hasFDerivAt
  set H := fderiv ℝ (fun U => lagD J c U lam0) U0 with hH
  -- the Lagrangian is linear in the multipliers
  have eL : ∀ w : E × (ι → ℝ), lagD J c w.1 w.2 = lagD J c w.1 lam0 - ∑ i, (w.2 i - lam0 i) • fderiv ℝ (c i) w.1 := fun w => by
    simp only [lagD, sub_smul, Finset.sum_sub_distrib]
    abel
  let L1 : E × (ι → ℝ) →L[ℝ] (E →L[ℝ] ℝ) := H.comp (ContinuousLinearMap.fst ℝ E (ι → ℝ)) -
    ∑ i, (((ContinuousLinearMap.proj i).comp (ContinuousLinearMap.snd ℝ E (ι → ℝ))).smulRight (fderiv ℝ (c i) U0))
  have hF1 : HasFDerivAt (fun w : E × (ι → ℝ) => lagD J c w.1 w.2) L1 (U0, lam0) := by
    have a1 : HasFDerivAt (fun w : E × (ι → ℝ) => lagD J c w.1 lam0) (H.comp (ContinuousLinearMap.fst ℝ E (ι → ℝ))) (U0, lam0) :=
      HasFDerivAt.comp (U0, lam0) (g := fun U => lagD J c U lam0) hd0 hasFDerivAt_fst
    have a2 : ∀ i, HasFDerivAt (fun w : E × (ι → ℝ) => (w.2 i - lam0 i) • fderiv ℝ (c i) w.1)
        (((ContinuousLinearMap.proj i).comp (ContinuousLinearMap.snd ℝ E (ι → ℝ))).smulRight (fderiv ℝ (c i) U0)) (U0, lam0) := fun i => by
      have b1 : HasFDerivAt (fun w : E × (ι → ℝ) => w.2 i - lam0 i) ((ContinuousLinearMap.proj (R := ℝ) (φ := fun _ : ι => ℝ) i).comp
          (ContinuousLinearMap.snd ℝ E (ι → ℝ))) (U0, lam0) :=
        (((ContinuousLinearMap.proj (R := ℝ) (φ := fun _ : ι => ℝ) i).comp (ContinuousLinearMap.snd ℝ E (ι → ℝ))).hasFDerivAt).sub_const _
      have b2 : HasFDerivAt (fun w : E × (ι → ℝ) => fderiv ℝ (c i) w.1) ((fderiv ℝ (fderiv ℝ (c i)) U0).comp (ContinuousLinearMap.fst ℝ E (ι → ℝ)))
          (U0, lam0) := HasFDerivAt.comp (U0, lam0) (g := fderiv ℝ (c i)) (fderiv_diff (hc i)).hasFDerivAt hasFDerivAt_fst
      have b3 := b1.smul b2
      refine b3.congr_fderiv ?_
      refine ContinuousLinearMap.ext fun w => ?_
      simp
    have a3 := a1.sub (HasFDerivAt.fun_sum fun i (_ : i ∈ Finset.univ) => a2 i)
    exact a3.congr_of_eventuallyEq (.of_forall eL)
  let L2 : E × (ι → ℝ) →L[ℝ] (ι → ℝ) := ContinuousLinearMap.pi fun i => (fderiv ℝ (c i) U0).comp (ContinuousLinearMap.fst ℝ E (ι → ℝ))
  have hF2 : HasFDerivAt (fun w : E × (ι → ℝ) => fun i => c i w.1) L2 (U0, lam0) :=
    hasFDerivAt_pi.mpr fun i => HasFDerivAt.comp (U0, lam0) (g := c i) (((hc i).differentiable (by norm_num)).differentiableAt.hasFDerivAt) hasFDerivAt_fst
  have hF : HasFDerivAt F (L1.prod L2) (U0, lam0) := hF1.prodMk hF2
  have hinj : (L1.prod L2 : E × (ι → ℝ) →ₗ[ℝ] (E →L[ℝ] ℝ) × (ι → ℝ)).ker = ⊥ := by
    refine LinearMap.ker_eq_bot'.mpr fun w hw => ?_
    have hw : (L1 w, L2 w) = 0 := hw
    have w1 : H w.1 - ∑ i, w.2 i • fderiv ℝ (c i) U0 = 0 := by
      have := (Prod.mk.inj hw).1
      simpa [L1, ContinuousLinearMap.sum_apply] using this
    have w2 : ∀ i, fderiv ℝ (c i) U0 w.1 = 0 := fun i => congrFun (Prod.mk.inj hw).2 i
    have d0 : w.1 = 0 := by
      by_contra hne
      have h1 := hsec w.1 hne w2
      have h2 := congrArg (fun f : E →L[ℝ] ℝ => f w.1) w1
      simp [ContinuousLinearMap.sum_apply, w2] at h2
      linarith
    rw [d0, map_zero, zero_sub, neg_eq_zero] at w1
    exact Prod.ext d0 (hind w.2 w1)
  obtain ⟨K, hK, ha⟩ := LinearMap.exists_antilipschitzWith (L1.prod L2 : E × (ι → ℝ) →ₗ[ℝ] (E →L[ℝ] ℝ) × (ι → ℝ)) hinj
  have hind' : Topology.IsInducing (L1.prod L2) := (ha.isUniformInducing (L1.prod L2).uniformContinuous).isInducing
  obtain ⟨κ, hκ, hb⟩ := (hF.isTheta_sub hind').2.exists_pos
  obtain ⟨r, hr, Hr⟩ := Metric.eventually_nhds_iff.mp hb.bound
  have F0 : F (U0, lam0) = 0 := Prod.ext hstat (funext h0)
  refine ⟨κ, r / 2, hκ, by positivity, fun U lam hU hl => ?_⟩
  have h1 := Hr (y := (U, lam)) (by
    rw [dist_eq_norm]
    exact lt_of_le_of_lt (max_le hU hl) (by linarith))
  rw [F0, sub_zero] at h1
  have h2 : ‖F (U, lam)‖ ≤ ‖lagD J c U lam‖ + ‖fun i => c i U‖ :=
    max_le (le_add_of_nonneg_right (norm_nonneg _)) (le_add_of_nonneg_left (norm_nonneg _))
  have h3 := h1.trans (mul_le_mul_of_nonneg_left h2 hκ.le)
  exact ⟨(le_max_left _ _).trans h3, (le_max_right _ _).trans h3⟩

end Altro.Props
