import Verif.Proofs.RungeKuttaGlobal
import Mathlib.Analysis.Calculus.ContDiff.Operations
import Mathlib.Analysis.Calculus.ContDiff.Comp
import Mathlib.Analysis.Calculus.MeanValue
import Mathlib.Analysis.Normed.Module.FiniteDimension

/-!
# Smooth vector fields are tame on compact sets
-/

set_option maxSynthPendingDepth 3

namespace Altro.RK
open Set Metric

variable {E P V : Type} [NormedAddCommGroup E] [NormedSpace ℝ E] [NormedAddCommGroup P] [NormedSpace ℝ P]
variable [NormedAddCommGroup V] [NormedSpace ℝ V]

/-- The derivative in the first argument. -/
noncomputable def pd (H : E × P → V) (p : E × P) : E →L[ℝ] V := (fderiv ℝ H p).comp (ContinuousLinearMap.inl ℝ E P)

theorem pd_contDiff {H : E × P → V} {n : ℕ} (h : ContDiff ℝ ((n + 1 : ℕ) : WithTop ℕ∞) H) : ContDiff ℝ ((n : ℕ) : WithTop ℕ∞) (pd H) := by
  have : ContDiff ℝ ((n : ℕ) : WithTop ℕ∞) (fderiv ℝ H) := h.fderiv_right (by norm_cast)
  exact this.clm_comp contDiff_const

theorem pd_hasFDerivAt {H : E × P → V} {n : ℕ} (h : ContDiff ℝ ((n + 1 : ℕ) : WithTop ℕ∞) H) (x : E) (u : P) :
    HasFDerivAt (fun x => H (x, u)) (pd H (x, u)) x := by
  have h1 : HasFDerivAt H (fderiv ℝ H (x, u)) (x, u) :=
    ((h.differentiable (by norm_cast)) (x, u)).hasFDerivAt
  exact h1.comp x (hasFDerivAt_prodMk_left x u)

theorem bound_step {ψ ψ' : ℝ → V} {C : ℝ} (h0 : ψ 0 = 0) (hd : ∀ t, HasDerivAt ψ (ψ' t) t) (hb : ∀ t ∈ Icc (0 : ℝ) 1, ‖ψ' t‖ ≤ C) :
    ∀ t ∈ Icc (0 : ℝ) 1, ‖ψ t‖ ≤ C := by
  intro t ht
  have C0 : 0 ≤ C := (norm_nonneg _).trans (hb 0 ⟨le_rfl, zero_le_one⟩)
  have := norm_image_sub_le_of_norm_deriv_le_segment' (f := ψ) (f' := ψ') (a := 0) (b := 1) (C := C) (fun s _ => (hd s).hasDerivWithinAt)
    (fun s hs => hb s ⟨hs.1, hs.2.le⟩) t ht
  rw [h0, sub_zero, sub_zero] at this
  exact this.trans (mul_le_of_le_one_right C0 ht.2)

/-- The remainder of the Taylor polynomial. -/
theorem taylor3 {G0 : E → E} {G1 : E → E →L[ℝ] E} {G2 : E → E →L[ℝ] E →L[ℝ] E} {G3 : E → E →L[ℝ] E →L[ℝ] E →L[ℝ] E}
    {G4 : E → E →L[ℝ] E →L[ℝ] E →L[ℝ] E →L[ℝ] E} (d0 : ∀ x, HasFDerivAt G0 (G1 x) x) (d1 : ∀ x, HasFDerivAt G1 (G2 x) x)
    (d2 : ∀ x, HasFDerivAt G2 (G3 x) x) (d3 : ∀ x, HasFDerivAt G3 (G4 x) x) (x v : E) {M : ℝ}
    (hM : ∀ t ∈ Icc (0 : ℝ) 1, ‖G4 (x + t • v)‖ ≤ M) :
    ‖G0 (x + v) - (G0 x + G1 x v + (1 / 2 : ℝ) • G2 x v v + (1 / 6 : ℝ) • G3 x v v v)‖ ≤ M * ‖v‖ ^ 4 := by
  have line : ∀ t : ℝ, HasDerivAt (fun t : ℝ => x + t • v) v t := fun t => by
    have := ((hasDerivAt_id t).smul_const v).const_add x
    simpa using this
  have e0 : ∀ t, HasDerivAt (fun t : ℝ => G0 (x + t • v)) (G1 (x + t • v) v) t := fun t => (d0 _).comp_hasDerivAt t (line t)
  have e1 : ∀ t, HasDerivAt (fun t : ℝ => G1 (x + t • v) v) (G2 (x + t • v) v v) t := fun t => by
    have := ((d1 _).comp_hasDerivAt t (line t)).clm_apply (hasDerivAt_const t v)
    simpa using this
  have e2 : ∀ t, HasDerivAt (fun t : ℝ => G2 (x + t • v) v v) (G3 (x + t • v) v v v) t := fun t => by
    have := (((d2 _).comp_hasDerivAt t (line t)).clm_apply (hasDerivAt_const t v)).clm_apply (hasDerivAt_const t v)
    simpa using this
  have e3 : ∀ t, HasDerivAt (fun t : ℝ => G3 (x + t • v) v v v) (G4 (x + t • v) v v v v) t := fun t => by
    have := ((((d3 _).comp_hasDerivAt t (line t)).clm_apply (hasDerivAt_const t v)).clm_apply (hasDerivAt_const t v)).clm_apply
      (hasDerivAt_const t v)
    simpa using this
  have b4 : ∀ t ∈ Icc (0 : ℝ) 1, ‖G4 (x + t • v) v v v v‖ ≤ M * ‖v‖ ^ 4 := by
    intro t ht
    have h1 := (G4 (x + t • v)).le_opNorm v
    have h2 := (G4 (x + t • v) v).le_opNorm v
    have h3 := (G4 (x + t • v) v v).le_opNorm v
    have h4 := (G4 (x + t • v) v v v).le_opNorm v
    have n := norm_nonneg v
    calc _ ≤ ‖G4 (x + t • v)‖ * ‖v‖ * ‖v‖ * ‖v‖ * ‖v‖ :=
          h4.trans (mul_le_mul_of_nonneg_right (h3.trans (mul_le_mul_of_nonneg_right (h2.trans (mul_le_mul_of_nonneg_right h1 n)) n)) n)
      _ = ‖G4 (x + t • v)‖ * ‖v‖ ^ 4 := by ring
      _ ≤ _ := mul_le_mul_of_nonneg_right (hM t ht) (by positivity)
  have p2 : ∀ (c t : ℝ) (w : E), HasDerivAt (fun t : ℝ => (c * t ^ 2) • w) ((c * (2 * t)) • w) t := fun c t w => by
    have := ((hasDerivAt_pow 2 t).const_mul c).smul_const w
    simpa using this
  have p3 : ∀ (c t : ℝ) (w : E), HasDerivAt (fun t : ℝ => (c * t ^ 3) • w) ((c * (3 * t ^ 2)) • w) t := fun c t w => by
    have := ((hasDerivAt_pow 3 t).const_mul c).smul_const w
    simpa using this
  have p1 : ∀ (t : ℝ) (w : E), HasDerivAt (fun t : ℝ => t • w) w t := fun t w => by
    have := (hasDerivAt_id t).smul_const w
    simpa using this
  have s3 := bound_step (ψ := fun t => G3 (x + t • v) v v v - G3 x v v v) (ψ' := fun t => G4 (x + t • v) v v v v) (by simp)
    (fun t => (e3 t).sub_const _) b4
  have s2 := bound_step (ψ := fun t => G2 (x + t • v) v v - (G2 x v v + t • G3 x v v v)) (ψ' := fun t => G3 (x + t • v) v v v - G3 x v v v)
    (by simp) (fun t => (e2 t).sub ((p1 t _).const_add _)) s3
  have s1 := bound_step (ψ := fun t => G1 (x + t • v) v - (G1 x v + t • G2 x v v + (1 / 2 * t ^ 2 : ℝ) • G3 x v v v))
    (ψ' := fun t => G2 (x + t • v) v v - (G2 x v v + t • G3 x v v v))
    (by simp) (fun t => ((e1 t).sub (((p1 t _).const_add _).add (p2 (1 / 2) t _))).congr_deriv (by module)) s2
  have s0 := bound_step (ψ := fun t => G0 (x + t • v) - (G0 x + t • G1 x v + (1 / 2 * t ^ 2 : ℝ) • G2 x v v + (1 / 6 * t ^ 3 : ℝ) • G3 x v v v))
    (ψ' := fun t => G1 (x + t • v) v - (G1 x v + t • G2 x v v + (1 / 2 * t ^ 2 : ℝ) • G3 x v v v))
    (by simp) (fun t => ((e0 t).sub ((((p1 t _).const_add _).add (p2 (1 / 2) t _)).add (p3 (1 / 6) t _))).congr_deriv (by module)) s1 1
    ⟨zero_le_one, le_rfl⟩
  simpa using s0

theorem exists_bound [FiniteDimensional ℝ E] {H : E × P → V} (h : Continuous H) {K : Set P} (hK : IsCompact K) (r : ℝ) :
    ∃ C, 1 ≤ C ∧ ∀ u ∈ K, ∀ x : E, ‖x‖ ≤ r → ‖H (x, u)‖ ≤ C := by
  have : ProperSpace E := FiniteDimensional.proper ℝ E
  obtain ⟨C, hC⟩ := ((isCompact_closedBall (0 : E) r).prod hK).exists_bound_of_continuousOn h.continuousOn
  exact ⟨max C 1, le_max_right _ _, fun u hu x hx => (hC (x, u) ⟨mem_closedBall_zero_iff.mpr hx, hu⟩).trans (le_max_left _ _)⟩

/-- One bound for all points of a ball and all parameters in a compact set. -/
theorem uniform_tame [FiniteDimensional ℝ E] {F : E × P → E} (h : ContDiff ℝ 4 F) {K : Set P} (hK : IsCompact K) (r : ℝ) :
    ∃ M, 1 ≤ M ∧ ∀ u ∈ K, ∀ x : E, ‖x‖ ≤ r → Tame (fun x => F (x, u)) x M := by
  have c4 : ContDiff ℝ ((3 + 1 : ℕ) : WithTop ℕ∞) F := h
  have c3 : ContDiff ℝ ((2 + 1 : ℕ) : WithTop ℕ∞) (pd F) := pd_contDiff c4
  have c2 : ContDiff ℝ ((1 + 1 : ℕ) : WithTop ℕ∞) (pd (pd F)) := pd_contDiff c3
  have c1 : ContDiff ℝ ((0 + 1 : ℕ) : WithTop ℕ∞) (pd (pd (pd F))) := pd_contDiff c2
  have c0 : ContDiff ℝ ((0 : ℕ) : WithTop ℕ∞) (pd (pd (pd (pd F)))) := pd_contDiff c1
  obtain ⟨M0, m0, b0⟩ := exists_bound c4.continuous hK (r + 3)
  obtain ⟨M1, m1, b1⟩ := exists_bound c3.continuous hK (r + 3)
  obtain ⟨M2, m2, b2⟩ := exists_bound c2.continuous hK (r + 3)
  obtain ⟨M3, m3, b3⟩ := exists_bound c1.continuous hK (r + 3)
  obtain ⟨M4, m4, b4⟩ := exists_bound c0.continuous hK (r + 3)
  refine ⟨M0 + M1 + M2 + M3 + M4, by linarith, fun u hu x hx => ?_⟩
  have near : ∀ z ∈ closedBall x 3, ‖z‖ ≤ r + 3 := fun z hz => by
    rw [mem_closedBall, dist_eq_norm] at hz
    have := norm_add_le x (z - x)
    rw [add_sub_cancel] at this
    linarith
  have hx3 := near x (mem_closedBall_self (by norm_num))
  refine ⟨⟨⟨pd F (x, u), pd (pd F) (x, u), pd (pd (pd F)) (x, u), ?_, ?_, ?_, ?_, fun v hv => ?_⟩⟩, fun z hz w hw => ?_, fun z hz => ?_⟩
  · exact (b0 u hu x hx3).trans (by linarith)
  · exact (b1 u hu x hx3).trans (by linarith)
  · exact (b2 u hu x hx3).trans (by linarith)
  · exact (b3 u hu x hx3).trans (by linarith)
  · refine taylor3 (G0 := fun x => F (x, u)) (G1 := fun x => pd F (x, u)) (G2 := fun x => pd (pd F) (x, u)) (G3 := fun x => pd (pd (pd F)) (x, u))
      (G4 := fun x => pd (pd (pd (pd F))) (x, u)) (fun x => pd_hasFDerivAt c4 x u) (fun x => pd_hasFDerivAt c3 x u)
      (fun x => pd_hasFDerivAt c2 x u) (fun x => pd_hasFDerivAt c1 x u) x v (fun t ht => ?_)
    refine (b4 u hu _ (near _ ?_)).trans (by linarith)
    rw [mem_closedBall, dist_eq_norm, add_sub_cancel_left, norm_smul, Real.norm_of_nonneg ht.1]
    nlinarith [ht.1, ht.2, norm_nonneg v]
  · have := (convex_closedBall x 3).norm_image_sub_le_of_norm_hasFDerivWithin_le (f := fun x => F (x, u)) (f' := fun x => pd F (x, u)) (C := M1)
      (fun q _ => (pd_hasFDerivAt c4 q u).hasFDerivWithinAt) (fun q hq => b1 u hu q (near q hq)) hw hz
    exact this.trans (mul_le_mul_of_nonneg_right (by linarith) (norm_nonneg _))
  · exact (b0 u hu z (near z hz)).trans (by linarith)

end Altro.RK
