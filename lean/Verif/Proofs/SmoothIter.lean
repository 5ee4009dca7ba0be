import Verif.Proofs.SmoothBounds

/-!
# One iteration on a smooth problem
-/

namespace Altro.Props
open Altro.Spec Matrix ILQR
variable {n m : ℕ}

/-- The arithmetic of the acceptance test. -/
theorem smooth_accept {μ v V1 D S α J0 J η : ℝ} (hμ : 0 < μ) (hS : 0 < S) (hv : μ * S ≤ v) (hV0 : 0 ≤ V1) (hV1 : V1 ≤ 1 / 2 * v)
    (hD : |D + v| ≤ μ / 4 * S) (h0 : 0 < α) (h1 : α ≤ 1) (hη : η ≤ μ / 8 * S) (hJ : |J - J0 - α * D| ≤ η * α) :
    α * v / 2 ≤ predicted (-v) V1 α ∧ predicted (-v) V1 α ≤ α * v ∧ 0 < α * v ∧
      1 / 4 * (α * v) ≤ J0 - J ∧ J0 - J ≤ 3 * (α * v / 2) := by
  obtain ⟨d1, d2⟩ := abs_le.mp hD
  obtain ⟨j1, j2⟩ := abs_le.mp hJ
  have hv0 : 0 < v := lt_of_lt_of_le (mul_pos hμ hS) hv
  have hαv : 0 < α * v := mul_pos h0 hv0
  have e : predicted (-v) V1 α = α * v - α ^ 2 * V1 := by unfold predicted; ring
  have hα2 : 0 ≤ α ^ 2 := sq_nonneg α
  have hα2' : α ^ 2 ≤ α := by nlinarith
  have m1 : α ^ 2 * V1 ≤ α * (1 / 2 * v) := mul_le_mul hα2' hV1 hV0 h0.le
  have m2 : 0 ≤ α ^ 2 * V1 := mul_nonneg hα2 hV0
  have m3 : -(α * (5 / 4 * v)) ≤ α * D := by
    have := mul_le_mul_of_nonneg_left (show -(5 / 4 * v) ≤ D by linarith) h0.le
    linarith
  have m4 : α * D ≤ -(α * (3 / 4 * v)) := by
    have := mul_le_mul_of_nonneg_left (show D ≤ -(3 / 4 * v) by linarith) h0.le
    linarith
  have m5 : η * α ≤ 1 / 8 * (α * v) := by
    have := mul_le_mul_of_nonneg_right (show η ≤ 1 / 8 * v by linarith) h0.le
    linarith
  exact ⟨by rw [e]; linarith, by rw [e]; linarith, hαv, by linarith, by linarith⟩

section reg
variable {K : Type} [Field K] [LinearOrder K] [IsStrictOrderedRing K]
variable {X U C D : Type} {P : Kernel X U K C D} {o : Opts K} {fuel : ℕ} {rb : K} {s s1 : St X U K C D}

/-- The regularization after a backward pass with one sweep. -/
theorem decreaseReg_bound (hf : 1 ≤ o.regFactor) (h0 : 0 ≤ s.rho) (h : s.rho ≤ rb) (hm : o.regMin * o.regFactor ≤ rb) :
    (decreaseReg o s).rho * o.regFactor ≤ rb := by
  have hf0 : 0 < o.regFactor := lt_of_lt_of_le one_pos hf
  show Arith.smin (Arith.smax (s.rho * Arith.smin (s.drho / o.regFactor) (1 / o.regFactor)) o.regMin) o.regMax * _ ≤ rb
  rw [Arith.smin_eq, Arith.smax_eq, Arith.smin_eq]
  refine (mul_le_mul_of_nonneg_right (min_le_left _ _) hf0.le).trans ?_
  rw [max_mul_of_nonneg _ _ hf0.le]
  refine max_le ?_ hm
  have h1 := mul_le_mul_of_nonneg_left (min_le_right (s.drho / o.regFactor) (1 / o.regFactor)) h0
  have h2 := mul_le_mul_of_nonneg_right h1 hf0.le
  have e : s.rho * (1 / o.regFactor) * o.regFactor = s.rho := by field_simp
  linarith

/-- ... and after a rejected line search. -/
theorem increaseReg_bound (hf : 1 ≤ o.regFactor) (hm : o.regMin ≤ rb) (h0 : 0 ≤ s.rho) (hr : s.rho * o.regFactor ≤ rb)
    (hd : s.drho ≤ 1 / o.regFactor) : (increaseReg o s).rho ≤ rb := by
  have hf0 : 0 < o.regFactor := lt_of_lt_of_le one_pos hf
  show Arith.smin (Arith.smax (s.rho * Arith.smax (s.drho * o.regFactor) o.regFactor) o.regMin) o.regMax ≤ rb
  rw [Arith.smin_eq, Arith.smax_eq, Arith.smax_eq]
  refine (min_le_left _ _).trans (max_le ?_ hm)
  have h1 : max (s.drho * o.regFactor) o.regFactor ≤ o.regFactor := by
    refine max_le ?_ le_rfl
    have := mul_le_mul_of_nonneg_right hd hf0.le
    rw [div_mul_cancel₀ _ hf0.ne'] at this
    linarith
  linarith [mul_le_mul_of_nonneg_left h1 h0]

theorem backwardPass_drho (hb : backwardPass P o fuel s = some s1) : s1.drho ≤ 1 / o.regFactor := by
  unfold backwardPass at hb
  split at hb
  · cases hb
  · injection hb with hb
    rw [← hb]
    show Arith.smin _ _ ≤ _
    rw [Arith.smin_eq]
    exact min_le_right _ _

end reg

variable {p : DynProblem n m ℝ} {cs : ℕ → ALCost n m ℝ} {Y : Traj (Fin n → ℝ) (Fin m → ℝ) ℝ} {μ Jb R C rb b c β γ : ℝ}
  {ℓ : ℕ → (Fin n → ℝ) → (Fin m → ℝ) → ℝ} {g : ℕ → Z n m → Z n m} {o : Opts ℝ} {fuel : ℕ}
  {s s' : St (Fin n → ℝ) (Fin m → ℝ) ℝ (ALCost n m ℝ) (KP n m ℝ)}

/-- What every state of the loop satisfies. -/
structure Orbit (p : DynProblem n m ℝ) (cs : ℕ → ALCost n m ℝ) (Y : Traj (Fin n → ℝ) (Fin m → ℝ) ℝ) (Jb rb : ℝ)
    (s : St (Fin n → ℝ) (Fin m → ℝ) ℝ (ALCost n m ℝ) (KP n m ℝ)) : Prop where
  core : ∀ k, (s.cs k).core = (cs k).core
  feas : DynFeasible (alKernel p) s.Z
  times : SameTimes (alKernel p) s.Z Y
  timesb : SameTimes (alKernel p) s.Zbar Y
  rho0 : 0 ≤ s.rho
  rho1 : s.rho ≤ rb
  status : s.status = .kUnsolved
  aligned : Aligned s.stats
  cost : trajCost p cs s.Z ≤ Jb

/-- What an iteration does. -/
structure Iterated (p : DynProblem n m ℝ) (cs : ℕ → ALCost n m ℝ) (o : Opts ℝ) (μ C R b c γ : ℝ)
    (s q : St (Fin n → ℝ) (Fin m → ℝ) ℝ (ALCost n m ℝ) (KP n m ℝ)) : Prop where
  inner : q.stats.inner = s.stats.inner + 1
  total : q.stats.total = s.stats.total + 1
  grad : Stats.back (q.stats.col .grad) = normalizedGain (alKernel p) q
  sweep : SweepBounds p.N μ C (updateExpansions (alKernel p) s).kd q.kd s.rho
  box : loopOf p.N s.Z q.kd ∈ {e : Loop n m | (∀ k i, |e.1 k i| ≤ R) ∧ (∀ k i j, |e.2.1 k i j| ≤ b) ∧ ∀ k i, |e.2.2 k i| ≤ c}
  outcome : (q.Z = s.Z ∧ ffsq p.N q.kd < γ ^ 2) ∨
    (trajCost p cs q.Z + o.lsLower * stepLength o.lsFactor (o.lsMax.toNat - 1) * μ / 2 * ffsq p.N q.kd ≤ trajCost p cs s.Z ∧
      ∃ α, 0 < α ∧ α ≤ 1 ∧ TrajEq (alKernel p) q.Z (candidateTraj (alKernel p) q.kd s.Z s.Zbar α))
  stored : (alLaw p).Fresh q.cs q.Z ∨
    (q.Z = s.Z ∧ ∃ α, 0 < α ∧ α ≤ 1 ∧ (alLaw p).Fresh q.cs (candidateTraj (alKernel p) q.kd s.Z s.Zbar α))

theorem SmoothCore.iteration (h : SmoothCore p cs Y μ ℓ g) (hL : Level p cs Y μ Jb R C rb b c) (hμ : 0 < μ) (hN : p.N ≠ 0)
    (hγ : 0 < γ) (ho : StepOptions o rb β) (hrm : o.regMin * o.regFactor ≤ rb)
    (hβ : ∀ e ∈ {e : Loop n m | (∀ k i, |e.1 k i| ≤ R) ∧ (∀ k i j, |e.2.1 k i j| ≤ b) ∧ ∀ k i, |e.2.2 k i| ≤ c}, ∀ τ, 0 ≤ τ → τ ≤ β →
      |loopJ p Y ℓ e τ - loopJ p Y ℓ e 0 - τ * loopD p Y g e 0| ≤ μ * γ ^ 2 / 8 * τ)
    (hs : Orbit p cs Y Jb rb s) :
    ∃ q, iterate (alKernel p) o (fuel + 1) s = some q ∧ Orbit p cs Y Jb rb q ∧ Iterated p cs o μ C R b c γ s q := by
  classical
  have hcurv := h.curved.congr (cs' := s.cs) fun k _ => hs.core k
  have hcs : ∀ Z, trajCost p s.cs Z = trajCost p cs Z := fun Z => trajCost_congr p _ _ _ _ hs.core (fun _ _ => rfl) (fun _ _ => rfl)
  obtain ⟨s1, hb, b1, b2, b3, hd0, hd1, b6⟩ := (hcurv.convBase hμ).backward (o := o) (fuel := fuel) hN hs.rho0
  have hit : iterate (alKernel p) o (fuel + 1) s = some (updateConvergence (alKernel p) (forwardPass (alKernel p) o s1)) := by
    unfold iterate; rw [hb]
  obtain ⟨hB, hbox⟩ := hL.sweep s s1.kd s.rho hs.core hs.feas hs.times hs.cost hs.rho0 hs.rho1 b3
  obtain ⟨hbZ, hbZb, hbcs, -, -, -⟩ := backwardPass_frame _ _ _ _ _ hb
  rw [updateExpansions_Z] at hbZ
  rw [updateExpansions_Zbar] at hbZb
  have hcore1 : ∀ k, (s1.cs k).core = (s.cs k).core := fun k => by
    rw [hbcs]; exact (updateExpansions_law (alCostLaw p) s).2 k
  have hJ : costSum (alKernel p) s1 = (alCostLaw p).total s1.cs s1.Z :=
    (C24_reference_cost o (alCostLaw p) (fuel + 1) s s1 hb).1
  have hJ0 : (alCostLaw p).total s1.cs s1.Z = trajCost p cs s.Z := by
    rw [total_eq_trajCost, hbZ, ← hcs]; exact trajCost_congr p _ _ _ _ hcore1 (fun _ _ => rfl) (fun _ _ => rfl)
  have hcand : ∀ α, trajCost p s1.cs (candidateTraj (alKernel p) s1.kd s1.Z s1.Zbar α)
      = trajCost p cs (candidateTraj (alKernel p) s1.kd s.Z s.Zbar α) := fun α => by
    rw [hbZ, hbZb, ← hcs]; exact trajCost_congr p _ _ _ _ hcore1 (fun _ _ => rfl) (fun _ _ => rfl)
  have hfp := forwardPass_frame (alKernel p) o s1
  have hkd : (updateConvergence (alKernel p) (forwardPass (alKernel p) o s1)).kd = s1.kd := hfp.kd
  obtain ⟨c1, -⟩ := iterate_cost o (alCostLaw p) OrderLaws.ofField hit
  obtain ⟨r1, -, -⟩ := iterate_records o (alCostLaw p) OrderLaws.ofField hs.aligned hit
  obtain ⟨k1, k2, -⟩ := iterate_counters (alKernel p) o _ s _ hit
  have hgr := iterate_gradRecord (p := p) (o := o) hs.aligned hit
  have hcoreq : ∀ k, ((updateConvergence (alKernel p) (forwardPass (alKernel p) o s1)).cs k).core = (cs k).core := fun k =>
    (c1 k).trans (hs.core k)
  have hrho0 := iterate_reg_nonneg ho.regMin ho.regMax hit
  have htb : SameTimes (alKernel p) (forwardPass (alKernel p) o s1).Zbar Y :=
    ⟨fun k hk => by rw [hfp.Zbar_t, hbZb]; exact hs.timesb.t k hk, fun k hk => by rw [hfp.Zbar_h, hbZb]; exact hs.timesb.h k hk⟩
  have hreg1 : s1.rho * o.regFactor ≤ rb := by rw [b2]; exact decreaseReg_bound ho.regFactor hs.rho0 hs.rho1 hrm
  have hreg0 : 0 ≤ s1.rho := by rw [b2]; exact (reg_nonneg ho.regMin ho.regMax s).2
  have hreg2 : s1.rho ≤ rb := by
    have := mul_le_mul_of_nonneg_left ho.regFactor hreg0
    linarith
  have hS0 := ffsq_nonneg p.N s1.kd
  have hv : μ * ffsq p.N s1.kd ≤ -s1.dV0 := by rw [hd0]; exact hB.dV0
  have hV0 : 0 ≤ s1.dV1 := by rw [hd1]; exact hB.dV1
  have hV1 : s1.dV1 ≤ 1 / 2 * -s1.dV0 := by rw [hd0, hd1]; linarith [hB.dV1']
  have hlast : 0 < stepLength o.lsFactor (o.lsMax.toNat - 1) := (stepLength_pos ho.factor _).1
  have hstored : (alLaw p).Fresh (updateConvergence (alKernel p) (forwardPass (alKernel p) o s1)).cs
        (updateConvergence (alKernel p) (forwardPass (alKernel p) o s1)).Z ∨
      ((updateConvergence (alKernel p) (forwardPass (alKernel p) o s1)).Z = s.Z ∧ ∃ α, 0 < α ∧ α ≤ 1 ∧
        (alLaw p).Fresh (updateConvergence (alKernel p) (forwardPass (alKernel p) o s1)).cs
          (candidateTraj (alKernel p) (updateConvergence (alKernel p) (forwardPass (alKernel p) o s1)).kd s.Z s.Zbar α)) := by
    obtain ⟨s1', hb', hcase⟩ := iterate_stored o (alLaw p).toViolLaw hit
    obtain rfl : s1 = s1' := Option.some.inj (hb.symm.trans hb')
    rcases hcase with ⟨-, hf⟩ | ⟨-, hZ, ⟨hf, -⟩ | ⟨i', hl⟩⟩
    · exact .inl hf
    · exact .inl hf
    · obtain ⟨p0, p1⟩ := stepLength_pos ho.factor i'
      refine .inr ⟨hZ, _, p0, p1, ?_⟩
      rw [hkd, ← hbZ, ← hbZb]
      exact hl.fresh
  refine ⟨_, hit, ?_⟩
  by_cases hex : ∃ j : ℕ, (j : ℤ) < o.lsMax ∧ Qualifies (alCostLaw p) o s1 ((alCostLaw p).total s1.cs s1.Z) (stepLength o.lsFactor j)
  · -- accepted
    obtain ⟨hi, hq⟩ := Nat.find_spec hex
    have hfirst : ∀ l < Nat.find hex, ¬ Qualifies (alCostLaw p) o s1 ((alCostLaw p).total s1.cs s1.Z) (stepLength o.lsFactor l) :=
      fun l hl hql => Nat.find_min hex hl ⟨by omega, hql⟩
    generalize Nat.find hex = j at hi hq hfirst
    obtain ⟨hT, hst, hrho, -, -⟩ := C24_accepts_first o (alCostLaw p) OrderLaws.ofField s1 hJ j hi hq hfirst
    obtain ⟨p0, p1⟩ := stepLength_pos ho.factor j
    have hT' : TrajEq (alKernel p) (forwardPass (alKernel p) o s1).Z
        (candidateTraj (alKernel p) s1.kd s.Z s.Zbar (stepLength o.lsFactor j)) := by
      rw [← hbZ, ← hbZb]; exact hT
    obtain ⟨q1, q2, -⟩ := C24_sufficient_decrease o (alCostLaw p) s1 _ _ (by linarith [ho.low]) hq
    have hlt := hq.lower
    rw [Arith.lt_iff, hJ0, total_eq_trajCost, hcand] at hlt
    have hcost : trajCost p cs (forwardPass (alKernel p) o s1).Z
        = trajCost p cs (candidateTraj (alKernel p) s1.kd s.Z s.Zbar (stepLength o.lsFactor j)) :=
      trajCost_congr p _ _ _ _ (fun _ => rfl) hT'.x hT'.u
    rw [← hcost] at hlt
    have hdrop : trajCost p cs (forwardPass (alKernel p) o s1).Z
        + o.lsLower * stepLength o.lsFactor (o.lsMax.toNat - 1) * μ / 2 * ffsq p.N s1.kd ≤ trajCost p cs s.Z := by
      have e : predicted s1.dV0 s1.dV1 (stepLength o.lsFactor j)
          = stepLength o.lsFactor j * -s1.dV0 - stepLength o.lsFactor j ^ 2 * s1.dV1 := by unfold predicted; ring
      have hα2 : stepLength o.lsFactor j ^ 2 ≤ stepLength o.lsFactor j := by nlinarith
      have hα0 : 0 ≤ stepLength o.lsFactor j ^ 2 := sq_nonneg _
      have hv0 : 0 ≤ -s1.dV0 := le_trans (mul_nonneg hμ.le hS0) hv
      have m1 := mul_le_mul_of_nonneg_left hV1 hα0
      have m2 := mul_le_mul_of_nonneg_right hα2 (show 0 ≤ 1 / 2 * -s1.dV0 by linarith)
      have m3 := mul_le_mul (last_step_le ho.factor hi) hv (mul_nonneg hμ.le hS0) p0.le
      have m4 := mul_le_mul_of_nonneg_left m3 ho.low.le
      rw [hJ0, total_eq_trajCost, hcand, ← hcost, e] at q2
      have m5 := mul_le_mul_of_nonneg_left (show stepLength o.lsFactor j * -s1.dV0 / 2
        ≤ stepLength o.lsFactor j * -s1.dV0 - stepLength o.lsFactor j ^ 2 * s1.dV1 by linarith) ho.low.le
      linarith
    refine ⟨⟨hcoreq, ?_, ?_, htb, hrho0, ?_, hst, r1, ?_⟩, ⟨k1, k2, hgr, ?_, ?_, .inr ⟨?_, _, p0, p1, ?_⟩, hstored⟩⟩
    · rcases hfp.traj with e | ⟨_, e⟩
      · rw [e, hbZ] at hlt; exact absurd hlt (lt_irrefl _)
      · exact e
    · exact ⟨fun k hk => (hT'.times.t k hk).trans (hs.timesb.t k hk), fun k hk => (hT'.times.h k hk).trans (hs.timesb.h k hk)⟩
    · show (forwardPass (alKernel p) o s1).rho ≤ rb
      rw [hrho]; exact hreg2
    · exact hlt.le.trans hs.cost
    · rw [hkd]; exact hB
    · rw [hkd]; exact hbox
    · rw [hkd]; exact hdrop
    · rw [hkd]; exact hT'
  · -- rejected
    have hex' : ∀ i : ℕ, (i : ℤ) < o.lsMax →
        ¬ Qualifies (alCostLaw p) o s1 ((alCostLaw p).total s1.cs s1.Z) (stepLength o.lsFactor i) := fun i hi hq => hex ⟨i, hi, hq⟩
    obtain ⟨z1, z2, -, -⟩ := C24_rejects o (alCostLaw p) OrderLaws.ofField s1 hJ hex'
    have hZ : (forwardPass (alKernel p) o s1).Z = s.Z := z1.trans hbZ
    have hsmall : ffsq p.N s1.kd < γ ^ 2 := by
      by_contra hge
      push Not at hge
      obtain ⟨i, hi, hiβ⟩ := ho.step
      refine hex' i hi ?_
      obtain ⟨p0, p1⟩ := stepLength_pos ho.factor i
      have hS : 0 < ffsq p.N s1.kd := lt_of_lt_of_le (by positivity) hge
      have hDv : |loopD p Y g (loopOf p.N s.Z s1.kd) 0 + -s1.dV0| ≤ μ / 4 * ffsq p.N s1.kd := by
        rw [h.loopD_eq s1.kd (fun k _ => hs.core k) hs.feas hs.times]
        have h1 := (hB.closed _ _ (cl_admissible p.N _ s1.kd) (fun k hk => by unfold clu; rw [if_pos hk])).2
        rw [← hd0] at h1
        rw [← sub_eq_add_neg]
        refine h1.trans ?_
        have h2 := mul_le_mul_of_nonneg_right hs.rho1 (mul_nonneg hL.C0.le hS0)
        have h3 := mul_le_mul_of_nonneg_right hL.rbC hS0
        linarith
      have hη : μ * γ ^ 2 / 8 ≤ μ / 8 * ffsq p.N s1.kd := by
        have := mul_le_mul_of_nonneg_left hge (show 0 ≤ μ / 8 by positivity)
        linarith
      have hT := hβ _ hbox _ p0.le hiβ
      rw [← h.candidate_cost s1.kd hs.feas hs.times hs.timesb, ← h.base_cost s1.kd hs.feas hs.times] at hT
      obtain ⟨n1, n2, n3, n4, n5⟩ := smooth_accept hμ hS hv hV0 hV1 hDv p0 p1 hη hT
      rw [neg_neg] at n1 n2
      have hpos : 0 < predicted s1.dV0 s1.dV1 (stepLength o.lsFactor i) := by linarith
      refine ⟨fun k _ hcb => absurd hcb (by rw [ho.lim]; decide), ⟨_, fun _ => rfl, fun hn => ?_, ?_, ?_⟩, ?_⟩
      · rw [← Bool.not_eq_true, Arith.gt_iff] at hn; exact absurd hpos hn
      · rw [Arith.le_iff, hJ0, total_eq_trajCost, hcand, le_div_iff₀ hpos]
        have := mul_le_mul_of_nonneg_right ho.low1 hpos.le
        linarith
      · rw [Arith.le_iff, hJ0, total_eq_trajCost, hcand, div_le_iff₀ hpos]
        have := mul_le_mul_of_nonneg_right ho.up hpos.le
        linarith
      · rw [Arith.lt_iff, hJ0, total_eq_trajCost, hcand]; linarith
    refine ⟨⟨hcoreq, ?_, ?_, htb, hrho0, ?_, ?_, r1, ?_⟩, ⟨k1, k2, hgr, ?_, ?_, .inl ⟨hZ, ?_⟩, hstored⟩⟩
    · show DynFeasible _ (forwardPass (alKernel p) o s1).Z
      rw [hZ]; exact hs.feas
    · show SameTimes _ (forwardPass (alKernel p) o s1).Z Y
      rw [hZ]; exact hs.times
    · show (forwardPass (alKernel p) o s1).rho ≤ rb
      rw [z2]; exact increaseReg_bound ho.regFactor ho.regMin1 hreg0 hreg1 (backwardPass_drho hb)
    · exact forwardPass_status_off ho.lim s1 (b1.trans hs.status)
    · show trajCost p cs (forwardPass (alKernel p) o s1).Z ≤ Jb
      rw [hZ]; exact hs.cost
    · rw [hkd]; exact hB
    · rw [hkd]; exact hbox
    · rw [hkd]; exact hsmall

end Altro.Props
