import Verif.Props.FloatDescent

/-!
# C110 and C111, continued: the line search with inexact and rounded gains
-/

namespace Altro.Props
open Altro.Spec Altro.ILQR Matrix Finset

section search
variable {n m : ℕ} {p : DynProblem n m ℝ} {rho : ℝ} {solve : GainRoutine n m ℝ} {o : Opts ℝ} {fuel : ℕ}
  {s s1 : St (Fin n → ℝ) (Fin m → ℝ) ℝ (ALCost n m ℝ) (KP n m ℝ)}

/-- The costs do not depend on the routine for the gains. -/
noncomputable def costLawBy (solve : GainRoutine n m ℝ) (p : DynProblem n m ℝ) : CostLaw (kernelBy solve p) where
  I := ALCost n m ℝ
  inv := ALCost.core
  val _ c x u := (c.evaluate x u).1
  cost_val := (alCostLaw p).cost_val
  cost_inv := (alCostLaw p).cost_inv
  expand_inv := (alCostLaw p).expand_inv

/-- Nor do the expansions. -/
theorem updateExpansions_by (s : St (Fin n → ℝ) (Fin m → ℝ) ℝ (ALCost n m ℝ) (KP n m ℝ)) :
    updateExpansions (kernelBy solve p) s = updateExpansions (alKernel p) s := by
  have h : ∀ j, expandBlock (kernelBy solve p) 0 s j = expandBlock (alKernel p) 0 s j := by
    intro j
    induction j with
    | zero => rfl
    | succ j ih =>
      simp only [expandBlock, ih]
      rfl
  exact h _

theorem candidate_by {r : ℕ → KP n m ℝ} {Z : Traj (Fin n → ℝ) (Fin m → ℝ) ℝ} (t h : ℕ → ℝ) (alpha : ℝ) (k : ℕ) :
    candidate (kernelBy solve p) r Z t h alpha k = candidate (alKernel p) r Z t h alpha k := by
  induction k with
  | zero => rfl
  | succ k ih =>
    simp only [candidate, ih]
    rfl

/-- Small steps stay inside the limits. -/
theorem within_near {kd r : ℕ → KP n m ℝ} {cs : ℕ → ALCost n m ℝ} {Z Zbar : Traj (Fin n → ℝ) (Fin m → ℝ) ℝ} (hE : FirstOrder p cs Z kd)
    (hZ : DynFeasible (alKernel p) Z) (ht : SameTimes (alKernel p) Zbar Z) (hin : InsideLimits p o Z) :
    ∃ ε > 0, ∀ α, 0 < α → α < ε → withinLimits o (kernelBy solve p) r Z Zbar.t Zbar.h α := by
  have hd := candidate_deriv (r := r) hE hZ ht
  have h0 := candidate_zero (r := r) hZ ht
  have hev : ∀ k < p.N, ∀ᶠ α in nhds (0 : ℝ), stepWithin o (kernelBy solve p) r Z Zbar.t Zbar.h α k := by
    intro k hk
    by_cases hb : o.checkBounds = true
    · obtain ⟨c1, c2, c3⟩ := hin hb
      have e1 : ContinuousAt (fun α : ℝ => p.normX (candidate (alKernel p) r Z Zbar.t Zbar.h α (k + 1))) 0 :=
        c1.continuousAt.comp (hd (k + 1) hk).1.continuousAt
      have e2 : ContinuousAt (fun α : ℝ => p.normU (candidateU (alKernel p) r Z Zbar.t Zbar.h α k)) 0 :=
        c2.continuousAt.comp (hd k hk.le).2.continuousAt
      have l1 := e1.eventually (gt_mem_nhds (show p.normX (candidate (alKernel p) r Z Zbar.t Zbar.h 0 (k + 1)) < o.stateMax by
          rw [(h0 (k + 1) hk).1]; exact (c3 k hk).1))
      have l2 := e2.eventually (gt_mem_nhds (show p.normU (candidateU (alKernel p) r Z Zbar.t Zbar.h 0 k) < o.controlMax by
          rw [(h0 k hk.le).2 hk]; exact (c3 k hk).2))
      filter_upwards [l1, l2] with α a1 a2 _
      have ex : (kernelBy solve p).normX (candidate (kernelBy solve p) r Z Zbar.t Zbar.h α (k + 1)) =
          p.normX (candidate (alKernel p) r Z Zbar.t Zbar.h α (k + 1)) := by rw [candidate_by]; rfl
      have eu : (kernelBy solve p).normU (candidateU (kernelBy solve p) r Z Zbar.t Zbar.h α k) =
          p.normU (candidateU (alKernel p) r Z Zbar.t Zbar.h α k) := by unfold candidateU; rw [candidate_by]; rfl
      rw [ex, eu]
      refine ⟨?_, ?_⟩
      · rw [← Bool.not_eq_true, Arith.gt_iff]; exact not_lt.mpr a1.le
      · rw [← Bool.not_eq_true, Arith.gt_iff]; exact not_lt.mpr a2.le
    · exact Filter.Eventually.of_forall fun α hb' => absurd hb' hb
  have hall : ∀ᶠ α in nhds (0 : ℝ), ∀ k ∈ Finset.range p.N, stepWithin o (kernelBy solve p) r Z Zbar.t Zbar.h α k :=
    (Finset.eventually_all _).mpr fun k hk => hev k (Finset.mem_range.mp hk)
  obtain ⟨ε, hε, hb⟩ := Metric.eventually_nhds_iff.mp hall
  refine ⟨ε, hε, fun α ha hae k hk => hb ?_ k (Finset.mem_range.mpr hk)⟩
  rw [Real.dist_eq, sub_zero, abs_of_pos ha]; exact hae

/-- **C110, the line search.**  Gains from any routine, any number of failed sweeps: if the slope of the cost along the policy and the
stored first-order change are negative and their ratio lies strictly between the bounds of the acceptance test, the forward pass
accepts a step as soon as enough step lengths are allowed, and the step lowers the cost. -/
theorem C110_line_search (hZ : DynFeasible (alKernel p) s.Z) (ht : SameTimes (alKernel p) s.Zbar s.Z)
    (hterm : ∀ x, ((s.cs p.N).evaluate x (s.Zbar.u p.N)).1 = ((s.cs p.N).evaluate x (s.Z.u p.N)).1)
    (hb : backwardPass (kernelBy solve p) o fuel (updateExpansions (kernelBy solve p) s) = some s1) {kd : ℕ → KP n m ℝ}
    (hS : Spec.Swept solve p rho kd s1.kd) (hE : FirstOrder p s.cs s.Z kd)
    (hin : InsideLimits p o s.Z) (hf : 1 < o.lsFactor) (hslope : policySlope p.N kd s1.kd < 0) (hneg : s1.dV0 < 0)
    (hlo : o.lsLower < policySlope p.N kd s1.kd / s1.dV0) (hup : policySlope p.N kd s1.kd / s1.dV0 < o.lsUpper) :
    ∃ M : ℤ, ∀ L ≥ M,
      (forwardPass (kernelBy solve p) { o with lsMax := L } s1).status = .kUnsolved ∧
      (forwardPass (kernelBy solve p) { o with lsMax := L } s1).rho = s1.rho ∧
      trajCost p s.cs (forwardPass (kernelBy solve p) { o with lsMax := L } s1).Z < trajCost p s.cs s.Z := by
  have hder := C110_derivative hS hE hZ ht hterm
  have hzero : trajCost p s.cs (candidateTraj (kernelBy solve p) s1.kd s.Z s.Zbar 0) = trajCost p s.cs s.Z := by
    rw [candidateTraj_by]
    unfold trajCost
    refine Finset.sum_congr rfl fun k hk => ?_
    have hk : k ≤ p.N := by have := Finset.mem_range.mp hk; omega
    obtain ⟨e1, e2⟩ := candidate_zero (r := s1.kd) hZ ht k hk
    show ((s.cs k).evaluate (candidate _ _ _ _ _ _ k) (if k < p.N then candidateU (alKernel p) s1.kd s.Z s.Zbar.t s.Zbar.h 0 k else s.Zbar.u k)).1 = _
    rw [e1]
    by_cases h : k < p.N
    · rw [if_pos h, e2 h]
    · obtain rfl : k = p.N := by omega
      rw [if_neg h, hterm]
  obtain ⟨ε1, hε1, hr⟩ := ratio_near (dV1 := s1.dV1) hder hslope hneg hlo hup
  obtain ⟨ε2, hε2, hl⟩ := within_near (solve := solve) (r := s1.kd) hE hZ ht hin
  obtain ⟨M, hM⟩ := stepLength_small hf (lt_min hε1 hε2)
  obtain ⟨hbZ, hbZb, hbcs, -, -, -⟩ := backwardPass_frame _ _ _ _ _ hb
  rw [updateExpansions_Z] at hbZ
  rw [updateExpansions_Zbar] at hbZb
  have hcore : ∀ k, (s1.cs k).core = (s.cs k).core := fun k => by
    rw [hbcs]; exact (updateExpansions_law (costLawBy solve p) s).2 k
  have hJ : costSum (kernelBy solve p) s1 = (costLawBy solve p).total s1.cs s1.Z :=
    (C24_reference_cost o (costLawBy solve p) fuel s s1 hb).1
  have htot : ∀ Y, (costLawBy solve p).total s1.cs Y = trajCost p s.cs Y := fun Y => by
    have : (costLawBy solve p).total s1.cs Y = (alCostLaw p).total s1.cs Y := rfl
    rw [this, total_eq_trajCost]; exact trajCost_congr p _ _ _ _ hcore (fun _ _ => rfl) (fun _ _ => rfl)
  refine ⟨M + 1, fun L hL => ?_⟩
  have hqM : Qualifies (costLawBy solve p) { o with lsMax := L } s1 ((costLawBy solve p).total s1.cs s1.Z)
      (stepLength o.lsFactor M) := by
    obtain ⟨hpos, hsmall⟩ := hM M
    have hsm := hsmall le_rfl
    obtain ⟨r1, r2, r3, r4⟩ := hr _ hpos (hsm.trans_le (min_le_left _ _))
    rw [hzero] at r1 r3 r4
    have hw := hl _ hpos (hsm.trans_le (min_le_right _ _))
    rw [hbZ]
    refine ⟨by rw [hbZ, hbZb]; exact hw, ⟨_, fun _ => rfl, fun hn => ?_, ?_, ?_⟩, ?_⟩
    · rw [← Bool.not_eq_true, Arith.gt_iff] at hn; exact absurd r2 hn
    · rw [Arith.le_iff, hbZ, hbZb, htot, htot]; exact r3
    · rw [Arith.le_iff, hbZ, hbZb, htot, htot]; exact r4
    · rw [Arith.lt_iff, hbZ, hbZb, htot, htot]; exact r1
  classical
  let Q : ℕ → Prop := fun i => Qualifies (costLawBy solve p) { o with lsMax := L } s1 ((costLawBy solve p).total s1.cs s1.Z)
      (stepLength o.lsFactor i)
  have hex : ∃ i, Q i := ⟨M, hqM⟩
  have hle : Nat.find hex ≤ M := Nat.find_min' hex hqM
  obtain ⟨hT, hst, hrho, -⟩ := C24_accepts_first { o with lsMax := L } (costLawBy solve p) OrderLaws.ofField s1 hJ
    (Nat.find hex) (by show ((Nat.find hex : ℕ) : ℤ) < L; omega) (Nat.find_spec hex)
    (fun j hj => Nat.find_min hex hj)
  refine ⟨hst, hrho, ?_⟩
  have hlow := (Nat.find_spec hex : Q (Nat.find hex)).lower
  rw [Arith.lt_iff, htot, htot, hbZ] at hlow
  refine lt_of_eq_of_lt (trajCost_congr p _ _ _ _ (fun _ => rfl) hT.x hT.u) ?_
  rw [hbZ]
  exact hlow

/-- What a backward pass whose first sweep succeeds leaves behind, with any routine. -/
theorem backwardPass_first_by {s : St (Fin n → ℝ) (Fin m → ℝ) ℝ (ALCost n m ℝ) (KP n m ℝ)} (hN : p.N ≠ 0)
    (hsx : ∀ k ≤ p.N, (s.kd k).cost.dxdx.IsSymm) (hsu : ∀ k < p.N, (s.kd k).cost.dudu.IsSymm)
    (hok : (bpSweep (kernelBy solve p) s.rho p.N (upd s.kd p.N (s.kd p.N).term) (0, 0)).2 = true)
    (hb : backwardPass (kernelBy solve p) o (fuel + 1) s = some s1) :
    Spec.Swept solve p s.rho (upd s.kd p.N (s.kd p.N).term) s1.kd ∧
    s1.dV0 = ∑ k ∈ Finset.range p.N, (s1.kd k).delta.1 ∧ s1.dV1 = ∑ k ∈ Finset.range p.N, (s1.kd k).delta.2 := by
  unfold backwardPass bpLoop at hb
  extract_lets r w w2 count' at hb
  have hr' : r = bpSweep (kernelBy solve p) s.rho p.N (upd s.kd p.N (s.kd p.N).term) (0, 0) := rfl
  have hr2 : r.2 = true := by rw [hr']; exact hok
  rw [if_pos hr2, if_neg (show ¬(kernelBy solve p).N = 0 from hN)] at hb
  simp only at hb
  injection hb with hb
  have hkd : s1.kd = r.1.1 := by rw [← hb]; rfl
  have hd0 : s1.dV0 = r.1.2.1 := by rw [← hb]; rfl
  have hd1 : s1.dV1 = r.1.2.2 := by rw [← hb]; rfl
  obtain ⟨i1, i2, i3, i4⟩ := bpSweep_spec (kernelBy solve p) s.rho p.N _ _ hok
  rw [← hr'] at i1 i2 i3 i4
  rw [hkd, hd0, hd1]
  have hcost : ∀ k, (upd s.kd p.N (s.kd p.N).term k).cost = (s.kd k).cost := fun k => by
    by_cases e : k = p.N
    · subst e; rw [upd_self]; rfl
    · rw [upd_of_ne e]
  refine ⟨⟨⟨fun k hk => i1 k hk, fun k hk => i2 k hk⟩, ?_, fun k hk => by rw [hcost]; exact hsx k hk, fun k hk => by rw [hcost]; exact hsu k hk⟩, ?_, ?_⟩
  · rw [upd_self]; exact ⟨rfl, rfl⟩
  · rw [i3]; simp only [zero_add]; rfl
  · rw [i4]; simp only [zero_add]; rfl

/-- Setting up the terminal cost-to-go leaves the expansions alone. -/
theorem firstOrder_term {cs : ℕ → ALCost n m ℝ} {Z : Traj (Fin n → ℝ) (Fin m → ℝ) ℝ} {kd : ℕ → KP n m ℝ} (h : FirstOrder p cs Z kd) :
    FirstOrder p cs Z (upd kd p.N (kd p.N).term) where
  dyn k hk := by rw [upd_of_ne (by omega)]; exact h.dyn k hk
  cost k hk := by
    by_cases e : k = p.N
    · subst e; rw [upd_self]; exact h.cost _ hk
    · rw [upd_of_ne e]; exact h.cost k hk

/-- The knot point data at the start of the sweep. -/
noncomputable def sweepData (p : DynProblem n m ℝ) (s : St (Fin n → ℝ) (Fin m → ℝ) ℝ (ALCost n m ℝ) (KP n m ℝ)) : ℕ → KP n m ℝ :=
  upd (updateExpansions (alKernel p) s).kd p.N ((updateExpansions (alKernel p) s).kd p.N).term

variable {u : ℝ} {fl : ℝ → ℝ} {F : Floats}

/-- **C111, the slope and the announced change.**  Convex expansions, definite Hessians with four times the margin of
`ClearlyDefinite`: unless all feedforward gains are zero the announced first-order change is negative, and the slope of the cost is at
least a third of it. -/
theorem C111_third {kd r : ℕ → KP n m ℝ} (hu : 0 ≤ u) (h1 : unit u m < 1) (hF : Accurate u fl F) (h : Spec.Swept F.routine p rho kd r)
    (hrho : 0 ≤ rho) (hc : ∀ k < p.N, ConvexExp (kd k).cost) (hN : Spec.PosSemidef (kd p.N).cost.dxdx)
    (hd : ∀ k < p.N, ∀ v, v ≠ 0 → 4 * factorLoss u m * scaledNorm (quuReg r rho k) v ^ 2 < v ⬝ᵥ quuReg r rho k *ᵥ v) :
    policySlope p.N kd r ≤ (1 / 3) * ∑ k ∈ range p.N, (r k).delta.1 ∧
    ((∃ k < p.N, (r k).ff ≠ 0) → ∑ k ∈ range p.N, (r k).delta.1 < 0) := by
  have hloss : 0 ≤ factorLoss u m := by
    have := loss_nonneg hu h1
    unfold factorLoss
    positivity
  have hcd : ∀ k < p.N, ClearlyDefinite u r rho k := fun k hk v hv => by
    refine lt_of_le_of_lt ?_ (hd k hk v hv)
    have := mul_nonneg hloss (sq_nonneg (scaledNorm (quuReg r rho k) v))
    linarith
  constructor
  · refine (C110_slope_convex h hc hN).trans ?_
    rw [mul_sum]
    refine sum_le_sum fun k hk => ?_
    have hk := mem_range.mp hk
    obtain ⟨hb1, hb2⟩ := abs_le.mp (C111_delta hu h1 hF h hk)
    have t3 := (treated_by (h.complete.done k hk)).2.2.1
    have e2 : (r k).delta.2 = (1 / 2) * ((r k).ff ⬝ᵥ (r k).q.dudu *ᵥ (r k).ff) := by rw [t3]
    have eq : (r k).ff ⬝ᵥ quuReg r rho k *ᵥ (r k).ff = (r k).ff ⬝ᵥ (r k).q.dudu *ᵥ (r k).ff + rho * ((r k).ff ⬝ᵥ (r k).ff) := by
      unfold quuReg
      rw [add_mulVec, smul_mulVec, one_mulVec, dotProduct_add, dotProduct_smul, smul_eq_mul]
    have hff : 0 ≤ rho * ((r k).ff ⬝ᵥ (r k).ff) := mul_nonneg hrho (sum_nonneg fun i _ => mul_self_nonneg _)
    have h4 : 4 * (factorLoss u m * scaledNorm (quuReg r rho k) (r k).ff ^ 2) ≤ (r k).ff ⬝ᵥ quuReg r rho k *ᵥ (r k).ff := by
      by_cases e : (r k).ff = 0
      · simp [e, scaledNorm]
      · have := hd k hk _ e
        linarith
    rw [e2]
    linarith
  · rintro ⟨k, hk, hne⟩
    refine sum_neg' (fun j hj => (C111_descent hu h1 hF h (mem_range.mp hj) (hcd j (mem_range.mp hj))).1) ⟨k, mem_range.mpr hk, ?_⟩
    obtain ⟨d1, d2⟩ := C111_descent hu h1 hF h hk (hcd k hk)
    exact lt_of_le_of_ne d1 fun e => hne (d2.mp e)

/-- **C111, the line search (C66 with rounding).**  One iteration with rounded gains, convex expansions, a first sweep that succeeds:
if the Hessians are definite to working precision with a margin, the trajectory is not stationary, strictly inside the limits and the
slope not too steep for the upper bound of the acceptance test, the forward pass accepts a step as soon as enough step lengths are
allowed, and the step lowers the cost. -/
theorem C111_line_search (hu : 0 ≤ u) (h1 : unit u m < 1) (hF : Accurate u fl F) (hN : p.N ≠ 0) (hD : ReportsDerivatives p s)
    (hZ : DynFeasible (alKernel p) s.Z) (ht : SameTimes (alKernel p) s.Zbar s.Z) (hrho : 0 ≤ s.rho)
    (hterm : ∀ x, ((s.cs p.N).evaluate x (s.Zbar.u p.N)).1 = ((s.cs p.N).evaluate x (s.Z.u p.N)).1)
    (hc : ∀ k ≤ p.N, ConvexExp ((updateExpansions (alKernel p) s).kd k).cost)
    (hok : (bpSweep (kernelBy F.routine p) s.rho p.N (sweepData p s) (0, 0)).2 = true)
    (hb : backwardPass (kernelBy F.routine p) o (fuel + 1) (updateExpansions (kernelBy F.routine p) s) = some s1)
    (hd : ∀ k < p.N, ∀ v, v ≠ 0 → 4 * factorLoss u m * scaledNorm (quuReg s1.kd s.rho k) v ^ 2 < v ⬝ᵥ quuReg s1.kd s.rho k *ᵥ v)
    (hns : ¬ Stationary p s.cs s.Z) (hin : InsideLimits p o s.Z) (hf : 1 < o.lsFactor) (hlo : o.lsLower < 1 / 3)
    (hup : policySlope p.N (sweepData p s) s1.kd / s1.dV0 < o.lsUpper) :
    ∃ M : ℤ, ∀ L ≥ M,
      (forwardPass (kernelBy F.routine p) { o with lsMax := L } s1).status = .kUnsolved ∧
      (forwardPass (kernelBy F.routine p) { o with lsMax := L } s1).rho = s1.rho ∧
      trajCost p s.cs (forwardPass (kernelBy F.routine p) { o with lsMax := L } s1).Z < trajCost p s.cs s.Z := by
  have hb' := hb
  rw [updateExpansions_by] at hb'
  obtain ⟨hS, hd0, -⟩ := backwardPass_first_by hN (fun k hk => (expansion_symm p s hD.symm k hk).1)
    (fun k hk => (expansion_symm p s hD.symm k hk.le).2) (by rw [updateExpansions_rho]; exact hok) hb'
  rw [updateExpansions_rho] at hS
  have hE := firstOrder_term hD.firstOrder
  have hcc : ∀ k < p.N, ConvexExp (sweepData p s k).cost := fun k hk => by
    unfold sweepData
    rw [upd_of_ne (by omega)]; exact hc k hk.le
  have hcN : Spec.PosSemidef (sweepData p s p.N).cost.dxdx := fun x => by
    have := (hc p.N le_rfl).psd x 0
    unfold sweepData
    rw [upd_self]
    have h2 : 0 ≤ x ⬝ᵥ ((updateExpansions (alKernel p) s).kd p.N).cost.dxdx *ᵥ x := by simpa using this
    exact h2
  have hloss : 0 ≤ factorLoss u m := by
    have := loss_nonneg hu h1
    unfold factorLoss
    positivity
  have hcd : ∀ k < p.N, ClearlyDefinite u s1.kd s.rho k := fun k hk v hv => by
    refine lt_of_le_of_lt ?_ (hd k hk v hv)
    have := mul_nonneg hloss (sq_nonneg (scaledNorm (quuReg s1.kd s.rho k) v))
    linarith
  have hne : ∃ k < p.N, (s1.kd k).ff ≠ 0 := by
    by_contra hno
    refine hns ((C111_stationary hu h1 hF hS hcd hE hZ).mp fun k hk => ?_)
    by_contra h0
    exact hno ⟨k, hk, h0⟩
  obtain ⟨t1, t2⟩ := C111_third hu h1 hF hS hrho hcc hcN hd
  have hneg := t2 hne
  rw [← hd0] at hneg t1
  have hlow : 1 / 3 ≤ policySlope p.N (sweepData p s) s1.kd / s1.dV0 := by
    rw [le_div_iff_of_neg hneg]; exact t1
  exact C110_line_search hZ ht hterm hb hS hE hin hf (t1.trans_lt (by linarith)) hneg (hlo.trans_le hlow) hup

/-- What regularization and rounding add to the slope of the cost along the policy. -/
noncomputable def slopeExcess (u : ℝ) (p : DynProblem n m ℝ) (kd r : ℕ → KP n m ℝ) (rho : ℝ) : ℝ :=
  ∑ k ∈ range p.N, ∑ i, (|rho * ((r k).gain *ᵥ closedResponse kd r k) i| + slopeError u r rho k (closedResponse kd r k) i) * |(r k).ff i|

/-- **C111, the slope.**  The slope of the cost along the policy is the announced first-order change up to the regularization and the
rounding of the feedback gains; no convexity is needed. -/
theorem C111_ratio {kd r : ℕ → KP n m ℝ} (hu : 0 ≤ u) (h1 : unit u m < 1) (hF : Accurate u fl F) (h : Spec.Swept F.routine p rho kd r) :
    |policySlope p.N kd r - ∑ k ∈ range p.N, (r k).delta.1| ≤ slopeExcess u p kd r rho := by
  unfold policySlope slopeExcess
  rw [sum_sub_distrib, sub_sub_cancel_left, abs_neg]
  refine (abs_sum_le_sum_abs _ _).trans (sum_le_sum fun k hk => ?_)
  refine (abs_sum_le_sum_abs _ _).trans (sum_le_sum fun i _ => ?_)
  rw [abs_mul]
  refine mul_le_mul_of_nonneg_right ?_ (abs_nonneg _)
  have hs := (C111_gains hu h1 hF h (mem_range.mp hk) (closedResponse kd r k) i).2
  have := abs_sub (feedbackSlope r k (closedResponse kd r k) i + rho * ((r k).gain *ᵥ closedResponse kd r k) i)
    (rho * ((r k).gain *ᵥ closedResponse kd r k) i)
  rw [add_sub_cancel_right] at this
  linarith

/-- **C111, the line search without convexity.**  After a first sweep that succeeds, with Hessians that are definite to working
precision: if the regularization and rounding terms of the slope are small against the announced change, compared with the distance of
the bounds of the acceptance test from one, the forward pass accepts a step that lowers the cost of every non-stationary
trajectory. -/
theorem C111_line_search_nonconvex (hu : 0 ≤ u) (h1 : unit u m < 1) (hF : Accurate u fl F) (hN : p.N ≠ 0) (hD : ReportsDerivatives p s)
    (hZ : DynFeasible (alKernel p) s.Z) (ht : SameTimes (alKernel p) s.Zbar s.Z)
    (hterm : ∀ x, ((s.cs p.N).evaluate x (s.Zbar.u p.N)).1 = ((s.cs p.N).evaluate x (s.Z.u p.N)).1)
    (hok : (bpSweep (kernelBy F.routine p) s.rho p.N (sweepData p s) (0, 0)).2 = true)
    (hb : backwardPass (kernelBy F.routine p) o (fuel + 1) (updateExpansions (kernelBy F.routine p) s) = some s1)
    (hd : ∀ k < p.N, ClearlyDefinite u s1.kd s.rho k)
    (hns : ¬ Stationary p s.cs s.Z) (hin : InsideLimits p o s.Z) (hf : 1 < o.lsFactor) (hl0 : 0 ≤ o.lsLower)
    (hlo : slopeExcess u p (sweepData p s) s1.kd s.rho < (1 - o.lsLower) * |s1.dV0|)
    (hup : slopeExcess u p (sweepData p s) s1.kd s.rho < (o.lsUpper - 1) * |s1.dV0|) :
    ∃ M : ℤ, ∀ L ≥ M,
      (forwardPass (kernelBy F.routine p) { o with lsMax := L } s1).status = .kUnsolved ∧
      (forwardPass (kernelBy F.routine p) { o with lsMax := L } s1).rho = s1.rho ∧
      trajCost p s.cs (forwardPass (kernelBy F.routine p) { o with lsMax := L } s1).Z < trajCost p s.cs s.Z := by
  have hb' := hb
  rw [updateExpansions_by] at hb'
  obtain ⟨hS, hd0, -⟩ := backwardPass_first_by hN (fun k hk => (expansion_symm p s hD.symm k hk).1)
    (fun k hk => (expansion_symm p s hD.symm k hk.le).2) (by rw [updateExpansions_rho]; exact hok) hb'
  rw [updateExpansions_rho] at hS
  have hE := firstOrder_term hD.firstOrder
  obtain ⟨k, hk, hne⟩ : ∃ k < p.N, (s1.kd k).ff ≠ 0 := by
    by_contra hno
    refine hns ((C111_stationary hu h1 hF hS hd hE hZ).mp fun k hk => ?_)
    by_contra h0
    exact hno ⟨k, hk, h0⟩
  have hneg : s1.dV0 < 0 := by
    rw [hd0]
    refine sum_neg' (fun j hj => (C111_descent hu h1 hF hS (mem_range.mp hj) (hd j (mem_range.mp hj))).1) ⟨k, mem_range.mpr hk, ?_⟩
    obtain ⟨d1, d2⟩ := C111_descent hu h1 hF hS hk (hd k hk)
    exact lt_of_le_of_ne d1 fun e => hne (d2.mp e)
  have hr := C111_ratio hu h1 hF hS
  rw [← hd0] at hr
  obtain ⟨r1, r2⟩ := abs_le.mp hr
  rw [abs_of_neg hneg] at hlo hup
  change -slopeExcess u p (sweepData p s) s1.kd s.rho ≤ policySlope p.N (sweepData p s) s1.kd - s1.dV0 at r1
  change policySlope p.N (sweepData p s) s1.kd - s1.dV0 ≤ slopeExcess u p (sweepData p s) s1.kd s.rho at r2
  have hl : o.lsLower < policySlope p.N (sweepData p s) s1.kd / s1.dV0 := by
    rw [lt_div_iff_of_neg hneg]; linarith
  have hup' : policySlope p.N (sweepData p s) s1.kd / s1.dV0 < o.lsUpper := by
    rw [div_lt_iff_of_neg hneg]; linarith
  have hslope : policySlope p.N (sweepData p s) s1.kd < 0 := by
    have := mul_nonneg hl0 (neg_nonneg.mpr hneg.le)
    linarith
  exact C110_line_search hZ ht hterm hb hS hE hin hf hslope hneg hl hup'

end search

/-! ### The case of `DescentDemo`: nonlinear dynamics, gains calculated in `double` -/

namespace DescentDemo

/-- The action value the gains are calculated from. -/
theorem demo_quu : (((sweepData prob st 0).actionValue (sweepData prob st 1)).regularize 0).qreg.dudu = (2 : Matrix (Fin 1) (Fin 1) ℝ) := by
  have e0 : sweepData prob st 0 = (updateExpansions (alKernel prob) st).kd 0 := upd_of_ne (by show (0 : ℕ) ≠ 1; omega)
  have e1 : sweepData prob st 1 = ((updateExpansions (alKernel prob) st).kd 1).term := upd_self ..
  have hB := (expansion_first prob st 0 (by show 0 ≤ 1; omega)).2.1
  have hc0 := kd_cost 0 (by omega)
  have hc1 := kd_cost 1 le_rfl
  rw [if_pos Nat.one_pos] at hc0
  rw [if_neg (lt_irrefl _)] at hc1
  have hS : (sweepData prob st 1).Sxx = 1 := by
    rw [e1]
    show ((updateExpansions (alKernel prob) st).kd 1).cost.dxdx = 1
    rw [hc1]
  ext i j
  fin_cases i; fin_cases j
  simp only [KP.actionValue, KP.regularize, hS]
  rw [e0, hB, hc0]
  simp [prob, st, rest, Matrix.mul_apply, Matrix.ofNat_apply]
  norm_num

/-- The factorization succeeds. -/
theorem demo_sweep : (bpSweep (kernelBy leftToRight.routine prob) st.rho prob.N (sweepData prob st) (0, 0)).2 = true := by
  have hok := (swept_rounded oneSwept_swept.1 (k := 0) Nat.one_pos).1
  rw [oneSwept_swept.2] at hok
  have h : (KP.gainsBy leftToRight.routine (((sweepData prob st 0).actionValue (sweepData prob st 1)).regularize 0)).2 = true := by
    unfold KP.gainsBy Floats.routine
    rw [demo_quu, if_pos hok]
  show (bpSweep (kernelBy leftToRight.routine prob) 0 1 (sweepData prob st) (0, 0)).2 = true
  unfold bpSweep
  extract_lets g d
  rw [if_pos (show g.2 = true from h)]
  rfl

/-- The backward pass, and what it leaves. -/
theorem demo_pass (o : Opts ℝ) : ∃ s1, backwardPass (kernelBy leftToRight.routine prob) o 1
      (updateExpansions (kernelBy leftToRight.routine prob) st) = some s1 ∧
    Spec.Swept leftToRight.routine prob st.rho (sweepData prob st) s1.kd ∧ s1.dV0 = (s1.kd 0).delta.1 ∧
    quuReg s1.kd st.rho 0 = quuReg oneSwept 0 0 := by
  have hN : prob.N ≠ 0 := by show (1 : ℕ) ≠ 0; omega
  obtain ⟨s1, hs1⟩ : ∃ s1, backwardPass (kernelBy leftToRight.routine prob) o 1 (updateExpansions (kernelBy leftToRight.routine prob) st)
      = some s1 := by
    rw [updateExpansions_by]
    unfold backwardPass bpLoop
    extract_lets r w w2 count'
    have hr : r.2 = true := by
      have : r = bpSweep (kernelBy leftToRight.routine prob) (updateExpansions (alKernel prob) st).rho prob.N (sweepData prob st) (0, 0) := rfl
      rw [this, updateExpansions_rho]; exact demo_sweep
    rw [if_pos hr, if_neg (show ¬(kernelBy leftToRight.routine prob).N = 0 from hN)]
    exact ⟨_, rfl⟩
  have hs1' := hs1
  rw [updateExpansions_by] at hs1'
  obtain ⟨hS, hd0, -⟩ := backwardPass_first_by hN (fun k hk => (expansion_symm prob st reports.symm k hk).1)
    (fun k hk => (expansion_symm prob st reports.symm k hk.le).2) (by rw [updateExpansions_rho]; exact demo_sweep) hs1'
  rw [updateExpansions_rho] at hS
  refine ⟨s1, hs1, hS, by rw [hd0]; exact sum_range_one _, ?_⟩
  rw [oneSwept_swept.2, ← demo_quu]
  have t1 := (treated_by (hS.complete.done 0 Nat.one_pos)).1
  have k1 : s1.kd (0 + 1) = sweepData prob st 1 := hS.complete.keeps 1 le_rfl
  unfold quuReg
  rw [t1, k1]
  rfl

theorem demo_definite {c : ℝ} (hc : c ≤ 1 / 2) {r : ℕ → KP 1 1 ℝ} (hQ : quuReg r st.rho 0 = quuReg oneSwept 0 0) (k : ℕ) (hk : k < prob.N)
    (v : Fin 1 → ℝ) (hv : v ≠ 0) : c * scaledNorm (quuReg r st.rho k) v ^ 2 < v ⬝ᵥ quuReg r st.rho k *ᵥ v := by
  have hk : k < 1 := hk
  obtain rfl : k = 0 := by omega
  rw [hQ]
  exact oneSwept_definite hc v hv

theorem demo_size : factorLoss (2 ^ (-53 : ℤ)) 1 ≤ 1 / 8 ∧ 4 * factorLoss (2 ^ (-53 : ℤ)) 1 ≤ 1 / 2 ∧ 0 ≤ factorLoss (2 ^ (-53 : ℤ)) 1 := by
  have hu : (0 : ℝ) ≤ 2 ^ (-53 : ℤ) := by positivity
  obtain ⟨c1, c2, -⟩ := C111_size hu 1 (by norm_num)
  have h5 : factorLoss (2 ^ (-53 : ℤ)) 1 ≤ 1 / 8 := c2.trans (by norm_num)
  have h6 : 0 ≤ factorLoss (2 ^ (-53 : ℤ)) 1 := by
    have := loss_nonneg hu c1
    unfold factorLoss
    positivity
  generalize factorLoss (2 ^ (-53 : ℤ)) 1 = c at h5 h6
  exact ⟨h5, by linarith, h6⟩

/-- All hypotheses of `C111_line_search` are met. -/
example (o : Opts ℝ) (hb : o.checkBounds = false) (hf : 1 < o.lsFactor) (hlo : o.lsLower < 1 / 3) (hup : 1 < o.lsUpper) :
    ∃ s1, backwardPass (kernelBy leftToRight.routine prob) o 1 (updateExpansions (kernelBy leftToRight.routine prob) st) = some s1 ∧
      ∃ M : ℤ, ∀ L ≥ M, trajCost prob st.cs (forwardPass (kernelBy leftToRight.routine prob) { o with lsMax := L } s1).Z
        < trajCost prob st.cs st.Z := by
  have hu : (0 : ℝ) ≤ 2 ^ (-53 : ℤ) := by positivity
  obtain ⟨c1, -, -⟩ := C111_size hu 1 (by norm_num)
  obtain ⟨s1, hs1, hS, hd0, hQ⟩ := demo_pass o
  refine ⟨s1, hs1, ?_⟩
  have hratio : policySlope prob.N (sweepData prob st) s1.kd = s1.dV0 := by
    rw [hd0]
    show ∑ k ∈ range 1, _ = _
    rw [sum_range_one]
    have : feedbackSlope s1.kd 0 (closedResponse (sweepData prob st) s1.kd 0) = 0 := by
      have e : closedResponse (sweepData prob st) s1.kd 0 = 0 := rfl
      rw [e]
      unfold feedbackSlope
      simp
    rw [this, zero_dotProduct, sub_zero]
  obtain ⟨M, hM⟩ := C111_line_search hu c1 leftToRight_accurate (by show (1 : ℕ) ≠ 0; omega) reports feasible
    ⟨fun _ _ => rfl, fun _ _ => rfl⟩ le_rfl (fun _ => rfl) convex demo_sweep hs1 (demo_definite demo_size.2.1 hQ) not_stationary
    (fun hb' => by rw [hb] at hb'; cases hb') hf hlo (by
      rw [hratio]
      exact (div_self_le_one _).trans_lt hup)
  exact ⟨M, fun L hL => (hM L hL).2.2⟩

/-- And those of `C111_line_search_nonconvex`, with the default bounds `1e-8` and `10`. -/
example (o : Opts ℝ) (hb : o.checkBounds = false) (hf : 1 < o.lsFactor) (hlo : o.lsLower = 1 / 10 ^ 8) (hup : o.lsUpper = 10) :
    ∃ s1, backwardPass (kernelBy leftToRight.routine prob) o 1 (updateExpansions (kernelBy leftToRight.routine prob) st) = some s1 ∧
      ∃ M : ℤ, ∀ L ≥ M, trajCost prob st.cs (forwardPass (kernelBy leftToRight.routine prob) { o with lsMax := L } s1).Z
        < trajCost prob st.cs st.Z := by
  have hu : (0 : ℝ) ≤ 2 ^ (-53 : ℤ) := by positivity
  obtain ⟨c1, -, -⟩ := C111_size hu 1 (by norm_num)
  obtain ⟨s1, hs1, hS, hd0, hQ⟩ := demo_pass o
  refine ⟨s1, hs1, ?_⟩
  obtain ⟨l1, l2, l3⟩ := demo_size
  have hcd : ∀ k < prob.N, ClearlyDefinite (2 ^ (-53 : ℤ)) s1.kd st.rho k := fun k hk =>
    demo_definite (l1.trans (by norm_num)) hQ k hk
  have h2 : Real.sqrt 2 * Real.sqrt 2 = 2 := Real.mul_self_sqrt (by norm_num)
  set y := (s1.kd 0).ff 0 with hy
  have hq : quuReg s1.kd st.rho 0 = 2 := hQ.trans oneSwept_swept.2
  have hne : (s1.kd 0).ff ≠ 0 := fun h0 =>
    not_stationary ((C111_stationary hu c1 leftToRight_accurate hS hcd (firstOrder_term reports.firstOrder) feasible).mp fun k hk => by
      have hk : k < 1 := hk
      obtain rfl : k = 0 := by omega
      exact h0)
  have hy0 : 0 < y * y := mul_self_pos.mpr fun h0 => hne (by ext i; fin_cases i; exact h0)
  have hex : slopeExcess (2 ^ (-53 : ℤ)) prob (sweepData prob st) s1.kd st.rho = factorLoss (2 ^ (-53 : ℤ)) 1 * (2 * (y * y)) := by
    unfold slopeExcess
    show ∑ k ∈ range 1, _ = _
    rw [sum_range_one]
    have e : closedResponse (sweepData prob st) s1.kd 0 = 0 := rfl
    have e2 : slopeError (2 ^ (-53 : ℤ)) s1.kd st.rho 0 0 0 = factorLoss (2 ^ (-53 : ℤ)) 1 * (2 * |y|) := by
      unfold slopeError scaledNorm askedSize
      rw [hq]
      simp [Matrix.ofNat_apply]
      left
      rw [← mul_assoc, h2]
    rw [e, Fin.sum_univ_one, e2, mulVec_zero, Pi.zero_apply, mul_zero, abs_zero, zero_add, ← abs_mul_abs_self y]
    ring
  have hdel := C111_delta hu c1 leftToRight_accurate hS (k := 0) Nat.one_pos
  have e1 : scaledNorm (quuReg s1.kd st.rho 0) (s1.kd 0).ff ^ 2 = 2 * (y * y) := by
    rw [hq]
    simp [scaledNorm, Matrix.ofNat_apply]
    have := abs_mul_abs_self y
    linear_combination |y| ^ 2 * h2 + 2 * this
  have e2 : (s1.kd 0).ff ⬝ᵥ quuReg s1.kd st.rho 0 *ᵥ (s1.kd 0).ff = 2 * (y * y) := by
    rw [hq]
    simp [mulVec, dotProduct, Matrix.ofNat_apply]
    ring
  rw [e1, e2, ← hd0] at hdel
  have hr := (abs_le.mp hdel).2
  have hm := mul_le_mul_of_nonneg_right l1 (show 0 ≤ 2 * (y * y) by linarith)
  rw [← hex] at hr hm
  generalize hS' : slopeExcess (2 ^ (-53 : ℤ)) prob (sweepData prob st) s1.kd st.rho = S at hr hm
  have habs := neg_le_abs s1.dV0
  obtain ⟨M, hM⟩ := C111_line_search_nonconvex hu c1 leftToRight_accurate (by show (1 : ℕ) ≠ 0; omega) reports feasible
    ⟨fun _ _ => rfl, fun _ _ => rfl⟩ (fun _ => rfl) demo_sweep hs1 hcd not_stationary
    (fun hb' => by rw [hb] at hb'; cases hb') hf (by rw [hlo]; norm_num)
    (by rw [hS', hlo]; linarith) (by rw [hS', hup]; linarith)
  exact ⟨M, fun L hL => (hM L hL).2.2⟩

end DescentDemo
end Altro.Props
