import Verif.Proofs.SmoothLimits

/-!
# The inner solve on a smooth problem
-/

namespace Altro.Props
open Altro.Spec Matrix ILQR
variable {n m : ℕ} {p : DynProblem n m ℝ} {cs : ℕ → ALCost n m ℝ} {Y : Traj (Fin n → ℝ) (Fin m → ℝ) ℝ} {μ Jb R C rb b c β γ δ L : ℝ}
  {ℓ : ℕ → (Fin n → ℝ) → (Fin m → ℝ) → ℝ} {g : ℕ → Z n m → Z n m} {o : Opts ℝ} {fuel : ℕ}
  {s q : St (Fin n → ℝ) (Fin m → ℝ) ℝ (ALCost n m ℝ) (KP n m ℝ)}

/-- Iterations from states of the loop. -/
abbrev Iterates (p : DynProblem n m ℝ) (cs : ℕ → ALCost n m ℝ) (Y : Traj (Fin n → ℝ) (Fin m → ℝ) ℝ) (o : Opts ℝ) (fuel : ℕ)
    (μ Jb R C rb b c γ : ℝ) : Prop :=
  ∀ s, Orbit p cs Y Jb rb s → ∃ q, iterate (alKernel p) o (fuel + 1) s = some q ∧ Orbit p cs Y Jb rb q ∧ Iterated p cs o μ C R b c γ s q

/-- The last iteration of a successful solve. -/
structure LastStep (p : DynProblem n m ℝ) (cs : ℕ → ALCost n m ℝ) (Y : Traj (Fin n → ℝ) (Fin m → ℝ) ℝ) (o : Opts ℝ)
    (μ Jb R C rb b c γ : ℝ) (s q : St (Fin n → ℝ) (Fin m → ℝ) ℝ (ALCost n m ℝ) (KP n m ℝ)) : Prop where
  pre : Orbit p cs Y Jb rb s
  post : Orbit p cs Y Jb rb q
  it : Iterated p cs o μ C R b c γ s q
  small : normalizedGain (alKernel p) q < o.gradTol

theorem Iterated.gain_lt (hN : p.N ≠ 0) (hγ : 0 < γ) (h : ffsq p.N q.kd < γ ^ 2) : normalizedGain (alKernel p) q < γ := by
  by_contra hge
  exact absurd (gain_large hN hγ (not_lt.mp hge)) (not_le.mpr h)

theorem Iterated.kept (hi : Iterated p cs o μ C R b c γ s q) (hμ : 0 < μ) (hγ : 0 < γ) (hl : 0 < o.lsLower) (hf : 1 ≤ o.lsFactor)
    (hZ : q.Z = s.Z) : ffsq p.N q.kd < γ ^ 2 := by
  rcases hi.outcome with ⟨-, h⟩ | ⟨h, -⟩
  · exact h
  · rw [hZ] at h
    have hc : 0 < o.lsLower * stepLength o.lsFactor (o.lsMax.toNat - 1) * μ / 2 := by
      have := (stepLength_pos hf (o.lsMax.toNat - 1)).1
      positivity
    have : ffsq p.N q.kd ≤ 0 := by
      by_contra hpos
      have := mul_pos hc (not_le.mp hpos)
      linarith
    exact lt_of_le_of_lt this (by positivity)

/-- The loop once the cost is recorded. -/
theorem smooth_loop (hI : Iterates p cs Y o fuel μ Jb R C rb b c γ) (hμ : 0 < μ) (hN : p.N ≠ 0) (hγ : 0 < γ) (hγ1 : γ ≤ o.gradTol)
    (hl : 0 < o.lsLower) (hf : 1 ≤ o.lsFactor) (hct : 0 < o.costTol) (hδ : 0 < unitDecrease o μ) (hL : ∀ Z, L ≤ trajCost p cs Z) :
    ∀ (T r : ℕ) (s : St (Fin n → ℝ) (Fin m → ℝ) ℝ (ALCost n m ℝ) (KP n m ℝ)), Orbit p cs Y Jb rb s → CostRecorded (alCostLaw p) s →
      trajCost p cs s.Z ≤ L + T * unitDecrease o μ → T + 1 ≤ r → (s.stats.inner : ℤ) + T + 1 < o.maxInner →
      (s.stats.total : ℤ) + T + 1 < o.maxTotal →
      ∃ s' q, LastStep p cs Y o μ Jb R C rb b c γ s' q ∧
        solveLoop (alKernel p) o (fuel + 1) r s = some { q with status := .kSolved } ∧ q.stats.inner ≤ s.stats.inner + T + 1 ∧
        q.stats.total ≤ s.stats.total + T + 1 := by
  have hcs : ∀ w : St (Fin n → ℝ) (Fin m → ℝ) ℝ (ALCost n m ℝ) (KP n m ℝ), Orbit p cs Y Jb rb w → ∀ Z,
      (alCostLaw p).total w.cs Z = trajCost p cs Z := fun w hw Z => by
    rw [total_eq_trajCost]; exact trajCost_congr p _ _ _ _ hw.core (fun _ _ => rfl) (fun _ _ => rfl)
  -- one iteration: the last, or the cost drops
  have step : ∀ s, Orbit p cs Y Jb rb s → CostRecorded (alCostLaw p) s → (s.stats.inner : ℤ) + 1 < o.maxInner →
      (s.stats.total : ℤ) + 1 < o.maxTotal → ∃ q, iterate (alKernel p) o (fuel + 1) s = some q ∧ Orbit p cs Y Jb rb q ∧
        Iterated p cs o μ C R b c γ s q ∧
        ((normalizedGain (alKernel p) q < o.gradTol ∧ ILQR.isDone o q = ({ q with status := .kSolved }, true)) ∨
          (ILQR.isDone o q = (q, false) ∧ CostRecorded (alCostLaw p) q ∧ trajCost p cs q.Z + unitDecrease o μ ≤ trajCost p cs s.Z)) := by
    intro s hs hr hi ht
    obtain ⟨q, hit, hq, hIt⟩ := hI s hs
    refine ⟨q, hit, hq, hIt, ?_⟩
    obtain ⟨c1, c2⟩ := C25_step_partial o (alCostLaw p) OrderLaws.ofField hr hit
    rw [hcs s hs, hcs q hq] at c2
    rcases isDone_converged (o := o) q hq.status (by rw [hIt.inner]; push_cast; omega) (by rw [hIt.total]; push_cast; omega) with
      ⟨d1, d2, e⟩ | ⟨d, e⟩
    · rw [hIt.grad] at d2; exact .inl ⟨d2, e⟩
    · right
      rw [hIt.grad, c2] at d
      refine ⟨e, c1, ?_⟩
      rcases hIt.outcome with ⟨z1, z2⟩ | ⟨z1, -⟩
      · exfalso
        refine d ⟨by rw [z1, sub_self]; exact hct, lt_of_lt_of_le (Iterated.gain_lt hN hγ z2) hγ1⟩
      · by_cases hg : normalizedGain (alKernel p) q < o.gradTol
        · have h1 : ¬ trajCost p cs s.Z - trajCost p cs q.Z < o.costTol := fun h' => d ⟨h', hg⟩
          have h2 : unitDecrease o μ ≤ o.costTol := min_le_left _ _
          linarith
        · have h1 := gain_large hN (lt_of_lt_of_le hγ hγ1) (not_lt.mp hg)
          have h2 : unitDecrease o μ ≤ o.lsLower * stepLength o.lsFactor (o.lsMax.toNat - 1) * μ / 2 * o.gradTol ^ 2 := min_le_right _ _
          have hc : 0 ≤ o.lsLower * stepLength o.lsFactor (o.lsMax.toNat - 1) * μ / 2 := by
            have := (stepLength_pos hf (o.lsMax.toNat - 1)).1
            positivity
          have h3 := mul_le_mul_of_nonneg_left h1 hc
          linarith
  intro T
  induction T with
  | zero =>
    intro r s hs hr hT hrT hi ht
    obtain ⟨r, rfl⟩ : ∃ r', r = r' + 1 := ⟨r - 1, by omega⟩
    push_cast at hT hi ht
    obtain ⟨q, hit, hq, hIt, hcase⟩ := step s hs hr (by omega) (by omega)
    unfold solveLoop
    rw [hit]
    simp only
    rcases hcase with ⟨d1, d2⟩ | ⟨-, -, d3⟩
    · rw [d2]
      have e1 := hIt.inner
      have e2 := hIt.total
      exact ⟨s, q, ⟨hs, hq, hIt, d1⟩, rfl, by omega, by omega⟩
    · exfalso
      have := hL q.Z
      linarith
  | succ T ih =>
    intro r s hs hr hT hrT hi ht
    obtain ⟨r, rfl⟩ : ∃ r', r = r' + 1 := ⟨r - 1, by omega⟩
    push_cast at hT hi ht
    obtain ⟨q, hit, hq, hIt, hcase⟩ := step s hs hr (by omega) (by omega)
    unfold solveLoop
    rw [hit]
    simp only
    rcases hcase with ⟨d1, d2⟩ | ⟨d1, d2, d3⟩
    · rw [d2]
      exact ⟨s, q, ⟨hs, hq, hIt, d1⟩, rfl, by rw [hIt.inner]; omega, by rw [hIt.total]; omega⟩
    · rw [d1]
      obtain ⟨s', q', f1, f2, f3, f4⟩ := ih r q hq d2 (by linarith) (by omega) (by rw [hIt.inner]; push_cast; omega)
        (by rw [hIt.total]; push_cast; omega)
      have e1 := hIt.inner
      have e2 := hIt.total
      exact ⟨s', q', f1, f2, by omega, by omega⟩

/-- The whole loop: the first iteration may leave a stale cost in the records. -/
theorem smooth_solve (hI : Iterates p cs Y o fuel μ Jb R C rb b c γ) (hμ : 0 < μ) (hN : p.N ≠ 0) (hγ : 0 < γ) (hγ1 : γ ≤ o.gradTol)
    (hl : 0 < o.lsLower) (hf : 1 ≤ o.lsFactor) (hct : 0 < o.costTol) (hδ : 0 < unitDecrease o μ) (hL : ∀ Z, L ≤ trajCost p cs Z)
    {T : ℕ} (hT : Jb ≤ L + T * unitDecrease o μ) (hal : Aligned s.stats) (h0 : Orbit p cs Y Jb rb (start (alKernel p) o s))
    (hi : (T : ℤ) + 3 < o.maxInner) (ht : (s.stats.total : ℤ) + T + 3 < o.maxTotal) :
    ∃ s' q, LastStep p cs Y o μ Jb R C rb b c γ s' q ∧ ILQR.solve (alKernel p) o (fuel + 1) s = some { q with status := .kSolved } ∧
      q.stats.inner ≤ T + 3 ∧ q.stats.total ≤ s.stats.total + T + 3 := by
  have hcs : ∀ w : St (Fin n → ℝ) (Fin m → ℝ) ℝ (ALCost n m ℝ) (KP n m ℝ), Orbit p cs Y Jb rb w → ∀ Z,
      (alCostLaw p).total w.cs Z = trajCost p cs Z := fun w hw Z => by
    rw [total_eq_trajCost]; exact trajCost_congr p _ _ _ _ hw.core (fun _ _ => rfl) (fun _ _ => rfl)
  obtain ⟨f1, f2, f3, f4, -⟩ := start_facts (alKernel p) o s
  obtain ⟨r, hr⟩ : ∃ r, o.maxInner.toNat = r + 2 := ⟨o.maxInner.toNat - 2, by omega⟩
  have hrT : T + 1 ≤ r := by omega
  have hsolve : ILQR.solve (alKernel p) o (fuel + 1) s = solveLoop (alKernel p) o (fuel + 1) (r + 2) (start (alKernel p) o s) := by
    rw [← hr]; rfl
  rw [hsolve]
  obtain ⟨q, hit, hq, hIt⟩ := hI _ h0
  have i1 : q.stats.inner = 1 := by rw [hIt.inner, f3]
  have t1 : q.stats.total = s.stats.total + 1 := by rw [hIt.total, f4]
  obtain ⟨a1, a2, hrec⟩ := iterate_records o (alCostLaw p) OrderLaws.ofField h0.aligned hit
  rw [hcs _ h0, hcs _ h0] at hrec
  unfold solveLoop
  rw [hit]
  simp only
  rcases isDone_converged (o := o) q hq.status (by rw [i1]; push_cast; omega) (by rw [t1]; push_cast; omega) with ⟨-, d2, e⟩ | ⟨d, e⟩
  · rw [hIt.grad] at d2
    rw [e]
    exact ⟨_, q, ⟨h0, hq, hIt, d2⟩, rfl, by rw [i1]; omega, by rw [t1]; omega⟩
  rw [e]
  simp only [Bool.false_eq_true, if_false]
  rcases hrec with ⟨-, c1, c2, -⟩ | ⟨c0, c1, c2, -⟩
  · -- the first step was accepted
    obtain ⟨s', q', g1, g2, g3, g4⟩ := smooth_loop (fuel := fuel) hI hμ hN hγ hγ1 hl hf hct hδ hL T (r + 1) q hq
      ⟨a1, a2, by rw [i1]; omega, by rw [c1, hcs q hq], by rw [c2, hcs q hq]⟩ (hq.cost.trans hT) (by omega) (by rw [i1]; push_cast; omega)
      (by rw [t1]; push_cast; omega)
    exact ⟨s', q', g1, g2, by omega, by omega⟩
  · -- rejected: the records hold the old cost twice
    have hback : Stats.back (q.stats.col .cost) = Stats.back2 (q.stats.col .cost) := c1.trans c2.symm
    obtain ⟨q2, hit2, hq2, hIt2⟩ := hI _ hq
    have i2 : q2.stats.inner = 2 := by rw [hIt2.inner, i1]
    have t2 : q2.stats.total = s.stats.total + 2 := by rw [hIt2.total, t1]
    obtain ⟨b1, b2, hrec2⟩ := iterate_records o (alCostLaw p) OrderLaws.ofField hq.aligned hit2
    rw [hcs _ hq, hcs _ hq] at hrec2
    unfold solveLoop
    rw [hit2]
    simp only
    rcases isDone_converged (o := o) q2 hq2.status (by rw [i2]; push_cast; omega) (by rw [t2]; push_cast; omega) with
      ⟨-, d2, e⟩ | ⟨d, e⟩
    · rw [hIt2.grad] at d2
      rw [e]
      exact ⟨_, q2, ⟨hq, hq2, hIt2, d2⟩, rfl, by rw [i2]; omega, by rw [t2]; omega⟩
    rw [e]
    simp only [Bool.false_eq_true, if_false]
    rcases hrec2 with ⟨-, c1, c2, -⟩ | ⟨c0, -, -, c3⟩
    · obtain ⟨s', q', g1, g2, g3, g4⟩ := smooth_loop (fuel := fuel) hI hμ hN hγ hγ1 hl hf hct hδ hL T r q2 hq2
        ⟨b1, b2, by rw [i2]; omega, by rw [c1, hcs q2 hq2], by rw [c2, hcs q2 hq2]⟩ (hq2.cost.trans hT) (by omega)
        (by rw [i2]; push_cast; omega) (by rw [t2]; push_cast; omega)
      exact ⟨s', q', g1, g2, by omega, by omega⟩
    · exfalso
      rw [if_neg (by rw [i1]; omega), if_neg a2, if_neg a2, hback, sub_self] at c3
      refine d ⟨by rw [c3]; exact hct, ?_⟩
      rw [hIt2.grad]
      exact lt_of_lt_of_le (Iterated.gain_lt hN hγ (hIt2.kept hμ hγ hl hf c0)) hγ1

/-- Size of bounded controls. -/
theorem ctrlSize_box {Z : Traj (Fin n → ℝ) (Fin m → ℝ) ℝ} (hR : 0 ≤ R) (h : ∀ k i, |ctl p.N Z k i| ≤ R) :
    ctrlSize p.N Z ≤ p.N * (m * (R + 1) ^ 2) := by
  unfold ctrlSize
  have : ∑ k ∈ Finset.range p.N, ∑ i, (|Z.u k i| + 1) ^ 2 ≤ ∑ k ∈ Finset.range p.N, (m * (R + 1) ^ 2 : ℝ) := by
    refine Finset.sum_le_sum fun k hk => ?_
    have : ∑ i, (|Z.u k i| + 1) ^ 2 ≤ ∑ _i : Fin m, (R + 1) ^ 2 := by
      refine Finset.sum_le_sum fun i _ => ?_
      have := h k i
      rw [ctl_of_lt _ (Finset.mem_range.mp hk)] at this
      exact pow_le_pow_left₀ (by positivity) (by linarith) 2
    simpa using this
  simpa using this

/-- The bounds on the gradient tolerance that make small feedforward terms. -/
noncomputable def tolBound (N m : ℕ) (μ R C ε σ : ℝ) : ℝ :=
  min 1 (min (σ ^ 2) (ε ^ 2 / (2 * (μ * C))) / ((N : ℝ) ^ 2 * (N * (m * (R + 1) ^ 2)) + 1))

theorem tolBound_pos (N m : ℕ) {μ R C ε σ : ℝ} (hμ : 0 < μ) (hC : 0 < C) (hε : 0 < ε) (hσ : 0 < σ) : 0 < tolBound N m μ R C ε σ := by
  have hE0 : 0 < min (σ ^ 2) (ε ^ 2 / (2 * (μ * C))) := lt_min (by positivity) (by positivity)
  exact lt_min one_pos (div_pos hE0 (by positivity))

/-- A solve with the constants given. -/
theorem SmoothCore.solves_of (h : SmoothCore p cs Y μ ℓ g) (hμ : 0 < μ) (hN : p.N ≠ 0) {L Jb ε σ : ℝ}
    (hLow : ∀ Z, L ≤ trajCost p cs Z) (hL : Level p cs Y μ Jb R C rb b c) (hσ : 0 < σ)
    (hu : ∀ e ∈ {e : Loop n m | (∀ k i, |e.1 k i| ≤ R) ∧ (∀ k i j, |e.2.1 k i j| ≤ b) ∧ ∀ k i, |e.2.2 k i| ≤ 1}, ∀ τ, 0 ≤ τ → τ ≤ σ →
      |gradSq p Y g (loopU p Y e τ) - gradSq p Y g (loopU p Y e 0)| ≤ ε ^ 2 / 2) (hγ : 0 < γ)
    (hT : ∀ e ∈ {e : Loop n m | (∀ k i, |e.1 k i| ≤ R) ∧ (∀ k i j, |e.2.1 k i j| ≤ b) ∧ ∀ k i, |e.2.2 k i| ≤ c}, ∀ τ, 0 ≤ τ → τ ≤ β →
      |loopJ p Y ℓ e τ - loopJ p Y ℓ e 0 - τ * loopD p Y g e 0| ≤ μ * γ ^ 2 / 8 * τ) (o : Opts ℝ) (fuel T : ℕ)
    (s : St (Fin n → ℝ) (Fin m → ℝ) ℝ (ALCost n m ℝ) (KP n m ℝ)) (ho : StepOptions o rb β) (hrm : o.regMin * o.regFactor ≤ rb)
    (hγ1 : γ ≤ o.gradTol) (hγ0 : o.gradTol ≤ tolBound p.N m μ R C ε σ) (hJ : Jb ≤ L + T * unitDecrease o μ)
    (hi : (T : ℤ) + 3 < o.maxInner) (ht : (s.stats.total : ℤ) + T + 3 < o.maxTotal)
    (hcore : ∀ k, (s.cs k).core = (cs k).core) (htimes : SameTimes (alKernel p) s.Z Y) (hal : Aligned s.stats)
    (hcost : trajCost p cs (rollout (alKernel p) s).Z ≤ Jb) :
    (∀ W a1 a2, LoopBound p Y R b c W → Clears p W a1 a2 → SolveWithin (alKernel p) o (limited o a1 a2) (fuel + 1) s) ∧
    ∃ t, ILQR.solve (alKernel p) o (fuel + 1) s = some t ∧ t.status = .kSolved ∧ t.stats.inner ≤ T + 3 ∧
        t.stats.total ≤ s.stats.total + T + 3 ∧ DynFeasible (alKernel p) t.Z ∧ SameTimes (alKernel p) t.Z Y ∧
        (∀ k, (t.cs k).core = (cs k).core) ∧ trajCost p cs t.Z ≤ Jb ∧ Aligned t.stats ∧ NearlyStationary p cs t.Z ε ∧ gradSq p Y g (ctl p.N t.Z) ≤ ε ^ 2 ∧
        ∀ (κ : ℝ) (D : (ℕ → Fin m → ℝ) → (ℕ → Fin m → ℝ) → ℝ), 0 ≤ κ → (∀ U, D U U = 0) →
          (∀ e ∈ {e : Loop n m | (∀ k i, |e.1 k i| ≤ R) ∧ (∀ k i j, |e.2.1 k i j| ≤ b) ∧ ∀ k i, |e.2.2 k i| ≤ 1}, ∀ τ, 0 ≤ τ → τ ≤ σ →
            D (loopU p Y e τ) (loopU p Y e 0) ≤ κ) →
          ∃ Zc, (alLaw p).Fresh t.cs Zc ∧ (∀ k ≤ p.N, Zc.x k = openLoop p Y (ctl p.N Zc) k) ∧ D (ctl p.N Zc) (ctl p.N t.Z) ≤ κ := by
  have hR0 := hL.R0
  have hC0 := hL.C0
  set E := min (σ ^ 2) (ε ^ 2 / (2 * (μ * C))) with hE
  set D : ℝ := (p.N : ℝ) ^ 2 * (p.N * (m * (R + 1) ^ 2)) + 1 with hD
  have hD0 : 0 < D := by positivity
  have hγ0 : o.gradTol ≤ min 1 (E / D) := hγ0
  have hI : Iterates p cs Y o fuel μ Jb R C rb b c γ := fun s hs => h.iteration hL hμ hN hγ ho hrm hT hs
  have hδ : 0 < unitDecrease o μ := by
    refine lt_min ho.cost ?_
    have h1 := (stepLength_pos ho.factor (o.lsMax.toNat - 1)).1
    have h2 := ho.low
    have h3 := ho.grad
    positivity
  obtain ⟨hr, e1, -, -⟩ := start_running (p := p) (o := o) (rb := rb) hal ho.reg0 ho.reg1
  have htr : ∀ Z, SameTimes (alKernel p) Z s.Z → SameTimes (alKernel p) Z Y := fun Z hZ =>
    ⟨fun k hk => (hZ.t k hk).trans (htimes.t k hk), fun k hk => (hZ.h k hk).trans (htimes.h k hk)⟩
  have h0 : Orbit p cs Y Jb rb (start (alKernel p) o s) :=
    ⟨fun k => (hr.core k).trans (hcore k), hr.feas, htr _ hr.times, htr _ hr.timesb, hr.rho0, hr.rho1, hr.status, hr.aligned,
      by rw [e1]; exact hcost⟩
  obtain ⟨s', q, hlast, f1, f2, f3⟩ := smooth_solve (fuel := fuel) hI hμ hN hγ hγ1 ho.low ho.factor ho.cost hδ hLow hJ hal h0 hi ht
  refine ⟨fun W a1 a2 hW hc => run_within hI ho.factor hW hc _ _ h0, _, f1, rfl, f2, f3, hlast.post.feas, hlast.post.times, hlast.post.core, hlast.post.cost, hlast.post.aligned, ?_⟩
  change NearlyStationary p cs q.Z ε ∧ gradSq p Y g (ctl p.N q.Z) ≤ ε ^ 2 ∧ ∀ (κ : ℝ) (D : (ℕ → Fin m → ℝ) → (ℕ → Fin m → ℝ) → ℝ),
    0 ≤ κ → (∀ U, D U U = 0) → (∀ e ∈ {e : Loop n m | (∀ k i, |e.1 k i| ≤ R) ∧ (∀ k i j, |e.2.1 k i j| ≤ b) ∧ ∀ k i, |e.2.2 k i| ≤ 1}, ∀ τ,
      0 ≤ τ → τ ≤ σ → D (loopU p Y e τ) (loopU p Y e 0) ≤ κ) →
    ∃ Zc, (alLaw p).Fresh q.cs Zc ∧ (∀ k ≤ p.N, Zc.x k = openLoop p Y (ctl p.N Zc) k) ∧ D (ctl p.N Zc) (ctl p.N q.Z) ≤ κ
  have hS : ffsq p.N q.kd ≤ E := by
    refine (gain_small hN hlast.small).trans ?_
    have h1 := ctrlSize_box hR0 (hL.controls q.Z hlast.post.cost)
    have h2 : o.gradTol ≤ 1 := hγ0.trans (min_le_left _ _)
    have h3 : o.gradTol * D ≤ E := by
      have := hγ0.trans (min_le_right _ _)
      rwa [le_div_iff₀ hD0] at this
    have h4 := mul_le_mul_of_nonneg_left h1 (sq_nonneg (p.N * o.gradTol))
    have h5 : (p.N * o.gradTol) ^ 2 * (p.N * (m * (R + 1) ^ 2)) ≤ o.gradTol ^ 2 * D := by
      have : 0 ≤ o.gradTol ^ 2 := sq_nonneg _
      rw [hD]; nlinarith
    have h6 : o.gradTol ^ 2 * D ≤ o.gradTol * D := by
      have h7 : o.gradTol ^ 2 ≤ o.gradTol := by nlinarith [ho.grad]
      exact mul_le_mul_of_nonneg_right h7 hD0.le
    linarith
  have hS2 : μ * (C * ffsq p.N q.kd) ≤ ε ^ 2 / 2 := by
    have h1 := hS.trans (min_le_right _ _)
    rw [le_div_iff₀ (by positivity)] at h1
    linarith
  have hg := h.grad_small hμ hσ hu hlast.pre hlast.it (hS.trans (min_le_left _ _)) hS2
  exact ⟨h.nearlyStationary hlast.post.core hlast.post.feas hlast.post.times hg, hg, fun κ D hκ hD hv =>
    stored_close hlast.pre hlast.post hlast.it hσ (hS.trans (min_le_left _ _)) hκ hD hv⟩

theorem SmoothCore.solves (h : SmoothCore p cs Y μ ℓ g) (hμ : 0 < μ) (hN : p.N ≠ 0) (Jb ε : ℝ) (hε : 0 < ε) :
    ∃ L W rb γ0 : ℝ, 0 < rb ∧ 0 < γ0 ∧ (∀ Z, L ≤ trajCost p cs Z) ∧ ∀ γ, 0 < γ → ∃ β : ℝ, 0 < β ∧ ∀ (o : Opts ℝ) (fuel T : ℕ)
      (s : St (Fin n → ℝ) (Fin m → ℝ) ℝ (ALCost n m ℝ) (KP n m ℝ)), StepOptions o rb β → o.regMin * o.regFactor ≤ rb → γ ≤ o.gradTol →
      o.gradTol ≤ γ0 → Jb ≤ L + T * unitDecrease o μ → (T : ℤ) + 3 < o.maxInner → (s.stats.total : ℤ) + T + 3 < o.maxTotal →
      (∀ k, (s.cs k).core = (cs k).core) → SameTimes (alKernel p) s.Z Y → Aligned s.stats →
      trajCost p cs (rollout (alKernel p) s).Z ≤ Jb →
      (∀ a1 a2, Clears p W a1 a2 → SolveWithin (alKernel p) o (limited o a1 a2) (fuel + 1) s) ∧
      ∃ t, ILQR.solve (alKernel p) o (fuel + 1) s = some t ∧ t.status = .kSolved ∧ t.stats.inner ≤ T + 3 ∧
        t.stats.total ≤ s.stats.total + T + 3 ∧ DynFeasible (alKernel p) t.Z ∧ SameTimes (alKernel p) t.Z Y ∧
        (∀ k, (t.cs k).core = (cs k).core) ∧ trajCost p cs t.Z ≤ Jb ∧ Aligned t.stats ∧ NearlyStationary p cs t.Z ε := by
  obtain ⟨L, hLow, -⟩ := h.sublevel
  obtain ⟨R, C, rb, b, c, hL⟩ := h.level hμ Jb
  obtain ⟨σ, hσ, hu⟩ := uniform_zero (F := fun q : Loop n m × ℝ => gradSq p Y g (loopU p Y q.1 q.2))
    ((SmoothDyn.gradSq_continuous h.dyn).comp (SmoothDyn.loopU_continuous h.dyn)) (box_compact (n := n) (m := m) R b 1) (η := ε ^ 2 / 2) (by positivity)
  obtain ⟨W, hW⟩ := loop_bound h.dyn R b c
  refine ⟨L, W, rb, _, hL.rb0, tolBound_pos p.N m (R := R) hμ hL.C0 hε hσ, hLow, fun γ hγ => ?_⟩
  obtain ⟨β, hβ, hT⟩ := h.dyn.taylor (box_compact (n := n) (m := m) R b c) (η := μ * γ ^ 2 / 8) (by positivity)
  refine ⟨β, hβ, fun o fuel T s ho hrm hγ1 hγ0 hJ hi ht hcore htimes hal hcost => ?_⟩
  obtain ⟨w, t, a1, a2, a3, a4, a5, a6, a7, a8, a9, a10, -⟩ :=
    h.solves_of hμ hN hLow hL hσ hu hγ hT o fuel T s ho hrm hγ1 hγ0 hJ hi ht hcore htimes hal hcost
  exact ⟨fun l1 l2 => w W l1 l2 hW, t, a1, a2, a3, a4, a5, a6, a7, a8, a9, a10⟩

end Altro.Props
