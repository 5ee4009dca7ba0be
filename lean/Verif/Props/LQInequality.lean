import Verif.Proofs.AffineKnot

/-!
# C83: the inner solve on linear-quadratic problems with equality and inequality constraints
-/

namespace Altro.Props
open Altro.Spec Matrix ILQR
variable {K : Type} [Field K] [LinearOrder K] [IsStrictOrderedRing K] {n m : ℕ}

theorem ConvLQ.mono {p : DynProblem n m K} {cs : ℕ → ALCost n m K} {μ M M' : K} (h : ConvLQ p cs μ M) (hM : M ≤ M') :
    ConvLQ p cs μ M' where
  toCoreBase := h.toCoreBase
  low := h.low
  up k hk c hc x u δx δu := (h.up k hk c hc x u δx δu).trans
    (mul_le_mul_of_nonneg_right hM (add_nonneg (nsq_nonneg _) (nsq_nonneg _)))
  below := h.below
  belowN := h.belowN
  above k hk c hc x u δx δu := by
    have h1 := h.above k hk c hc x u δx δu
    have h2 := mul_le_mul_of_nonneg_right hM (add_nonneg (nsq_nonneg δx) (nsq_nonneg δu))
    linarith

theorem unitDecrease_pos {o : Opts K} {μ rb β : K} (ho : StepOptions o rb β) (hμ : 0 < μ) : 0 < unitDecrease o μ := by
  have h1 := ho.low
  have h2 := (stepLength_pos ho.factor (o.lsMax.toNat - 1)).1
  have h3 := ho.grad
  exact lt_min ho.cost (by positivity)

section solver
variable {p : DynProblem n m K} {o : Opts K} {fuel : ℕ} {μ : K} {cs : ℕ → ALCost n m K}

/-- What the inner solver needs to know about a problem, for all penalties up to `ρm`: bounds `M` and `a` on curvature and dynamics,
and the constant `C` of the backward sweeps with these bounds. -/
structure InnerConstants (p : DynProblem n m K) (cs : ℕ → ALCost n m K) (Z0 : Traj (Fin n → K) (Fin m → K) K) (μ ρm M a C : K) :
    Prop where
  M0 : 0 ≤ M
  C0 : 0 < C
  dyn : DynBound p Z0 a
  sweep : ∀ (kd r : ℕ → KP n m K) (rho : K), BoundedSweep p.N μ M a kd r rho → rho ≤ 1 → SweepBounds p.N μ C kd r rho
  conv : ∀ cs' : ℕ → ALCost n m K, (∀ k ≤ p.N, (cs' k).static = (cs k).static) → ∀ ρ, 0 < ρ → ρ ≤ ρm →
    (∀ k ≤ p.N, PenU (cs' k) ρ) → ConvLQ p cs' μ M

theorem innerConstants_exist (h : LQInequality p cs μ) (hμ : 0 < μ) (Z0 : Traj (Fin n → K) (Fin m → K) K) {ρm : K} (hρm : 0 < ρm) :
    ∃ M a C, InnerConstants p cs Z0 μ ρm M a C := by
  obtain ⟨A, B, hA, hB, h1, h2⟩ := curvature_exists p cs
  obtain ⟨a, ha, h3⟩ := dynBound_exists (p := p) h.dyn Z0
  have hM : 0 ≤ B + ρm * A := by positivity
  obtain ⟨C, hC, h4⟩ := sweep_bounds n m p.N hμ hM ha
  refine ⟨_, a, C, hM, hC, h3, h4, fun cs' hst ρ hρ hρ' hpen => ?_⟩
  refine ((h.congr hst).conv hμ (fun k hk δx δu => ?_) (fun k hk δx δu => ?_) hρ hpen).mono
    (add_le_add_right (mul_le_mul_of_nonneg_right hρ' hA) B)
  · have : (cs' k).static.cost = (cs k).static.cost := by rw [hst k hk]
    have e : (cs' k).cost = (cs k).cost := this
    rw [e]; exact h1 k hk δx δu
  · rw [conSize_static (hst k hk)]; exact h2 k hk δx δu

theorem InnerConstants.tuned {Z0 : Traj (Fin n → K) (Fin m → K) K} {ρm M a C : K} (hI : InnerConstants p cs Z0 μ ρm M a C)
    (hμ : 0 < μ) (ho : StepOptions o (min 1 (μ / (2 * C))) (μ / (2 * (M * C) + 1))) :
    ∃ β, Tuned o μ M C (min 1 (μ / (2 * C))) β ∧ unitDecrease o μ ≤ o.lsLower * β * μ / 2 * o.gradTol ^ 2 := by
  obtain ⟨i, hi, hs⟩ := ho.step
  have hC := hI.C0
  have hMC : 0 ≤ M * C := mul_nonneg hI.M0 hC.le
  refine ⟨stepLength o.lsFactor i, ⟨?_, min_le_left _ _, ho.reg0, ho.reg1, ho.regMin, ho.regMin1, ho.regMax, ho.regFactor, ho.lim,
    ho.low, ho.low1, ho.up, ho.factor, (stepLength_pos ho.factor i).1, ⟨i, hi, rfl⟩, ?_⟩, ?_⟩
  · have : μ / (2 * C) * C = μ / 2 := by field_simp
    rw [← this]
    exact mul_le_mul_of_nonneg_right (min_le_right _ _) hC.le
  · have h1 := mul_le_mul_of_nonneg_right hs hMC
    refine h1.trans ?_
    rw [div_mul_eq_mul_div, div_le_div_iff₀ (by positivity) two_pos]
    nlinarith
  · refine (min_le_right _ _).trans ?_
    have h1 : stepLength o.lsFactor (o.lsMax.toNat - 1) ≤ stepLength o.lsFactor i := stepLength_anti ho.factor (by omega)
    have h2 := ho.low
    have h3 := ho.grad
    gcongr

/-- The inner solver on a linear-quadratic problem with affine equality and inequality constraints.  There are positive constants,
depending on the problem, on the time grid and on a bound `ρm` of the penalties, such that with options tuned to these constants, every
penalty up to `ρm`, all multipliers and every starting trajectory: if the start is within `T` units of decrease of every other
trajectory, the solve returns after at most `T + 2` iterations with `kSolved`, and no trajectory has an augmented cost lower by more than
`C (N · tolerance)² · (size of the controls)` than the returned one. -/
theorem C83_inner (h : LQInequality p cs μ) (hμ : 0 < μ) (hN : p.N ≠ 0) (Z0 : Traj (Fin n → K) (Fin m → K) K) {ρm : K} (hρm : 0 < ρm) :
    ∃ C rb β, 0 < C ∧ 0 < rb ∧ 0 < β ∧ ∀ (o : Opts K) (fuel : ℕ), StepOptions o rb β → 0 < unitDecrease o μ ∧
      ∀ (q : St (Fin n → K) (Fin m → K) K (ALCost n m K) (KP n m K)) (ρ : K), (∀ k ≤ p.N, (q.cs k).static = (cs k).static) →
        0 < ρ → ρ ≤ ρm → (∀ k ≤ p.N, PenU (q.cs k) ρ) → (∀ k < p.N, q.Z.t k = Z0.t k ∧ q.Z.h k = Z0.h k) → Aligned q.stats →
        ∀ T : ℕ, (∀ Y, Alternative p q.Z Y →
            trajCost p q.cs (rollout (alKernel p) q).Z ≤ trajCost p q.cs Y + T * unitDecrease o μ) →
          (T : ℤ) + 1 < o.maxInner → (q.stats.total : ℤ) + T + 1 < o.maxTotal →
          ∃ t, ILQR.solve (alKernel p) o (fuel + 1) q = some t ∧ t.status = .kSolved ∧ t.stats.total ≤ q.stats.total + T + 2 ∧
            NearSolve p q t (C * ((p.N * o.gradTol) ^ 2 * ctrlSize p.N t.Z)) ∧
            trajCost p q.cs t.Z ≤ trajCost p q.cs (rollout (alKernel p) q).Z ∧ Aligned t.stats := by
  obtain ⟨M, a, C, hI⟩ := innerConstants_exist h hμ Z0 hρm
  have hC := hI.C0
  have hMC : 0 ≤ M * C := mul_nonneg hI.M0 hC.le
  refine ⟨C, min 1 (μ / (2 * C)), μ / (2 * (M * C) + 1), hC, lt_min one_pos (by positivity), by positivity, fun o fuel ho => ?_⟩
  refine ⟨unitDecrease_pos ho hμ, fun q ρ hst hρ hρ' hpen ht hal T hT hi htot => ?_⟩
  obtain ⟨β, hβ, hd⟩ := hI.tuned hμ ho
  exact (hI.conv q.cs hst ρ hρ hρ' hpen).solves hμ hI.M0 hI.sweep hC (fun k hk => by rw [(ht k hk).1, (ht k hk).2]; exact hI.dyn k hk)
    hβ hN ho.cost ho.grad hal (unitDecrease_pos ho hμ) (min_le_left _ _) hd T hT hi htot

/-- The augmented cost is bounded below over all trajectories. -/
theorem C83_bounded {q : St (Fin n → K) (Fin m → K) K (ALCost n m K) (KP n m K)} (h : LQInequality p q.cs μ) (hμ : 0 < μ) {ρ : K}
    (hρ : 0 < ρ) (hpen : ∀ k ≤ p.N, PenU (q.cs k) ρ) :
    ∃ b, ∀ Y, Alternative p q.Z Y → trajCost p q.cs (rollout (alKernel p) q).Z ≤ trajCost p q.cs Y + b := by
  obtain ⟨M, a, C, hI⟩ := innerConstants_exist h hμ q.Z hρ
  have hc : ConvLQ p (rollout (alKernel p) q).cs μ M := hI.conv q.cs (fun _ _ => rfl) ρ hρ le_rfl hpen
  obtain ⟨r1, r2, r3, r4, r5⟩ := rolloutTo_spec (alKernel p) q.Z p.N
  have hZ : DynFeasible (alKernel p) (rollout (alKernel p) q).Z := ⟨r4, fun k hk => by
    have := r5 k hk
    show (rolloutTo (alKernel p) q.Z p.N).x (k + 1) = _
    rw [this]
    show _ = (alKernel p).dyn k _ ((rolloutTo (alKernel p) q.Z p.N).u k) ((rolloutTo (alKernel p) q.Z p.N).t k)
      ((rolloutTo (alKernel p) q.Z p.N).h k)
    rw [r1, r2, r3]
    rfl⟩
  have hd : DynBound p (rollout (alKernel p) q).Z a := fun k hk => by
    show ∀ x u δx δu, nsq ((p.jac k x u ((rolloutTo (alKernel p) q.Z p.N).t k) ((rolloutTo (alKernel p) q.Z p.N).h k)).1 *ᵥ δx
      + (p.jac k x u ((rolloutTo (alKernel p) q.Z p.N).t k) ((rolloutTo (alKernel p) q.Z p.N).h k)).2 *ᵥ δu) ≤ _
    rw [r2, r3]; exact hI.dyn k hk
  obtain ⟨r, hs⟩ : ∃ r, Swept p.N (updateExpansions (alKernel p) (rollout (alKernel p) q)).kd r (0 : K) :=
    ⟨_, (hc.toCoreBase.sweep (s := rollout (alKernel p) q) (le_refl (0 : K))).2⟩
  have hb := hI.sweep _ _ _ (hc.bounded hd le_rfl hs) zero_le_one
  refine ⟨C * ffsq p.N r, fun Y hY => ?_⟩
  have hY' : Alternative p (rollout (alKernel p) q).Z Y := ⟨hY.init, fun k hk => by
    show _ = p.f k _ _ ((rolloutTo (alKernel p) q.Z p.N).t k) ((rolloutTo (alKernel p) q.Z p.N).h k)
    rw [r2, r3]; exact hY.step k hk⟩
  have hg := hc.gap_bound hμ.le hZ hb hY'
  have : 0 ≤ μ / 4 * ∑ k ∈ Finset.range p.N, nsq (Y.u k - (rollout (alKernel p) q).Z.u k) :=
    mul_nonneg (by positivity) (Finset.sum_nonneg fun k _ => nsq_nonneg _)
  have hg' : trajCost p q.cs (rollout (alKernel p) q).Z + μ / 4 * ∑ k ∈ Finset.range p.N, nsq (Y.u k - (rollout (alKernel p) q).Z.u k)
      ≤ trajCost p q.cs Y + C * ffsq p.N r := hg
  linarith

/-- So with large enough iteration limits the inner solver always returns, with `kSolved` and a trajectory that is optimal up to the
square of the gradient tolerance. -/
theorem C83_converges [Archimedean K] (h : LQInequality p cs μ) (hμ : 0 < μ) (hN : p.N ≠ 0) (Z0 : Traj (Fin n → K) (Fin m → K) K)
    {ρm : K} (hρm : 0 < ρm) :
    ∃ C rb β, 0 < C ∧ 0 < rb ∧ 0 < β ∧ ∀ (q : St (Fin n → K) (Fin m → K) K (ALCost n m K) (KP n m K)) (ρ : K),
      (∀ k ≤ p.N, (q.cs k).static = (cs k).static) → 0 < ρ → ρ ≤ ρm → (∀ k ≤ p.N, PenU (q.cs k) ρ) →
      (∀ k < p.N, q.Z.t k = Z0.t k ∧ q.Z.h k = Z0.h k) → Aligned q.stats →
      ∀ d : K, 0 < d → ∃ T : ℕ, ∀ (o : Opts K) (fuel : ℕ), StepOptions o rb β → d ≤ unitDecrease o μ →
        (T : ℤ) + 1 < o.maxInner → (q.stats.total : ℤ) + T + 1 < o.maxTotal →
        ∃ t, ILQR.solve (alKernel p) o (fuel + 1) q = some t ∧ t.status = .kSolved ∧ t.stats.total ≤ q.stats.total + T + 2 ∧
          NearSolve p q t (C * ((p.N * o.gradTol) ^ 2 * ctrlSize p.N t.Z)) := by
  obtain ⟨C, rb, β, hC, hrb, hβ, H⟩ := C83_inner h hμ hN Z0 hρm
  refine ⟨C, rb, β, hC, hrb, hβ, fun q ρ hst hρ hρ' hpen ht hal d hd => ?_⟩
  obtain ⟨b, hb⟩ := C83_bounded (h.congr hst) hμ hρ hpen
  obtain ⟨T, hT⟩ := Archimedean.arch b hd
  refine ⟨T, fun o fuel ho hdo hi htot => ?_⟩
  obtain ⟨-, H'⟩ := H o fuel ho
  obtain ⟨t, e1, e2, e3, e4, -⟩ := H' q ρ hst hρ hρ' hpen ht hal T (fun Y hY => by
    have h1 := hb Y hY
    rw [nsmul_eq_mul] at hT
    have h2 := mul_le_mul_of_nonneg_left hdo (Nat.cast_nonneg (α := K) T)
    linarith) hi htot
  exact ⟨t, e1, e2, e3, e4⟩

end solver

/-! ## A concrete case -/

section example83

/-- `|u| ≤ 1/4`. -/
def boxCon : Con 2 1 ℚ where
  p := 2
  hp := Nat.succ_pos _
  eval _ u := ![u 0 - 1 / 4, -u 0 - 1 / 4]
  jac _ _ := Matrix.of fun i j => Sum.elim (fun _ => 0) (fun _ => ![1, -1] i) j

theorem boxCon_affine : AffineCon boxCon := by
  intro x u δx δu
  have key : (![u 0 + δu 0 - 1 / 4, -(u 0 + δu 0) - 1 / 4] : Fin 2 → ℚ) = ![u 0 - 1 / 4, -u 0 - 1 / 4]
      + (Matrix.of fun (_ : Fin 2) (_ : Fin 2) => (0 : ℚ)) *ᵥ δx
      + (Matrix.of fun (i : Fin 2) (_ : Fin 1) => (![1, -1] : Fin 2 → ℚ) i) *ᵥ δu := by
    funext i
    have e0 : (Matrix.of fun (_ : Fin 2) (_ : Fin 2) => (0 : ℚ)) *ᵥ δx = 0 := by
      funext j; simp [mulVec, dotProduct]
    rw [e0]
    fin_cases i <;> simp [mulVec, dotProduct] <;> ring
  exact key

/-- The double integrator of `LQExamples` with this control bound. -/
def boxCosts : ℕ → ALCost 2 1 ℚ := fun k =>
  ALCost.new (if k = 2 then dblTerm else dblStage) [] (if k = 2 then [] else [boxCon])

theorem boxCosts_ineq {k : ℕ} {v : ConVal .inequality 2 1 ℚ} (hv : v ∈ (boxCosts k).ineq) : v = ConVal.new .inequality boxCon := by
  by_cases h2 : k = 2
  · have : (boxCosts k).ineq = [] := by simp [boxCosts, ALCost.new, h2]
    rw [this] at hv; cases hv
  · have : (boxCosts k).ineq = [ConVal.new .inequality boxCon] := by simp [boxCosts, ALCost.new, h2]
    rw [this, List.mem_singleton] at hv
    exact hv

theorem box_lq : LQInequality dblProblem boxCosts (1 / 2) where
  dyn := dbl_lq.dyn
  knot k hk := by
    refine ⟨dbl_lq.quad k hk, fun x u => ?_, fun v hv => (nomatch hv), fun v hv => ?_, fun v hv => ?_⟩
    · have := dbl_convex k x u
      exact ⟨this.symx, this.symu, this.psd⟩
    · rw [boxCosts_ineq hv]; exact boxCon_affine
    · rw [boxCosts_ineq hv]; exact fun _ _ _ => rfl
  strong k hk x u δx δu := by
    have e : (boxCosts k).cost = dblStage := by
      have : k ≠ 2 := by have : dblProblem.N = 2 := rfl; omega
      simp [boxCosts, ALCost.new, this]
    rw [e]
    simp [dblStage, quadForm, dotProduct, mulVec, Fin.sum_univ_succ]
    nlinarith [sq_nonneg (δx 0), sq_nonneg (2 * δx 1 + δu 0)]
  term _ _ _ := rfl
  termEq v hv := nomatch hv
  termIneq v hv := by
    have : (boxCosts dblProblem.N).ineq = [] := rfl
    rw [this] at hv; cases hv

def boxOpts : Opts ℚ := { dblOpts with
  lsLower := 1 / 100000000, lsMax := 20, regMin := 1 / 100000000, maxInner := 50, maxTotal := 50, gradTol := 1 / 1000, costTol := 1 / 1000 }

def boxState : St (Fin 2 → ℚ) (Fin 1 → ℚ) ℚ (ALCost 2 1 ℚ) (KP 2 1 ℚ) := { dblState with cs := boxCosts }

def boxRun := ILQR.solve (alKernel dblProblem) boxOpts 1 boxState

/-- Three iterations; the bound is active at both controls. -/
theorem boxRun_report : (boxRun.map fun s => (s.status, s.stats.total, decide (|s.Z.u 0 0 + 44253 / 100000| < 1 / 100000),
    decide (|s.Z.u 1 0 - 33908 / 100000| < 1 / 100000))) = some (.kSolved, 3, true, true) := by
  decide +kernel

theorem box_pen : ∀ k ≤ dblProblem.N, PenU (boxState.cs k) 1 := fun k _ =>
  ⟨fun v hv => (nomatch hv), fun v hv => by rw [boxCosts_ineq hv]; exact fun _ => rfl⟩

/-- C83 for this problem, from this state and after any number of other solves. -/
example : ∃ C rb β : ℚ, 0 < C ∧ 0 < rb ∧ 0 < β ∧ ∀ d : ℚ, 0 < d → ∃ T : ℕ, ∀ (o : Opts ℚ) (fuel : ℕ), StepOptions o rb β →
    d ≤ unitDecrease o (1 / 2) → (T : ℤ) + 1 < o.maxInner → (T : ℤ) + 1 < o.maxTotal →
    ∃ t, ILQR.solve (alKernel dblProblem) o (fuel + 1) boxState = some t ∧ t.status = .kSolved ∧ t.stats.total ≤ T + 2 ∧
      NearSolve dblProblem boxState t (C * ((2 * o.gradTol) ^ 2 * ctrlSize 2 t.Z)) := by
  obtain ⟨C, rb, β, h1, h2, h3, H⟩ := C83_converges box_lq (by norm_num) (by decide) boxState.Z (ρm := 1) one_pos
  refine ⟨C, rb, β, h1, h2, h3, fun d hd => ?_⟩
  obtain ⟨T, hT⟩ := H boxState 1 (fun _ _ => rfl) one_pos le_rfl box_pen (fun _ _ => ⟨rfl, rfl⟩) (fun c => by cases c <;> rfl) d hd
  refine ⟨T, fun o fuel ho hdo l1 l2 => ?_⟩
  have e0 : (boxState.stats.total : ℤ) = 0 := rfl
  obtain ⟨t, e1, e2, e3, e4⟩ := hT o fuel ho hdo l1 (by rw [e0]; omega)
  have e0' : boxState.stats.total = 0 := rfl
  exact ⟨t, e1, e2, by rw [e0'] at e3; omega, e4⟩

/-- Options as in `StepOptions`: those of the run, with bounds up to which they are tuned. -/
example : StepOptions boxOpts (1 / 100000000) (1 / 500000) := by
  refine { reg0 := by decide +kernel, reg1 := by decide +kernel, regMin := by decide +kernel, regMin1 := by decide +kernel,
           regMax := by decide +kernel, regFactor := by decide +kernel, lim := rfl, low := by decide +kernel, low1 := by decide +kernel,
           up := by decide +kernel, factor := by decide +kernel, step := ⟨19, by decide, by decide +kernel⟩,
           cost := by decide +kernel, grad := by decide +kernel }

end example83

end Altro.Props
