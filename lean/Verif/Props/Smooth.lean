import Verif.Proofs.SmoothSolve
import Verif.Props.LQInequality
import Verif.Props.Descent

/-!
# C86: convergence of the inner solver on smooth nonlinear problems
-/

namespace Altro.Props
open Altro.Spec Matrix ILQR
variable {n m : ℕ} {p : DynProblem n m ℝ} {cs : ℕ → ALCost n m ℝ} {Y : Traj (Fin n → ℝ) (Fin m → ℝ) ℝ} {μ : ℝ}

/-- The inner solver on a smooth problem: nonlinear dynamics, nonlinear constraints, an objective that is convex in the reported
Hessian, not necessarily in fact.  For every level `Jb` of the augmented cost and every accuracy `ε` there are a lower bound of the
augmented cost, a bound `W` on states and controls, a bound on the regularization and a bound `γ0` on the gradient tolerance, and then for every `γ` a bound `β` on the
smallest step of the line search, such that: with options that respect these bounds and a gradient tolerance between `γ` and `γ0`, from
every start whose rollout costs at most `Jb` (and limits on states and controls, if these are tested, that leave room for `W`), within `T` units of decrease of the lower bound, the solve returns after at most `T + 3`
iterations with `kSolved`, a trajectory that satisfies the dynamics, costs at most `Jb`, and at which the derivative of the augmented
cost with respect to the controls has length at most `ε`. -/
theorem C86_inner (h : SmoothProblem p cs Y μ) (hμ : 0 < μ) (hN : p.N ≠ 0) (Jb ε : ℝ) (hε : 0 < ε) :
    ∃ L W rb γ0 : ℝ, 0 < rb ∧ 0 < γ0 ∧ (∀ Z, L ≤ trajCost p cs Z) ∧ ∀ γ, 0 < γ → ∃ β : ℝ, 0 < β ∧ ∀ (o : Opts ℝ) (fuel T : ℕ)
      (s : St (Fin n → ℝ) (Fin m → ℝ) ℝ (ALCost n m ℝ) (KP n m ℝ)), StepOptions (unlimited o) rb β →
      (o.checkBounds = true → Clears p W o.stateMax o.controlMax) → o.regMin * o.regFactor ≤ rb → γ ≤ o.gradTol →
      o.gradTol ≤ γ0 → Jb ≤ L + T * unitDecrease o μ → (T : ℤ) + 3 < o.maxInner → (s.stats.total : ℤ) + T + 3 < o.maxTotal →
      s.cs = cs → SameTimes (alKernel p) s.Z Y → Aligned s.stats → trajCost p cs (rollout (alKernel p) s).Z ≤ Jb →
      ∃ t, ILQR.solve (alKernel p) o (fuel + 1) s = some t ∧ t.status = .kSolved ∧ t.stats.inner ≤ T + 3 ∧
        t.stats.total ≤ s.stats.total + T + 3 ∧ DynFeasible (alKernel p) t.Z ∧ SameTimes (alKernel p) t.Z Y ∧
        trajCost p cs t.Z ≤ Jb ∧ NearlyStationary p cs t.Z ε := by
  obtain ⟨L, W, rb, γ0, h1, h2, h3, h4⟩ := h.core.solves hμ hN Jb ε hε
  refine ⟨L, W, rb, γ0, h1, h2, h3, fun γ hγ => ?_⟩
  obtain ⟨β, h5, h6⟩ := h4 γ hγ
  refine ⟨β, h5, fun o fuel T s a1 aw a2 a3 a4 a5 a6 a7 a8 a9 a10 a11 => ?_⟩
  obtain ⟨w, t, b1, b2, b3, b4, b5, b6, -, b8, -, b10⟩ := h6 (unlimited o) fuel T s a1 a2 a3 a4 a5 a6 a7 (fun k => by rw [a8]) a9 a10 a11
  exact ⟨t, (solve_either fun hb => w _ _ (aw hb)).trans b1, b2, b3, b4, b5, b6, b8, b10⟩

/-- So with large enough iteration limits the inner solver always returns, with `kSolved`. -/
theorem C86_converges (h : SmoothProblem p cs Y μ) (hμ : 0 < μ) (hN : p.N ≠ 0) (Jb ε : ℝ) (hε : 0 < ε) :
    ∃ W rb γ0 : ℝ, 0 < rb ∧ 0 < γ0 ∧ ∀ γ, 0 < γ → ∃ β : ℝ, 0 < β ∧ ∀ d, 0 < d → ∃ T : ℕ, ∀ (o : Opts ℝ) (fuel : ℕ)
      (s : St (Fin n → ℝ) (Fin m → ℝ) ℝ (ALCost n m ℝ) (KP n m ℝ)), StepOptions (unlimited o) rb β →
      (o.checkBounds = true → Clears p W o.stateMax o.controlMax) → o.regMin * o.regFactor ≤ rb → γ ≤ o.gradTol →
      o.gradTol ≤ γ0 → d ≤ unitDecrease o μ → (T : ℤ) < o.maxInner → (s.stats.total : ℤ) + T < o.maxTotal →
      s.cs = cs → SameTimes (alKernel p) s.Z Y → Aligned s.stats → trajCost p cs (rollout (alKernel p) s).Z ≤ Jb →
      ∃ t, ILQR.solve (alKernel p) o (fuel + 1) s = some t ∧ t.status = .kSolved ∧ t.stats.inner ≤ T ∧
        t.stats.total ≤ s.stats.total + T ∧ DynFeasible (alKernel p) t.Z ∧ SameTimes (alKernel p) t.Z Y ∧
        trajCost p cs t.Z ≤ Jb ∧ NearlyStationary p cs t.Z ε := by
  obtain ⟨L, W, rb, γ0, h1, h2, h3, h4⟩ := C86_inner h hμ hN Jb ε hε
  refine ⟨W, rb, γ0, h1, h2, fun γ hγ => ?_⟩
  obtain ⟨β, h5, h6⟩ := h4 γ hγ
  refine ⟨β, h5, fun d hd => ?_⟩
  obtain ⟨T, hT⟩ := Archimedean.arch (Jb - L) hd
  rw [nsmul_eq_mul] at hT
  refine ⟨T + 3, fun o fuel s a1 aw a2 a3 a4 a5 a6 a7 a8 a9 a10 a11 => ?_⟩
  have := mul_le_mul_of_nonneg_left a5 (Nat.cast_nonneg (α := ℝ) T)
  exact h6 o fuel T s a1 aw a2 a3 a4 (by linarith) (by push_cast at a6; omega) (by push_cast at a7; omega) a8 a9 a10 a11

/-- Such options exist, and so every start can be solved to every accuracy: default options with a smaller gradient tolerance,
a smaller least regularization, more steps in the line search, and larger limits, also on states and controls (unless these are not tested). -/
theorem C86_solves (h : SmoothProblem p cs Y μ) (hμ : 0 < μ) (hN : p.N ≠ 0) (d : Opts ℝ) {ε : ℝ} (hε : 0 < ε)
    (s : St (Fin n → ℝ) (Fin m → ℝ) ℝ (ALCost n m ℝ) (KP n m ℝ)) (hc : s.cs = cs) (hY : SameTimes (alKernel p) s.Z Y)
    (ha : Aligned s.stats) (d1 : 0 ≤ d.regMax) (d2 : 1 ≤ d.regFactor) (d3 : 0 < d.lsLower) (d4 : d.lsLower ≤ 1 / 4)
    (d5 : 3 ≤ d.lsUpper) (d6 : 1 < d.lsFactor) (d7 : 0 < d.costTol) :
    ∃ (γ r W : ℝ) (i j k : ℤ), 0 < γ ∧ 0 < r ∧ ∀ a b, (d.checkBounds = true → Clears p W a b) → ∀ fuel, ∃ t, ILQR.solve (alKernel p)
        { d with gradTol := γ, regInitial := 0, regMin := r, lsMax := i, maxInner := j, maxTotal := k, stateMax := a, controlMax := b }
        (fuel + 1) s = some t ∧ t.status = .kSolved ∧ DynFeasible (alKernel p) t.Z ∧ SameTimes (alKernel p) t.Z Y ∧
        trajCost p cs t.Z ≤ trajCost p cs (rollout (alKernel p) s).Z ∧ NearlyStationary p cs t.Z ε := by
  obtain ⟨W, rb, γ0, h1, h2, h3⟩ := C86_converges h hμ hN (trajCost p cs (rollout (alKernel p) s).Z) ε hε
  obtain ⟨β, h4, h5⟩ := h3 γ0 h2
  obtain ⟨i, hi⟩ := stepLength_small d6 h4
  have hf : 0 < d.regFactor := lt_of_lt_of_le one_pos d2
  have hr : 0 < rb / d.regFactor := by positivity
  let o : Opts ℝ := { d with gradTol := γ0, regInitial := 0, regMin := rb / d.regFactor, lsMax := (i + 1 : ℕ) }
  have hS : ∀ j k a b, StepOptions (unlimited { o with maxInner := j, maxTotal := k, stateMax := a, controlMax := b }) rb β := fun j k a b =>
    ⟨le_rfl, h1.le, hr.le, div_le_self h1.le d2, d1, d2, rfl, d3, d4, d5, d6.le,
      ⟨i, by show (i : ℤ) < ((i + 1 : ℕ) : ℤ); omega, ((hi i).2 le_rfl).le⟩, d7, h2⟩
  have hu := unitDecrease_pos (hS 0 0 0 0) hμ
  obtain ⟨T, hT⟩ := h5 _ hu
  refine ⟨γ0, rb / d.regFactor, W, (i + 1 : ℕ), T + 1, s.stats.total + T + 1, h2, hr, fun a b hw fuel => ?_⟩
  obtain ⟨t, b1, b2, -, -, b3, b4, b5, b6⟩ := hT { o with maxInner := T + 1, maxTotal := s.stats.total + T + 1, stateMax := a, controlMax := b } fuel s (hS _ _ _ _) hw
    (by show rb / d.regFactor * d.regFactor ≤ rb; rw [div_mul_cancel₀ _ hf.ne']) le_rfl le_rfl le_rfl (by show (T : ℤ) < T + 1; omega)
    (by show (s.stats.total : ℤ) + T < s.stats.total + T + 1; omega) hc hY ha le_rfl
  exact ⟨t, b1, b2, b3, b4, b5, b6⟩

end Altro.Props
