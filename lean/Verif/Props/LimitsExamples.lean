import Verif.Props.Limits
import Verif.Props.SmoothWhole
import Verif.Props.ALExamples
import Verif.Model.Double
import Mathlib.Analysis.SpecialFunctions.Sqrt

/-!
# C99: limits on states and controls on smooth problems, and a run that limits change
-/

namespace Altro.Props
open Altro.Spec Matrix ILQR AL

/-- The norm of Eigen's `norm()`. -/
noncomputable def euclid {n : ℕ} (x : Fin n → ℝ) : ℝ := Real.sqrt (∑ i, x i ^ 2)

theorem euclid_le {n : ℕ} {x : Fin n → ℝ} {W a : ℝ} (hW : 0 ≤ W) (hx : ∀ i, |x i| ≤ W) (ha : Real.sqrt n * W ≤ a) : euclid x ≤ a := by
  refine le_trans ?_ ha
  have h1 : ∑ i, x i ^ 2 ≤ n * W ^ 2 := by
    have : ∑ i, x i ^ 2 ≤ ∑ _i : Fin n, W ^ 2 := Finset.sum_le_sum fun i _ => sq_le_sq' (abs_le.mp (hx i)).1 (abs_le.mp (hx i)).2
    simpa using this
  have h2 := Real.sqrt_le_sqrt h1
  rwa [Real.sqrt_mul (Nat.cast_nonneg n), Real.sqrt_sq hW] at h2

/-- With Euclidean norms, all large enough limits leave room. -/
theorem C99_euclid {n m : ℕ} {p : DynProblem n m ℝ} (hx : p.normX = euclid) (hu : p.normU = euclid) (W : ℝ) :
    ∃ L, ∀ a b, L ≤ a → L ≤ b → Clears p W a b := by
  refine ⟨max (Real.sqrt n * |W|) (Real.sqrt m * |W|), fun a b ha hb => ⟨fun x h => ?_, fun u h => ?_⟩⟩
  · rw [hx]
    exact euclid_le (abs_nonneg W) (fun i => (h i).trans (le_abs_self W)) ((le_max_left _ _).trans ha)
  · rw [hu]
    exact euclid_le (abs_nonneg W) (fun i => (h i).trans (le_abs_self W)) ((le_max_right _ _).trans hb)

/-- The whole solver on smooth problems (C88) with the test of states and controls as it is by default, and limits from some number on: the number
does not depend on the accuracy. -/
theorem C99_smooth {n m : ℕ} {p : DynProblem n m ℝ} {cs : ℕ → ALCost n m ℝ} {Y : Traj (Fin n → ℝ) (Fin m → ℝ) ℝ} {μ φ : ℝ} (h : SmoothProblem p cs Y μ)
    (hx : p.normX = euclid) (hu : p.normU = euclid) (hμ : 0 < μ) (hN : p.N ≠ 0) (hφ : 0 < φ) (hs : ∀ k ≤ p.N, ScaleU (cs k) φ) {ρ R : ℝ}
    (hρ : 0 < ρ) (hR : 0 ≤ R) (J : ℕ) :
    ∃ L : ℝ, ∀ ε, 0 < ε → ∃ rb γ0 : ℝ, 0 < rb ∧ 0 < γ0 ∧ ∀ γ, 0 < γ → ∃ β : ℝ, 0 < β ∧ ∀ d, 0 < d → ∃ T : ℕ, ∀ (o : Opts ℝ) (fuel : ℕ)
      (s : ALSt (Fin n → ℝ) (Fin m → ℝ) ℝ (ALCost n m ℝ) (KP n m ℝ)),
      StepOptions (unlimited o) rb β → o.checkBounds = true → L ≤ o.stateMax → L ≤ o.controlMax →
      o.regMin * o.regFactor ≤ rb → γ ≤ o.gradTol → o.gradTol ≤ γ0 → d ≤ unitDecrease o μ → (T : ℤ) < o.maxInner →
      1 ≤ o.maxOuter → o.maxOuter ≤ J → o.maxOuter * T < o.maxTotal → o.resetDuals = true → o.initialPenalty = ρ →
      s.st.cs = cs → SameTimes (alKernel p) s.st.Z Y → (∀ k < p.N, ∀ i, |s.st.Z.u k i| ≤ R) →
      ∃ s' j prev, AL.solve (alKernel p) alOps o (ILQR.solve (alKernel p) o (fuel + 1)) s = some s' ∧ s'.st.stats.outer = j + 1 ∧
        (s'.st.stats.total : ℤ) ≤ o.maxOuter * T ∧ NearSolved p o cs (ρ * φ ^ j) ε s' prev := by
  obtain ⟨W, H⟩ := C88_near_kkt h hμ hN hφ hs hρ hR J
  obtain ⟨L, hL⟩ := C99_euclid (p := p) hx hu W
  refine ⟨L, fun ε hε => ?_⟩
  obtain ⟨rb, γ0, h1, h2, H⟩ := H ε hε
  refine ⟨rb, γ0, h1, h2, fun γ hγ => ?_⟩
  obtain ⟨β, h3, H⟩ := H γ hγ
  refine ⟨β, h3, fun d hd => ?_⟩
  obtain ⟨T, H⟩ := H d hd
  exact ⟨T, fun o fuel s ho _ hX hU => H o fuel s ho fun _ => hL _ _ hX hU⟩

/-- The unicycle example with the test of states and controls switched on, as it is by default. -/
theorem C99_unicycle (c : Scenario) {ε : ℝ} (hε : 0 < ε) :
    ∃ (γ r L : ℝ) (i j k : ℤ), 0 < γ ∧ 0 < r ∧ ∀ a b, L ≤ a → L ≤ b → ∀ fuel (o : Opts ℝ),
      o = { Opts.default (fun q : ℚ => (q : ℝ)) with
          gradTol := γ, regInitial := 0, regMin := r, lsMax := i, maxInner := j, maxTotal := k, stateMax := a, controlMax := b } →
      o.checkBounds = true ∧ ∃ s' l prev,
      AL.solve (alKernel (uniProblem ((uniDefault.setScenario c).configure fun t N => t / N) euclid euclid)) alOps o
        (ILQR.solve (alKernel (uniProblem ((uniDefault.setScenario c).configure fun t N => t / N) euclid euclid)) o (fuel + 1))
        ⟨uniStart ((uniDefault.setScenario c).configure fun t N => t / N) true, .kUnsolved⟩ = some s' ∧ s'.st.stats.outer = l + 1 ∧
        NearSolved (uniProblem ((uniDefault.setScenario c).configure fun t N => t / N) euclid euclid) o
          (uniCosts ((uniDefault.setScenario c).configure fun t N => t / N) true) (10 ^ l) ε s' prev := by
  obtain ⟨γ, r, W, i, j, k, h1, h2, H⟩ := C88_unicycle c euclid euclid hε
  obtain ⟨L, hL⟩ := C99_euclid (p := uniProblem ((uniDefault.setScenario c).configure fun t N => t / N) euclid euclid) rfl rfl W
  refine ⟨γ, r, L, i, j, k, h1, h2, fun a b ha hb fuel o ho => ?_⟩
  subst ho
  exact ⟨rfl, H a b (hL a b ha hb) fuel⟩

/-- In double arithmetic infinite limits are no limits, whatever the norms evaluate to. -/
theorem C99_infinite {X U C D : Type} (P : Kernel X U Dbl C D) (o : Opts Dbl) (fuel : ℕ) (s : St X U Dbl C D) :
    ILQR.solve P (limited o (.inf false) (.inf false)) fuel s = ILQR.solve P (unlimited o) fuel s := by
  have key : ∀ x : Dbl, Arith.gt x (.inf false) = false := fun x => by
    cases x with
    | inf b => cases b <;> rfl
    | _ => rfl
  exact C99_never (fun x => key _) (fun u => key _) s

/-- Limits on the run of C11-C16: with limits of `2` nothing changes. -/
theorem goal_limited : alReport (AL.solve goalK goalOps (limited goalOpts 2 2) (ILQR.solve goalK (limited goalOpts 2 2) 3) ⟨goalState, .kMaxPenalty⟩)
    = alReport goalSolved := by decide +kernel

/-- Limits that candidates exceed matter: with a limit of `1/4` on the state every candidate of the first line search is rejected. -/
theorem C99_small : ∃ s', AL.solve goalK goalOps (limited goalOpts (1 / 4) 2) (ILQR.solve goalK (limited goalOpts (1 / 4) 2) 3)
      ⟨goalState, .kMaxPenalty⟩ = some s' ∧ s'.status ≠ .kSolved := by
  have hd : ((AL.solve goalK goalOps (limited goalOpts (1 / 4) 2) (ILQR.solve goalK (limited goalOpts (1 / 4) 2) 3)
      ⟨goalState, .kMaxPenalty⟩).map fun r => decide (r.status = .kSolved)) = some false := by decide +kernel
  obtain ⟨s', h1, h2⟩ := Option.map_eq_some_iff.mp hd
  exact ⟨s', h1, of_decide_eq_false h2⟩

end Altro.Props
