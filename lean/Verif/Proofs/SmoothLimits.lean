import Verif.Proofs.Limits
import Verif.Proofs.SmoothStat

/-!
# All candidates on a smooth problem are bounded
-/

namespace Altro.Props
open Altro.Spec Matrix ILQR
variable {n m : ℕ} {p : DynProblem n m ℝ} {cs : ℕ → ALCost n m ℝ} {Y : Traj (Fin n → ℝ) (Fin m → ℝ) ℝ} {μ Jb R C rb b c γ W : ℝ}
  {ℓ : ℕ → (Fin n → ℝ) → (Fin m → ℝ) → ℝ} {g : ℕ → Z n m → Z n m} {o : Opts ℝ} {fuel : ℕ}

theorem _root_.Altro.Spec.Clears.mono {W' a b : ℝ} (h : Clears p W' a b) (hW : W ≤ W') : Clears p W a b :=
  ⟨fun x hx => h.state x fun i => (hx i).trans hW, fun u hu => h.control u fun i => (hu i).trans hW⟩

theorem _root_.Altro.Spec.StepOptions.unlimited {β : ℝ} (h : StepOptions o rb β) : StepOptions (unlimited o) rb β :=
  (unlimited_off h.lim).symm ▸ h

theorem _root_.Altro.Spec.StepOptions.noLimit {β : ℝ} (h : StepOptions o rb β) (hc : o.checkBounds = true) {P : Prop} : P := by
  rw [h.lim] at hc; cases hc

/-- States and controls of all closed loops with bounded controls, gains and feedforward terms, for all steps up to one. -/
def LoopBound (p : DynProblem n m ℝ) (Y : Traj (Fin n → ℝ) (Fin m → ℝ) ℝ) (R b c W : ℝ) : Prop :=
  ∀ e ∈ {e : Loop n m | (∀ k i, |e.1 k i| ≤ R) ∧ (∀ k i j, |e.2.1 k i j| ≤ b) ∧ ∀ k i, |e.2.2 k i| ≤ c}, ∀ τ, 0 ≤ τ → τ ≤ 1 → ∀ k ≤ p.N,
    (∀ i, |loopX p Y e τ k i| ≤ W) ∧ ∀ i, |loopU p Y e τ k i| ≤ W

theorem loop_bound (h : SmoothDyn p Y ℓ g) (R b c : ℝ) : ∃ W, LoopBound p Y R b c W := by
  have hS := (box_compact (n := n) (m := m) R b c).prod (isCompact_Icc (a := (0 : ℝ)) (b := 1))
  obtain ⟨W1, -, h1⟩ := sup_bound hS (fun k q => ∑ i, |loopX p Y q.1 q.2 k i|) p.N fun k hk =>
    continuous_finset_sum _ fun i _ => ((continuous_apply i).comp (h.cont_x k hk).1).abs
  obtain ⟨W2, -, h2⟩ := sup_bound hS (fun k q => ∑ i, |loopU p Y q.1 q.2 k i|) p.N fun k hk =>
    continuous_finset_sum _ fun i _ => ((continuous_apply i).comp (h.cont_x k hk).2).abs
  refine ⟨max W1 W2, fun e he τ t0 t1 k hk => ⟨fun i => ?_, fun i => ?_⟩⟩
  · have := h1 k hk (e, τ) ⟨he, t0, t1⟩
    exact ((Finset.single_le_sum (f := fun i => |loopX p Y e τ k i|) (fun _ _ => abs_nonneg _) (Finset.mem_univ i)).trans this).trans (le_max_left _ _)
  · have := h2 k hk (e, τ) ⟨he, t0, t1⟩
    exact ((Finset.single_le_sum (f := fun i => |loopU p Y e τ k i|) (fun _ _ => abs_nonneg _) (Finset.mem_univ i)).trans this).trans (le_max_right _ _)

/-- All line searches of a run are within limits that leave room for these. -/
theorem run_within (hI : ∀ s, Orbit p cs Y Jb rb s → ∃ q, iterate (alKernel p) o (fuel + 1) s = some q ∧ Orbit p cs Y Jb rb q ∧
      Iterated p cs o μ C R b c γ s q)
    (hf : 1 ≤ o.lsFactor) (hW : LoopBound p Y R b c W) {a1 a2 : ℝ} (hc : Clears p W a1 a2) :
    ∀ (r : ℕ) (s : St (Fin n → ℝ) (Fin m → ℝ) ℝ (ALCost n m ℝ) (KP n m ℝ)), Orbit p cs Y Jb rb s →
      RunWithin (alKernel p) o (limited o a1 a2) (fuel + 1) r s := by
  intro r
  induction r with
  | zero => exact fun s _ => trivial
  | succ r ih =>
    intro s hs
    obtain ⟨q, hit, hq, hIt⟩ := hI s hs
    refine ⟨fun s1 hb i hi k hk _ => ?_, fun q' hq' hd => ?_⟩
    · have e : q = updateConvergence (alKernel p) (forwardPass (alKernel p) o s1) := by
        unfold iterate at hit; rw [hb] at hit; exact (Option.some.inj hit).symm
      have hkd : q.kd = s1.kd := by rw [e]; exact (forwardPass_frame (alKernel p) o s1).kd
      obtain ⟨hbZ, hbZb, -, -, -, -⟩ := backwardPass_frame _ _ _ _ _ hb
      rw [updateExpansions_Z] at hbZ
      rw [updateExpansions_Zbar] at hbZb
      have hbox := hIt.box
      rw [hkd] at hbox
      obtain ⟨p0, p1⟩ := stepLength_pos hf i
      rw [hbZ, hbZb]
      have hL := loop_candidate s1.kd hs.feas hs.times hs.timesb (stepLength o.lsFactor i)
      have hx := (hL (k + 1) hk).1
      have hu := (hL k (Nat.le_of_lt hk)).2
      rw [ctl_of_lt _ (show k < p.N from hk)] at hu
      have hu' : candidateU (alKernel p) s1.kd s.Z s.Zbar.t s.Zbar.h (stepLength o.lsFactor i) k = loopU p Y (loopOf p.N s.Z s1.kd) (stepLength o.lsFactor i) k := by
        rw [← hu]; exact (if_pos hk).symm
      have hx' : candidate (alKernel p) s1.kd s.Z s.Zbar.t s.Zbar.h (stepLength o.lsFactor i) (k + 1)
        = loopX p Y (loopOf p.N s.Z s1.kd) (stepLength o.lsFactor i) (k + 1) := hx
      constructor
      · rw [← Bool.not_eq_true, Arith.gt_iff, not_lt]
        refine hc.state _ fun j => ?_
        refine (congrArg (fun x => |x j|) hx').trans_le ?_
        exact (hW _ hbox _ p0.le p1 (k + 1) hk).1 j
      · rw [← Bool.not_eq_true, Arith.gt_iff, not_lt]
        refine hc.control _ fun j => ?_
        refine (congrArg (fun x => |x j|) hu').trans_le ?_
        exact (hW _ hbox _ p0.le p1 k (Nat.le_of_lt hk)).2 j
    · rw [hit] at hq'
      cases hq'
      rw [(ILQR.isDone_false o q hd).1]
      exact ih q hq

end Altro.Props
