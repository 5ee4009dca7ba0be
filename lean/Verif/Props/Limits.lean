import Verif.Proofs.Limits
import Mathlib.Data.Finset.Order
import Mathlib.Data.Finset.Prod

/-!
# C99: limits on states and controls that no candidate exceeds do not change a run
-/

namespace Altro.Props
open Altro.Spec ILQR

section lawfree
variable {X U F C D : Type} [Arith F] {P : Kernel X U F C D} {A : CostOps C F} {o : Opts F} {a b : F} {fuel : ℕ}

/-- If all candidates that a solve without limits tries are within the limits, the solve with limits does the same in every respect. -/
theorem C99_same {s : St X U F C D} (h : SolveWithin P (unlimited o) (limited o a b) fuel s) :
    ILQR.solve P (limited o a b) fuel s = ILQR.solve P (unlimited o) fuel s :=
  solve_limited (o := unlimited o) (a := a) (b := b) rfl h

/-- The same of the whole solver. -/
theorem C99_same_whole {s : ALSt X U F C D} (h : OuterWithin P A (unlimited o) (limited o a b) fuel o.maxOuter.toNat (AL.init P A o s)) :
    AL.solve P A (limited o a b) (ILQR.solve P (limited o a b) fuel) s = AL.solve P A (unlimited o) (ILQR.solve P (unlimited o) fuel) s :=
  AL.outerLoop_limited (o := unlimited o) (a := a) (b := b) rfl _ h

/-- Limits that nothing exceeds, like infinity, are no limits. -/
theorem C99_never (hx : ∀ x, Arith.gt (P.normX x) a = false) (hu : ∀ u, Arith.gt (P.normU u) b = false) (s : St X U F C D) :
    ILQR.solve P (limited o a b) fuel s = ILQR.solve P (unlimited o) fuel s := by
  refine C99_same ?_
  have key : ∀ r (s : St X U F C D), RunWithin P (unlimited o) (limited o a b) fuel r s := by
    intro r
    induction r with
    | zero => intro s; trivial
    | succ r ih => exact fun s => ⟨fun s1 _ i _ k _ _ => ⟨hx _, hu _⟩, fun q _ _ => ih _⟩
  exact key _ _

end lawfree

section ordered
variable {K : Type} [Field K] [LinearOrder K]
variable {X U C D : Type} {P : Kernel X U K C D} {A : CostOps C K} {o : Opts K} {fuel : ℕ}

/-- A line search tries finitely many candidates. -/
theorem search_bound (P : Kernel X U K C D) (o : Opts K) (s : St X U K C D) :
    ∃ B, ∀ a b, B ≤ a → B ≤ b → SearchWithin P (limited o a b) s := by
  classical
  obtain ⟨B1, h1⟩ := Finset.exists_le ((Finset.range o.lsMax.toNat ×ˢ Finset.range P.N).image fun q =>
    P.normX (candidate P s.kd s.Z s.Zbar.t s.Zbar.h (stepLength o.lsFactor q.1) (q.2 + 1)))
  obtain ⟨B2, h2⟩ := Finset.exists_le ((Finset.range o.lsMax.toNat ×ˢ Finset.range P.N).image fun q =>
    P.normU (candidateU P s.kd s.Z s.Zbar.t s.Zbar.h (stepLength o.lsFactor q.1) q.2))
  refine ⟨max B1 B2, fun a b ha hb i hi k hk _ => ?_⟩
  have hi : (i : ℤ) < o.lsMax := hi
  have hm : (i, k) ∈ Finset.range o.lsMax.toNat ×ˢ Finset.range P.N :=
    Finset.mem_product.mpr ⟨Finset.mem_range.mpr (show i < o.lsMax.toNat by omega), Finset.mem_range.mpr hk⟩
  have e1 := h1 _ (Finset.mem_image_of_mem _ hm)
  have e2 := h2 _ (Finset.mem_image_of_mem _ hm)
  constructor
  · rw [← Bool.not_eq_true, Arith.gt_iff, not_lt]
    exact e1.trans ((le_max_left _ _).trans ha)
  · rw [← Bool.not_eq_true, Arith.gt_iff, not_lt]
    exact e2.trans ((le_max_right _ _).trans hb)

theorem run_bound (P : Kernel X U K C D) (o : Opts K) (fuel r : ℕ) : ∀ s : St X U K C D,
    ∃ B, ∀ a b, B ≤ a → B ≤ b → RunWithin P o (limited o a b) fuel r s := by
  induction r with
  | zero => exact fun s => ⟨0, fun _ _ _ _ => trivial⟩
  | succ r ih =>
    intro s
    have h1 : ∃ B, ∀ a b, B ≤ a → B ≤ b → ∀ s1, backwardPass P o fuel (updateExpansions P s) = some s1 → SearchWithin P (limited o a b) s1 := by
      rcases hb : backwardPass P o fuel (updateExpansions P s) with _ | s1
      · exact ⟨0, fun _ _ _ _ s1 h => by cases h⟩
      · obtain ⟨B, hB⟩ := search_bound P o s1
        exact ⟨B, fun a b ha hb s1' h => by cases h; exact hB a b ha hb⟩
    have h2 : ∃ B, ∀ a b, B ≤ a → B ≤ b → ∀ q, iterate P o fuel s = some q → (ILQR.isDone o q).2 = false →
        RunWithin P o (limited o a b) fuel r (ILQR.isDone o q).1 := by
      rcases hq : iterate P o fuel s with _ | q
      · exact ⟨0, fun _ _ _ _ q h => by cases h⟩
      · obtain ⟨B, hB⟩ := ih (ILQR.isDone o q).1
        exact ⟨B, fun a b ha hb q' h _ => by cases h; exact hB a b ha hb⟩
    obtain ⟨B1, h1⟩ := h1
    obtain ⟨B2, h2⟩ := h2
    exact ⟨max B1 B2, fun a b ha hb => ⟨h1 a b ((le_max_left _ _).trans ha) ((le_max_left _ _).trans hb),
      h2 a b ((le_max_right _ _).trans ha) ((le_max_right _ _).trans hb)⟩⟩

theorem outer_bound (P : Kernel X U K C D) (A : CostOps C K) (o : Opts K) (fuel r : ℕ) : ∀ s : ALSt X U K C D,
    ∃ B, ∀ a b, B ≤ a → B ≤ b → OuterWithin P A o (limited o a b) fuel r s := by
  induction r with
  | zero => exact fun s => ⟨0, fun _ _ _ _ => trivial⟩
  | succ r ih =>
    intro s
    obtain ⟨B1, h1⟩ := run_bound P o fuel o.maxInner.toNat (start P o s.st)
    rcases hq : ILQR.solve P o fuel s.st with _ | t
    · exact ⟨B1, fun a b ha hb => ⟨h1 a b ha hb, fun t h => by rw [hq] at h; cases h⟩⟩
    · obtain ⟨B2, h2⟩ := ih { (AL.isDone o (AL.updateConvergence P A { s with st := AL.eachCost P A.updateDuals t })).1 with
        st := AL.eachCost P A.updatePenalties
          (AL.isDone o (AL.updateConvergence P A { s with st := AL.eachCost P A.updateDuals t })).1.st }
      exact ⟨max B1 B2, fun a b ha hb => ⟨h1 a b ((le_max_left _ _).trans ha) ((le_max_left _ _).trans hb), fun t' h _ => by
        rw [hq] at h; cases h
        exact h2 a b ((le_max_right _ _).trans ha) ((le_max_right _ _).trans hb)⟩⟩

/-- Every solve, from whatever state and with whatever options, is the same without limits and with all limits from some number on. -/
theorem C99_large (P : Kernel X U K C D) (o : Opts K) (fuel : ℕ) (s : St X U K C D) :
    ∃ B, ∀ a b, B ≤ a → B ≤ b → ILQR.solve P (limited o a b) fuel s = ILQR.solve P (unlimited o) fuel s := by
  obtain ⟨B, hB⟩ := run_bound P (unlimited o) fuel o.maxInner.toNat (start P (unlimited o) s)
  exact ⟨B, fun a b ha hb => C99_same (hB a b ha hb)⟩

theorem C99_large_whole (P : Kernel X U K C D) (A : CostOps C K) (o : Opts K) (fuel : ℕ) (s : ALSt X U K C D) :
    ∃ B, ∀ a b, B ≤ a → B ≤ b → AL.solve P A (limited o a b) (ILQR.solve P (limited o a b) fuel) s
      = AL.solve P A (unlimited o) (ILQR.solve P (unlimited o) fuel) s := by
  obtain ⟨B, hB⟩ := outer_bound P A (unlimited o) fuel o.maxOuter.toNat (AL.init P A o s)
  exact ⟨B, fun a b ha hb => C99_same_whole (hB a b ha hb)⟩

end ordered
end Altro.Props
