import Verif.Props.ALSolver
import Verif.Props.ILQR
import Verif.Props.ALExamples

/-!
# C12: the limit on the total number of iterations
-/

namespace Altro.Props
open Altro.Spec
variable {X U F C D : Type} [Arith F]
variable {P : Kernel X U F C D} {A : CostOps C F} {o : Opts F}

theorem ilqrDone_false_total (s : St X U F C D) (h : (ILQR.isDone o s).2 = false) : (s.stats.total : ℤ) < o.maxTotal := by
  unfold ILQR.isDone at h
  split at h
  · simp at h
  · split at h
    · simp at h
    · split at h
      · simp at h
      · rename_i h3; simpa using h3

theorem alDone_false_total (s : ALSt X U F C D) (h : (AL.isDone o s).2 = false) : (s.st.stats.total : ℤ) < o.maxTotal := by
  unfold AL.isDone at h
  split_ifs at h
  simpa using ‹¬ _ ≥ o.maxTotal›

theorem solveLoop_total (fuel r : ℕ) : ∀ {s s' : St X U F C D}, ILQR.solveLoop P o fuel r s = some s' →
    (s'.stats.total : ℤ) ≤ max ((s.stats.total : ℤ) + 1) o.maxTotal := by
  induction r with
  | zero =>
    intro s s' h
    rw [← Option.some.inj h]
    exact le_max_of_le_left (by omega)
  | succ r ih =>
    intro s s' h
    unfold ILQR.solveLoop at h
    split at h
    · cases h
    · rename_i s1 h1
      obtain ⟨-, c2, -, -⟩ := iterate_counters P o fuel s s1 h1
      simp only at h
      split at h
      · rw [← Option.some.inj h, ILQR.isDone_frame]
        exact le_max_of_le_left (by show (s1.stats.total : ℤ) ≤ _; omega)
      · rename_i hd
        have hd : (ILQR.isDone o s1).2 = false := by simpa using hd
        have ht := ilqrDone_false_total s1 hd
        have := ih h
        rw [ILQR.isDone_frame] at this
        refine this.trans (max_le ?_ (le_max_right _ _))
        exact le_max_of_le_right (by show (s1.stats.total : ℤ) + 1 ≤ _; omega)

/-- **C12.**  The total number of iterations never exceeds its limit (one iteration is always made), over all outer
iterations. -/
theorem C12_total (fuel : ℕ) (hmax : 1 ≤ o.maxOuter) (ht : 1 ≤ o.maxTotal) (s s' : ALSt X U F C D)
    (h : AL.solve P A o (ILQR.solve P o fuel) s = some s') : (s'.st.stats.total : ℤ) ≤ o.maxTotal := by
  obtain ⟨j, s0, t, _, hJ, hi, _, _, hd, rfl⟩ := AL.solve_last P A o _ (C11_inner_ok P o fuel)
    (fun _ q => (q.st.stats.total : ℤ) + 1 ≤ o.maxTotal) s s' (by rw [(AL.init_facts P A o s).2.1]; simpa using ht)
    (fun j q t hq hi hd => by
      have := alDone_false_total _ hd
      show (((AL.body P A q t).st.stats.total : ℕ) : ℤ) + 1 ≤ _
      omega) hmax h
  obtain ⟨-, h2⟩ := AL.isDone_true o _ hd
  obtain ⟨_, _, _, _, _, b6, _, _⟩ := AL.body_facts P A s0 t
  rw [h2, b6]
  have hs := solveLoop_total (P := P) (o := o) fuel _ hi
  obtain ⟨_, _, _, e3, _⟩ := ILQR.start_facts P o s0.st
  rw [e3] at hs
  exact hs.trans (max_le hJ le_rfl)

/-- The example of C11-C16 with a limit of two iterations in total: the limit is reached in the first inner solve. -/
example : ∃ s', AL.solve goalK goalOps { goalOpts with maxTotal := 2 } (ILQR.solve goalK { goalOpts with maxTotal := 2 } 3)
    ⟨goalState, .kUnsolved⟩ = some s' ∧ s'.status = .kMaxIterations ∧ s'.st.stats.total = 2 ∧ (s'.st.stats.total : ℤ) ≤ 2 := by
  have hd : ((AL.solve goalK goalOps { goalOpts with maxTotal := 2 } (ILQR.solve goalK { goalOpts with maxTotal := 2 } 3)
      ⟨goalState, .kUnsolved⟩).map fun r => (r.status, r.st.stats.total)) = some (.kMaxIterations, 2) := by decide +kernel
  obtain ⟨s', h1, h2⟩ := Option.map_eq_some_iff.mp hd
  simp only [Prod.mk.injEq] at h2
  exact ⟨s', h1, h2.1, h2.2, C12_total (o := { goalOpts with maxTotal := 2 }) 3 (by decide) (by decide) _ _ h1⟩

end Altro.Props
