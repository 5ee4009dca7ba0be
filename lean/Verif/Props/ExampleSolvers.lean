import Verif.Props.SmoothExamples
import Verif.Spec.ExampleSolvers

/-!
# C103: the solvers of the unicycle example
-/

namespace Altro.Props
open Altro.Spec Altro.UniFields Matrix
variable {R : Rounding ℝ}

/-- The trajectory that `InitialTrajectory` returns, for any fields. -/
theorem C103_initial (R : Rounding ℝ) (s : UniFields) : Starts R s (s.timeStep R) (s.initialTrajectory R) ∧
    ∀ (k : ℕ) (z : KnotPt (Fin 3 → ℝ) (Fin 2 → ℝ) ℝ), (s.initialTrajectory R)[k]? = some z → z.x = 0 := by
  have get : ∀ (k : ℕ) (z : KnotPt (Fin 3 → ℝ) (Fin 2 → ℝ) ℝ), (s.initialTrajectory R)[k]? = some z → k ≤ s.N ∧ z.x = 0 ∧ z.u = (if k < s.N then s.u0 else 0) ∧
      z.h = (if k < s.N then s.timeStep R else 0) ∧ z.t = R.r32 (R.r32 k * s.timeStep R) := by
    intro k z hz
    simp only [initialTrajectory, Traj.setUniformStep, Traj.zero, List.getElem?_mapIdx, List.length_mapIdx, List.length_replicate,
      List.getElem?_replicate] at hz
    by_cases hk : k < s.N + 1
    · rw [if_pos hk] at hz
      simp only [Option.map_some, Option.some.injEq, Nat.add_right_cancel_iff] at hz
      refine ⟨by omega, ?_⟩
      by_cases h1 : k = s.N
      · subst h1
        simp only [lt_self_iff_false, if_true, if_false] at hz ⊢
        subst hz
        exact ⟨rfl, rfl, rfl, by rw [mul_comm]⟩
      · have h2 : k < s.N := by omega
        rw [if_neg h1, if_pos h2] at hz
        rw [if_pos h2, if_pos h2]
        subst hz
        exact ⟨rfl, rfl, rfl, rfl⟩
    · rw [if_neg hk] at hz
      simp at hz
  refine ⟨⟨by simp [initialTrajectory, Traj.setUniformStep, Traj.zero], fun k z hk hz => ?_, fun z hz => ?_⟩, fun k z hz => (get k z hz).2.1⟩
  · obtain ⟨_, _, h1, h2, h3⟩ := get k z hz
    rw [if_pos hk] at h1 h2
    exact ⟨h1, h2, h3⟩
  · obtain ⟨_, _, h1, h2, h3⟩ := get s.N z hz
    rw [if_neg (lt_irrefl _)] at h1 h2
    exact ⟨h1, h2, h3⟩

theorem rolled_length (x0 : Fin 3 → ℝ) (Z : List (KnotPt (Fin 3 → ℝ) (Fin 2 → ℝ) ℝ)) (k : ℕ) : (rolled x0 Z k).length = Z.length := by
  induction k with
  | zero => simp [rolled]
  | succ k ih =>
    unfold rolled
    dsimp only
    split
    · exact ih
    · rw [List.length_modify, ih]

/-- `Rollout` sets states only. -/
theorem rolled_keeps (x0 : Fin 3 → ℝ) (Z : List (KnotPt (Fin 3 → ℝ) (Fin 2 → ℝ) ℝ)) (k i : ℕ) :
    ((rolled x0 Z k)[i]?.map fun z => (z.u, z.t, z.h)) = Z[i]?.map fun z => (z.u, z.t, z.h) := by
  have mod : ∀ (W : List (KnotPt (Fin 3 → ℝ) (Fin 2 → ℝ) ℝ)) (j : ℕ) (x : Fin 3 → ℝ),
      ((W.modify j fun z => { z with x := x })[i]?.map fun z => (z.u, z.t, z.h)) = W[i]?.map fun z => (z.u, z.t, z.h) := by
    intro W j x
    rw [List.getElem?_modify]
    by_cases h : j = i
    · subst h; simp
      rfl
    · simp [h]
  induction k with
  | zero => exact mod _ _ _
  | succ k ih =>
    unfold rolled
    dsimp only
    split
    · exact ih
    · rw [mod, ih]

theorem rolled_later (x0 : Fin 3 → ℝ) (Z : List (KnotPt (Fin 3 → ℝ) (Fin 2 → ℝ) ℝ)) (k i : ℕ) (hi : i ≤ k) :
    (rolled x0 Z (k + 1))[i]? = (rolled x0 Z k)[i]? := by
  rw [UniFields.rolled]
  split
  · rfl
  · rw [List.getElem?_modify]
    have : ¬ k + 1 = i := by omega
    simp [this]

theorem rolled_stable (x0 : Fin 3 → ℝ) (Z : List (KnotPt (Fin 3 → ℝ) (Fin 2 → ℝ) ℝ)) (k i d : ℕ) (hi : i ≤ k) :
    (rolled x0 Z (k + d))[i]? = (rolled x0 Z k)[i]? := by
  induction d with
  | zero => rfl
  | succ d ih => rw [← Nat.add_assoc, rolled_later _ _ _ _ (by omega), ih]

/-- `Rollout` makes a motion. -/
theorem rolled_moves (c : UniFields) (Z : List (KnotPt (Fin 3 → ℝ) (Fin 2 → ℝ) ℝ)) (hZ : Z.length = c.N + 1) : Moves c (rolled c.x0 Z c.N) := by
  constructor
  · intro z hz
    have := rolled_stable c.x0 Z 0 0 c.N le_rfl
    rw [Nat.zero_add] at this
    rw [this] at hz
    simp only [rolled, List.getElem?_modify, if_true] at hz
    obtain ⟨y, -, rfl⟩ := Option.map_eq_some_iff.mp hz
    rfl
  · intro k z z' hz hz'
    have hk : k + 1 ≤ c.N := by
      have := (List.getElem?_eq_some_iff.mp hz').1
      rw [rolled_length, hZ] at this
      omega
    obtain ⟨d, hd⟩ := Nat.exists_eq_add_of_le hk
    have e1 := rolled_stable c.x0 Z k k (1 + d) le_rfl
    rw [show k + (1 + d) = c.N by omega] at e1
    have hz0 : (rolled c.x0 Z k)[k]? = some z := by rw [← e1]; exact hz
    have e2 := rolled_stable c.x0 Z (k + 1) (k + 1) d le_rfl
    rw [← hd] at e2
    rw [e2, UniFields.rolled] at hz'
    rw [hz0] at hz'
    simp only [List.getElem?_modify, if_true] at hz'
    obtain ⟨y, -, rfl⟩ := Option.map_eq_some_iff.mp hz'
    rfl

theorem starts_rolled {c : UniFields} {h : ℝ} {Z : List (KnotPt (Fin 3 → ℝ) (Fin 2 → ℝ) ℝ)} (hs : Starts R c h Z) (x0 : Fin 3 → ℝ) (k : ℕ) :
    Starts R c h (rolled x0 Z k) := by
  have key : ∀ (i : ℕ) (z : KnotPt (Fin 3 → ℝ) (Fin 2 → ℝ) ℝ), (UniFields.rolled x0 Z k)[i]? = some z → ∃ y, Z[i]? = some y ∧ z.u = y.u ∧ z.t = y.t ∧ z.h = y.h := by
    intro i z hz
    have := rolled_keeps x0 Z k i
    rw [hz] at this
    obtain ⟨y, h1, h2⟩ := Option.map_eq_some_iff.mp this.symm
    simp only [Prod.mk.injEq] at h2
    exact ⟨y, h1, h2.1.symm, h2.2.1.symm, h2.2.2.symm⟩
  refine ⟨by rw [rolled_length, hs.length], fun i z hi hz => ?_, fun z hz => ?_⟩
  · obtain ⟨y, h1, h2, h3, h4⟩ := key i z hz
    rw [h2, h3, h4]
    exact hs.segment i y hi h1
  · obtain ⟨y, h1, h2, h3, h4⟩ := key c.N z hz
    rw [h2, h3, h4]
    exact hs.last y h1

/-- The weights that `MakeProblem` sets fit the step that `GetTimeStep` returns afterwards, and the scenario takes its time. -/
theorem configure_scaled (R : Rounding ℝ) (s : UniFields) :
    Scaled (s.configure (stepOf R)) ((s.configure (stepOf R)).timeStep R) ∧ (s.configure (stepOf R)).tf = duration s.scenario ∧
    (s.configure (stepOf R)).scenario = s.scenario ∧ (s.configure (stepOf R)).N = s.N := by
  unfold configure Scaled timeStep duration
  cases hs : s.scenario <;> simp only [setDiag, of_apply, if_true, hs, and_true, one_mul] <;> norm_num

/-- **C103.**  Whatever a program does with the object, every solver it gets from `MakeSolver` or `MakeALSolver` has the problem of the
scenario chosen last, and a trajectory of that many segments with the step the weights of the costs were scaled with, the initial
guess of the controls, and states that move with them from the initial state of the problem. -/
theorem C103_solver {s : UniFields} {l : List Act} {c : UniFields} {calls : List (ExCall 3 2)} {al : Bool}
    {Z : List (KnotPt (Fin 3 → ℝ) (Fin 2 → ℝ) ℝ)} (h : Made.solver c calls al Z ∈ (s.acts R l).2) :
    calls = c.calls true ∧ c.tf = duration c.scenario ∧ Scaled c (c.timeStep R) ∧ Starts R c (c.timeStep R) Z ∧ Moves c Z := by
  have made : ∀ s : UniFields, ∀ {b : Bool},
      (Made.solver c calls al Z = .solver (s.configure (stepOf R)) ((s.configure (stepOf R)).calls true) b
        (UniFields.rolled (s.configure (stepOf R)).x0 ((s.configure (stepOf R)).initialTrajectory R) (s.configure (stepOf R)).N)) →
      calls = c.calls true ∧ c.tf = duration c.scenario ∧ Scaled c (c.timeStep R) ∧ Starts R c (c.timeStep R) Z ∧ Moves c Z := by
    intro s b e
    simp only [Made.solver.injEq] at e
    obtain ⟨rfl, rfl, rfl, rfl⟩ := e
    obtain ⟨h1, h2, h3, h4⟩ := configure_scaled R s
    have h5 := (C103_initial R (s.configure (stepOf R))).1
    exact ⟨rfl, by rw [h2, h3], h1, starts_rolled h5 _ _, rolled_moves _ _ h5.length⟩
  induction l generalizing s with
  | nil => simp [acts] at h
  | cons a l ih =>
    simp only [acts, List.mem_append, Option.mem_toList] at h
    rcases h with h | h
    · cases a with
      | scenario c' => simp [act] at h
      | assign f => simp [act] at h
      | problem add => simp [act] at h
      | trajectory => simp [act] at h
      | solver b => exact made s (by simpa [act] using h.symm)
      | alSolver => exact made s (by simpa [act] using h.symm)
    · exact ih h

/-- **C103.**  The final time is private: whatever a program does with a new object, it is 3 s or 5 s, the time of the scenario for which a problem
was last made (3 s before that). -/
theorem C103_final_time (R : Rounding ℝ) (l : List Act) : ∃ c, (uniDefault.acts R l).1.tf = duration c := by
  suffices h : ∀ (l : List Act) (s : UniFields), (∃ c, s.tf = duration c) → ∃ c, (s.acts R l).1.tf = duration c from
    h l _ ⟨.turn90, by simp [uniDefault, duration]⟩
  intro l
  induction l with
  | nil => exact fun s h => h
  | cons a l ih =>
    intro s h
    refine ih _ ?_
    cases a with
    | scenario c => exact h
    | assign f => exact h
    | problem add => exact ⟨_, (configure_scaled R s).2.1⟩
    | trajectory => exact h
    | solver b => exact ⟨_, (configure_scaled R s).2.1⟩
    | alSolver => exact ⟨_, (configure_scaled R s).2.1⟩

/-- **C103, how many and which.**  Each call that makes a solver returns one, for the scenario and the public fields of that moment;
`MakeALSolver` differs from `MakeSolver()` in the costs only; calls of other functions make none. -/
theorem C103_made (R : Rounding ℝ) (s : UniFields) (b : Bool) : ∃ c Z, c.scenario = s.scenario ∧ c.N = s.N ∧
    s.act R (.solver b) = (c, some (.solver c (c.calls true) b Z)) ∧ s.act R .alSolver = (c, some (.solver c (c.calls true) true Z)) :=
  ⟨_, _, (configure_scaled R s).2.2.1, (configure_scaled R s).2.2.2, rfl, rfl⟩

/-- **C103.**  Making a second solver gives the same one: `MakeProblem` does not pile up changes. -/
theorem C103_again (R : Rounding ℝ) (s : UniFields) (b : Bool) :
    ∃ c Z, s.acts R [.solver b, .solver b] = (c, [.solver c (c.calls true) b Z, .solver c (c.calls true) b Z]) := by
  have e := C71_again s (stepOf R)
  refine ⟨s.configure (stepOf R), UniFields.rolled (s.configure (stepOf R)).x0 ((s.configure (stepOf R)).initialTrajectory R)
    (s.configure (stepOf R)).N, ?_⟩
  simp only [acts, act, e, Option.toList]
  rfl

/-- **C103** for a program that sets up its own solver.  The full statement, *the trajectory that `InitialTrajectory` returns fits the problem that
`MakeProblem` returned*, is false (below); it holds if the trajectory is made after the problem and nothing is changed in between. -/
theorem C103_order_partial (R : Rounding ℝ) (s : UniFields) (add : Bool) : ∃ c Z,
    s.acts R [.problem add, .trajectory] = (c, [.problem c (c.calls add), .trajectory Z]) ∧ Scaled c (c.timeStep R) ∧ Starts R c (c.timeStep R) Z :=
  ⟨_, _, rfl, (configure_scaled R s).1, (C103_initial R _).1⟩

/-- **C103.**  In the other order, and with the obstacles, the trajectory is that of the other scenario: its steps are 0.03 s while the weights are for
0.05 s, so it ends after 3 s of 5 s; its controls are ten times the initial guess of the problem. -/
theorem C103_order_counterexample : ∃ c calls Z,
    uniDefault.acts .exact [.scenario .threeObstacles, .trajectory, .problem true] = (c, [.trajectory Z, .problem c calls]) ∧
    c.tf = 5 ∧ Scaled c 0.05 ∧ (∀ k z, k < c.N → Z[k]? = some z → z.h = 0.03 ∧ z.u = (10 : ℝ) • c.u0) ∧
    (∀ z, Z[c.N]? = some z → z.t = 3) ∧ ∀ h, Scaled c h → ¬ Starts .exact c h Z := by
  have hv := (C71_unicycle_values (stepOf .exact)).2
  have h5 : stepOf .exact 5 100 = 0.05 := by simp only [stepOf, Rounding.exact, id]; norm_num
  have hs := (C103_initial .exact (uniDefault.setScenario .threeObstacles)).1
  have h3 : (uniDefault.setScenario .threeObstacles).timeStep .exact = 0.03 := by
    simp only [timeStep, stepOf, Rounding.exact, id, setScenario, uniDefault]; norm_num
  rw [h3] at hs
  have hN : ((uniDefault.setScenario .threeObstacles).configure (stepOf .exact)).N = 100 := by rw [hv]
  have hQ : ∀ i, ((uniDefault.setScenario .threeObstacles).configure (stepOf .exact)).Q i i = 0.05 := by
    intro i; rw [hv]; simp [h5]
  have hsc : ((uniDefault.setScenario .threeObstacles).configure (stepOf .exact)).scenario = .threeObstacles := by rw [hv]
  have hseg : ∀ (k : ℕ) z, k < 100 → ((uniDefault.setScenario .threeObstacles).initialTrajectory .exact)[k]? = some z → z.h = 0.03 ∧
      z.u = fun _ => 0.1 := by
    intro k z hk hz
    obtain ⟨h1, h2, -⟩ := hs.segment k z hk hz
    refine ⟨h2, h1.trans ?_⟩
    funext i; fin_cases i <;> rfl
  refine ⟨(uniDefault.setScenario .threeObstacles).configure (stepOf .exact), _,
    (uniDefault.setScenario .threeObstacles).initialTrajectory .exact, rfl, by rw [hv], ?_, fun k z hk hz => ?_, fun z hz => ?_, fun h hc hst => ?_⟩
  · unfold Scaled
    rw [hsc]
    refine ⟨hQ, fun i => ?_⟩
    rw [hv]; simp [h5]; norm_num
  · obtain ⟨h1, h2⟩ := hseg k z (by rw [← hN]; exact hk) hz
    refine ⟨h1, ?_⟩
    rw [h2, hv]
    funext i; simp only [Pi.smul_apply, smul_eq_mul]; norm_num
  · obtain ⟨-, -, h1⟩ := hs.last z (by rw [hN] at hz; exact hz)
    rw [h1]
    simp only [Rounding.exact, id, setScenario, uniDefault]; norm_num
  · have hh : h = 0.05 := by
      unfold Scaled at hc
      rw [hsc] at hc
      rw [← hc.1 0, hQ]
    obtain ⟨z, hz⟩ : ∃ z, ((uniDefault.setScenario .threeObstacles).initialTrajectory .exact)[0]? = some z := by
      rw [List.getElem?_eq_getElem (by rw [hs.length]; omega)]
      exact ⟨_, rfl⟩
    have h1 := (hst.segment 0 z (by rw [hN]; norm_num) hz).2.1
    rw [(hseg 0 z (by norm_num) hz).1, hh] at h1
    norm_num at h1

/-- **C103.**  With exact times the trajectory is the one C86 and C88 start from. -/
theorem C103_uniTraj (s : UniFields) (k : ℕ) (z : KnotPt (Fin 3 → ℝ) (Fin 2 → ℝ) ℝ) (hz : (s.initialTrajectory .exact)[k]? = some z) :
    z.x = (uniTraj s).x k ∧ z.u = (uniTraj s).u k ∧ z.t = (uniTraj s).t k ∧ z.h = (uniTraj s).h k := by
  obtain ⟨hs, hx⟩ := C103_initial .exact s
  have hk : k < s.N + 1 := by rw [← hs.length]; exact (List.getElem?_eq_some_iff.mp hz).1
  refine ⟨hx k z hz, ?_⟩
  rcases Nat.lt_or_ge k s.N with h | h
  · obtain ⟨h1, h2, h3⟩ := hs.segment k z h hz
    simp only [uniTraj, if_pos h]
    exact ⟨h1, h3, h2⟩
  · obtain rfl : k = s.N := by omega
    obtain ⟨h1, h2, h3⟩ := hs.last z hz
    simp only [uniTraj, lt_irrefl, if_false]
    exact ⟨h1, h3, h2⟩

/-- A program that makes a solver for each scenario from one object. -/
example : ∃ c Z c' Z', (uniDefault.acts .exact [.solver false, .scenario .threeObstacles, .trajectory, .alSolver]).2 =
      [.solver c (c.calls true) false Z, .trajectory (c.initialTrajectory .exact), .solver c' (c'.calls true) true Z'] ∧
    c.tf = 3 ∧ c'.tf = 5 ∧ Z.length = 101 ∧ Z'.length = 101 := by
  refine ⟨_, _, _, _, rfl, rfl, rfl, ?_, ?_⟩
  · rw [rolled_length, (C103_initial .exact _).1.length, (configure_scaled _ _).2.2.2]; rfl
  · rw [rolled_length, (C103_initial .exact _).1.length, (configure_scaled _ _).2.2.2]; rfl

end Altro.Props
