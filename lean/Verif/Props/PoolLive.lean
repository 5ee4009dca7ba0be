import Verif.Props.Pool
import Verif.Proofs.PoolStop

/-!
# C50 and C64: tasks in the queue are run, and `StopThreads` returns
-/

namespace Altro.Pool
variable {M : Type}

/-- C50: in every fair run of the workers all tasks added so far finish, with all their steps.  This holds from every
reachable state in which the owner is not inside a call (or waits), so also when the tasks are left over from an earlier
stop, as in `C50_stopped`. -/
theorem C50_runs {prog : ℕ → List (M → M)} {m : M} {σ : ℕ → St M} {th : ℕ → ℕ} (h0 : Reachable prog m (σ 0))
    (hrest : Resting (σ 0)) (hrun : (σ 0).running = true) (hN : 0 < (σ 0).nthreads) (h : FairRun prog σ th) :
    ∃ n, ∀ t < (σ 0).next, (σ n).finished t = true ∧ stepsOf t (σ n).trace = List.range (prog t).length := by
  obtain ⟨n, hn⟩ := h.emptied h0 hrest hrun hN
  obtain ⟨n', hc, hz⟩ := h.nu_zero h0 _ n hn le_rfl
  obtain ⟨hr, ho, hx, hn', -⟩ := h.const h0 n'
  refine ⟨n', fun t ht => ?_⟩
  have hf := all_finished hr (by unfold Resting; rw [ho]; exact hrest) hc (by rw [hn']; exact hz) t (by rw [hx]; exact ht)
  exact ⟨hf, ((inv_reachable hr).2.fin t hf).2⟩

/-- There is a fair run from every reachable state: the workers take turns. -/
theorem C50_fair_exists {prog : ℕ → List (M → M)} {m : M} {s : St M} (h : Reachable prog m s) (hN : 0 < s.nthreads) :
    ∃ σ th, σ 0 = s ∧ FairRun prog σ th := by
  let go : ℕ → St M → St M := fun w s => match workerStep prog w s with | .next s' => s' | _ => s
  let σ : ℕ → St M := fun n => Nat.rec s (fun n r => go (n % s.nthreads) r) n
  have hσ : ∀ n, σ (n + 1) = go (n % s.nthreads) (σ n) := fun n => rfl
  have hstep : ∀ n, Reachable prog m (σ n) ∧ (workerStep prog (n % s.nthreads) (σ n) = .next (σ (n + 1)) ∨
      (workerStep prog (n % s.nthreads) (σ n) = .blocked ∧ σ (n + 1) = σ n)) := by
    have one : ∀ n, Reachable prog m (σ n) → (workerStep prog (n % s.nthreads) (σ n) = .next (σ (n + 1)) ∨
      (workerStep prog (n % s.nthreads) (σ n) = .blocked ∧ σ (n + 1) = σ n)) := by
      intro n hr
      rw [hσ]
      cases hs : workerStep prog (n % s.nthreads) (σ n) with
      | next s' => left; simp only [go, hs]
      | blocked => right; simp only [go, hs, and_self]
      | ub => exact absurd hs (C48_defined hr (some (n % s.nthreads)) ⟨.wait, 0, false⟩)
    intro n
    induction n with
    | zero => exact ⟨h, one 0 h⟩
    | succ n ih =>
      have hr : Reachable prog m (σ (n + 1)) := by
        rcases ih.2 with hs | ⟨-, hs⟩
        · obtain ⟨a, hr⟩ := ih.1
          exact ⟨a, hr.tail ⟨some _, ⟨.wait, 0, false⟩, hs⟩⟩
        · rw [hs]; exact ih.1
      exact ⟨hr, one _ hr⟩
  refine ⟨σ, fun n => n % s.nthreads, rfl, fun n => (hstep n).2, fun w hw n => ⟨w + s.nthreads * n, ?_, ?_⟩⟩
  · exact le_trans (Nat.le_mul_of_pos_left n hN) (Nat.le_add_left _ _)
  · show (w + s.nthreads * n) % s.nthreads = w
    rw [Nat.add_mul_mod_self_left]; exact Nat.mod_eq_of_lt hw

/-- `LaunchThreads` after a stop: `n + 2` steps of the owner lead to a running pool with `n` workers and the same queue. -/
theorem C50_launch {prog : ℕ → List (M → M)} {s : St M} (ho : s.opc = .idle) (hr : s.running = false) (n : ℕ) :
    ∃ s', Relation.ReflTransGen (Step prog) s s' ∧ s'.opc = .idle ∧ s'.running = true ∧ s'.nthreads = n ∧ s'.q = s.q ∧
      s'.next = s.next ∧ s'.finished = s.finished := by
  have key : ∀ k i (s : St M), i + k = n → s.opc = .launching i n → ∃ s', Relation.ReflTransGen (Step prog) s s' ∧
      s'.opc = .idle ∧ s'.running = s.running ∧ s'.nthreads = n ∧ s'.q = s.q ∧
      s'.next = s.next ∧ s'.finished = s.finished := by
    intro k
    induction k with
    | zero =>
      intro i s hi ho
      exact ⟨{ s with nthreads := n, opc := .idle }, .single ⟨none, ⟨.wait, 0, false⟩, by
        simp only [step, ownerStep, ho]; rw [if_neg (by omega)]⟩, rfl, rfl, rfl, rfl, rfl, rfl⟩
    | succ k ih =>
      intro i s hi ho
      obtain ⟨s', h1, h2⟩ := ih (i + 1) { s with wpc := Function.update s.wpc i .check, opc := .launching (i + 1) n }
        (by omega) rfl
      exact ⟨s', .head ⟨none, ⟨.wait, 0, false⟩, by
        simp only [step, ownerStep, ho]; rw [if_pos (by omega)]⟩ h1, h2⟩
  obtain ⟨s', h1, h2⟩ := key n 0 { s with running := true, opc := .launching 0 n } (by omega) rfl
  exact ⟨s', .head ⟨none, ⟨.launch n, 0, false⟩, by simp [step, ownerStep, ho, hr]⟩ h1, h2⟩

/-- A run of steps. -/
inductive Run (prog : ℕ → List (M → M)) : ℕ → St M → St M → Prop
  | nil (s) : Run prog 0 s s
  | cons {n s s' s''} : Step prog s s' → Run prog n s' s'' → Run prog (n + 1) s s''

/-- C64: `StopThreads` returns after a bounded number of steps, whatever the scheduler does: there is a bound such that
every longer run contains its return. -/
theorem C64_bounded {prog : ℕ → List (M → M)} {m : M} {s : St M} {i : ℕ} (h : Reachable prog m s)
    (ho : s.opc = .joining i) :
    ∃ B, ∀ n s', Run prog n s s' → B < n → ∃ k s'', k ≤ B + 1 ∧ Run prog k s s'' ∧ s''.opc = .idle := by
  have key : ∀ B i (s : St M), Reachable prog m s → s.opc = .joining i →
      ms (fun t => (prog t).length) i s ≤ B → ∀ n s', Run prog n s s' → B < n →
        ∃ k s'', k ≤ B + 1 ∧ Run prog k s s'' ∧ s''.opc = .idle := by
    intro B
    induction B with
    | zero =>
      intro i s h ho hB n s' hrun hn
      cases hrun with
      | nil => omega
      | cons hs _ =>
        obtain ⟨j, c, hs⟩ := hs
        rcases ms_step h ho hs with ⟨-, -, h1⟩ | ⟨i', h1, h2⟩
        · exact ⟨1, _, by omega, .cons ⟨j, c, hs⟩ (.nil _), h1⟩
        · omega
    | succ B ih =>
      intro i s h ho hB n s' hrun hn
      cases hrun with
      | nil => omega
      | cons hs hrest =>
        obtain ⟨j, c, hs⟩ := hs
        rcases ms_step h ho hs with ⟨-, -, h1⟩ | ⟨i', h1, h2⟩
        · exact ⟨1, _, by omega, .cons ⟨j, c, hs⟩ (.nil _), h1⟩
        · obtain ⟨a, hr⟩ := h
          obtain ⟨k, s'', hk, hr', hi⟩ := ih i' _ ⟨a, hr.tail ⟨j, c, hs⟩⟩ h1 (by omega) _ _ hrest (by omega)
          exact ⟨k + 1, s'', by omega, .cons ⟨j, c, hs⟩ hr', hi⟩
  exact ⟨_, key _ i s h ho le_rfl⟩

/-- C64: until it returns, some thread can make a step. -/
theorem C64_no_deadlock {prog : ℕ → List (M → M)} {m : M} {s : St M} {i : ℕ} (h : Reachable prog m s)
    (ho : s.opc = .joining i) : ∃ s', Step prog s s' := by
  obtain ⟨j, c, s', hs⟩ := stop_enabled h ho
  exact ⟨s', j, c, hs⟩

/-- C64: so `StopThreads` can return from every state, and then the pool has no worker left. -/
theorem C64_returns {prog : ℕ → List (M → M)} {m : M} {s : St M} {i : ℕ} (h : Reachable prog m s)
    (ho : s.opc = .joining i) :
    ∃ s', Relation.ReflTransGen (Step prog) s s' ∧ s'.opc = .idle ∧ s'.running = false ∧ s'.nthreads = 0 ∧
      ∀ w, s'.wpc w = .absent := by
  have key : ∀ B i (s : St M), Reachable prog m s → s.opc = .joining i → ms (fun t => (prog t).length) i s ≤ B →
      ∃ s', Relation.ReflTransGen (Step prog) s s' ∧ ∃ i', s'.opc = .joining i' ∧ ¬ i' < s'.nthreads := by
    intro B
    induction B with
    | zero =>
      intro i s h ho hB
      exact ⟨s, .refl, i, ho, by unfold ms at hB; omega⟩
    | succ B ih =>
      intro i s h ho hB
      obtain ⟨j, c, s', hs⟩ := stop_enabled h ho
      rcases ms_step h ho hs with ⟨-, h1, -⟩ | ⟨i', h1, h2⟩
      · exact ⟨s, .refl, i, ho, h1⟩
      · obtain ⟨a, hr⟩ := h
        obtain ⟨s'', h3, h4⟩ := ih i' s' ⟨a, hr.tail ⟨j, c, hs⟩⟩ h1 (by omega)
        exact ⟨s'', .head ⟨j, c, hs⟩ h3, h4⟩
  obtain ⟨s', h1, i', h2, h3⟩ := key _ i s h ho le_rfl
  have hr' : Reachable prog m s' := by obtain ⟨a, hr⟩ := h; exact ⟨a, hr.trans h1⟩
  have hj := (inv_reachable hr').1.joining i' h2
  exact ⟨{ s' with nthreads := 0, opc := .idle }, h1.tail ⟨none, ⟨.wait, 0, false⟩, by
    simp only [step, ownerStep, h2]; rw [if_neg h3]⟩, rfl, hj.1, rfl, fun w => hj.2.2 w (by omega)⟩

/-- C50 and C64 in a concrete run: the pool is stopped while worker 0 has done one step of task 0 and task 1 is queued.
`StopThreads` returns when task 0 is finished; task 1 stays in the queue and runs after the next launch. -/
example :
    let stop : List (Option ℕ × Choice ℕ) := List.replicate 1 (none, ⟨.stop, 0, false⟩) ++
      List.replicate 3 (some 0, ⟨.add, 0, false⟩) ++ List.replicate 1 (some 1, ⟨.add, 0, false⟩) ++
      List.replicate 3 (none, ⟨.add, 0, false⟩)
    let launch : List (Option ℕ × Choice ℕ) := List.replicate 3 (none, ⟨.launch 1, 0, false⟩)
    let sch := demoStart ++ List.replicate 15 (some 0, ⟨.add, 0, false⟩)
    (sched demoProg (sch ++ stop) (init 0 0)).map (fun s => (s.running, s.nthreads, s.finished 0, s.finished 1))
      = some (false, 0, true, false) ∧
    (sched demoProg (sch ++ stop ++ launch ++ List.replicate 20 (some 0, ⟨.add, 0, false⟩)) (init 0 0)).map
      (fun s => (s.running, s.nthreads, s.finished 0, s.finished 1)) = some (true, 1, true, true) := by
  decide +kernel

end Altro.Pool
