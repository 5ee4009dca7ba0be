import Verif.Proofs.Pool

/-!
# C48-C50: the thread pool
-/

namespace Altro.Pool
variable {M : Type}

/-- No step of the pool is undefined. -/
theorem C48_defined {prog : ℕ → List (M → M)} {m : M} {s : St M} (h : Reachable prog m s) (i : Option ℕ) (c : Choice M) :
    step prog i c s ≠ .ub := by
  have hA := (inv_reachable h).1
  have hq : ∀ j op k, withQ (Queue.step j op s.q) k ≠ (.ub : Queue.Out (St M)) := by
    intro j op k
    have := Queue.C45_defined hA.hq j op
    cases e : Queue.step j op s.q <;> simp_all [withQ]
  cases i with
  | none =>
    simp only [step, ownerStep]
    split
    · split <;> (try split) <;> simp
    · split <;> exact hq _ _ _
    · split <;> (try split) <;> simp
    · simp
    · split <;> simp
    · split <;> (try split) <;> simp
  | some w =>
    simp only [step, workerStep]
    split <;> (try simp)
    · split <;> exact hq _ _ _
    · split <;> simp

/-- C48: every task starts at most once, and only tasks that were added start. -/
theorem C48_once {prog : ℕ → List (M → M)} {m : M} {s : St M} (h : Reachable prog m s) :
    s.started.Nodup ∧ ∀ t ∈ s.started, t < s.next := by
  obtain ⟨hA, hB⟩ := inv_reachable h
  refine ⟨hB.stNodup, fun t ht => ?_⟩
  have := (popped_prefix hA).subset (hB.stPop t ht)
  rw [List.mem_range] at this
  have : pushedUpTo s ≤ s.next := by
    unfold pushedUpTo
    split
    next t ho => have := (hA.adding t ho).1; split <;> omega
    next => exact le_rfl
  omega

/-- C48: each step of a task is executed at most once, in order, and none before the task starts. -/
theorem C48_steps {prog : ℕ → List (M → M)} {m : M} {s : St M} (h : Reachable prog m s) (t : ℕ) :
    ∃ k ≤ (prog t).length, stepsOf t s.trace = List.range k ∧ (t ∉ s.started → k = 0) ∧
      (s.finished t = true → k = (prog t).length) := by
  obtain ⟨hA, hB⟩ := inv_reachable h
  by_cases hs : t ∈ s.started
  · rcases hB.stCases t hs with hf | ⟨w, k, hw⟩
    · exact ⟨_, le_rfl, (hB.fin t hf).2, fun h => absurd hs h, fun _ => rfl⟩
    · obtain ⟨-, h2, h3, h4⟩ := hB.run w t k hw
      exact ⟨k, h3, h4, fun h => absurd hs h, fun h => by rw [h2] at h; cases h⟩
  · exact ⟨0, Nat.zero_le _, hB.unstarted t hs, fun _ => rfl, fun h => absurd (hB.fin t h).1 hs⟩

/-- C48, the order: tasks leave the queue in the order in which they were added.  The full claim, that they start in
this order, is false for two workers (`C48_order_counterexample`). -/
theorem C48_order_partial {prog : ℕ → List (M → M)} {m : M} {s : St M} (h : Reachable prog m s) :
    ∃ p ≤ s.next, s.q.popped = List.range p ∧ ∀ t ∈ s.started, t < p := by
  obtain ⟨hA, hB⟩ := inv_reachable h
  have hp := popped_prefix hA
  have hle : pushedUpTo s ≤ s.next := by
    unfold pushedUpTo
    split
    next t ho => have := (hA.adding t ho).1; split <;> omega
    next => exact le_rfl
  have hl := hp.length_le
  rw [List.length_range] at hl
  have e : s.q.popped = List.range s.q.popped.length := by
    refine List.ext_getElem (by simp) fun k h1 h2 => ?_
    have := hp.getElem h1
    rw [this]; simp
  refine ⟨s.q.popped.length, by omega, e, fun t ht => ?_⟩
  have := hB.stPop t ht
  rw [e, List.mem_range] at this
  exact this

/-- C48: when `Wait` is about to return and printed no timeout message, every task added since the previous `Wait`
(numbers `mark` to `next - 1`) has finished and all its steps are done. -/
theorem C48_wait {prog : ℕ → List (M → M)} {m : M} {s : St M} (h : Reachable prog m s) (ho : s.opc = .waiting [])
    (hto : s.timedOut = false) (t : ℕ) (h1 : s.mark ≤ t) (h2 : t < s.next) :
    s.finished t = true ∧ t ∈ s.started ∧ stepsOf t s.trace = List.range (prog t).length := by
  obtain ⟨hA, hB⟩ := inv_reachable h
  obtain ⟨d, hd, hf⟩ := hA.waiting [] ho
  have : t ∈ d := by
    rw [List.append_nil] at hd
    rw [← hd, hA.futures, List.mem_range'_1]
    have := hA.mark
    omega
  exact ⟨hf hto t this, hB.fin t (hf hto t this)⟩

/-- The memory is what the executed steps made of it. -/
theorem C48_effects {prog : ℕ → List (M → M)} {m : M} {s : St M} (h : Reachable prog m s) :
    s.mem = replay prog m s.trace :=
  (inv_reachable h).2.mem

/-- If every `Wait` so far was free of timeouts, that is, everything before `mark` has finished, then after such a
`Wait` every task ever added has finished, and no worker is inside a task. -/
theorem C48_all {prog : ℕ → List (M → M)} {m : M} {s : St M} (h : Reachable prog m s) (ho : s.opc = .waiting [])
    (hto : s.timedOut = false) (hm : ∀ t < s.mark, s.finished t = true) :
    (∀ t < s.next, s.finished t = true) ∧ ∀ w t k, s.wpc w ≠ .run t k := by
  have hall : ∀ t < s.next, s.finished t = true := by
    intro t ht
    by_cases h1 : s.mark ≤ t
    · exact (C48_wait h ho hto t h1 ht).1
    · exact hm t (by omega)
  refine ⟨hall, fun w t k hw => ?_⟩
  have hr := (inv_reachable h).2.run w t k hw
  have := hall t ((C48_once h).2 t hr.1)
  rw [hr.2.1] at this
  cases this

/-- Run a schedule. -/
def sched (prog : ℕ → List (M → M)) : List (Option ℕ × Choice M) → St M → Option (St M)
  | [], s => some s
  | (i, c) :: l, s => match step prog i c s with
    | .next s' => sched prog l s'
    | _ => none

theorem sched_reachable {prog : ℕ → List (M → M)} {m : M} {l : List (Option ℕ × Choice M)} {s s' : St M}
    (h : Reachable prog m s) (hs : sched prog l s = some s') : Reachable prog m s' := by
  induction l generalizing s with
  | nil => simp [sched] at hs; exact hs ▸ h
  | cons x l ih =>
    obtain ⟨i, c⟩ := x
    unfold sched at hs
    split at hs
    next s1 h1 =>
      obtain ⟨a, h⟩ := h
      exact ih ⟨a, h.tail ⟨i, c, h1⟩⟩ hs
    next => cases hs

/-- Two tasks, each adding to a counter. -/
def demoProg : ℕ → List (ℕ → ℕ) := fun t => [fun m => m + 1, fun m => m + 10 * t]

/-- Add tasks 0 and 1, launch two workers. -/
def demoStart : List (Option ℕ × Choice ℕ) :=
  List.replicate 9 (none, ⟨.add, 1, false⟩) ++ List.replicate 9 (none, ⟨.add, 2, false⟩) ++
    List.replicate 4 (none, ⟨.launch 2, 0, false⟩)

/-- Both workers take a task from the queue; worker 1, with task 1, is faster. -/
def demoOrder : List (Option ℕ × Choice ℕ) :=
  demoStart ++ List.replicate 13 (some 0, ⟨.add, 0, false⟩) ++ List.replicate 14 (some 1, ⟨.add, 0, false⟩) ++
    List.replicate 1 (some 0, ⟨.add, 0, false⟩)

/-- The start order is not the order of adding: with two workers task 1 can start first. -/
theorem C48_order_counterexample : ∃ s : St ℕ, Reachable demoProg 0 s ∧ s.started = [1, 0] := by
  have h : (sched demoProg demoOrder (init 0 0)).map (fun s => s.started) = some [1, 0] := by decide +kernel
  cases hb : sched demoProg demoOrder (init 0 0) with
  | none => rw [hb] at h; cases h
  | some s =>
    rw [hb] at h
    exact ⟨s, sched_reachable ⟨0, .refl⟩ hb, by simpa using h⟩

/-- C48 is about something: both tasks run, `Wait` finds both futures ready and is about to return. -/
example : (sched demoProg (demoOrder ++ List.replicate 3 (some 0, ⟨.add, 0, false⟩) ++
      List.replicate 3 (some 1, ⟨.add, 0, false⟩) ++ List.replicate 3 (none, ⟨.wait, 0, false⟩)) (init 0 0)).map
        (fun s => (s.mem, s.timedOut, match s.opc with | .waiting [] => true | _ => false)) = some (12, false, true) := by
  decide +kernel

/-- C49 is false: `Wait` can always return without any worker doing anything, whatever is unfinished. -/
theorem C49_timeout_counterexample {prog : ℕ → List (M → M)} {s : St M} (h0 : s.opc = .idle) :
    ∃ s', Relation.ReflTransGen (Step prog) s s' ∧ s'.opc = .idle ∧ s'.futures = [] ∧ s'.finished = s.finished ∧
      s'.mem = s.mem ∧ s'.wpc = s.wpc ∧ s'.next = s.next := by
  have key : ∀ (r : List ℕ) (s : St M), s.opc = .waiting r → ∃ s', Relation.ReflTransGen (Step prog) s s' ∧
      s'.opc = .idle ∧ s'.futures = [] ∧ s'.finished = s.finished ∧ s'.mem = s.mem ∧ s'.wpc = s.wpc ∧
      s'.next = s.next := by
    intro r
    induction r with
    | nil =>
      intro s ho
      exact ⟨{ s with futures := [], mark := s.next, opc := .idle },
        .single ⟨none, ⟨.wait, 0, true⟩, by simp only [step, ownerStep, ho]⟩, rfl, rfl, rfl, rfl, rfl, rfl⟩
    | cons t r ih =>
      intro s ho
      by_cases hf : s.finished t = true
      · obtain ⟨s', h1, h2⟩ := ih { s with opc := .waiting r } rfl
        exact ⟨s', .head ⟨none, ⟨.wait, 0, true⟩, by simp only [step, ownerStep, ho, hf, if_true]⟩ h1, h2⟩
      · obtain ⟨s', h1, h2⟩ := ih { s with opc := .waiting r, timedOut := true } rfl
        exact ⟨s', .head ⟨none, ⟨.wait, 0, true⟩, by simp [step, ownerStep, ho, hf]⟩ h1, h2⟩
  obtain ⟨s', h1, h2⟩ := key s.futures { s with opc := .waiting s.futures, timedOut := false } rfl
  exact ⟨s', .head ⟨none, ⟨.wait, 0, true⟩, by simp only [step, ownerStep, h0]⟩ h1, h2⟩

/-- C49 is false, concretely: `Wait` has returned while task 0 is half done and task 1 is still in the queue. -/
theorem C49_counterexample : ∃ s : St ℕ, Reachable demoProg 0 s ∧ s.opc = .idle ∧ s.next = 2 ∧ s.futures = [] ∧
    s.wpc 0 = .run 0 1 ∧ s.finished 0 = false ∧ Queue.content s.q = [1] := by
  have h : (sched demoProg (demoStart ++ List.replicate 15 (some 0, ⟨.add, 0, false⟩)) (init 0 0)).map
      (fun s => (match s.opc with | .idle => 1 | _ => 0, s.next, match s.wpc 0 with | .run t k => [t, k] | _ => []))
      = some (1, 2, [0, 1]) := by decide +kernel
  have h' : (sched demoProg (demoStart ++ List.replicate 15 (some 0, ⟨.add, 0, false⟩)) (init 0 0)).map
      (fun s => (s.finished 0, s.q.pushed, s.q.popped)) = some (false, [0, 1], [0]) := by decide +kernel
  cases hb : sched demoProg (demoStart ++ List.replicate 15 (some 0, ⟨.add, 0, false⟩)) (init 0 0) with
  | none => rw [hb] at h; cases h
  | some s =>
    rw [hb] at h h'
    have hr := sched_reachable ⟨0, .refl⟩ hb
    simp only [Option.map_some, Option.some.injEq, Prod.mk.injEq] at h h'
    obtain ⟨h1, h2, h3⟩ := h
    obtain ⟨h4, h5, h6⟩ := h'
    have ho : s.opc = .idle := by
      split at h1
      next e => exact e
      next => cases h1
    have hw : s.wpc 0 = .run 0 1 := by
      split at h3
      next e => rw [e]; simp at h3; simp [h3]
      next => simp at h3
    -- now wait, timing out twice
    have hq : ∀ q : Queue.St (Option ℕ) ℕ, q = s.q → Queue.content q = [1] := by
      rintro q rfl; simp [Queue.content, h5, h6]
    have hf : s.futures = [0, 1] := by
      have := (inv_reachable hr).1
      have hm : s.mark = 0 := by
        have e : (sched demoProg (demoStart ++ List.replicate 15 (some 0, ⟨.add, 0, false⟩)) (init 0 0)).map
          (fun s => s.mark) = some 0 := by decide +kernel
        rw [hb] at e; simpa using e
      rw [this.futures, h2, hm]; rfl
    have h1f : s.finished 1 = false := by
      cases e : s.finished 1 with
      | false => rfl
      | true =>
        have := (inv_reachable hr).2
        have := this.stPop 1 (this.fin 1 e).1
        simp [h6] at this
    have hs : sched demoProg (List.replicate 4 (none, ⟨.wait, 0, true⟩)) s = some
        { s with opc := .idle, timedOut := true, futures := [], mark := s.next } := by
      simp [List.replicate, sched, step, ownerStep, ho, hf, h4, h1f]
    exact ⟨_, sched_reachable hr hs, rfl, h2, rfl, hw, h4, hq _ rfl⟩

/-- C49, what holds: without a timeout message `Wait` waited (`C48_wait`). -/
theorem C49_partial {prog : ℕ → List (M → M)} {m : M} {s : St M} (h : Reachable prog m s) (ho : s.opc = .waiting [])
    (hto : s.timedOut = false) : ∀ t ∈ s.futures, s.finished t = true := by
  obtain ⟨d, hd, hf⟩ := (inv_reachable h).1.waiting [] ho
  rw [List.append_nil] at hd
  rw [hd]
  exact hf hto

/-- C50: when `StopThreads` is about to return, no worker is left, the tasks that left the queue are `0 .. p-1`, exactly
these have started and all of them have finished with all their steps; the others are in the queue, in order. -/
theorem C50_stopped {prog : ℕ → List (M → M)} {m : M} {s : St M} (h : Reachable prog m s) {i : ℕ}
    (ho : s.opc = .joining i) (hi : ¬ i < s.nthreads) :
    (∀ w, s.wpc w = .absent) ∧ ∃ p ≤ s.next, Queue.content s.q = List.range' p (s.next - p) ∧
      ∀ t, (t ∈ s.started ↔ t < p) ∧ (s.finished t = true ↔ t < p) ∧
        stepsOf t s.trace = if t < p then List.range (prog t).length else [] := by
  obtain ⟨hA, hB⟩ := inv_reachable h
  obtain ⟨hr, hin, hab⟩ := hA.joining i ho
  have hw : ∀ w, s.wpc w = .absent := fun w => hab w (by omega)
  obtain ⟨p, hp, hpe, hst⟩ := C48_order_partial h
  have hq : ∀ w : ℕ, s.q.pc (some w) = .idle := fun w => hA.notPopping w (by rw [hw]; simp)
  have hiff : ∀ t, t ∈ s.started ↔ t < p := by
    intro t
    refine ⟨hst t, fun ht => ?_⟩
    rcases hB.popCases t (by rw [hpe]; simpa using ht) with h | ⟨w, h⟩
    · exact h
    · rw [hq] at h; cases h
  have hfin : ∀ t, s.finished t = true ↔ t < p := by
    intro t
    rw [← hiff]
    refine ⟨fun h => (hB.fin t h).1, fun h => ?_⟩
    rcases hB.stCases t h with h | ⟨w, k, h⟩
    · exact h
    · rw [hw] at h; cases h
  refine ⟨hw, p, hp, ?_, fun t => ⟨hiff t, hfin t, ?_⟩⟩
  · rw [Queue.content, hA.pushed, hpe, List.length_range, pushedUpTo, ho]
    simp [List.range_eq_range', List.drop_range']
  · split
    next ht => exact (hB.fin t ((hfin t).2 ht)).2
    next ht => exact hB.unstarted t (by rw [hiff]; exact ht)

end Altro.Pool
