import Verif.Proofs.Tasks

/-!
# C51, C52: assignment of knot points to tasks

C51 asks that the default assignment covers `0..N` once, whatever the sizes.  In `double` arithmetic it does not: the loop
adds up `step` and can step over `N`, and then the assertion fails (`C51_counterexample`).  Proved instead: what is
returned is always a partition, the function always returns or fails the assertion, and it does return when the sizes
make the sums exact.
-/

namespace Altro.Tasks
open Spec

/-- C51, what holds always: an assignment that is returned covers every knot point once. -/
theorem C51_returned_partial {r : ℚ → ℚ} (hr : IsRounding r) {fuel N : ℕ} (hN : 1 ≤ N) {nthreads tasks : ℤ}
    (hn : 1 ≤ nthreads * tasks) {l : List ℤ} (h : defaultAssignment r fuel N nthreads tasks = some (.ok l)) :
    Partition N (blocks l) ∧ 2 ≤ l.length := by
  unfold defaultAssignment rawInds at h
  rw [if_neg (by omega)] at h
  cases ha : assignLoop r N (r (N / (nthreads * tasks : ℤ))) fuel 0 with
  | none => rw [ha] at h; cases h
  | some l0 =>
    rw [ha] at h
    have hpos : (0 : ℚ) < (nthreads * tasks : ℤ) := by exact_mod_cast (by omega : 0 < nthreads * tasks)
    obtain ⟨h1, h2, h3⟩ := loop_sorted hr (hr.nonneg (by positivity)) le_rfl hr.zero ha
    have h3 := h3 (by positivity)
    rw [cround_zero] at h3
    cases hl : l0.getLast? with
    | none => simp [hl] at h
    | some b =>
      simp only [hl] at h
      split at h <;> simp at h
      next hb =>
      subst h
      have hlen : 2 ≤ l0.length := by
        match l0, h3, hl with
        | [a], h3, hl => simp at h3 hl; omega
        | a :: b :: l, _, _ => simp
      refine ⟨partition_of_sorted (incLast_sorted h1) ?_ ?_, by rw [incLast_length]; exact hlen⟩
      · rw [incLast_head _ hlen, h3]
      · rw [incLast_last hl, hb]

/-- If all sums are exact, the assignment has the requested number of tasks. -/
theorem assignment_exact {r : ℚ → ℚ} (hr : IsRounding r) {fuel N n : ℕ} (hN : 1 ≤ N) {nthreads tasks : ℤ}
    (hn : nthreads * tasks = n) (h1 : 1 ≤ n) (hf : n + 1 < fuel) (hstep : r (N / n) = N / n)
    (he : ∀ i ≤ n, r ((N / n : ℚ) * i + N / n) = (N / n : ℚ) * (i + 1)) :
    ∃ l, defaultAssignment r fuel N nthreads tasks = some (.ok l) ∧ l.length = n + 1 ∧ Partition N (blocks l) := by
  have hn0 : (0 : ℚ) < n := by exact_mod_cast h1
  have hN0 : (0 : ℚ) < N := by exact_mod_cast hN
  have hmul : (N / n : ℚ) * n = N := by field_simp
  have hloop := loop_exact hmul (by positivity) he (n + 1) 0 fuel (by omega) hf
  have hraw : rawInds r fuel N (nthreads * tasks)
      = some ((List.range' 0 (n + 1)).map fun j : ℕ => cround ((N / n : ℚ) * j)) := by
    unfold rawInds
    rw [if_neg (by omega), hn]
    push_cast
    rw [hstep]
    simpa using hloop
  have hlast : ((List.range' 0 (n + 1)).map fun j : ℕ => cround ((N / n : ℚ) * j)).getLast? = some (N : ℤ) := by
    rw [List.getLast?_map, List.range'_1_concat]
    simp only [zero_add, List.getLast?_append, List.getLast?_singleton, Option.some_or, Option.map_some, hmul]
    rw [show (N : ℚ) = ((N : ℤ) : ℚ) by push_cast; rfl, cround_int _ (by positivity)]
  have hdef : defaultAssignment r fuel N nthreads tasks
      = some (.ok (incLast ((List.range' 0 (n + 1)).map fun j : ℕ => cround ((N / n : ℚ) * j)))) := by
    unfold defaultAssignment
    rw [hraw]
    simp only [hlast, if_true]
  refine ⟨_, hdef, by simp [incLast_length], (C51_returned_partial hr hN (by omega) hdef).1⟩

/-- C51 in exact arithmetic: the default assignment has the requested number of tasks and is a partition. -/
theorem C51_exact_partial {fuel N : ℕ} (hN : 1 ≤ N) {nthreads tasks : ℤ} (hn : 1 ≤ nthreads * tasks)
    (hf : (nthreads * tasks).toNat + 1 < fuel) :
    ∃ l, defaultAssignment id fuel N nthreads tasks = some (.ok l) ∧ l.length = (nthreads * tasks).toNat + 1 ∧
      Partition N (blocks l) :=
  assignment_exact isRounding_id hN (n := (nthreads * tasks).toNat) (by omega) (by omega) hf rfl
    fun i _ => by simp only [id]; ring

/-- C51 in `double` arithmetic, for sizes that make the sums exact: the number of tasks divides `N * 2^j`.  This includes
every number of tasks that divides `N`, and every power of two. -/
theorem C51_dyadic_partial {fuel N j : ℕ} (hN : 1 ≤ N) {nthreads tasks : ℤ} (hn : 1 ≤ nthreads * tasks)
    (hf : (nthreads * tasks).toNat + 1 < fuel) (hd : (nthreads * tasks).toNat ∣ N * 2 ^ j) (hb : N * 2 ^ j < 2 ^ 52) :
    ∃ l, defaultAssignment f64 fuel N nthreads tasks = some (.ok l) ∧ l.length = (nthreads * tasks).toNat + 1 ∧
      Partition N (blocks l) := by
  have hj : j ≤ 1074 := by
    by_contra hc
    have : 2 ^ 1075 ≤ 2 ^ j := Nat.pow_le_pow_right (by norm_num) (by omega)
    have : 2 ^ 52 < 2 ^ 1075 := Nat.pow_lt_pow_right (by norm_num) (by norm_num)
    have : 1 * 2 ^ j ≤ N * 2 ^ j := Nat.mul_le_mul_right _ hN
    omega
  obtain ⟨n, hnn⟩ : ∃ n, (nthreads * tasks).toNat = n := ⟨_, rfl⟩
  rw [hnn] at hd hf ⊢
  have hn1 : 1 ≤ n := by omega
  have hn0 : (n : ℚ) ≠ 0 := by exact_mod_cast (by omega : n ≠ 0)
  obtain ⟨q, hq⟩ := hd
  have hqq : (N : ℚ) * 2 ^ j = n * q := by exact_mod_cast hq
  have key : ∀ i : ℕ, i ≤ n + 1 → f64 ((N / n : ℚ) * i) = (N / n : ℚ) * i := by
    intro i hi
    have e : (N / n : ℚ) * i = ((i * q : ℤ) : ℚ) * (2 : ℚ) ^ (-(j : ℤ)) := by
      rw [zpow_neg, zpow_natCast]
      push_cast
      field_simp
      linear_combination (i : ℚ) * hqq
    rw [e]
    refine ieee_repr 53 (-1074) (by norm_num) _ _ ?_ (by omega)
    rw [abs_of_nonneg (by positivity)]
    have h1 : i * q ≤ (n + 1) * q := Nat.mul_le_mul_right _ hi
    have h2 : q ≤ n * q := Nat.le_mul_of_pos_left q hn1
    have h3 : i * q < 2 ^ 53 := by
      have : (n + 1) * q = n * q + q := by ring
      have : (2 : ℕ) ^ 53 = 2 * 2 ^ 52 := by norm_num
      omega
    exact_mod_cast h3
  refine assignment_exact isRounding_f64 hN (n := n) (by omega) hn1 hf ?_ fun i hi => ?_
  · simpa using key 1 (by omega)
  · have := key (i + 1) (by omega)
    push_cast at this
    rw [show (N / n : ℚ) * i + N / n = (N / n : ℚ) * (i + 1) by ring]
    exact this

/-- C51 in `double` arithmetic for all sizes of C++ `int`: the loop ends, and either the result is a partition or the
assertion fails. -/
theorem C51_total_partial {fuel N : ℕ} (hN : 1 ≤ N) {nthreads tasks : ℤ} (hn : 1 ≤ nthreads * tasks)
    (hn' : nthreads * tasks < 2 ^ 31) (hf : 2 * (nthreads * tasks).toNat + 1 < fuel) :
    (∃ l, defaultAssignment f64 fuel N nthreads tasks = some (.ok l) ∧ Partition N (blocks l)) ∨
      defaultAssignment f64 fuel N nthreads tasks = some (.error .assertion) := by
  obtain ⟨n, hnn⟩ : ∃ n : ℕ, nthreads * tasks = n := ⟨(nthreads * tasks).toNat, by omega⟩
  have hn1 : (1 : ℚ) ≤ n := by exact_mod_cast (by omega : 1 ≤ n)
  have hN1 : (1 : ℚ) ≤ N := by exact_mod_cast hN
  have hn2 : (n : ℚ) ≤ 2 ^ 31 := by exact_mod_cast (by omega : (n : ℤ) ≤ 2 ^ 31)
  have hs0 : (N : ℚ) ≤ N / n * 2 ^ 31 := by
    rw [div_mul_eq_mul_div, le_div_iff₀ (by linarith)]; gcongr
  have hs1 : (N : ℚ) / n ≤ N := div_le_self (by linarith) hn1
  have hspos : (0 : ℚ) < N / n := by positivity
  have tiny : (2 : ℚ) ^ (-1074 - 1 : ℤ) ≤ 2 ^ (-53 : ℤ) := zpow_le_zpow_right₀ (by norm_num) (by norm_num)
  have e53 : (2 : ℚ) ^ (-53 : ℤ) = 1 / 2 ^ 53 := by rw [zpow_neg, one_div]; norm_cast
  have hrel : ∀ x : ℚ, 0 ≤ x → |f64 x - x| ≤ x * (1 / 2 ^ 53) + 1 / 2 ^ 53 := by
    intro x hx
    have := ieee_rel 53 (-1074) x
    rw [abs_of_nonneg hx, show (-((53 : ℕ) : ℤ)) = -53 from rfl, e53] at this
    rw [e53] at tiny
    exact this.trans (by linarith)
  have hstep := abs_le.1 (hrel (N / n) hspos.le)
  have hloop := loop_ends (r := f64) (N := N) (step := f64 (N / n)) (δ := N / n / 2)
    (fun v hv hvN => by
      have hs : 0 ≤ f64 (N / n) := ieee_nonneg _ _ hspos.le
      have := abs_le.1 (hrel (v + f64 (N / n)) (by linarith))
      norm_num at hstep this hs0 ⊢
      linarith) (by positivity) (2 * n + 1) 0 le_rfl
    (by
      push_cast
      have : (N : ℚ) / n * n = N := by field_simp
      nlinarith)
  -- more fuel does not matter
  have mono : ∀ (f g : ℕ) (v : ℚ), (assignLoop f64 N (f64 (N / n)) f v).isSome → f ≤ g →
      (assignLoop f64 N (f64 (N / n)) g v).isSome := by
    intro f
    induction f with
    | zero => intro g v h; cases h
    | succ f ih =>
      intro g v h hg
      obtain ⟨g, rfl⟩ : ∃ g', g = g' + 1 := ⟨g - 1, by omega⟩
      rw [assignLoop] at h ⊢
      split
      next hle =>
        rw [if_pos hle, Option.isSome_map] at h
        rw [Option.isSome_map]
        exact ih g _ h (by omega)
      next => rfl
  have hsome := mono _ fuel 0 hloop (by omega)
  rw [Option.isSome_iff_exists] at hsome
  obtain ⟨l, hl⟩ := hsome
  have hdef : rawInds f64 fuel N (nthreads * tasks) = some l := by
    unfold rawInds; rw [if_neg (by omega), hnn]; push_cast; exact hl
  have hh := (loop_sorted isRounding_f64 (isRounding_f64.nonneg hspos.le) le_rfl isRounding_f64.zero hl).2.2
    (by positivity)
  cases hb : l.getLast? with
  | none => rw [List.getLast?_eq_none_iff.1 hb] at hh; cases hh
  | some b =>
    by_cases he : b = N
    · left
      have : defaultAssignment f64 fuel N nthreads tasks = some (.ok (incLast l)) := by
        unfold defaultAssignment; rw [hdef]; simp only [hb]; rw [if_pos he]
      exact ⟨_, this, (C51_returned_partial isRounding_f64 hN hn this).1⟩
    · right
      unfold defaultAssignment; rw [hdef]; simp only [hb]; rw [if_neg he]

/-- C51 is false: with 50 segments and 6 threads the sums step over 50 and the assertion fails. -/
theorem C51_counterexample : defaultAssignment f64 20 50 6 1 = some (.error .assertion) := by decide +kernel

/-- .. also for 100 segments with 7 threads, and for 7 segments with 3 threads and 2 tasks per thread. -/
theorem C51_counterexample_more : defaultAssignment f64 20 100 7 1 = some (.error .assertion) ∧
    defaultAssignment f64 20 7 3 2 = some (.error .assertion) := by decide +kernel

/-- C51 is false without tasks: the assertion fails for every number of segments. -/
theorem C51_zero_counterexample (r : ℚ → ℚ) (fuel : ℕ) {N : ℕ} (hN : 1 ≤ N) (nthreads : ℤ) :
    defaultAssignment r fuel N nthreads 0 = some (.error .assertion) := by
  simp [defaultAssignment, rawInds]; omega

/-- C51: with a negative number of tasks per thread the loop does not end. -/
theorem C51_negative_counterexample {r : ℚ → ℚ} (hr : IsRounding r) (fuel N : ℕ) {nthreads tasks : ℤ}
    (h : nthreads * tasks < 0) : defaultAssignment r fuel N nthreads tasks = none := by
  have hneg : ((nthreads * tasks : ℤ) : ℚ) < 0 := by exact_mod_cast h
  have hstep : r (N / (nthreads * tasks : ℤ)) ≤ 0 := hr.nonpos (div_nonpos_of_nonneg_of_nonpos (by positivity) hneg.le)
  have : ∀ (f : ℕ) (v : ℚ), v ≤ 0 → assignLoop r N (r (N / (nthreads * tasks : ℤ))) f v = none := by
    intro f
    induction f with
    | zero => intro v _; rfl
    | succ f ih =>
      intro v hv
      have hN : (0 : ℚ) ≤ N := by positivity
      rw [assignLoop, if_pos (by linarith), ih _ (hr.nonpos (by linarith))]; rfl
  unfold defaultAssignment rawInds
  rw [if_neg (by omega), this _ _ le_rfl]

/-- C51 in a concrete case: 50 segments on 4 threads. -/
example : defaultAssignment f64 20 50 4 1 = some (.ok [0, 13, 25, 38, 51]) := by decide +kernel

/-- Here `C51_dyadic_partial` applies. -/
example : ∃ l, defaultAssignment f64 20 50 4 1 = some (.ok l) ∧ l.length = 5 ∧ Partition 50 (blocks l) :=
  C51_dyadic_partial (j := 1) (by norm_num) (by norm_num) (by decide) (by decide) (by norm_num)

/-- More tasks than segments: some blocks are empty, still a partition. -/
example : defaultAssignment f64 20 3 4 1 = some (.ok [0, 1, 2, 2, 4]) := by decide +kernel

/-- The number of threads is positive exactly when it is not left to a machine that does not tell how many it has. -/
theorem C51_threads (o : Opts) : 1 ≤ o.numThreads ↔ ¬ (o.nthreads = -1 ∧ o.hw = 0) := by
  unfold Opts.numThreads
  split
  · next h => simp [h]; omega
  · next h => simp [h]

/-- A number that is given is used, if it is positive; anything else but `-1` means one thread. -/
theorem C51_threads_given (o : Opts) (h : o.nthreads ≠ -1) :
    (1 ≤ o.nthreads → o.numThreads = o.nthreads) ∧ (o.nthreads ≤ 0 → o.numThreads = 1) := by
  unfold Opts.numThreads
  rw [if_neg h]
  omega

/-- C51 is false if `hardware_concurrency` returns 0, which it may: choosing the number of threads automatically then
fails the assertion when a solve starts, whatever the number of segments. -/
theorem C51_hardware_counterexample (r : ℚ → ℚ) (fuel : ℕ) {N : ℕ} (hN : 1 ≤ N) (tasks : ℤ) :
    launchThreads r fuel ⟨-1, tasks, 0⟩ (.fresh N) = some (.error .assertion) := by
  have h0 : ¬ (0 : ℤ) = N := by omega
  have h1 : 0 < N := by omega
  simp [launchThreads, Opts.numThreads, St.fresh, getTaskAssignment, shouldRedo, St.numTasks, defaultAssignment, rawInds,
    h0, h1]

/-! ## C52 -/

/-- C52 is false: on a solver that has not made an assignment the call is undefined, for every vector. -/
theorem C52_fresh_counterexample (N : ℕ) (inds : List ℤ) :
    setTaskAssignment inds (.fresh N) = .error .undefined := rfl

/-- .. and solvers that use one thread do not make one, so it stays undefined after any number of solves. -/
theorem C52_serial_counterexample (r : ℚ → ℚ) (fuel N : ℕ) (o : Opts) (ho : o.numThreads = 1) (inds : List ℤ) :
    launchThreads r fuel o (.fresh N) = some (.ok (.fresh N)) ∧ setTaskAssignment inds (.fresh N) = .error .undefined := by
  simp [launchThreads, St.fresh, ho, setTaskAssignment]

/-- The state of a solver with 50 segments after a solve with 4 threads has started. -/
def demo : St := ⟨50, [0, 13, 25, 38, 51], false, [(0, 13), (13, 25), (25, 38), (38, 51)], 4⟩

theorem demo_launch : launchThreads f64 20 ⟨4, 1, 8⟩ (.fresh 50) = some (.ok demo) := by decide +kernel

/-- C52 is false: vectors that are no valid assignment are accepted: the empty one, one that misses most knot points, and
one with indices that do not exist. -/
theorem C52_accepts_counterexample : ∀ l ∈ [[], [5], [3, 7], [-4, 100]],
    setTaskAssignment l demo = .ok { demo with inds := l, custom := true } ∧ ¬ ValidInds 50 l := by
  intro l hl
  fin_cases hl <;> refine ⟨by decide, ?_⟩ <;> simp [ValidInds]

/-- .. and after one of them every valid vector is rejected. -/
theorem C52_rejects_counterexample : ∃ s, setTaskAssignment [3, 7] demo = .ok s ∧
    ∀ l, setTaskAssignment l s = .error .assertion := by
  refine ⟨{ demo with inds := [3, 7], custom := true }, by decide, fun l => ?_⟩
  simp [setTaskAssignment, demo]

/-- C52 is false: an accepted valid assignment is not used by the next solve, which goes on with the old tasks. -/
theorem C52_unused_counterexample : ∃ s, setTaskAssignment [0, 20, 51] demo = .ok s ∧ ValidInds 50 [0, 20, 51] ∧
    launchThreads f64 20 ⟨4, 1, 8⟩ s = some (.ok s) ∧ usedBlocks s = [(0, 13), (13, 25), (25, 38), (38, 51)] :=
  ⟨{ demo with inds := [0, 20, 51], custom := true }, by decide, by simp [ValidInds], by decide +kernel, rfl⟩

/-- C52, what holds: if the current assignment is valid, exactly the strictly increasing vectors are accepted. -/
theorem C52_accepts_partial {s : St} (hs : ValidInds s.N s.inds) (l : List ℤ) :
    (l.Pairwise (· < ·) → setTaskAssignment l s = .ok { s with inds := l, custom := true }) ∧
      (¬ l.Pairwise (· < ·) → setTaskAssignment l s = .error .assertion) := by
  obtain ⟨-, h2, h3, h4⟩ := hs
  unfold setTaskAssignment
  rw [h3, h4]
  simp only [isSorted_iff]
  exact ⟨fun h => by rw [if_pos ⟨trivial, trivial, h2, h⟩], fun h => by rw [if_neg (fun hc => h hc.2.2.2)]⟩

/-- C52, what holds: if moreover the number of threads changes to at least two, the next launch takes an accepted
assignment; and a valid assignment is a partition. -/
theorem C52_used_partial {r : ℚ → ℚ} {fuel : ℕ} {o : Opts} {s s' : St} {l : List ℤ} (hN : 1 ≤ s.N)
    (h : setTaskAssignment l s = .ok s') (hl : ValidInds s.N l) (h2 : 2 ≤ o.numThreads) (hne : o.numThreads ≠ s.pool) :
    ∃ s'', launchThreads r fuel o s' = some (.ok s'') ∧ s''.inds = l ∧ usedBlocks s'' = blocks l ∧
      Partition s.N (usedBlocks s'') := by
  have hs' : s' = { s with inds := l, custom := true } := by
    unfold setTaskAssignment at h
    split at h <;> try split at h
    all_goals simp at h
    exact h.symm
  subst hs'
  refine ⟨{ s with inds := l, custom := true, tasks := blocks l, pool := o.numThreads.toNat }, ?_, rfl, ?_, ?_⟩
  · unfold launchThreads
    simp only []
    rw [if_neg (by omega), if_pos ⟨by omega, Or.inl hne⟩]
    simp only [getTaskAssignment, shouldRedo, Bool.true_or, Bool.not_true, Bool.false_eq_true, if_false]
    rw [if_pos (by omega)]
  · unfold usedBlocks; rw [if_neg (by simp only []; omega)]
  · unfold usedBlocks
    rw [if_neg (by simp only []; omega)]
    exact partition_of_sorted (hl.1.imp fun h => h.le) hl.2.2.1 hl.2.2.2

/-- `C52_used_partial` in a concrete case: from 4 threads to 2. -/
example : ∃ s', setTaskAssignment [0, 20, 51] demo = .ok s' ∧ ∃ s'', launchThreads f64 20 ⟨2, 1, 8⟩ s' = some (.ok s'') ∧
    usedBlocks s'' = [(0, 20), (20, 51)] :=
  ⟨{ demo with inds := [0, 20, 51], custom := true }, by decide,
    ⟨50, [0, 20, 51], true, [(0, 20), (20, 51)], 2⟩, by decide +kernel, rfl⟩

/-! ## Histories of solves -/

/-- What can happen to the assignment between two solves. -/
inductive Event where
  /-- a solve starts with these options -/
  | launch (o : Opts)
  /-- the user sets an assignment -/
  | assign (l : List ℤ)

def event (r : ℚ → ℚ) (fuel : ℕ) (s : St) : Event → Option (Except Err St)
  | .launch o => launchThreads r fuel o s
  | .assign l => some (setTaskAssignment l s)

/-- A history in which every call returns normally. -/
inductive History (r : ℚ → ℚ) (fuel : ℕ) : St → List Event → St → Prop
  | nil (s : St) : History r fuel s [] s
  | cons {s s' s'' : St} {e : Event} {l : List Event} : event r fuel s e = some (.ok s') → History r fuel s' l s'' →
      History r fuel s (e :: l) s''

/-- Assignments set by the user are valid. -/
def ValidEvent (N : ℕ) : Event → Prop
  | .launch _ => True
  | .assign l => ValidInds N l

structure AssignInv (N : ℕ) (s : St) : Prop where
  size : s.N = N
  inds : s.inds = [] ∨ Partition N (blocks s.inds)
  nonempty : s.custom = true → s.inds ≠ []
  tasks : 2 ≤ s.pool → Partition N s.tasks

theorem numThreads_nonneg (o : Opts) : 0 ≤ o.numThreads := by
  unfold Opts.numThreads; split <;> omega

theorem partition_whole (N : ℕ) : Partition N [(0, (N : ℤ) + 1)] := by
  intro k
  simp only [timesCovered, List.countP_cons, List.countP_nil, decide_eq_true_eq, zero_add]
  split <;> split <;> omega

theorem launch_inv {r : ℚ → ℚ} (hr : IsRounding r) {fuel N : ℕ} {o : Opts} {s s' : St} (hs : AssignInv N s)
    (h : launchThreads r fuel o s = some (.ok s')) : AssignInv N s' := by
  unfold launchThreads at h
  simp only at h
  by_cases h1 : s.pool = 0 ∧ o.numThreads = 1
  · rw [if_pos h1] at h; cases h; exact hs
  rw [if_neg h1] at h
  by_cases h2 : 0 < s.N ∧ (o.numThreads ≠ s.pool ∨ shouldRedo o s = true)
  swap
  · rw [if_neg h2] at h; cases h; exact hs
  rw [if_pos h2] at h
  have hN : 1 ≤ N := by rw [← hs.size]; exact h2.1
  have hn := numThreads_nonneg o
  unfold getTaskAssignment at h
  by_cases h3 : shouldRedo o s = true
  · rw [if_pos h3] at h
    cases hd : defaultAssignment r fuel s.N o.numThreads o.tasksPerThread with
    | none => rw [hd] at h; cases h
    | some e =>
      cases e with
      | error e => rw [hd] at h; cases h
      | ok l =>
        rw [hd] at h; cases h
        rw [hs.size] at hd
        have hp : 1 ≤ o.numThreads * o.tasksPerThread := by
          by_contra hc
          rcases lt_or_eq_of_le (by omega : o.numThreads * o.tasksPerThread ≤ 0) with hc | hc
          · rw [C51_negative_counterexample hr fuel N hc] at hd; cases hd
          · unfold defaultAssignment rawInds at hd
            rw [if_pos hc] at hd
            have h0 : ¬ (0 : ℤ) = N := by omega
            simp only [List.getLast?_singleton, if_neg h0] at hd
            cases hd
        obtain ⟨p1, p2⟩ := C51_returned_partial hr hN hp hd
        refine ⟨hs.size, Or.inr p1, fun _ e => ?_, fun _ => p1⟩
        have e : l = [] := e
        rw [e] at p2; simp at p2
  · rw [if_neg h3] at h; cases h
    refine ⟨hs.size, hs.inds, hs.nonempty, fun hp => ?_⟩
    have hp : 2 ≤ if 1 < o.numThreads then o.numThreads.toNat else 0 := hp
    have hp' : 2 ≤ o.numThreads := by split at hp <;> omega
    refine hs.inds.resolve_left fun e => ?_
    simp only [shouldRedo, Bool.not_eq_true', Bool.or_eq_true, decide_eq_true_eq, Bool.not_eq_false] at h3
    rcases h3 with h3 | h3
    · exact hs.nonempty h3 e
    · simp only [St.numTasks, e, List.length_nil, Nat.cast_zero, zero_sub] at h3
      rcases lt_trichotomy o.tasksPerThread 0 with h4 | h4 | h4
      · nlinarith
      · rw [h4, mul_zero] at h3; omega
      · nlinarith

/-- **C51, C52, every history of solves.**  Whatever the options of each solve are (numbers of threads and of tasks, in
any order), and whatever valid assignments are set in between: if no call fails, the blocks of knot points that the next
expansion works on contain every knot point exactly once.  Missing for the full claims: calls can fail
(`C51_counterexample`), and invalid assignments are accepted (`C52_accepts_counterexample`). -/
theorem C52_history_partial {r : ℚ → ℚ} (hr : IsRounding r) {fuel N : ℕ} {l : List Event} {s : St}
    (hl : ∀ e ∈ l, ValidEvent N e) (h : History r fuel (.fresh N) l s) : Partition N (usedBlocks s) := by
  have key : ∀ (l : List Event) (s s' : St), AssignInv N s → (∀ e ∈ l, ValidEvent N e) → History r fuel s l s' →
      AssignInv N s' := by
    intro l s s' hs hl h
    induction h with
    | nil => exact hs
    | @cons s s1 s2 e l he _ ih =>
      refine ih ?_ fun e he => hl e (by simp [he])
      cases e with
      | launch o => exact launch_inv hr hs he
      | assign i =>
        have hv : ValidInds N i := hl (.assign i) (by simp)
        simp only [event, Option.some.injEq] at he
        unfold setTaskAssignment at he
        split at he <;> try split at he
        all_goals simp at he
        subst he
        refine ⟨hs.size, Or.inr (partition_of_sorted (hv.1.imp fun h => h.le) hv.2.2.1 hv.2.2.2), fun _ e => ?_, hs.tasks⟩
        have e : i = [] := e
        have := hv.2.1
        rw [e] at this; simp at this
  have hi := key l _ _ ⟨rfl, Or.inl rfl, by simp [St.fresh], by simp [St.fresh]⟩ hl h
  unfold usedBlocks
  split
  · rw [hi.size]; exact partition_whole N
  · exact hi.tasks (by omega)

/-- A history in which the number of threads goes from 1 to 4, a custom assignment is set, and it goes to 2 and back
to 1. -/
example : ∃ s1 s2, History f64 20 (.fresh 50) [.launch ⟨1, 1, 8⟩, .launch ⟨4, 1, 8⟩, .assign [0, 20, 51], .launch ⟨2, 1, 8⟩] s1 ∧
    usedBlocks s1 = [(0, 20), (20, 51)] ∧ History f64 20 s1 [.launch ⟨1, 1, 8⟩] s2 ∧ usedBlocks s2 = [(0, 51)] := by
  refine ⟨⟨50, [0, 20, 51], true, [(0, 20), (20, 51)], 2⟩, ⟨50, [0, 20, 51], true, [(0, 20), (20, 51)], 0⟩, ?_, rfl, ?_, rfl⟩
  · exact .cons (s' := .fresh 50) (by decide +kernel) (.cons (s' := demo) (by decide +kernel)
      (.cons (s' := { demo with inds := [0, 20, 51], custom := true }) (by decide +kernel)
        (.cons (by decide +kernel) (.nil _))))
  · exact .cons (by decide +kernel) (.nil _)

/-- `round` gives a nearest integer, and of two the one further from zero. -/
theorem C51_round (q : ℚ) : |(cround q : ℚ) - q| ≤ 1 / 2 ∧ (|(cround q : ℚ) - q| = 1 / 2 → |q| < |(cround q : ℚ)|) := by
  unfold cround
  split_ifs with h
  · have h1 := Int.floor_le (q + 1 / 2)
    have h2 := Int.lt_floor_add_one (q + 1 / 2)
    refine ⟨abs_le.mpr ⟨by linarith, by linarith⟩, fun he => ?_⟩
    rcases abs_eq (by norm_num : (0 : ℚ) ≤ 1 / 2) |>.mp he with he | he
    · rw [abs_of_nonneg h, abs_of_nonneg (by linarith)]; linarith
    · linarith
  · have h1 := Int.floor_le (-q + 1 / 2)
    have h2 := Int.lt_floor_add_one (-q + 1 / 2)
    push_cast
    refine ⟨abs_le.mpr ⟨by linarith, by linarith⟩, fun he => ?_⟩
    rcases abs_eq (by norm_num : (0 : ℚ) ≤ 1 / 2) |>.mp he with he | he
    · linarith
    · rw [abs_of_neg (by linarith), abs_of_neg (by linarith)]; linarith

example : cround (5 / 2) = 3 ∧ cround (-5 / 2) = -3 ∧ cround (12 / 5) = 2 ∧ cround (-12 / 5) = -2 := by decide +kernel

/-- When a solver that has threads is asked to launch as many again, the assignment is made anew exactly if it was not set by
hand and has another number of tasks than the options ask for; otherwise nothing changes. -/
theorem C51_redo {r : ℚ → ℚ} {fuel : ℕ} {o : Opts} {s : St} (hp : o.numThreads = s.pool) (h1 : 1 < o.numThreads)
    (hN : 0 < s.N) :
    ((s.custom = true ∨ (s.inds.length : ℤ) = o.numThreads * o.tasksPerThread + 1) →
      launchThreads r fuel o s = some (.ok s)) ∧
    (¬ (s.custom = true ∨ (s.inds.length : ℤ) = o.numThreads * o.tasksPerThread + 1) → ∀ s', launchThreads r fuel o s = some (.ok s') →
      defaultAssignment r fuel s.N o.numThreads o.tasksPerThread = some (.ok s'.inds) ∧ s'.tasks = blocks s'.inds) := by
  have hn : ¬ (s.pool = 0 ∧ o.numThreads = 1) := by omega
  have hiff : shouldRedo o s = true ↔ ¬ (s.custom = true ∨ (s.inds.length : ℤ) = o.numThreads * o.tasksPerThread + 1) := by
    have : (s.inds.length : ℤ) - 1 = o.numThreads * o.tasksPerThread ↔
        (s.inds.length : ℤ) = o.numThreads * o.tasksPerThread + 1 := by
      constructor <;> intro h <;> linarith
    rw [← this]
    simp [shouldRedo, St.numTasks, -decide_eq_false_iff_not]
    exact fun _ => decide_eq_false_iff_not
  constructor
  · intro h
    have hf : ¬ shouldRedo o s = true := fun hc => hiff.mp hc h
    unfold launchThreads
    simp only
    rw [if_neg hn, if_neg (by rintro ⟨-, h | h⟩; exacts [h hp, hf h])]
  · intro h s' hs
    have hf := hiff.mpr h
    unfold launchThreads at hs
    simp only at hs
    rw [if_neg hn, if_pos ⟨hN, .inr hf⟩] at hs
    unfold getTaskAssignment at hs
    rw [if_pos hf] at hs
    cases hd : defaultAssignment r fuel s.N o.numThreads o.tasksPerThread with
    | none => rw [hd] at hs; cases hs
    | some x =>
      cases x with
      | error e => rw [hd] at hs; cases hs
      | ok l => rw [hd] at hs; cases hs; exact ⟨rfl, rfl⟩

/-- Two threads: two tasks stay as they are, and become four when two per thread are asked for. -/
example : launchThreads id 9 ⟨2, 1, 8⟩ ⟨4, [0, 2, 5], false, [(0, 2), (2, 5)], 2⟩
      = some (.ok ⟨4, [0, 2, 5], false, [(0, 2), (2, 5)], 2⟩) ∧
    launchThreads id 9 ⟨2, 2, 8⟩ ⟨4, [0, 2, 5], false, [(0, 2), (2, 5)], 2⟩
      = some (.ok ⟨4, [0, 1, 2, 3, 5], false, [(0, 1), (1, 2), (2, 3), (3, 5)], 2⟩) := by
  constructor <;> decide +kernel

end Altro.Tasks
