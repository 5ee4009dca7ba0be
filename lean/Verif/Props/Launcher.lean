import Verif.Model.Launcher
import Verif.Props.Tasks

/-!
# C74: the work launcher
-/

namespace Altro.Tasks
open Spec Launch

theorem workLoop_ok (start : ℤ) (h0 : 0 ≤ start) : ∀ (r : ℕ) (c : List ℕ), start + r ≤ c.length →
    ∃ c', workLoop start r c = .ok c' ∧ c'.length = c.length ∧
      ∀ i : ℕ, c'[i]? = c[i]?.map (· + if start ≤ i ∧ (i : ℤ) < start + r then 1 else 0) := by
  intro r
  induction r with
  | zero =>
    intro c _
    refine ⟨c, rfl, rfl, fun i => ?_⟩
    rw [if_neg (by simp)]
    simp
  | succ r ih =>
    intro c hc
    obtain ⟨c', h1, h2, h3⟩ := ih c (by push_cast at hc; omega)
    obtain ⟨j, hj⟩ : ∃ j : ℕ, start + r = j := ⟨(start + r).toNat, by omega⟩
    have hjl : j < c.length := by push_cast at hc; omega
    have hcj : c'[j]? = some c[j] := by
      rw [h3, if_neg (by omega), List.getElem?_eq_getElem hjl]; rfl
    refine ⟨c'.set j (c[j] + 1), ?_, by simp [h2], fun i => ?_⟩
    · rw [workLoop, h1]
      simp only [bind, Except.bind, kernel]
      rw [hj]
      have e1 : vread c' (j : ℤ) = .ok c[j] := by
        unfold vread
        rw [if_pos (by omega), Int.toNat_natCast, hcj]
      rw [e1]
      simp [vwrite, h2, hjl]
    · rw [List.getElem?_set]
      by_cases hij : j = i
      · subst hij
        rw [if_pos rfl, if_pos (by omega), List.getElem?_eq_getElem hjl, if_pos (by push_cast; omega)]
        rfl
      · rw [if_neg hij, h3]
        have : (start ≤ (i : ℤ) ∧ (i : ℤ) < start + r) ↔ (start ≤ (i : ℤ) ∧ (i : ℤ) < start + (r + 1 : ℕ)) := by
          push_cast; omega
        simp only [this]

theorem runAll_ok : ∀ (bl : List (ℤ × ℤ)) (c : List ℕ), (∀ b ∈ bl, 0 ≤ b.1 ∧ b.1 ≤ b.2 ∧ b.2 ≤ c.length) →
    ∃ c', runAll bl c = .ok c' ∧ c'.length = c.length ∧ ∀ i : ℕ, c'[i]? = c[i]?.map (· + timesCovered bl i) := by
  intro bl
  induction bl with
  | nil => intro c _; exact ⟨c, rfl, rfl, fun i => by simp [timesCovered]⟩
  | cons b bl ih =>
    intro c hb
    obtain ⟨b1, b2, b3⟩ := hb b List.mem_cons_self
    obtain ⟨c', h1, h2, h3⟩ := workLoop_ok b.1 b1 (b.2 - b.1).toNat c (by omega)
    obtain ⟨c'', h4, h5, h6⟩ := ih c' fun x hx => by rw [h2]; exact hb x (List.mem_cons_of_mem _ hx)
    refine ⟨c'', ?_, h5.trans h2, fun i => ?_⟩
    · rw [runAll, workBlock, h1]; exact h4
    · rw [h6, h3, Option.map_map]
      congr 1
      funext a
      simp only [Function.comp, timesCovered, List.countP_cons, decide_eq_true_eq]
      have : (b.1 ≤ (i : ℤ) ∧ (i : ℤ) < b.1 + ((b.2 - b.1).toNat : ℤ)) ↔ (b.1 ≤ (i : ℤ) ∧ (i : ℤ) < b.2) := by omega
      simp only [this]
      omega

theorem loop_le {r : ℚ → ℚ} (hr : IsRounding r) {N : ℕ} {step : ℚ} (hs : 0 ≤ step) :
    ∀ {fuel : ℕ} {val : ℚ} {l : List ℤ}, 0 ≤ val → assignLoop r N step fuel val = some l → ∀ x ∈ l, x ≤ N := by
  intro fuel
  induction fuel with
  | zero => intro val l _ h; cases h
  | succ fuel ih =>
    intro val l hv h x hx
    rw [assignLoop] at h
    by_cases hle : val ≤ N
    · rw [if_pos hle] at h
      obtain ⟨l', hl', rfl⟩ := Option.map_eq_some_iff.mp h
      rcases List.mem_cons.mp hx with rfl | hx
      · have := cround_mono hv hle
        have e := cround_int (N : ℤ) (by omega)
        rw [show ((N : ℤ) : ℚ) = (N : ℚ) by norm_cast] at e
        omega
      · exact ih (hr.nonneg (by linarith)) hl' x hx
    · rw [if_neg hle] at h
      cases h
      cases hx

theorem blocks_mem : ∀ {l : List ℤ}, l.Pairwise (· ≤ ·) → ∀ b ∈ blocks l, b.1 ∈ l ∧ b.2 ∈ l ∧ b.1 ≤ b.2
  | [], _, b, h => by cases h
  | [a], _, b, h => by cases h
  | x :: y :: l, hp, b, h => by
    rw [blocks_cons] at h
    obtain ⟨h1, h2⟩ := List.pairwise_cons.1 hp
    rcases List.mem_cons.mp h with rfl | h
    · exact ⟨by simp, by simp, h1 y (by simp)⟩
    · obtain ⟨q1, q2, q3⟩ := blocks_mem h2 b h
      exact ⟨List.mem_cons_of_mem _ q1, List.mem_cons_of_mem _ q2, q3⟩

theorem sumCounts_eq (c : List ℕ) : sumCounts c = c.sum := by
  have : ∀ (c : List ℕ) (a : ℕ), c.foldl (fun a b => a + b) a = a + c.sum := by
    intro c
    induction c with
    | nil => simp
    | cons x c ih => intro a; simp [ih]; omega
  simpa [sumCounts] using this c 0

theorem sum_step (N L : ℕ) (h : L ≤ N) : ((List.range N).map fun i => if i < L then 1 else 0).sum = L := by
  induction N with
  | zero => simp; omega
  | succ N ih =>
    rw [List.range_succ, List.map_append, List.sum_append]
    by_cases hL : L ≤ N
    · rw [ih hL]; simp; omega
    · have : L = N + 1 := by omega
      subst this
      have : ((List.range N).map fun i => if i < N + 1 then 1 else 0) = List.replicate N 1 := by
        rw [List.eq_replicate_iff]
        refine ⟨by simp, fun b hb => ?_⟩
        obtain ⟨i, hi, rfl⟩ := List.mem_map.mp hb
        rw [if_pos (by have := List.mem_range.mp hi; omega)]
      rw [this]
      simp

/-- C74, what running all tasks does, in whatever order: with `L` the last index, the first `L` items are worked on once
and the others not at all; the sum of the counts is `L`, at most the number of items. -/
theorem C74_counts {r : ℚ → ℚ} (hr : IsRounding r) {fuel N : ℕ} {nthreads : ℤ} (hn : 1 ≤ nthreads) {w : Launcher}
    (hw : Launch.new r fuel N nthreads = some w) {bl : List (ℤ × ℤ)} (hbl : bl.Perm (blocks w.inds)) :
    ∃ L : ℕ, w.inds.getLast? = some (L : ℤ) ∧ L ≤ N ∧ w.counts.length = N ∧
      ∃ c, runAll bl w.counts = .ok c ∧ c = (List.range N).map (fun i => if i < L then 1 else 0) ∧ sumCounts c = L := by
  unfold Launch.new at hw
  obtain ⟨l, hl, rfl⟩ := Option.map_eq_some_iff.mp hw
  unfold rawInds at hl
  rw [if_neg (by omega)] at hl
  have hpos : (0 : ℚ) < nthreads := by exact_mod_cast (by omega : 0 < nthreads)
  have hs : 0 ≤ r (N / nthreads) := hr.nonneg (by positivity)
  obtain ⟨h1, h2, h3⟩ := loop_sorted hr hs le_rfl hr.zero hl
  have h3 := h3 (by positivity)
  rw [cround_zero] at h2 h3
  have hle := loop_le hr hs le_rfl hl
  obtain ⟨c, hc⟩ : ∃ c, l.getLast? = some c := by
    cases hb : l.getLast? with
    | none => rw [List.getLast?_eq_none_iff.1 hb] at h3; cases h3
    | some b => exact ⟨b, rfl⟩
  have hcm : c ∈ l := List.mem_of_getLast? hc
  have hc0 := h2 c hcm
  have hcN := hle c hcm
  obtain ⟨L, rfl⟩ := Int.eq_ofNat_of_zero_le hc0
  have hLN : L ≤ N := by exact_mod_cast hcN
  refine ⟨L, hc, hLN, by simp, ?_⟩
  obtain ⟨c', g1, g2, g3⟩ := runAll_ok bl (List.replicate N 0) fun b hb => by
    obtain ⟨q1, q2, q3⟩ := blocks_mem h1 b (hbl.mem_iff.mp hb)
    have := h2 b.1 q1
    have := hle b.2 q2
    simp only [List.length_replicate]
    omega
  have hcc : c' = (List.range N).map (fun i => if i < L then 1 else 0) := by
    refine List.ext_getElem? fun i => ?_
    rw [g3]
    have hcov : timesCovered bl i = timesCovered (blocks l) i := hbl.countP_eq _
    rw [hcov, (covered_of_sorted h1 h3 hc).2]
    by_cases hi : i < N
    · simp [hi, List.getElem?_replicate]
    · simp [hi, List.getElem?_replicate]
  exact ⟨c', g1, hcc, by rw [sumCounts_eq, hcc, sum_step N L hLN]⟩

/-- C74: every item is worked on exactly once precisely for the sizes for which the solver's own assignment does not fail
its assertion (the launcher has no such assertion). -/
theorem C74_all {r : ℚ → ℚ} (hr : IsRounding r) {fuel N : ℕ} (hN : 1 ≤ N) {nthreads : ℤ} (hn : 1 ≤ nthreads)
    {w : Launcher} (hw : Launch.new r fuel N nthreads = some w) {bl : List (ℤ × ℤ)} (hbl : bl.Perm (blocks w.inds)) :
    runAll bl w.counts = .ok (List.replicate N 1) ↔ ∃ l, defaultAssignment r fuel N nthreads 1 = some (.ok l) := by
  obtain ⟨L, h1, h2, h3, c, h4, h5, h6⟩ := C74_counts hr hn hw hbl
  have hraw : rawInds r fuel N (nthreads * 1) = some w.inds := by
    rw [mul_one]
    unfold Launch.new at hw
    obtain ⟨l, hl, rfl⟩ := Option.map_eq_some_iff.mp hw
    exact hl
  rw [h4]
  unfold defaultAssignment
  rw [hraw]
  simp only [h1]
  constructor
  · intro h
    have hc : c = List.replicate N 1 := by injection h
    have : L = N := by
      rw [← h6, hc, sumCounts_eq]; simp
    rw [this, if_pos rfl]
    exact ⟨_, rfl⟩
  · rintro ⟨l, hl⟩
    have hLN : (L : ℤ) = N := by
      by_contra hne
      rw [if_neg hne] at hl
      cases hl
    have : L = N := by exact_mod_cast hLN
    subst this
    rw [h5]
    congr 1
    rw [List.eq_replicate_iff]
    refine ⟨by simp, fun b hb => ?_⟩
    obtain ⟨i, hi, rfl⟩ := List.mem_map.mp hb
    rw [if_pos (List.mem_range.mp hi)]

/-- C74, with exact arithmetic every item is worked on once. -/
theorem C74_exact {fuel N : ℕ} (hN : 1 ≤ N) {nthreads : ℤ} (hn : 1 ≤ nthreads) (hf : nthreads.toNat + 1 < fuel) :
    ∃ w, Launch.new id fuel N nthreads = some w ∧ w.inds.length = nthreads.toNat + 1 ∧
      ∀ bl, bl.Perm (blocks w.inds) → runAll bl w.counts = .ok (List.replicate N 1) := by
  obtain ⟨l, h1, h2, h3⟩ := C51_exact_partial (fuel := fuel) (tasks := 1) hN (by omega : 1 ≤ nthreads * 1)
    (by rwa [mul_one])
  have hraw : ∃ l0, rawInds id fuel N nthreads = some l0 ∧ l = incLast l0 := by
    unfold defaultAssignment at h1
    rw [mul_one] at h1
    cases hl : rawInds id fuel N nthreads with
    | none => rw [hl] at h1; cases h1
    | some l0 =>
      rw [hl] at h1
      refine ⟨l0, rfl, ?_⟩
      cases hb : l0.getLast? with
      | none => simp [hb] at h1
      | some b =>
        simp only [hb] at h1
        split at h1 <;> simp at h1
        exact h1.symm
  obtain ⟨l0, h4, h5⟩ := hraw
  refine ⟨⟨List.replicate N 0, l0⟩, by rw [Launch.new, h4]; rfl, ?_, fun bl hbl => ?_⟩
  · show l0.length = _
    rw [← incLast_length, ← h5, h2, mul_one]
  · exact (C74_all isRounding_id hN hn (by rw [Launch.new, h4]; rfl) hbl).mpr ⟨l, h1⟩

/-- C74 is false in `double` arithmetic: with 50 items and 6 threads the launcher makes 5 tasks and leaves out the last 8
items, silently. -/
theorem C74_counterexample : ∃ w, Launch.new f64 20 50 6 = some w ∧ (blocks w.inds).length = 5 ∧
    runAll (blocks w.inds) w.counts = .ok (List.replicate 42 1 ++ List.replicate 8 0) :=
  ⟨⟨List.replicate 50 0, [0, 8, 17, 25, 33, 42]⟩, by decide +kernel, by decide +kernel, by decide +kernel⟩

/-- C74 is false without threads (what half of one processor gives in the benchmark): there are no tasks, no item is
worked on. -/
theorem C74_threads_counterexample (r : ℚ → ℚ) (fuel N : ℕ) :
    ∃ w, Launch.new r fuel N 0 = some w ∧ blocks w.inds = [] ∧ runAll (blocks w.inds) w.counts = .ok (List.replicate N 0) :=
  ⟨⟨List.replicate N 0, [0]⟩, by simp [Launch.new, rawInds], rfl, rfl⟩

/-- C74: without items the constructor does not return, and for a negative number of threads neither. -/
theorem C74_diverges {r : ℚ → ℚ} (hr : IsRounding r) (fuel N : ℕ) (nthreads : ℤ)
    (h : N = 0 ∧ nthreads ≠ 0 ∨ nthreads < 0) : Launch.new r fuel N nthreads = none := by
  have hne : nthreads ≠ 0 := by omega
  have hstep : r (N / nthreads) ≤ 0 := by
    rcases h with ⟨rfl, -⟩ | h
    · simp [hr.zero]
    · exact hr.nonpos (div_nonpos_of_nonneg_of_nonpos (by positivity) (by exact_mod_cast h.le))
  have : ∀ (f : ℕ) (v : ℚ), v ≤ 0 → assignLoop r N (r (N / nthreads)) f v = none := by
    intro f
    induction f with
    | zero => intro v _; rfl
    | succ f ih =>
      intro v hv
      rw [assignLoop, if_pos (hv.trans (by positivity)), ih _ (hr.nonpos (by linarith))]
      rfl
  unfold Launch.new rawInds
  rw [if_neg hne, this fuel 0 le_rfl]
  rfl

/-- 16 items on 4 threads in `double` arithmetic, tasks in reverse order. -/
example : ∃ w, Launch.new f64 20 16 4 = some w ∧
    runAll (blocks w.inds).reverse w.counts = .ok (List.replicate 16 1) :=
  ⟨⟨List.replicate 16 0, [0, 4, 8, 12, 16]⟩, by decide +kernel, by decide +kernel⟩

end Altro.Tasks
