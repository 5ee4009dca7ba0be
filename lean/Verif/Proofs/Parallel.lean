import Verif.Model.Parallel
import Verif.Proofs.Pool
import Verif.Proofs.Tasks
import Mathlib.Data.List.Nodup

namespace Altro.Pool
variable {M : Type}

/-- Run the steps of task `t`. -/
def runTask (prog : ℕ → List (M → M)) (m : M) (t : ℕ) : M := (prog t).foldl (fun m f => f m) m

/-- Run events. -/
def exec (prog : ℕ → List (M → M)) (evs : List (ℕ × ℕ)) (m : M) : M :=
  evs.foldl (fun m e => ((prog e.1)[e.2]?.getD id) m) m

/-- Steps of different tasks commute. -/
def Commuting (prog : ℕ → List (M → M)) (ts : List ℕ) : Prop :=
  ∀ t ∈ ts, ∀ t' ∈ ts, t ≠ t' → ∀ f ∈ prog t, ∀ g ∈ prog t', ∀ m, f (g m) = g (f m)

theorem getD_commute {prog : ℕ → List (M → M)} {ts : List ℕ} (hc : Commuting prog ts) {t t' k k' : ℕ} (ht : t ∈ ts)
    (ht' : t' ∈ ts) (hne : t ≠ t') (m : M) :
    ((prog t)[k]?.getD id) (((prog t')[k']?.getD id) m) = ((prog t')[k']?.getD id) (((prog t)[k]?.getD id) m) := by
  cases h : (prog t)[k]? with
  | none => rfl
  | some f =>
    cases h' : (prog t')[k']? with
    | none => rfl
    | some g => exact hc t ht t' ht' hne f (List.mem_of_getElem? h) g (List.mem_of_getElem? h') m

theorem exec_other {prog : ℕ → List (M → M)} {ts : List ℕ} (hc : Commuting prog ts) {t k : ℕ} (ht : t ∈ ts) :
    ∀ (evs : List (ℕ × ℕ)) (m : M), (∀ e ∈ evs, e.1 ∈ ts ∧ e.1 ≠ t) →
      exec prog evs (((prog t)[k]?.getD id) m) = ((prog t)[k]?.getD id) (exec prog evs m) := by
  intro evs
  induction evs with
  | nil => intro m _; rfl
  | cons e evs ih =>
    intro m h
    have he := h e (by simp)
    simp only [exec, List.foldl_cons]
    rw [getD_commute hc he.1 ht he.2]
    exact ih _ fun e' he' => h e' (List.mem_cons_of_mem _ he')

/-- The steps of one task can be done first. -/
theorem exec_split {prog : ℕ → List (M → M)} {ts : List ℕ} (hc : Commuting prog ts) (t : ℕ) :
    ∀ (evs : List (ℕ × ℕ)) (m : M), (∀ e ∈ evs, e.1 ∈ ts) →
      exec prog evs m = exec prog (evs.filter fun e => e.1 ≠ t) (exec prog (evs.filter fun e => e.1 = t) m) := by
  intro evs
  induction evs with
  | nil => intro m _; rfl
  | cons e evs ih =>
    intro m h
    have h' : ∀ e ∈ evs, e.1 ∈ ts := fun e' he' => h e' (List.mem_cons_of_mem _ he')
    have e1 : exec prog (e :: evs) m = exec prog evs (((prog e.1)[e.2]?.getD id) m) := rfl
    rw [e1, ih _ h']
    by_cases he : e.1 = t
    · rw [List.filter_cons_of_neg (by simp [he]), List.filter_cons_of_pos (by simp [he])]; rfl
    · have : exec prog (evs.filter fun e => e.1 = t) (((prog e.1)[e.2]?.getD id) m)
          = ((prog e.1)[e.2]?.getD id) (exec prog (evs.filter fun e => e.1 = t) m) := by
        refine exec_other hc (h e (by simp)) _ _ fun e' he' => ?_
        simp only [List.mem_filter, decide_eq_true_eq] at he'
        exact ⟨h' _ he'.1, he'.2 ▸ Ne.symm he⟩
      rw [this, List.filter_cons_of_pos (by simp [he]), List.filter_cons_of_neg (by simp [he])]; rfl

theorem exec_range (prog : ℕ → List (M → M)) (t : ℕ) (m : M) :
    exec prog ((List.range (prog t).length).map fun k => (t, k)) m = runTask prog m t := by
  unfold exec runTask
  rw [List.foldl_map]
  have : ∀ (l : List (M → M)) (m : M), (List.range l.length).foldl (fun m k => (l[k]?.getD id) m) m
      = l.foldl (fun m f => f m) m := by
    intro l
    induction l with
    | nil => intro m; rfl
    | cons f l ih =>
      intro m
      rw [List.length_cons, List.range_succ_eq_map, List.foldl_cons, List.foldl_map]
      simpa using ih (f m)
  exact this (prog t) m

/-- If every task of `ts` did all its steps in order, the result is the one of running the tasks one by one. -/
theorem exec_serial {prog : ℕ → List (M → M)} : ∀ (ts : List ℕ) (evs : List (ℕ × ℕ)) (m : M), ts.Nodup →
    Commuting prog ts → (∀ e ∈ evs, e.1 ∈ ts) →
    (∀ t ∈ ts, evs.filter (fun e => e.1 = t) = (List.range (prog t).length).map fun k => (t, k)) →
    exec prog evs m = ts.foldl (runTask prog) m := by
  intro ts
  induction ts with
  | nil =>
    intro evs m _ _ h _
    cases evs with
    | nil => rfl
    | cons e _ => exact absurd (h e (by simp)) (by simp)
  | cons t ts ih =>
    intro evs m hn hc h hf
    obtain ⟨hnt, hn⟩ := List.nodup_cons.1 hn
    rw [exec_split hc t evs m h, hf t (by simp), exec_range, List.foldl_cons]
    refine ih _ _ hn (fun a ha b hb => hc a (List.mem_cons_of_mem _ ha) b (List.mem_cons_of_mem _ hb)) ?_ ?_
    · intro e he
      simp only [List.mem_filter, decide_eq_true_eq] at he
      exact (List.mem_cons.1 (h e he.1)).resolve_left he.2
    · intro t' ht'
      have : t' ≠ t := fun e => hnt (e ▸ ht')
      rw [← hf t' (List.mem_cons_of_mem _ ht'), List.filter_filter]
      congr 1
      funext e
      by_cases he : e.1 = t' <;> simp [he, this]

theorem stepsOf_tasks (t : ℕ) (evs : List (ℕ × ℕ)) :
    (evs.filter fun e => e.1 = t) = (stepsOf t (evs.map fun e => (TraceEv.task e.1 e.2 : TraceEv M))).map fun k => (t, k) := by
  induction evs with
  | nil => rfl
  | cons e evs ih =>
    by_cases he : e.1 = t
    · subst he
      simp only [List.filter_cons, decide_true, if_true, stepsOf, List.map_cons, List.filterMap_cons]
      rw [ih]; rfl
    · simp only [List.filter_cons, stepsOf, List.map_cons, List.filterMap_cons, he]
      simpa [stepsOf] using ih

/-! ### One batch -/

theorem worker_trace {prog : ℕ → List (M → M)} {w : ℕ} {s s' : St M} (h : workerStep prog w s = .next s') :
    (s'.trace = s.trace ∨ ∃ t k, s'.trace = s.trace ++ [.task t k]) ∧ (∀ t, s.finished t = true → s'.finished t = true) ∧
      s'.opc = s.opc ∧ s'.next = s.next ∧ s'.mark = s.mark ∧ s'.timedOut = s.timedOut := by
  unfold workerStep at h
  split at h
  · cases h
  · cases h
  · simp at h; subst h; simp
  · split at h <;> obtain ⟨q, hq, rfl⟩ := withQ_next h <;> simp
  · split at h <;> simp at h <;> subst h
    · exact ⟨Or.inr ⟨_, _, rfl⟩, fun _ h => h, rfl, rfl, rfl, rfl⟩
    · refine ⟨Or.inl rfl, fun t' h' => ?_, rfl, rfl, rfl, rfl⟩
      rename_i t _ _ _ _
      by_cases e : t' = t
      · subst e; simp
      · simp [Function.update_of_ne e, h']

/-- What holds during `UpdateExpansions`. -/
structure InvBatch (b n : ℕ) (tr : List (TraceEv M)) (s : St M) : Prop where
  old : ∀ t < b, s.finished t = true
  next : b ≤ s.next ∧ s.next ≤ b + n
  mark : s.mark ≤ b ∨ (s.next = b + n ∧ ∀ t < b + n, s.finished t = true)
  opc : s.opc = .idle ∨ (∃ t, s.opc = .adding t) ∨ ((∃ r, s.opc = .waiting r) ∧ s.timedOut = false ∧ s.next = b + n)
  trace : ∃ evs : List (ℕ × ℕ), s.trace = tr ++ evs.map fun e => .task e.1 e.2

theorem invBatch_step {prog : ℕ → List (M → M)} {m : M} {b n : ℕ} {tr : List (TraceEv M)} {s s' : St M}
    (hr : Reachable prog m s) (h : InvBatch b n tr s) (hs : BatchStep prog b n s s') : InvBatch b n tr s' := by
  cases hs with
  | worker w hs =>
    obtain ⟨h1, h2, h3, h4, h5, h6⟩ := worker_trace hs
    refine ⟨fun t ht => h2 t (h.old t ht), by rw [h4]; exact h.next, ?_, by rw [h3, h4, h6]; exact h.opc, ?_⟩
    · rw [h4, h5]; exact h.mark.imp id fun ⟨a, c⟩ => ⟨a, fun t ht => h2 t (c t ht)⟩
    · obtain ⟨evs, he⟩ := h.trace
      rcases h1 with h1 | ⟨t, k, h1⟩
      · exact ⟨evs, h1.trans he⟩
      · exact ⟨evs ++ [(t, k)], by rw [h1, he]; simp⟩
  | owner c ht hact hs =>
    have hA := (inv_reachable hr).1
    obtain ⟨hb, hbn⟩ := h.next
    rcases h.opc with ho | ⟨t, ho⟩ | ⟨⟨r, ho⟩, hto, hnx⟩
    · rcases hact ho with ⟨hc, hlt⟩ | ⟨hc, hnx⟩
      · simp only [ownerStep, ho, hc] at hs
        simp at hs; subst hs
        refine ⟨h.old, ⟨by simp only []; omega, by simp only []; omega⟩, ?_, Or.inr (Or.inl ⟨_, rfl⟩), h.trace⟩
        exact h.mark.imp id fun ⟨a, _⟩ => by omega
      · simp only [ownerStep, ho, hc] at hs
        simp at hs; subst hs
        exact ⟨h.old, h.next, h.mark, Or.inr (Or.inr ⟨⟨_, rfl⟩, rfl, hnx⟩), h.trace⟩
    · simp only [ownerStep, ho] at hs
      split at hs <;> obtain ⟨q, hq, rfl⟩ := withQ_next hs
      · exact ⟨h.old, h.next, h.mark, Or.inl rfl, h.trace⟩
      · exact ⟨h.old, h.next, h.mark, Or.inr (Or.inl ⟨t, rfl⟩), h.trace⟩
    · cases r with
      | nil =>
        simp only [ownerStep, ho] at hs
        simp at hs; subst hs
        refine ⟨h.old, h.next, Or.inr ⟨hnx, fun t ht => ?_⟩, Or.inl rfl, h.trace⟩
        rcases h.mark with hm | ⟨-, hm⟩
        · by_cases htb : t < b
          · exact h.old t htb
          · obtain ⟨d, hd, hf⟩ := hA.waiting [] ho
            rw [List.append_nil] at hd
            refine hf hto t ?_
            rw [← hd, hA.futures, List.mem_range'_1]
            omega
        · exact hm t ht
      | cons t r =>
        simp only [ownerStep, ho, ht] at hs
        split at hs <;> simp at hs
        subst hs
        exact ⟨h.old, h.next, h.mark, Or.inr (Or.inr ⟨⟨_, rfl⟩, hto, hnx⟩), h.trace⟩

theorem BatchStep.step {prog : ℕ → List (M → M)} {b n : ℕ} {s s' : St M} (h : BatchStep prog b n s s') : Step prog s s' := by
  cases h with
  | worker w h => exact ⟨some w, ⟨.wait, 0, false⟩, h⟩
  | owner c _ _ h => exact ⟨none, c, h⟩

theorem invBatch_run {prog : ℕ → List (M → M)} {m : M} {n : ℕ} {s s' : St M} (hr : Reachable prog m s)
    (ho : s.opc = .idle) (hf : ∀ t < s.next, s.finished t = true)
    (h : Relation.ReflTransGen (BatchStep prog s.next n) s s') :
    Reachable prog m s' ∧ InvBatch s.next n s.trace s' := by
  induction h with
  | refl => exact ⟨hr, hf, ⟨le_rfl, by omega⟩, Or.inl (inv_reachable hr).1.mark, Or.inl ho, ⟨[], by simp⟩⟩
  | tail _ hs ih =>
    obtain ⟨hr', hi⟩ := ih
    refine ⟨?_, invBatch_step hr' hi hs⟩
    obtain ⟨a, hr'⟩ := hr'
    exact ⟨a, hr'.tail hs.step⟩

end Altro.Pool
