import Verif.Proofs.PoolLive

/-! `StopThreads` terminates: every step of every thread makes a measure smaller. -/

namespace Altro.Pool
open Queue (PC Res content)

variable {M : Type}

/-- Steps a popping thread has left. -/
def ps (len : ℕ → ℕ) : PC ℕ → ℕ
  | .idle => 19 | .pop1 _ => 18 | .pop2 _ => 17 | .pop3 _ => 16 | .pop4 _ _ _ => 15 | .pop5 _ _ _ => 14
  | .popFail _ => 13 | .ret (.none _) => 12
  | .pop6 => 13 | .pop7 => 12 | .pop8 _ => 11 | .pop9 _ _ => 10
  | .pop10 v _ => len v + 5 | .pop11 v _ => len v + 4 | .ret (.popped v) => len v + 3
  | _ => 0

theorem q_pop_stop (len : ℕ → ℕ) {s s' : Q} {L : List (ℕ × ℕ)} (h : Queue.Inv s L) {i : Option ℕ} (hp : popPc (s.pc i))
    (hr : ∀ r, s.pc i ≠ .ret r) (hs : Queue.step i .pop s = .next s') :
    (ps len (s'.pc i) < ps len (s.pc i) ∧ content s' = content s) ∨
      ∃ v, content s = v :: content s' ∧ ps len (s.pc i) = 10 ∧ ps len (s'.pc i) = len v + 5 := by
  have self : ∀ p, (s.goto i p).pc i = p := fun p => by simp [Queue.St.goto]
  unfold Queue.step at hs
  cases hq : s.pc i with
  | pop9 v o =>
    obtain ⟨nd, L', hn, _, hL, hi⟩ := Queue.inv_pop9 h v o hq
    rw [hq] at hs
    simp [hn] at hs; subst hs
    have h1 := hi.content
    have h2 := h.content
    refine Or.inr ⟨v, ?_, rfl, ?_⟩
    · rw [h1, h2, hL]; rfl
    · show ps len ((s.goto i _).pc i) = _; rw [self]; rfl
  | ret r => exact absurd hq (hr r)
  | pop5 md t e =>
    rw [hq] at hs hp
    cases md <;> simp [popPc] at hp
    simp at hs; subst hs
    refine Or.inl ⟨?_, rfl⟩
    rw [self]; split <;> simp [ps]
  | _ =>
    rw [hq] at hs hp
    first
    | (simp [popPc] at hp; done)
    | (simp only at hs
       (try split at hs) <;> (try split at hs) <;> simp at hs <;> subst hs <;>
       exact Or.inl ⟨by simp [Queue.St.goto, ps], by simp [Queue.St.goto, content]⟩)

/-- Steps a worker has left once the pool is stopping. -/
def ws (len : ℕ → ℕ) : WPC → PC ℕ → ℕ
  | .absent, _ => 0 | .exited, _ => 0 | .check, _ => 1
  | .run t k, _ => (len t - k) + 2
  | .popping, pc => ps len pc

theorem worker_stop {prog : ℕ → List (M → M)} {m : M} {s s' : St M} {w : ℕ} (h : Reachable prog m s)
    (hr : s.running = false) (hs : workerStep prog w s = .next s') :
    let len := fun t => (prog t).length
    (ws len (s'.wpc w) (s'.q.pc (some w)) < ws len (s.wpc w) (s.q.pc (some w)) ∧ content s'.q = content s.q) ∨
      ∃ v, content s.q = v :: content s'.q ∧ ws len (s.wpc w) (s.q.pc (some w)) = 10 ∧
        ws len (s'.wpc w) (s'.q.pc (some w)) = len v + 5 := by
  intro len
  obtain ⟨hA, hB⟩ := inv_reachable h
  obtain ⟨L, hL⟩ := Queue.inv_reachable hA.hq
  unfold workerStep at hs
  split at hs
  next => cases hs
  next => cases hs
  next hw =>
    simp [hr] at hs; subst hs
    exact Or.inl ⟨by simp [hw, ws], rfl⟩
  next hw =>
    have hpp := hA.popping w hw
    split at hs
    next t hr =>
      obtain ⟨q, hq, rfl⟩ := withQ_next hs
      obtain ⟨h1, h2⟩ := q_pop hpp hq
      rcases h2 with ⟨r, -, hi, hpo⟩ | ⟨hn, -⟩ | ⟨v, o, e, -⟩
      · have hc : content q = content s.q := by simp only [content, h1, hpo]
        refine Or.inl ⟨?_, hc⟩
        simp only [Function.update_self, hw, hr, ws, ps]; omega
      · exact absurd hr (hn _)
      · rw [e] at hr; cases hr
    next r hnp hr =>
      obtain ⟨q, hq, rfl⟩ := withQ_next hs
      obtain ⟨h1, h2⟩ := q_pop hpp hq
      rcases h2 with ⟨r', hr', hi, hpo⟩ | ⟨hn, -⟩ | ⟨v, o, e, -⟩
      · have hc : content q = content s.q := by simp only [content, h1, hpo]
        have hre : ∃ e, r = .none e := by
          rw [hr] at hpp
          cases r <;> simp [popPc] at hpp
          · exact absurd rfl (hnp _)
          · exact ⟨_, rfl⟩
        obtain ⟨e, rfl⟩ := hre
        refine Or.inl ⟨?_, hc⟩
        simp only [Function.update_self, hw, hr, ws, ps]; omega
      · exact absurd hr (hn _)
      · rw [e] at hr; cases hr
    next hnr hnr' =>
      obtain ⟨q, hq, rfl⟩ := withQ_next hs
      simp only [hw, ws]
      exact q_pop_stop len hL hpp hnr' hq
  next t k hw =>
    have hr := hB.run w t k hw
    split at hs <;> simp at hs <;> subst hs
    next f hf =>
      have hk : k < (prog t).length := by
        by_contra hc
        rw [List.getElem?_eq_none (by omega)] at hf; cases hf
      refine Or.inl ⟨?_, rfl⟩
      simp only [Function.update_self, hw, ws, len]; omega
    next hf =>
      refine Or.inl ⟨?_, rfl⟩
      simp only [Function.update_self, hw, ws]; omega

/-- Steps left until `StopThreads` returns, when `i` threads are joined. -/
def ms (len : ℕ → ℕ) (i : ℕ) (s : St M) : ℕ :=
  (∑ w ∈ Finset.range s.nthreads, ws len (s.wpc w) (s.q.pc (some w))) + ((content s.q).map len).sum + (s.nthreads - i)

theorem ms_step {prog : ℕ → List (M → M)} {m : M} {s s' : St M} {i : ℕ} (h : Reachable prog m s)
    (ho : s.opc = .joining i) {j : Option ℕ} {c : Choice M} (hs : step prog j c s = .next s') :
    (j = none ∧ ¬ i < s.nthreads ∧ s'.opc = .idle) ∨
      ∃ i', s'.opc = .joining i' ∧ ms (fun t => (prog t).length) i' s' < ms (fun t => (prog t).length) i s := by
  obtain ⟨hA, hB⟩ := inv_reachable h
  obtain ⟨hr, hin, hab⟩ := hA.joining i ho
  cases j with
  | none =>
    simp only [step, ownerStep, ho] at hs
    split at hs
    next hi =>
      split at hs <;> simp at hs
      next hw =>
      subst hs
      refine Or.inr ⟨i + 1, rfl, ?_⟩
      have hs := sum_change (N := s.nthreads) hi
        (f := fun w => ws (fun t => (prog t).length) (s.wpc w) (s.q.pc (some w)))
        (g := fun w => ws (fun t => (prog t).length) (Function.update s.wpc i .absent w) (s.q.pc (some w)))
        (fun v hv => by simp only [Function.update_of_ne hv])
      have e1 : ws (fun t => (prog t).length) (Function.update s.wpc i .absent i) (s.q.pc (some i)) = 0 := by
        simp [ws]
      have e2 : ws (fun t => (prog t).length) (s.wpc i) (s.q.pc (some i)) = 0 := by rw [hw]; rfl
      simp only [ms]
      omega
    next hi => simp at hs; subst hs; exact Or.inl ⟨rfl, hi, rfl⟩
  | some w =>
    have hk := worker_rank h hs
    have hw : w < s.nthreads := by
      by_contra hc; exact hk.2.2.2.2.2.1 (hab w (Or.inr (by omega)))
    refine Or.inr ⟨i, hk.2.2.1.trans ho, ?_⟩
    have hsum := sum_change hw
      (f := fun w => ws (fun t => (prog t).length) (s.wpc w) (s.q.pc (some w)))
      (g := fun w => ws (fun t => (prog t).length) (s'.wpc w) (s'.q.pc (some w)))
      (fun v hv => by rw [(hk.1 v hv).1, (hk.1 v hv).2])
    simp only [ms, hk.2.2.2.2.1]
    rcases worker_stop h hr hs with ⟨h1, h2⟩ | ⟨v, h1, h2, h3⟩
    · rw [h2]; omega
    · rw [h1, List.map_cons, List.sum_cons]; beta_reduce at h3 ⊢; omega

/-- While stopping, some thread can step. -/
theorem stop_enabled {prog : ℕ → List (M → M)} {m : M} {s : St M} {i : ℕ} (h : Reachable prog m s)
    (ho : s.opc = .joining i) : ∃ j c s', step prog j c s = .next s' := by
  obtain ⟨hA, hB⟩ := inv_reachable h
  obtain ⟨hr, hin, hab⟩ := hA.joining i ho
  by_cases hi : i < s.nthreads
  · have hown := hA.notAdding (by simp [ho])
    have step : ∀ w q', s.wpc w = .popping → Queue.step (some w) .pop s.q = .next q' →
        ∃ s', workerStep prog w s = .next s' := by
      intro w q' hw hq
      unfold workerStep
      rw [hw]
      simp only []
      split <;> rw [hq] <;> exact ⟨_, rfl⟩
    cases hw : s.wpc i with
    | absent => exact absurd hw ((invD_reachable h).joining i ho i le_rfl hi)
    | exited => exact ⟨none, ⟨.wait, 0, false⟩, _, by simp only [Pool.step, ownerStep, ho, hi, if_true, hw]; rfl⟩
    | check => exact ⟨some i, ⟨.wait, 0, false⟩, _, by simp only [Pool.step, workerStep, hw]; rfl⟩
    | run t k =>
      cases hp : (prog t)[k]? with
      | some f => exact ⟨some i, ⟨.wait, 0, false⟩, _, by simp only [Pool.step, workerStep, hw, hp]; rfl⟩
      | none => exact ⟨some i, ⟨.wait, 0, false⟩, _, by simp only [Pool.step, workerStep, hw, hp]; rfl⟩
    | popping =>
      by_cases hpc : s.q.pc (some i) = .idle
      · obtain ⟨s', hs'⟩ := step i (s.q.goto (some i) (.pop1 .pop)) hw (by simp [Queue.step, hpc])
        exact ⟨some i, ⟨.wait, 0, false⟩, s', hs'⟩
      · obtain ⟨w, hw, q', hq⟩ := pop_enabled hA hown hpc
        obtain ⟨s', hs'⟩ := step w q' hw hq
        exact ⟨some w, ⟨.wait, 0, false⟩, s', hs'⟩
  · exact ⟨none, ⟨.wait, 0, false⟩, _, by simp only [Pool.step, ownerStep, ho, hi, if_false]; rfl⟩

end Altro.Pool
