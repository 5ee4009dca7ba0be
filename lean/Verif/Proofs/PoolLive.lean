import Verif.Proofs.Pool
import Mathlib.Algebra.Order.BigOperators.Group.Finset

/-! Progress of the thread pool. -/

namespace Altro.Pool
open Queue (PC Res content)

variable {M : Type}

/-- Steps a popping thread has left, as long as the queue is not empty. -/
def pr (len : ℕ → ℕ) : PC ℕ → ℕ
  | .idle => 19 | .pop1 _ => 18 | .pop2 _ => 17 | .pop3 _ => 16
  | .pop4 _ _ e => if e then 45 else 15
  | .pop5 _ _ e => if e then 44 else 14
  | .popFail _ => 43 | .ret (.none _) => 42
  | .pop6 => 13 | .pop7 => 12 | .pop8 _ => 11 | .pop9 _ _ => 10
  | .pop10 v _ => len v + 28 | .pop11 v _ => len v + 27 | .ret (.popped v) => len v + 26
  | _ => 0

/-- Steps left of a task that was taken out of the queue. -/
def nq (len : ℕ → ℕ) : PC ℕ → ℕ
  | .pop10 v _ => len v + 5 | .pop11 v _ => len v + 4 | .ret (.popped v) => len v + 3
  | _ => 0

theorem q_pop_rank (len : ℕ → ℕ) {s s' : Q} {L : List (ℕ × ℕ)} (h : Queue.Inv s L) {i : Option ℕ} (hp : popPc (s.pc i))
    (hr : ∀ r, s.pc i ≠ .ret r) (hs : Queue.step i .pop s = .next s') :
    (content s ≠ [] → (pr len (s'.pc i) < pr len (s.pc i) ∧ content s' = content s) ∨
      ∃ v, content s = v :: content s' ∧ pr len (s.pc i) = 10 ∧ pr len (s'.pc i) = len v + 28) ∧
    (content s = [] → content s' = [] ∧ nq len (s'.pc i) ≤ nq len (s.pc i) ∧
      (0 < nq len (s.pc i) → nq len (s'.pc i) < nq len (s.pc i))) := by
  have self : ∀ p, (s.goto i p).pc i = p := fun p => by simp [Queue.St.goto]
  unfold Queue.step at hs
  cases hq : s.pc i with
  | pop3 md =>
    rw [hq] at hs hp
    cases md <;> simp [popPc] at hp
    simp at hs; subst hs
    have hlen : (s.popped.length = s.pushed.length) = (L = []) := by rw [← h.hist]; simp
    have hc : (content s = []) = (L = []) := by rw [h.content]; simp
    refine ⟨fun hne => Or.inl ⟨?_, rfl⟩, fun he => ⟨he, ?_⟩⟩
    · rw [self]; rw [ne_eq, hc] at hne; simp [pr, hlen, hne]
    · rw [self]; simp [nq]
  | pop5 md t e =>
    rw [hq] at hs hp
    cases md <;> simp [popPc] at hp
    simp at hs; subst hs
    have hl := h.loc i
    rw [hq] at hl
    have hm := (h.hmx i).1 (by rw [hq]; rfl)
    have hh : s.head = some (Queue.hdOf L s.tail) := by rw [h.headc, hm]; simp [hq, Queue.headAt]
    have he : s.head = some t ↔ e = true := by rw [hh, hl.2]; simp [eq_comm]
    refine ⟨fun hne => Or.inl ⟨?_, rfl⟩, fun he => ⟨he, ?_⟩⟩
    · rw [self]; cases e <;> simp_all [pr]
    · rw [self]; cases e <;> simp_all [nq]
  | pop9 v o =>
    obtain ⟨nd, L', hn, _, hL, hi⟩ := Queue.inv_pop9 h v o hq
    rw [hq] at hs
    simp [hn] at hs; subst hs
    have h1 := hi.content
    have h2 := h.content
    refine ⟨fun _ => Or.inr ⟨v, ?_, rfl, ?_⟩, fun he => ?_⟩
    · rw [h1, h2, hL]; rfl
    · show pr len ((s.goto i _).pc i) = _; rw [self]; rfl
    · rw [h2, hL] at he; cases he
  | ret r => exact absurd hq (hr r)
  | pop1 md =>
    rw [hq] at hs hp
    cases md <;> simp [popPc] at hp
    simp only at hs; split at hs <;> simp at hs; subst hs
    exact ⟨fun _ => Or.inl ⟨by simp [Queue.St.goto, pr], rfl⟩, fun he => ⟨he, by simp [Queue.St.goto, nq]⟩⟩
  | pop2 md =>
    rw [hq] at hs hp
    cases md <;> simp [popPc] at hp
    simp only at hs; split at hs <;> simp at hs; subst hs
    exact ⟨fun _ => Or.inl ⟨by simp [Queue.St.goto, pr], rfl⟩, fun he => ⟨he, by simp [Queue.St.goto, nq]⟩⟩
  | pop4 md t e =>
    rw [hq] at hs hp
    cases md <;> simp [popPc] at hp
    simp at hs; subst hs
    exact ⟨fun _ => Or.inl ⟨by cases e <;> simp [Queue.St.goto, pr], rfl⟩, fun he => ⟨he, by simp [Queue.St.goto, nq]⟩⟩
  | _ =>
    rw [hq] at hs hp
    first
    | (simp [popPc] at hp; done)
    | (simp only at hs
       (try split at hs) <;> (try split at hs) <;> simp at hs <;> subst hs <;>
       exact ⟨fun _ => Or.inl ⟨by simp [Queue.St.goto, pr], by simp [Queue.St.goto, content]⟩,
         fun he => ⟨by simpa [Queue.St.goto, content] using he, by simp [Queue.St.goto, nq]⟩⟩)

/-- Steps a worker has left, as long as the queue is not empty. -/
def wr (len : ℕ → ℕ) : WPC → PC ℕ → ℕ
  | .absent, _ => 0 | .exited, _ => 0 | .check, _ => 20
  | .run t k, _ => (len t - k) + 22
  | .popping, pc => pr len pc

/-- Steps a worker has left in the task it has taken. -/
def wn (len : ℕ → ℕ) : WPC → PC ℕ → ℕ
  | .run t k, _ => (len t - k) + 1
  | .popping, pc => nq len pc
  | _, _ => 0

/-- One step of worker `w`: nothing else in the pool changes, and the measures go down. -/
theorem worker_rank {prog : ℕ → List (M → M)} {m : M} {s s' : St M} {w : ℕ} (h : Reachable prog m s)
    (hs : workerStep prog w s = .next s') :
    let len := fun t => (prog t).length
    (∀ v, v ≠ w → s'.wpc v = s.wpc v ∧ s'.q.pc (some v) = s.q.pc (some v)) ∧
    s'.running = s.running ∧ s'.opc = s.opc ∧ s'.next = s.next ∧ s'.nthreads = s.nthreads ∧
    s.wpc w ≠ .absent ∧ s'.wpc w ≠ .absent ∧
    (content s.q ≠ [] → (wr len (s'.wpc w) (s'.q.pc (some w)) < wr len (s.wpc w) (s.q.pc (some w)) ∧
        content s'.q = content s.q) ∨
      ∃ v, content s.q = v :: content s'.q ∧
        wr len (s'.wpc w) (s'.q.pc (some w)) = wr len (s.wpc w) (s.q.pc (some w)) + len v + 18) ∧
    (content s.q = [] → content s'.q = [] ∧
      wn len (s'.wpc w) (s'.q.pc (some w)) ≤ wn len (s.wpc w) (s.q.pc (some w)) ∧
      (0 < wn len (s.wpc w) (s.q.pc (some w)) →
        wn len (s'.wpc w) (s'.q.pc (some w)) < wn len (s.wpc w) (s.q.pc (some w)))) := by
  intro len
  obtain ⟨hA, hB⟩ := inv_reachable h
  obtain ⟨L, hL⟩ := Queue.inv_reachable hA.hq
  unfold workerStep at hs
  split at hs
  next => cases hs
  next => cases hs
  next hw =>
    have hi := hA.notPopping w (by rw [hw]; simp)
    simp at hs; subst hs
    refine ⟨fun v hv => ⟨by simp [Function.update_of_ne hv], rfl⟩, rfl, rfl, rfl, rfl, by rw [hw]; simp, ?_, ?_, ?_⟩
    · simp only [Function.update_self]; split <;> simp
    · intro _; left
      refine ⟨?_, rfl⟩
      simp only [Function.update_self, hw, hi]
      split <;> simp [wr, pr]
    · intro he
      refine ⟨he, ?_⟩
      simp only [Function.update_self, hw, hi]
      split <;> simp [wn, nq]
  next hw =>
    have hpp := hA.popping w hw
    split at hs
    next t hr =>
      obtain ⟨q, hq, rfl⟩ := withQ_next hs
      obtain ⟨h1, h2⟩ := q_pop hpp hq
      rcases h2 with ⟨r, -, hi, hpo⟩ | ⟨hn, -⟩ | ⟨v, o, e, -⟩
      · have hc : content q = content s.q := by simp only [content, h1, hpo]
        refine ⟨fun v hv => ⟨by simp [Function.update_of_ne hv], Queue.other_pc hq (by simpa using hv)⟩, rfl, rfl, rfl, rfl,
          by rw [hw]; simp, by simp, fun _ => Or.inl ⟨?_, hc⟩, fun he => ⟨by simp only [hc]; exact he, ?_⟩⟩
        · simp only [Function.update_self, hw, hr, wr, pr]; omega
        · simp only [Function.update_self, hw, hr, wn, nq]; omega
      · exact absurd hr (hn _)
      · rw [e] at hr; cases hr
    next r hnp hr =>
      obtain ⟨q, hq, rfl⟩ := withQ_next hs
      obtain ⟨h1, h2⟩ := q_pop hpp hq
      rcases h2 with ⟨r', hr', hi, hpo⟩ | ⟨hn, -⟩ | ⟨v, o, e, -⟩
      · have hc : content q = content s.q := by simp only [content, h1, hpo]
        have hre : ∃ e, r = .none e := by
          rw [hr] at hpp
          cases r <;> simp [popPc] at hpp
          · exact absurd rfl (hnp _)
          · exact ⟨_, rfl⟩
        obtain ⟨e, rfl⟩ := hre
        refine ⟨fun v hv => ⟨by simp [Function.update_of_ne hv], Queue.other_pc hq (by simpa using hv)⟩, rfl, rfl, rfl, rfl,
          by rw [hw]; simp, by simp, fun _ => Or.inl ⟨?_, hc⟩, fun he => ⟨by simp only [hc]; exact he, ?_⟩⟩
        · simp only [Function.update_self, hw, hr, wr, pr]; omega
        · simp only [Function.update_self, hw, hr, wn, nq]; omega
      · exact absurd hr (hn _)
      · rw [e] at hr; cases hr
    next hnr hnr' =>
      obtain ⟨q, hq, rfl⟩ := withQ_next hs
      obtain ⟨r1, r2⟩ := q_pop_rank len hL hpp hnr' hq
      refine ⟨fun v hv => ⟨rfl, Queue.other_pc hq (by simpa using hv)⟩, rfl, rfl, rfl, rfl,
          by rw [hw]; simp, by simp [hw], fun hne => ?_, fun he => ?_⟩
      · simp only [hw, wr]
        rcases r1 hne with h | ⟨v, h1, h2, h3⟩
        · exact Or.inl h
        · exact Or.inr ⟨v, h1, by omega⟩
      · simp only [hw, wn]; exact r2 he
  next t k hw =>
    have hr := hB.run w t k hw
    split at hs <;> simp at hs <;> subst hs
    next f hf =>
      have hk : k < (prog t).length := by
        by_contra hc
        rw [List.getElem?_eq_none (by omega)] at hf; cases hf
      refine ⟨fun v hv => ⟨by simp [Function.update_of_ne hv], rfl⟩, rfl, rfl, rfl, rfl, by rw [hw]; simp, by simp,
        fun _ => Or.inl ⟨?_, rfl⟩, fun he => ⟨he, ?_⟩⟩
      · simp only [Function.update_self, hw, wr, len]; omega
      · simp only [Function.update_self, hw, wn, len]; omega
    next hf =>
      refine ⟨fun v hv => ⟨by simp [Function.update_of_ne hv], rfl⟩, rfl, rfl, rfl, rfl, by rw [hw]; simp, by simp,
        fun _ => Or.inl ⟨?_, rfl⟩, fun he => ⟨he, ?_⟩⟩
      · simp only [Function.update_self, hw, wr]; omega
      · simp only [Function.update_self, hw, wn]; omega

/-- The owner is not in the middle of `AddTask`, `LaunchThreads` or `StopThreads`. -/
def Resting (s : St M) : Prop := s.opc = .idle ∨ ∃ r, s.opc = .waiting r

/-- An infinite run in which only workers are scheduled, and each of them again and again; a worker that is blocked when
it is scheduled does nothing. -/
structure FairRun (prog : ℕ → List (M → M)) (σ : ℕ → St M) (th : ℕ → ℕ) : Prop where
  step : ∀ n, workerStep prog (th n) (σ n) = .next (σ (n + 1)) ∨
    (workerStep prog (th n) (σ n) = .blocked ∧ σ (n + 1) = σ n)
  fair : ∀ w < (σ 0).nthreads, ∀ n, ∃ n' ≥ n, th n' = w

/-- Work left while the queue is not empty. -/
def mu (len : ℕ → ℕ) (N : ℕ) (s : St M) : ℕ :=
  (∑ w ∈ Finset.range N, wr len (s.wpc w) (s.q.pc (some w))) + ((content s.q).map fun t => len t + 40).sum

/-- Work left in tasks that were taken. -/
def nu (len : ℕ → ℕ) (N : ℕ) (s : St M) : ℕ := ∑ w ∈ Finset.range N, wn len (s.wpc w) (s.q.pc (some w))

theorem sum_change {N w : ℕ} (hw : w < N) {f g : ℕ → ℕ} (h : ∀ v, v ≠ w → g v = f v) :
    (∑ v ∈ Finset.range N, g v) + f w = (∑ v ∈ Finset.range N, f v) + g w := by
  have hm : w ∈ Finset.range N := Finset.mem_range.2 hw
  rw [← Finset.add_sum_erase _ g hm, ← Finset.add_sum_erase _ f hm]
  have : ∑ v ∈ (Finset.range N).erase w, g v = ∑ v ∈ (Finset.range N).erase w, f v :=
    Finset.sum_congr rfl fun v hv => h v (Finset.ne_of_mem_erase hv)
  rw [this]; omega

theorem busy_not_blocked {prog : ℕ → List (M → M)} {m : M} {s : St M} {w : ℕ} (h : Reachable prog m s)
    (hb : 0 < wn (fun t => (prog t).length) (s.wpc w) (s.q.pc (some w))) : workerStep prog w s ≠ .blocked := by
  unfold workerStep
  cases hw : s.wpc w with
  | absent => rw [hw] at hb; simp [wn] at hb
  | check => simp
  | exited => rw [hw] at hb; simp [wn] at hb
  | run t k => simp only []; split <;> simp
  | popping =>
    rw [hw] at hb
    simp only [wn] at hb
    simp only []
    have hq : ∀ {o : Queue.Out Q} {k : Q → St M}, o ≠ .blocked → withQ o k ≠ .blocked := by
      intro o k ho; cases o <;> simp_all [withQ]
    cases hp : s.q.pc (some w) with
    | pop10 v o => exact hq (by simp [Queue.step, hp])
    | pop11 v o => exact hq (by simp only [Queue.step, hp]; split <;> simp)
    | ret r =>
      cases r <;> simp only [] <;> exact hq (by simp [Queue.step, hp])
    | _ => rw [hp] at hb; simp [nq] at hb

/-- Workers that were launched are there until the pool is stopped. -/
structure InvD (s : St M) : Prop where
  exited : s.running = true → ∀ w, s.wpc w ≠ .exited
  launching : ∀ i n, s.opc = .launching i n → ∀ w < i, s.wpc w ≠ .absent
  joining : ∀ i, s.opc = .joining i → ∀ w, i ≤ w → w < s.nthreads → s.wpc w ≠ .absent
  other : (∀ i n, s.opc ≠ .launching i n) → s.running = true → ∀ w < s.nthreads, s.wpc w ≠ .absent

theorem invD_step {prog : ℕ → List (M → M)} {s s' : St M} {i : Option ℕ} {c : Choice M} (hA : InvA s) (h : InvD s)
    (hs : step prog i c s = .next s') : InvD s' := by
  cases i with
  | none =>
    simp only [step, ownerStep] at hs
    split at hs
    next ho =>
      have hot := hA.other (by simp [ho]) (by simp [ho])
      have hx := h.other (by simp [ho])
      split at hs
      · simp at hs; subst hs; exact ⟨h.exited, by simp, by simp, fun _ => hx⟩
      · simp at hs; subst hs; exact ⟨h.exited, by simp, by simp, fun _ => hx⟩
      · split at hs <;> simp at hs
        next hr =>
        subst hs
        have hz := hot.1 (by simpa using hr)
        refine ⟨fun _ w => ?_, ?_, by simp, by simp⟩
        · simp only [hot.2 w (by omega)]; simp
        · simp only [OPC.launching.injEq]; rintro _ _ ⟨rfl, rfl⟩; simp
      · simp at hs; subst hs
        refine ⟨by simp, by simp, fun i _ w _ hw => ?_, by simp⟩
        cases hr : s.running with
        | true => exact hx hr w hw
        | false => have := hot.1 hr; simp only at hw; omega
      · simp at hs; subst hs; exact ⟨h.exited, by simp [ho], by simp [ho], fun _ => hx⟩
    next t ho =>
      have hx := h.other (by simp [ho])
      split at hs
      · obtain ⟨q, hq, rfl⟩ := withQ_next hs; exact ⟨h.exited, by simp, by simp, fun _ => hx⟩
      · obtain ⟨q, hq, rfl⟩ := withQ_next hs; exact ⟨h.exited, by simp [ho], by simp [ho], fun _ => hx⟩
    next t r ho =>
      have hx := h.other (by simp [ho])
      split at hs
      · simp at hs; subst hs; exact ⟨h.exited, by simp, by simp, fun _ => hx⟩
      · split at hs <;> simp at hs
        subst hs; exact ⟨h.exited, by simp, by simp, fun _ => hx⟩
    next ho =>
      have hx := h.other (by simp [ho])
      simp at hs; subst hs; exact ⟨h.exited, by simp, by simp, fun _ => hx⟩
    next i n ho =>
      obtain ⟨hr, hin, hab⟩ := hA.launching i n ho
      have hl := h.launching i n ho
      split at hs <;> simp at hs <;> subst hs
      · refine ⟨fun _ w => ?_, ?_, by simp, by simp⟩
        · by_cases e : w = i
          · subst e; simp
          · simp only [Function.update_of_ne e]; exact h.exited hr w
        · simp only [OPC.launching.injEq]; rintro _ _ ⟨rfl, rfl⟩ w hw
          by_cases e : w = i
          · subst e; simp
          · simp only [Function.update_of_ne e]; exact hl w (by omega)
      · exact ⟨h.exited, by simp, by simp, fun _ _ w hw => hl w (by simp only at hw; omega)⟩
    next i ho =>
      obtain ⟨hr, hin, hab⟩ := hA.joining i ho
      split at hs
      · split at hs <;> simp at hs
        subst hs
        refine ⟨by simp [hr], by simp, ?_, by simp [hr]⟩
        simp only [OPC.joining.injEq]; rintro _ rfl w hw hn
        have e : w ≠ i := by omega
        simp only [Function.update_of_ne e]; exact h.joining i ho w (by omega) hn
      · simp at hs; subst hs; exact ⟨by simp [hr], by simp, by simp, by simp [hr]⟩
  | some w =>
    have gen : ∀ (q : Q) (p : WPC) (fin : ℕ → Bool) (mem : M) (st : List ℕ) (tr : List (TraceEv M)),
        p ≠ .absent → (s.running = true → p ≠ .exited) →
        InvD { s with q := q, wpc := Function.update s.wpc w p, finished := fin, mem := mem, started := st, trace := tr } := by
      intro q p fin mem st tr h1 h2
      refine ⟨fun hr v => ?_, fun i n e v hv => ?_, fun i e v hv hn => ?_, fun e hr v hv => ?_⟩
      · by_cases e : v = w
        · subst e; simp only [Function.update_self]; exact h2 hr
        · simp only [Function.update_of_ne e]; exact h.exited hr v
      · by_cases e' : v = w
        · subst e'; simp only [Function.update_self]; exact h1
        · simp only [Function.update_of_ne e']; exact h.launching i n e v hv
      · by_cases e' : v = w
        · subst e'; simp only [Function.update_self]; exact h1
        · simp only [Function.update_of_ne e']; exact h.joining i e v hv hn
      · by_cases e' : v = w
        · subst e'; simp only [Function.update_self]; exact h1
        · simp only [Function.update_of_ne e']; exact h.other e hr v hv
    simp only [step, workerStep] at hs
    split at hs
    next => cases hs
    next => cases hs
    next hw =>
      simp at hs; subst hs
      refine gen s.q _ s.finished s.mem s.started s.trace (by split <;> simp) (fun hr => by simp [hr])
    next hw =>
      split at hs
      · obtain ⟨q, hq, rfl⟩ := withQ_next hs; exact gen _ _ _ _ _ _ (by simp) (by simp)
      · obtain ⟨q, hq, rfl⟩ := withQ_next hs; exact gen _ _ _ _ _ _ (by simp) (by simp)
      · obtain ⟨q, hq, rfl⟩ := withQ_next hs; exact ⟨h.exited, h.launching, h.joining, h.other⟩
    next t k hw =>
      split at hs <;> simp at hs <;> subst hs
      · exact gen s.q _ s.finished _ s.started _ (by simp) (by simp)
      · exact gen s.q _ _ s.mem s.started s.trace (by simp) (by simp)

theorem invD_reachable {prog : ℕ → List (M → M)} {m : M} {s : St M} (h : Reachable prog m s) : InvD s := by
  obtain ⟨a, h⟩ := h
  induction h with
  | refl => exact ⟨by simp [init], by simp [init], by simp [init], by simp [init]⟩
  | tail hr hs ih =>
    obtain ⟨i, c, hs⟩ := hs
    exact invD_step (inv_reachable ⟨a, hr⟩).1 ih hs

theorem popPc_not_clear {p : PC ℕ} (h : popPc p) : ¬ Queue.inClear p := by
  intro hc
  unfold Queue.inClear at hc
  split at hc <;> simp_all [popPc]

/-- If a thread is inside `TryPop`, some thread can step in it. -/
theorem pop_enabled {s : St M} (hA : InvA s) (hown : s.q.pc none = .idle) {i : Option ℕ} (hpc : s.q.pc i ≠ .idle) :
    ∃ w, s.wpc w = .popping ∧ ∃ q', Queue.step (some w) .pop s.q = .next q' := by
  have hnc : ∀ i, ¬ Queue.inClear (s.q.pc i) := by
    intro i
    cases i with
    | none => rw [hown]; exact id
    | some w =>
      by_cases e : s.wpc w = .popping
      · exact popPc_not_clear (hA.popping w e)
      · rw [hA.notPopping w e]; exact id
  obtain ⟨j, hj, hst⟩ := Queue.C63_no_deadlock hA.hq hnc hpc
  obtain ⟨q', hq'⟩ := hst .pop
  cases j with
  | none => exact absurd hown hj
  | some w => exact ⟨w, by by_contra e; exact hj (hA.notPopping w e), q', hq'⟩

/-- A running pool with a worker can always make a step. -/
theorem worker_enabled {prog : ℕ → List (M → M)} {m : M} {s : St M} (h : Reachable prog m s) (hrest : Resting s)
    (hr : s.running = true) (hn : 0 < s.nthreads) : ∃ w s', workerStep prog w s = .next s' := by
  obtain ⟨hA, hB⟩ := inv_reachable h
  have hD := invD_reachable h
  have hna := hD.other (by rcases hrest with e | ⟨r, e⟩ <;> simp [e]) hr 0 hn
  have hne := hD.exited hr 0
  have hown := hA.notAdding (by rcases hrest with e | ⟨r, e⟩ <;> simp [e])
  cases hw : s.wpc 0 with
  | absent => exact absurd hw hna
  | exited => exact absurd hw hne
  | check => exact ⟨0, _, by simp only [workerStep, hw]; rfl⟩
  | run t k =>
    cases hp : (prog t)[k]? with
    | some f => exact ⟨0, _, by simp only [workerStep, hw, hp]; rfl⟩
    | none => exact ⟨0, _, by simp only [workerStep, hw, hp]; rfl⟩
  | popping =>
    have step : ∀ w q', s.wpc w = .popping → Queue.step (some w) .pop s.q = .next q' →
        ∃ s', workerStep prog w s = .next s' := by
      intro w q' hw hq
      unfold workerStep
      rw [hw]
      simp only []
      split <;> rw [hq] <;> exact ⟨_, rfl⟩
    by_cases hpc : s.q.pc (some 0) = .idle
    · obtain ⟨s', hs'⟩ := step 0 (s.q.goto (some 0) (.pop1 .pop)) hw (by simp [Queue.step, hpc])
      exact ⟨0, s', hs'⟩
    · obtain ⟨w, hw, q', hq⟩ := pop_enabled hA hown hpc
      obtain ⟨s', hs'⟩ := step w q' hw hq
      exact ⟨w, s', hs'⟩

section
variable {prog : ℕ → List (M → M)} {m : M} {σ : ℕ → St M} {th : ℕ → ℕ}

theorem FairRun.const (h : FairRun prog σ th) (h0 : Reachable prog m (σ 0)) (n : ℕ) :
    Reachable prog m (σ n) ∧ (σ n).opc = (σ 0).opc ∧ (σ n).next = (σ 0).next ∧ (σ n).nthreads = (σ 0).nthreads ∧
      (σ n).running = (σ 0).running := by
  induction n with
  | zero => exact ⟨h0, rfl, rfl, rfl, rfl⟩
  | succ n ih =>
    rcases h.step n with hs | ⟨-, hs⟩
    · obtain ⟨hr, h1, h2, h3, h4⟩ := ih
      have hk := worker_rank hr hs
      refine ⟨?_, hk.2.2.1.trans h1, hk.2.2.2.1.trans h2, hk.2.2.2.2.1.trans h3, hk.2.1.trans h4⟩
      obtain ⟨a, hr⟩ := hr
      exact ⟨a, hr.tail ⟨some (th n), ⟨.wait, 0, false⟩, hs⟩⟩
    · rw [hs]; exact ih

theorem lt_of_step {s s' : St M} {w : ℕ} (hr : Reachable prog m s) (hrest : Resting s)
    (hs : workerStep prog w s = .next s') : w < s.nthreads := by
  have hk := worker_rank hr hs
  have := ((inv_reachable hr).1.other (by rcases hrest with e | ⟨r, e⟩ <;> simp [e])
    (by rcases hrest with e | ⟨r, e⟩ <;> simp [e])).2
  by_contra hc
  exact hk.2.2.2.2.2.1 (this _ (by omega))

theorem mu_lt {s s' : St M} {w : ℕ} (hr : Reachable prog m s) (hrest : Resting s)
    (hs : workerStep prog w s = .next s') (hc : content s.q ≠ []) :
    mu (fun t => (prog t).length) s.nthreads s' < mu (fun t => (prog t).length) s.nthreads s := by
  have hk := worker_rank hr hs
  have hs := sum_change (lt_of_step hr hrest hs)
    (f := fun w => wr (fun t => (prog t).length) (s.wpc w) (s.q.pc (some w)))
    (g := fun w => wr (fun t => (prog t).length) (s'.wpc w) (s'.q.pc (some w)))
    (fun v hv => by rw [(hk.1 v hv).1, (hk.1 v hv).2])
  simp only [mu]
  rcases hk.2.2.2.2.2.2.2.1 hc with ⟨h1, h2⟩ | ⟨v, h1, h2⟩
  · rw [h2]; omega
  · rw [h1, List.map_cons, List.sum_cons]; beta_reduce at h2 ⊢; omega

theorem FairRun.rest (h : FairRun prog σ th) (h0 : Reachable prog m (σ 0)) (hrest : Resting (σ 0)) (n : ℕ) :
    Resting (σ n) := by
  unfold Resting; rw [(h.const h0 n).2.1]; exact hrest

/-- While the queue is not empty, the measure goes down sooner or later. -/
theorem FairRun.mu_down (h : FairRun prog σ th) (h0 : Reachable prog m (σ 0)) (hrest : Resting (σ 0)) {w : ℕ} :
    ∀ d n, content (σ n).q ≠ [] → th (n + d) = w → (∃ s', workerStep prog w (σ n) = .next s') →
      ∃ k, mu (fun t => (prog t).length) (σ 0).nthreads (σ k) < mu (fun t => (prog t).length) (σ 0).nthreads (σ n) := by
  intro d
  induction d with
  | zero =>
    intro n hc hw ⟨s', hs'⟩
    rw [Nat.add_zero] at hw
    rcases h.step n with hs | ⟨hs, -⟩
    · have := mu_lt (h.const h0 n).1 (h.rest h0 hrest n) hs hc
      rw [(h.const h0 n).2.2.2.1] at this
      exact ⟨n + 1, this⟩
    · rw [hw, hs'] at hs; cases hs
  | succ d ih =>
    intro n hc hw hen
    rcases h.step n with hs | ⟨-, hs⟩
    · have := mu_lt (h.const h0 n).1 (h.rest h0 hrest n) hs hc
      rw [(h.const h0 n).2.2.2.1] at this
      exact ⟨n + 1, this⟩
    · obtain ⟨k, hk⟩ := ih (n + 1) (by rw [hs]; exact hc) (by rw [← hw]; congr 1; omega) (by rw [hs]; exact hen)
      rw [hs] at hk
      exact ⟨k, hk⟩

theorem FairRun.emptied (h : FairRun prog σ th) (h0 : Reachable prog m (σ 0)) (hrest : Resting (σ 0))
    (hrun : (σ 0).running = true) (hN : 0 < (σ 0).nthreads) : ∃ n, content (σ n).q = [] := by
  by_contra hc
  push Not at hc
  have : ∀ B n, ¬ mu (fun t => (prog t).length) (σ 0).nthreads (σ n) ≤ B := by
    intro B
    have down : ∀ n, ∃ k, mu (fun t => (prog t).length) (σ 0).nthreads (σ k)
        < mu (fun t => (prog t).length) (σ 0).nthreads (σ n) := by
      intro n
      obtain ⟨hr, h1, h2, h3, h4⟩ := h.const h0 n
      obtain ⟨w, s', hs'⟩ := worker_enabled hr (h.rest h0 hrest n) (h4.trans hrun) (by rw [h3]; exact hN)
      obtain ⟨n', hn', hw⟩ := h.fair w (by rw [← h3]; exact lt_of_step hr (h.rest h0 hrest n) hs') n
      obtain ⟨d, rfl⟩ := Nat.exists_eq_add_of_le hn'
      exact h.mu_down h0 hrest d n (hc n) hw ⟨s', hs'⟩
    induction B with
    | zero => intro n hb; obtain ⟨k, hk⟩ := down n; omega
    | succ B ih => intro n hb; obtain ⟨k, hk⟩ := down n; exact ih k (by omega)
  exact this _ 0 le_rfl

theorem FairRun.stays (h : FairRun prog σ th) (h0 : Reachable prog m (σ 0)) {n : ℕ} (hc : content (σ n).q = []) (k : ℕ) :
    content (σ (n + k)).q = [] ∧ ∀ w, wn (fun t => (prog t).length) ((σ (n + k)).wpc w) ((σ (n + k)).q.pc (some w))
      ≤ wn (fun t => (prog t).length) ((σ n).wpc w) ((σ n).q.pc (some w)) := by
  induction k with
  | zero => exact ⟨hc, fun _ => le_rfl⟩
  | succ k ih =>
    rcases h.step (n + k) with hs | ⟨-, hs⟩
    · have hk := worker_rank (h.const h0 (n + k)).1 hs
      have h2 := hk.2.2.2.2.2.2.2.2 ih.1
      refine ⟨h2.1, fun w => ?_⟩
      by_cases e : w = th (n + k)
      · subst e; exact h2.2.1.trans (ih.2 _)
      · rw [show n + (k + 1) = n + k + 1 from rfl, (hk.1 w e).1, (hk.1 w e).2]; exact ih.2 w
    · rw [show n + (k + 1) = n + k + 1 from rfl, hs]; exact ih

theorem FairRun.nu_zero (h : FairRun prog σ th) (h0 : Reachable prog m (σ 0)) :
    ∀ B n, content (σ n).q = [] → nu (fun t => (prog t).length) (σ 0).nthreads (σ n) ≤ B →
      ∃ n', content (σ n').q = [] ∧ nu (fun t => (prog t).length) (σ 0).nthreads (σ n') = 0 := by
  intro B
  induction B with
  | zero => intro n hc hb; exact ⟨n, hc, by omega⟩
  | succ B ih =>
    intro n hc hb
    by_cases hz : nu (fun t => (prog t).length) (σ 0).nthreads (σ n) = 0
    · exact ⟨n, hc, hz⟩
    · obtain ⟨w, hw, hpos⟩ := Finset.exists_ne_zero_of_sum_ne_zero hz
      have hpos : 0 < wn (fun t => (prog t).length) ((σ n).wpc w) ((σ n).q.pc (some w)) := Nat.pos_of_ne_zero hpos
      obtain ⟨n', hn', hor⟩ := h.fair w (Finset.mem_range.1 hw) n
      -- the work of `w` goes down at some time
      have down : ∃ k, wn (fun t => (prog t).length) ((σ (n + k)).wpc w) ((σ (n + k)).q.pc (some w))
          < wn (fun t => (prog t).length) ((σ n).wpc w) ((σ n).q.pc (some w)) := by
        obtain ⟨k, rfl⟩ := Nat.exists_eq_add_of_le hn'
        have hst := h.stays h0 hc k
        by_cases hp : 0 < wn (fun t => (prog t).length) ((σ (n + k)).wpc w) ((σ (n + k)).q.pc (some w))
        · rcases h.step (n + k) with hs | ⟨hs, -⟩
          · have hk := worker_rank (h.const h0 (n + k)).1 hs
            have h2 := (hk.2.2.2.2.2.2.2.2 hst.1).2.2
            rw [hor] at h2
            exact ⟨k + 1, lt_of_lt_of_le (h2 hp) (hst.2 w)⟩
          · exact absurd (hor ▸ hs) (busy_not_blocked (h.const h0 (n + k)).1 hp)
        · exact ⟨k, by omega⟩
      obtain ⟨k, hk⟩ := down
      have hst := h.stays h0 hc k
      refine ih (n + k) hst.1 ?_
      have : nu (fun t => (prog t).length) (σ 0).nthreads (σ (n + k))
          < nu (fun t => (prog t).length) (σ 0).nthreads (σ n) :=
        Finset.sum_lt_sum (fun v _ => hst.2 v) ⟨w, hw, hk⟩
      omega

theorem all_finished {s : St M} (h : Reachable prog m s) (hrest : Resting s) (hc : content s.q = [])
    (hn : nu (fun t => (prog t).length) s.nthreads s = 0) : ∀ t < s.next, s.finished t = true := by
  obtain ⟨hA, hB⟩ := inv_reachable h
  have hot := hA.other (by rcases hrest with e | ⟨r, e⟩ <;> simp [e]) (by rcases hrest with e | ⟨r, e⟩ <;> simp [e])
  have hz : ∀ w, wn (fun t => (prog t).length) (s.wpc w) (s.q.pc (some w)) = 0 := by
    intro w
    by_cases hw : w < s.nthreads
    · exact Finset.sum_eq_zero_iff.1 hn w (Finset.mem_range.2 hw)
    · rw [hot.2 w (by omega)]; rfl
  intro t ht
  obtain ⟨L, hL⟩ := Queue.inv_reachable hA.hq
  have hpop : t ∈ s.q.popped := by
    rw [hL.content] at hc
    have e := hL.hist
    rw [hc, List.append_nil, hA.pushed] at e
    rw [e, List.mem_range]
    have : pushedUpTo s = s.next := by
      unfold pushedUpTo
      rcases hrest with e | ⟨r, e⟩ <;> simp [e]
    omega
  rcases hB.popCases t hpop with hs | ⟨w, hw⟩
  · rcases hB.stCases t hs with hf | ⟨w, k, hw⟩
    · exact hf
    · have := hz w; rw [hw] at this; simp [wn] at this
  · have hz := hz w
    by_cases hp : s.wpc w = .popping
    · rw [hp] at hz
      simp only [wn] at hz
      cases e : s.q.pc (some w) <;> rw [e] at hw hz <;> simp [holds, nq] at hw hz
      rename_i r
      cases r <;> simp at hw hz
    · rw [hA.notPopping w hp] at hw; cases hw

end

end Altro.Pool
