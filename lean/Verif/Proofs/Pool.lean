import Verif.Model.Pool
import Verif.Proofs.Queue
import Verif.Props.Queue
import Mathlib.Data.List.Range
import Mathlib.Tactic.Linarith

/-! Invariants of the thread pool. -/

namespace Altro.Pool
open Queue (PC Res)

/-- The queue positions of a thread that calls only `TryPop`. -/
def popPc : PC ℕ → Prop
  | .idle | .pop1 .pop | .pop2 .pop | .pop3 .pop | .pop4 .pop _ _ | .pop5 .pop _ _ | .popFail _ | .pop6 | .pop7
  | .pop8 _ | .pop9 _ _ | .pop10 _ _ | .pop11 _ _ | .ret (.popped _) | .ret (.none _) => True
  | _ => False

/-- The queue positions of a thread that calls only `Push t`. -/
def pushPc (t : ℕ) : PC ℕ → Prop
  | .idle => True
  | .push1 v _ | .push2 v _ | .push3 v _ | .push4 v _ | .push5 v | .push6 v | .ret (.pushed v) => v = t
  | _ => False

/-- The push has taken effect. -/
def effected : PC ℕ → Bool
  | .push5 _ | .push6 _ | .ret _ => true
  | _ => false

/-- The task a thread has removed from the queue and not started yet. -/
def holds : PC ℕ → Option ℕ
  | .pop10 v _ | .pop11 v _ | .ret (.popped v) => some v
  | _ => none

abbrev Q := Queue.St (Option ℕ) ℕ

/-- A step of `TryPop`. -/
theorem q_pop {s s' : Q} {i : Option ℕ} (hp : popPc (s.pc i)) (hs : Queue.step i .pop s = .next s') :
    s'.pushed = s.pushed ∧
    ((∃ r, s.pc i = .ret r ∧ s'.pc i = .idle ∧ s'.popped = s.popped) ∨
     ((∀ r, s.pc i ≠ .ret r) ∧ popPc (s'.pc i) ∧ s'.popped = s.popped ∧ holds (s'.pc i) = holds (s.pc i)) ∨
     (∃ v o, s.pc i = .pop9 v o ∧ s'.pc i = .pop10 v o ∧ s'.popped = s.popped ++ [v])) := by
  have self : ∀ p, (s.goto i p).pc i = p := fun p => by simp [Queue.St.goto]
  unfold Queue.step at hs
  cases hq : s.pc i with
  | pop5 md t e =>
    rw [hq] at hs hp
    cases md <;> simp [popPc] at hp
    simp at hs; subst hs
    refine ⟨rfl, Or.inr (Or.inl ⟨by simp, ?_, rfl, ?_⟩)⟩ <;> rw [self] <;> split <;> simp [popPc, holds]
  | pop9 v o =>
    rw [hq] at hs hp
    simp only at hs; split at hs <;> simp at hs
    subst hs
    exact ⟨rfl, Or.inr (Or.inr ⟨v, o, rfl, self _, rfl⟩)⟩
  | ret r =>
    rw [hq] at hs hp
    simp at hs; subst hs
    exact ⟨rfl, Or.inl ⟨r, rfl, self _, rfl⟩⟩
  | pop1 md =>
    rw [hq] at hs hp
    cases md <;> simp [popPc] at hp
    simp only at hs; split at hs <;> simp at hs; subst hs
    exact ⟨rfl, Or.inr (Or.inl ⟨by simp, by show popPc ((s.goto i _).pc i); rw [self]; trivial, rfl,
      by show holds ((s.goto i _).pc i) = _; rw [self]; rfl⟩)⟩
  | pop2 md =>
    rw [hq] at hs hp
    cases md <;> simp [popPc] at hp
    simp only at hs; split at hs <;> simp at hs; subst hs
    exact ⟨rfl, Or.inr (Or.inl ⟨by simp, by show popPc ((s.goto i _).pc i); rw [self]; trivial, rfl,
      by show holds ((s.goto i _).pc i) = _; rw [self]; rfl⟩)⟩
  | pop3 md =>
    rw [hq] at hs hp
    cases md <;> simp [popPc] at hp
    simp at hs; subst hs
    exact ⟨rfl, Or.inr (Or.inl ⟨by simp, by rw [self]; trivial, rfl, by rw [self]; rfl⟩)⟩
  | pop4 md t e =>
    rw [hq] at hs hp
    cases md <;> simp [popPc] at hp
    simp at hs; subst hs
    exact ⟨rfl, Or.inr (Or.inl ⟨by simp, by show popPc ((s.goto i _).pc i); rw [self]; trivial, rfl,
      by show holds ((s.goto i _).pc i) = _; rw [self]; rfl⟩)⟩
  | _ =>
    rw [hq] at hs hp
    first
    | (simp [popPc] at hp; done)
    | (simp only at hs
       (try split at hs) <;> (try split at hs) <;> simp at hs <;> subst hs <;>
       simp [Queue.St.goto, popPc, holds])

/-- A step of `Push t`. -/
theorem q_push {s s' : Q} {i : Option ℕ} {t a : ℕ} (hp : pushPc t (s.pc i))
    (hs : Queue.step i (.push t a) s = .next s') :
    s'.popped = s.popped ∧
    ((∃ r, s.pc i = .ret r ∧ s'.pc i = .idle ∧ s'.pushed = s.pushed) ∨
     ((∀ r, s.pc i ≠ .ret r) ∧ pushPc t (s'.pc i) ∧
       s'.pushed = s.pushed ++ (if effected (s'.pc i) && !effected (s.pc i) then [t] else []) ∧
       (effected (s.pc i) = true → effected (s'.pc i) = true))) := by
  have self : ∀ p, (s.goto i p).pc i = p := fun p => by simp [Queue.St.goto]
  unfold Queue.step at hs
  cases hq : s.pc i with
  | idle =>
    rw [hq] at hs hp
    simp only at hs; split at hs <;> simp at hs; subst hs
    simp [pushPc, effected]
  | push4 v n =>
    rw [hq] at hs hp
    have : v = t := hp
    subst this
    simp at hs; subst hs
    refine ⟨rfl, Or.inr ⟨by simp, ?_, ?_, ?_⟩⟩
    · show pushPc v ((s.goto i _).pc i); rw [self]; rfl
    · show s.pushed ++ [v] = _ ++ (if effected ((s.goto i (.push5 v)).pc i) && _ then _ else _)
      rw [self]; simp [effected]
    · simp [effected]
  | ret r =>
    rw [hq] at hs hp
    simp at hs; subst hs
    exact ⟨rfl, Or.inl ⟨r, rfl, self _, rfl⟩⟩
  | _ =>
    rw [hq] at hs hp
    first
    | (simp [pushPc] at hp; done)
    | (have hv := hp
       simp only [pushPc] at hv
       subst hv
       simp only at hs
       (try split at hs) <;> (try split at hs) <;> simp at hs <;> subst hs <;>
       simp [Queue.St.goto, pushPc, effected])

theorem withQ_next {M : Type} {o : Queue.Out Q} {k : Q → St M} {s' : St M} (h : withQ o k = .next s') :
    ∃ q, o = .next q ∧ s' = k q := by
  cases o <;> simp [withQ] at h
  exact ⟨_, rfl, h.symm⟩

theorem q_reach {q q' : Q} {i : Option ℕ} {op : Queue.Op ℕ} (h : Queue.Reachable q) (hs : Queue.step i op q = .next q') :
    Queue.Reachable q' := by
  obtain ⟨a, h⟩ := h
  exact ⟨a, h.tail ⟨i, op, hs⟩⟩

variable {M : Type}

/-- How many tasks are in the queue's history. -/
def pushedUpTo (s : St M) : ℕ := match s.opc with
  | .adding t => if effected (s.q.pc none) then t + 1 else t
  | _ => s.next

/-- Control. -/
structure InvA (s : St M) : Prop where
  hq : Queue.Reachable s.q
  adding : ∀ t, s.opc = .adding t → t + 1 = s.next ∧ pushPc t (s.q.pc none)
  notAdding : (∀ t, s.opc ≠ .adding t) → s.q.pc none = .idle
  pushed : s.q.pushed = List.range (pushedUpTo s)
  popping : ∀ w, s.wpc w = .popping → popPc (s.q.pc (some w))
  notPopping : ∀ w, s.wpc w ≠ .popping → s.q.pc (some w) = .idle
  launching : ∀ i n, s.opc = .launching i n → s.running = true ∧ i ≤ n ∧ ∀ w, i ≤ w → s.wpc w = .absent
  joining : ∀ i, s.opc = .joining i →
    s.running = false ∧ i ≤ s.nthreads ∧ ∀ w, w < i ∨ s.nthreads ≤ w → s.wpc w = .absent
  other : (∀ i n, s.opc ≠ .launching i n) → (∀ i, s.opc ≠ .joining i) →
    (s.running = false → s.nthreads = 0) ∧ ∀ w, s.nthreads ≤ w → s.wpc w = .absent
  mark : s.mark ≤ s.next
  futures : s.futures = List.range' s.mark (s.next - s.mark)
  waiting : ∀ r, s.opc = .waiting r → ∃ d, s.futures = d ++ r ∧ (s.timedOut = false → ∀ t ∈ d, s.finished t = true)

theorem invA_init (a : ℕ) (m : M) : InvA (init a m) where
  hq := ⟨a, .refl⟩
  adding := by simp [init]
  notAdding _ := rfl
  pushed := rfl
  popping := by simp [init]
  notPopping _ _ := rfl
  launching := by simp [init]
  joining := by simp [init]
  other _ _ := by simp [init]
  mark := le_rfl
  futures := rfl
  waiting := by simp [init]

theorem invA_owner {s s' : St M} {c : Choice M} (h : InvA s) (hs : ownerStep c s = .next s') : InvA s' := by
  unfold ownerStep at hs
  split at hs
  next ho =>
    have hna : s.q.pc none = .idle := h.notAdding (by simp [ho])
    have hot := h.other (by simp [ho]) (by simp [ho])
    have hpu : s.q.pushed = List.range s.next := by rw [h.pushed, pushedUpTo, ho]
    split at hs
    next =>
      simp at hs; subst hs
      refine ⟨h.hq, ?_, ?_, ?_, h.popping, h.notPopping, ?_, ?_, fun _ _ => hot, ?_, ?_, ?_⟩
      · simp [hna, pushPc]
      · simp
      · simp [pushedUpTo, hna, effected, hpu]
      · simp
      · simp
      · exact Nat.le_succ_of_le h.mark
      · show s.futures ++ [s.next] = List.range' s.mark (s.next + 1 - s.mark)
        rw [h.futures, Nat.succ_sub h.mark, List.range'_concat]
        have := h.mark
        simp only [Nat.one_mul, List.append_cancel_left_eq, List.cons.injEq, and_true]; omega
      · simp
    next =>
      simp at hs; subst hs
      refine ⟨h.hq, by simp, fun _ => hna, ?_, h.popping, h.notPopping, by simp, by simp, fun _ _ => hot, h.mark, h.futures, ?_⟩
      · simp [pushedUpTo, hpu]
      · simp
    next n =>
      split at hs <;> simp at hs
      next hr =>
      subst hs
      have hz := hot.1 (by simpa using hr)
      refine ⟨h.hq, by simp, fun _ => hna, ?_, h.popping, h.notPopping, ?_, by simp, ?_, h.mark, h.futures, by simp⟩
      · simp [pushedUpTo, hpu]
      · intro i n e; simp at e; obtain ⟨rfl, rfl⟩ := e
        exact ⟨rfl, Nat.zero_le _, fun w _ => hot.2 w (by omega)⟩
      · simp
    next =>
      simp at hs; subst hs
      refine ⟨h.hq, by simp, fun _ => hna, ?_, h.popping, h.notPopping, by simp, ?_, ?_, h.mark, h.futures, by simp⟩
      · simp [pushedUpTo, hpu]
      · intro i e; simp at e; subst e
        exact ⟨rfl, Nat.zero_le _, fun w hw => hot.2 w (by simpa using hw)⟩
      · simp
    next =>
      simp at hs; subst hs
      refine ⟨h.hq, by simp [ho], fun _ => hna, ?_, h.popping, h.notPopping, by simp [ho], by simp [ho], fun _ _ => hot,
        h.mark, h.futures, by simp [ho]⟩
      · simp [pushedUpTo, hpu, ho]
  next t ho =>
    obtain ⟨ht, hpp⟩ := h.adding t ho
    have hot := h.other (by simp [ho]) (by simp [ho])
    have hpu := h.pushed
    rw [pushedUpTo, ho] at hpu
    split at hs
    next r hr =>
      obtain ⟨q, hq, rfl⟩ := withQ_next hs
      obtain ⟨h1, h2⟩ := q_push hpp hq
      rcases h2 with ⟨r', hr', hi, hpd⟩ | ⟨hn, -⟩
      · have oth : ∀ w : ℕ, q.pc (some w) = s.q.pc (some w) := fun w => Queue.other_pc hq (by simp)
        refine ⟨q_reach h.hq hq, by simp, fun _ => hi, ?_, fun w hw => by rw [oth]; exact h.popping w hw,
          fun w hw => by rw [oth]; exact h.notPopping w hw, by simp, by simp, fun _ _ => hot, h.mark, h.futures, by simp⟩
        simp [pushedUpTo, hpd, hpu, hr, effected, ht]
      · exact absurd hr (hn r)
    next hnr =>
      obtain ⟨q, hq, rfl⟩ := withQ_next hs
      obtain ⟨h1, h2⟩ := q_push hpp hq
      rcases h2 with ⟨r', hr', hi, hpd⟩ | ⟨hn, hp', hpd, hef⟩
      · exact absurd hr' (hnr r')
      · have oth : ∀ w : ℕ, q.pc (some w) = s.q.pc (some w) := fun w => Queue.other_pc hq (by simp)
        refine ⟨q_reach h.hq hq, ?_, by simp [ho], ?_, fun w hw => by rw [oth]; exact h.popping w hw,
          fun w hw => by rw [oth]; exact h.notPopping w hw, by simp [ho], by simp [ho], fun _ _ => hot, h.mark, h.futures,
          by simp [ho]⟩
        · intro t' e; simp [ho] at e; subst e; exact ⟨ht, hp'⟩
        · simp only [pushedUpTo, ho]
          rw [hpd, hpu]
          cases e1 : effected (s.q.pc none) <;> cases e2 : effected (q.pc none) <;> simp [List.range_succ] <;> simp_all
  next t r ho =>
    have hna : s.q.pc none = .idle := h.notAdding (by simp [ho])
    have hot := h.other (by simp [ho]) (by simp [ho])
    have hpu : s.q.pushed = List.range s.next := by rw [h.pushed, pushedUpTo, ho]
    obtain ⟨d, hd, hdf⟩ := h.waiting _ ho
    split at hs
    next hf =>
      simp at hs; subst hs
      refine ⟨h.hq, by simp, fun _ => hna, by simp [pushedUpTo, hpu], h.popping, h.notPopping, by simp, by simp,
        fun _ _ => hot, h.mark, h.futures, ?_⟩
      intro r' e; simp at e; subst e
      refine ⟨d ++ [t], by simp [hd], fun hto t' ht' => ?_⟩
      simp at ht'
      rcases ht' with ht' | rfl
      · exact hdf hto t' ht'
      · exact hf
    next hf =>
      split at hs <;> simp at hs
      subst hs
      refine ⟨h.hq, by simp, fun _ => hna, by simp [pushedUpTo, hpu], h.popping, h.notPopping, by simp, by simp,
        fun _ _ => hot, h.mark, h.futures, ?_⟩
      intro r' e; simp at e; subst e
      exact ⟨d ++ [t], by simp [hd], by simp⟩
  next ho =>
    have hna : s.q.pc none = .idle := h.notAdding (by simp [ho])
    have hot := h.other (by simp [ho]) (by simp [ho])
    have hpu : s.q.pushed = List.range s.next := by rw [h.pushed, pushedUpTo, ho]
    simp at hs; subst hs
    exact ⟨h.hq, by simp, fun _ => hna, by simp [pushedUpTo, hpu], h.popping, h.notPopping, by simp, by simp,
      fun _ _ => hot, le_rfl, by simp, by simp⟩
  next i n ho =>
    have hna : s.q.pc none = .idle := h.notAdding (by simp [ho])
    have hpu : s.q.pushed = List.range s.next := by rw [h.pushed, pushedUpTo, ho]
    obtain ⟨hr, hin, hab⟩ := h.launching i n ho
    split at hs
    next hlt =>
      simp at hs; subst hs
      refine ⟨h.hq, by simp, fun _ => hna, by simp [pushedUpTo, hpu], ?_, ?_, ?_, by simp, by simp, h.mark, h.futures,
        by simp⟩
      · intro w hw
        by_cases e : w = i
        · subst e; simp at hw
        · simp [Function.update_of_ne e] at hw; exact h.popping w hw
      · intro w hw
        by_cases e : w = i
        · subst e; exact h.notPopping w (by rw [hab w le_rfl]; simp)
        · simp [Function.update_of_ne e] at hw; exact h.notPopping w hw
      · intro i' n' e; simp at e; obtain ⟨rfl, rfl⟩ := e
        refine ⟨hr, hlt, fun w hw => ?_⟩
        simp only [Function.update_of_ne (show w ≠ i by omega)]
        exact hab w (by omega)
    next hlt =>
      simp at hs; subst hs
      refine ⟨h.hq, by simp, fun _ => hna, by simp [pushedUpTo, hpu], h.popping, h.notPopping, by simp, by simp, ?_,
        h.mark, h.futures, by simp⟩
      intro _ _
      refine ⟨fun e => by simp [hr] at e, fun w hw => hab w (le_trans hin hw)⟩
  next i ho =>
    have hna : s.q.pc none = .idle := h.notAdding (by simp [ho])
    have hpu : s.q.pushed = List.range s.next := by rw [h.pushed, pushedUpTo, ho]
    obtain ⟨hr, hin, hab⟩ := h.joining i ho
    split at hs
    next hlt =>
      split at hs <;> simp at hs
      next hex =>
      subst hs
      refine ⟨h.hq, by simp, fun _ => hna, by simp [pushedUpTo, hpu], ?_, ?_, by simp, ?_, by simp, h.mark, h.futures,
        by simp⟩
      · intro w hw
        by_cases e : w = i
        · subst e; simp at hw
        · simp [Function.update_of_ne e] at hw; exact h.popping w hw
      · intro w hw
        by_cases e : w = i
        · subst e; exact h.notPopping w (by rw [hex]; simp)
        · simp [Function.update_of_ne e] at hw; exact h.notPopping w hw
      · intro i' e; simp at e; subst e
        refine ⟨hr, hlt, fun w hw => ?_⟩
        by_cases e : w = i
        · subst e; simp
        · simp only [Function.update_of_ne e]
          simp only at hw
          exact hab w (by omega)
    next hlt =>
      simp at hs; subst hs
      refine ⟨h.hq, by simp, fun _ => hna, by simp [pushedUpTo, hpu], h.popping, h.notPopping, by simp, by simp, ?_,
        h.mark, h.futures, by simp⟩
      intro _ _
      exact ⟨fun _ => rfl, fun w _ => hab w (by omega)⟩

theorem invA_worker {prog : ℕ → List (M → M)} {s s' : St M} {w : ℕ} (h : InvA s)
    (hs : workerStep prog w s = .next s') : InvA s' := by
  -- a step that changes only the position of worker `w`, which is not absent, and perhaps the queue
  have gen : ∀ (q : Q) (p : WPC) (fin : ℕ → Bool) (mem : M) (st : List ℕ) (tr : List (TraceEv M)),
      Queue.Reachable q → q.pc none = s.q.pc none → q.pushed = s.q.pushed →
      (∀ v, v ≠ w → q.pc (some v) = s.q.pc (some v)) → s.wpc w ≠ .absent →
      (p = .popping → popPc (q.pc (some w))) → (p ≠ .popping → q.pc (some w) = .idle) →
      (∀ t, s.finished t = true → fin t = true) →
      InvA { s with q := q, wpc := Function.update s.wpc w p, finished := fin, mem := mem, started := st, trace := tr } := by
    intro q p fin mem st tr hqr hqn hqp hqo hab hp1 hp2 hfin
    have hpu : pushedUpTo { s with q := q, wpc := Function.update s.wpc w p, finished := fin, mem := mem, started := st, trace := tr }
        = pushedUpTo s := by
      simp only [pushedUpTo, hqn]
    have habs : ∀ v, s.wpc v = .absent → Function.update s.wpc w p v = .absent := by
      intro v hv
      have : v ≠ w := fun e => hab (e ▸ hv)
      rw [Function.update_of_ne this]; exact hv
    refine ⟨hqr, ?_, ?_, ?_, ?_, ?_, ?_, ?_, ?_, h.mark, h.futures, ?_⟩
    · intro t ht; simp only [hqn]; exact h.adding t ht
    · intro ht; simp only [hqn]; exact h.notAdding ht
    · rw [hpu]; simp only [hqp]; exact h.pushed
    · intro v hv
      by_cases e : v = w
      · subst e; simp only [Function.update_self] at hv; exact hp1 hv
      · simp only [Function.update_of_ne e] at hv; simp only [hqo v e]; exact h.popping v hv
    · intro v hv
      by_cases e : v = w
      · subst e; simp only [Function.update_self] at hv; exact hp2 hv
      · simp only [Function.update_of_ne e] at hv; simp only [hqo v e]; exact h.notPopping v hv
    · intro i n e
      obtain ⟨a, b, c⟩ := h.launching i n e
      exact ⟨a, b, fun v hv => habs v (c v hv)⟩
    · intro i e
      obtain ⟨a, b, c⟩ := h.joining i e
      exact ⟨a, b, fun v hv => habs v (c v hv)⟩
    · intro a b
      obtain ⟨c, d⟩ := h.other a b
      exact ⟨c, fun v hv => habs v (d v hv)⟩
    · intro r e
      obtain ⟨d, h1, h2⟩ := h.waiting r e
      exact ⟨d, h1, fun hto t ht => hfin t (h2 hto t ht)⟩
  unfold workerStep at hs
  split at hs
  next => cases hs
  next => cases hs
  next hw =>
    simp at hs; subst hs
    have hi := h.notPopping w (by rw [hw]; simp)
    refine gen s.q _ s.finished s.mem s.started s.trace h.hq rfl rfl (fun _ _ => rfl) (by rw [hw]; simp) ?_ (fun _ => hi)
      (fun _ h => h)
    intro _; rw [hi]; trivial
  next hw =>
    have hpp := h.popping w hw
    have hself : s.wpc = Function.update s.wpc w .popping := by
      funext v; by_cases e : v = w
      · subst e; simp [hw]
      · simp [Function.update_of_ne e]
    split at hs
    next t hr =>
      obtain ⟨q, hq, rfl⟩ := withQ_next hs
      obtain ⟨h1, h2⟩ := q_pop hpp hq
      rcases h2 with ⟨r, -, hi, -⟩ | ⟨hn, -⟩ | ⟨v, o, e, -⟩
      · exact gen q _ _ _ _ _ (q_reach h.hq hq) (Queue.other_pc hq (by simp)) h1
          (fun v hv => Queue.other_pc hq (by simpa using hv)) (by rw [hw]; simp) (by simp) (fun _ => hi) (fun _ h => h)
      · exact absurd hr (hn _)
      · rw [e] at hr; cases hr
    next r hr =>
      obtain ⟨q, hq, rfl⟩ := withQ_next hs
      obtain ⟨h1, h2⟩ := q_pop hpp hq
      rcases h2 with ⟨r, -, hi, -⟩ | ⟨hn, -⟩ | ⟨v, o, e, -⟩
      · exact gen q _ _ _ _ _ (q_reach h.hq hq) (Queue.other_pc hq (by simp)) h1
          (fun v hv => Queue.other_pc hq (by simpa using hv)) (by rw [hw]; simp) (by simp) (fun _ => hi) (fun _ h => h)
      · exact absurd hr (hn _)
      · rw [e] at hr; cases hr
    next hnr hnr' =>
      obtain ⟨q, hq, rfl⟩ := withQ_next hs
      obtain ⟨h1, h2⟩ := q_pop hpp hq
      have g := gen q .popping s.finished s.mem s.started s.trace (q_reach h.hq hq) (Queue.other_pc hq (by simp)) h1
          (fun v hv => Queue.other_pc hq (by simpa using hv)) (by rw [hw]; simp)
      rw [← hself] at g
      refine g ?_ (by simp) (fun _ h => h)
      intro _
      rcases h2 with ⟨r, hr, hi, -⟩ | ⟨-, hp', -⟩ | ⟨v, o, -, e, -⟩
      · rw [hi]; trivial
      · exact hp'
      · rw [e]; trivial
  next t k hw =>
    have hi := h.notPopping w (by rw [hw]; simp)
    split at hs <;> simp at hs <;> subst hs
    · exact gen s.q _ s.finished _ s.started _ h.hq rfl rfl (fun _ _ => rfl) (by rw [hw]; simp) (by simp) (fun _ => hi)
        (fun _ h => h)
    · refine gen s.q _ _ s.mem s.started s.trace h.hq rfl rfl (fun _ _ => rfl) (by rw [hw]; simp) (by simp) (fun _ => hi) ?_
      intro t' ht'
      by_cases e : t' = t
      · subst e; simp
      · simp [Function.update_of_ne e, ht']

/-! ### What happens to the tasks -/

/-- The steps of task `t` in a trace. -/
def stepsOf (t : ℕ) (tr : List (TraceEv M)) : List ℕ :=
  tr.filterMap fun | .task t' k => if t' = t then some k else none | .own _ => none

/-- The memory after a trace. -/
def replay (prog : ℕ → List (M → M)) (m : M) (tr : List (TraceEv M)) : M :=
  tr.foldl (fun m e => match e with | .task t k => ((prog t)[k]?.getD id) m | .own f => f m) m

/-- Steps seen by the tasks. -/
inductive TStep (prog : ℕ → List (M → M)) (s s' : St M) : Prop
  /-- nothing happens to any task -/
  | silent (hp : s'.q.popped = s.q.popped) (hh : ∀ w : ℕ, holds (s'.q.pc (some w)) = holds (s.q.pc (some w)))
      (hst : s'.started = s.started) (hf : s'.finished = s.finished)
      (hw : ∀ w t k, s'.wpc w = .run t k ↔ s.wpc w = .run t k)
      (htr : (s'.trace = s.trace ∧ s'.mem = s.mem) ∨ ∃ f, s'.trace = s.trace ++ [.own f] ∧ s'.mem = f s.mem)
  /-- worker `w` takes `t` out of the queue -/
  | pop (w t : ℕ) (hp : s'.q.popped = s.q.popped ++ [t]) (h0 : holds (s.q.pc (some w)) = none)
      (h1 : holds (s'.q.pc (some w)) = some t)
      (hh : ∀ v : ℕ, v ≠ w → holds (s'.q.pc (some v)) = holds (s.q.pc (some v)))
      (hst : s'.started = s.started) (hf : s'.finished = s.finished)
      (hw : s'.wpc = s.wpc) (htr : s'.trace = s.trace ∧ s'.mem = s.mem)
  /-- worker `w` starts `t` -/
  | start (w t : ℕ) (hp : s'.q.popped = s.q.popped) (h0 : holds (s.q.pc (some w)) = some t)
      (h1 : holds (s'.q.pc (some w)) = none)
      (hh : ∀ v : ℕ, v ≠ w → holds (s'.q.pc (some v)) = holds (s.q.pc (some v)))
      (hst : s'.started = s.started ++ [t]) (hf : s'.finished = s.finished)
      (hold : ∀ t k, s.wpc w ≠ .run t k)
      (hw : s'.wpc = Function.update s.wpc w (.run t 0)) (htr : s'.trace = s.trace ∧ s'.mem = s.mem)
  /-- worker `w` makes a step of `t` -/
  | work (w t k : ℕ) (f : M → M) (hq : s'.q = s.q) (hst : s'.started = s.started) (hf : s'.finished = s.finished)
      (hold : s.wpc w = .run t k) (hw : s'.wpc = Function.update s.wpc w (.run t (k + 1)))
      (hpr : (prog t)[k]? = some f) (htr : s'.trace = s.trace ++ [.task t k] ∧ s'.mem = f s.mem)
  /-- worker `w` finishes `t` -/
  | finish (w t k : ℕ) (hq : s'.q = s.q) (hst : s'.started = s.started)
      (hf : s'.finished = Function.update s.finished t true)
      (hold : s.wpc w = .run t k) (hw : s'.wpc = Function.update s.wpc w .check)
      (hpr : (prog t)[k]? = none) (htr : s'.trace = s.trace ∧ s'.mem = s.mem)

theorem tstep_owner {prog : ℕ → List (M → M)} {s s' : St M} {c : Choice M} (h : InvA s)
    (hs : ownerStep c s = .next s') : TStep prog s s' := by
  unfold ownerStep at hs
  split at hs
  next ho =>
    split at hs
    next => simp at hs; subst hs; exact .silent rfl (fun _ => rfl) rfl rfl (fun _ _ _ => Iff.rfl) (Or.inl ⟨rfl, rfl⟩)
    next => simp at hs; subst hs; exact .silent rfl (fun _ => rfl) rfl rfl (fun _ _ _ => Iff.rfl) (Or.inl ⟨rfl, rfl⟩)
    next =>
      split at hs <;> simp at hs
      subst hs; exact .silent rfl (fun _ => rfl) rfl rfl (fun _ _ _ => Iff.rfl) (Or.inl ⟨rfl, rfl⟩)
    next => simp at hs; subst hs; exact .silent rfl (fun _ => rfl) rfl rfl (fun _ _ _ => Iff.rfl) (Or.inl ⟨rfl, rfl⟩)
    next f _ =>
      simp at hs; subst hs; exact .silent rfl (fun _ => rfl) rfl rfl (fun _ _ _ => Iff.rfl) (Or.inr ⟨f, rfl, rfl⟩)
  next t ho =>
    obtain ⟨ht, hpp⟩ := h.adding t ho
    split at hs
    · obtain ⟨q, hq, rfl⟩ := withQ_next hs
      exact .silent (q_push hpp hq).1 (fun w => by simp only [Queue.other_pc hq (show some w ≠ none by simp)]) rfl rfl
        (fun _ _ _ => Iff.rfl) (Or.inl ⟨rfl, rfl⟩)
    · obtain ⟨q, hq, rfl⟩ := withQ_next hs
      exact .silent (q_push hpp hq).1 (fun w => by simp only [Queue.other_pc hq (show some w ≠ none by simp)]) rfl rfl
        (fun _ _ _ => Iff.rfl) (Or.inl ⟨rfl, rfl⟩)
  next t r ho =>
    split at hs
    · simp at hs; subst hs; exact .silent rfl (fun _ => rfl) rfl rfl (fun _ _ _ => Iff.rfl) (Or.inl ⟨rfl, rfl⟩)
    · split at hs <;> simp at hs
      subst hs; exact .silent rfl (fun _ => rfl) rfl rfl (fun _ _ _ => Iff.rfl) (Or.inl ⟨rfl, rfl⟩)
  next ho => simp at hs; subst hs; exact .silent rfl (fun _ => rfl) rfl rfl (fun _ _ _ => Iff.rfl) (Or.inl ⟨rfl, rfl⟩)
  next i n ho =>
    split at hs <;> simp at hs <;> subst hs
    · refine .silent rfl (fun _ => rfl) rfl rfl (fun w t k => ?_) (Or.inl ⟨rfl, rfl⟩)
      by_cases e : w = i
      · subst e; simp [(h.launching w n ho).2.2 w le_rfl]
      · simp [Function.update_of_ne e]
    · exact .silent rfl (fun _ => rfl) rfl rfl (fun _ _ _ => Iff.rfl) (Or.inl ⟨rfl, rfl⟩)
  next i ho =>
    split at hs
    · split at hs <;> simp at hs
      next hex =>
      subst hs
      refine .silent rfl (fun _ => rfl) rfl rfl (fun w t k => ?_) (Or.inl ⟨rfl, rfl⟩)
      by_cases e : w = i
      · subst e; simp [hex]
      · simp [Function.update_of_ne e]
    · simp at hs; subst hs; exact .silent rfl (fun _ => rfl) rfl rfl (fun _ _ _ => Iff.rfl) (Or.inl ⟨rfl, rfl⟩)

theorem tstep_worker {prog : ℕ → List (M → M)} {s s' : St M} {w : ℕ} (h : InvA s)
    (hs : workerStep prog w s = .next s') : TStep prog s s' := by
  unfold workerStep at hs
  split at hs
  next => cases hs
  next => cases hs
  next hw =>
    simp at hs; subst hs
    refine .silent rfl (fun _ => rfl) rfl rfl (fun v t k => ?_) (Or.inl ⟨rfl, rfl⟩)
    by_cases e : v = w
    · subst e; simp only [Function.update_self, hw]; split <;> simp
    · simp [Function.update_of_ne e]
  next hw =>
    have hpp := h.popping w hw
    split at hs
    next t hr =>
      obtain ⟨q, hq, rfl⟩ := withQ_next hs
      obtain ⟨h1, h2⟩ := q_pop hpp hq
      rcases h2 with ⟨r, -, hi, hpo⟩ | ⟨hn, -⟩ | ⟨v, o, e, -⟩
      · refine .start w t hpo (by rw [hr]; rfl) (by simp only [hi]; rfl) (fun v hv => ?_) rfl rfl
          (by rw [hw]; simp) rfl ⟨rfl, rfl⟩
        simp only [Queue.other_pc hq (show some v ≠ some w by simpa using hv)]
      · exact absurd hr (hn _)
      · rw [e] at hr; cases hr
    next r hnp hr =>
      obtain ⟨q, hq, rfl⟩ := withQ_next hs
      obtain ⟨h1, h2⟩ := q_pop hpp hq
      rcases h2 with ⟨r, -, hi, hpo⟩ | ⟨hn, -⟩ | ⟨v, o, e, -⟩
      · refine .silent hpo (fun v => ?_) rfl rfl (fun v t k => ?_) (Or.inl ⟨rfl, rfl⟩)
        · by_cases e : v = w
          · subst e
            simp only [hi]
            rename_i r'
            cases r' with
            | popped t => exact absurd rfl (hnp t)
            | _ => rw [hr]; rfl
          · simp only [Queue.other_pc hq (show some v ≠ some w by simpa using e)]
        · by_cases e : v = w
          · subst e; simp [hw]
          · simp [Function.update_of_ne e]
      · exact absurd hr (hn _)
      · rw [e] at hr; cases hr
    next hnr hnr' =>
      obtain ⟨q, hq, rfl⟩ := withQ_next hs
      obtain ⟨h1, h2⟩ := q_pop hpp hq
      rcases h2 with ⟨r, hr, -⟩ | ⟨-, -, hpo, hho⟩ | ⟨v, o, he, he', hpo⟩
      · exact absurd hr (hnr' r)
      · refine .silent hpo (fun v => ?_) rfl rfl (fun _ _ _ => Iff.rfl) (Or.inl ⟨rfl, rfl⟩)
        by_cases e : v = w
        · subst e; exact hho
        · simp only [Queue.other_pc hq (show some v ≠ some w by simpa using e)]
      · refine .pop w v hpo (by rw [he]; rfl) (by simp only [he']; rfl) (fun x hx => ?_) rfl rfl rfl ⟨rfl, rfl⟩
        simp only [Queue.other_pc hq (show some x ≠ some w by simpa using hx)]
  next t k hw =>
    split at hs <;> simp at hs <;> subst hs
    next f hf => exact .work w t k f rfl rfl rfl hw rfl hf ⟨rfl, rfl⟩
    next hf => exact .finish w t k rfl rfl rfl hw rfl hf ⟨rfl, rfl⟩

/-- Tasks. -/
structure InvB (prog : ℕ → List (M → M)) (m : M) (s : St M) : Prop where
  popNodup : s.q.popped.Nodup
  stPop : ∀ t ∈ s.started, t ∈ s.q.popped
  hold : ∀ (w : ℕ) t, holds (s.q.pc (some w)) = some t → t ∈ s.q.popped ∧ t ∉ s.started
  holdUniq : ∀ (w v : ℕ) t, holds (s.q.pc (some w)) = some t → holds (s.q.pc (some v)) = some t → w = v
  popCases : ∀ t ∈ s.q.popped, t ∈ s.started ∨ ∃ w : ℕ, holds (s.q.pc (some w)) = some t
  stNodup : s.started.Nodup
  run : ∀ w t k, s.wpc w = .run t k → t ∈ s.started ∧ s.finished t = false ∧ k ≤ (prog t).length ∧
    stepsOf t s.trace = List.range k
  runUniq : ∀ w v t k k', s.wpc w = .run t k → s.wpc v = .run t k' → w = v
  fin : ∀ t, s.finished t = true → t ∈ s.started ∧ stepsOf t s.trace = List.range (prog t).length
  stCases : ∀ t ∈ s.started, s.finished t = true ∨ ∃ w k, s.wpc w = .run t k
  unstarted : ∀ t, t ∉ s.started → stepsOf t s.trace = []
  mem : s.mem = replay prog m s.trace

theorem invB_init (prog : ℕ → List (M → M)) (a : ℕ) (m : M) : InvB prog m (init a m) := by
  constructor <;> simp [init, Queue.init, holds, stepsOf, replay]

theorem stepsOf_append (t : ℕ) (a b : List (TraceEv M)) : stepsOf t (a ++ b) = stepsOf t a ++ stepsOf t b := by
  simp [stepsOf]

theorem replay_append (prog : ℕ → List (M → M)) (m : M) (a b : List (TraceEv M)) :
    replay prog m (a ++ b) = replay prog (replay prog m a) b := by
  simp [replay]

theorem invB_step {prog : ℕ → List (M → M)} {m : M} {s s' : St M} (h : InvB prog m s) (hs : TStep prog s s')
    (hnd : s'.q.popped.Nodup) : InvB prog m s' := by
  cases hs with
  | silent hp hh hst hf hw htr =>
    have hso : ∀ t, stepsOf t s'.trace = stepsOf t s.trace := by
      intro t
      rcases htr with ⟨e, -⟩ | ⟨f, e, -⟩ <;> rw [e]
      rw [stepsOf_append]; simp [stepsOf]
    refine ⟨hnd, ?_, ?_, ?_, ?_, ?_, ?_, ?_, ?_, ?_, ?_, ?_⟩
    · rw [hst, hp]; exact h.stPop
    · intro w t; rw [hh, hp, hst]; exact h.hold w t
    · intro w v t; rw [hh, hh]; exact h.holdUniq w v t
    · rw [hp, hst]; simp only [hh]; exact h.popCases
    · rw [hst]; exact h.stNodup
    · intro w t k; rw [hw, hst, hf, hso]; exact h.run w t k
    · intro w v t k k'; rw [hw, hw]; exact h.runUniq w v t k k'
    · intro t; rw [hf, hst, hso]; exact h.fin t
    · rw [hst, hf]; simp only [hw]; exact h.stCases
    · intro t; rw [hst, hso]; exact h.unstarted t
    · rcases htr with ⟨e, e'⟩ | ⟨f, e, e'⟩ <;> rw [e, e', h.mem]
      rw [replay_append]; rfl
  | pop w t hp h0 h1 hh hst hf hw htr =>
    have hnt : t ∉ s.q.popped := by
      rw [hp, List.nodup_append] at hnd
      exact fun hm => hnd.2.2 t hm t (by simp) rfl
    refine ⟨hnd, ?_, ?_, ?_, ?_, ?_, ?_, ?_, ?_, ?_, ?_, ?_⟩
    · intro x; rw [hst, hp]; intro hx; exact List.mem_append_left _ (h.stPop x hx)
    · intro v x; rw [hp, hst]
      by_cases e : v = w
      · subst e; rw [h1]; rintro ⟨⟩
        exact ⟨by simp, fun hx => hnt (h.stPop _ hx)⟩
      · rw [hh v e]; intro hx; exact ⟨List.mem_append_left _ (h.hold v x hx).1, (h.hold v x hx).2⟩
    · intro v u x
      by_cases e : v = w
      · by_cases e' : u = w
        · intros; rw [e, e']
        · subst e; rw [h1, hh u e']; rintro ⟨⟩ hx; exact absurd (h.hold u _ hx).1 hnt
      · by_cases e' : u = w
        · subst e'; rw [h1, hh v e]; rintro hx ⟨⟩; exact absurd (h.hold v _ hx).1 hnt
        · rw [hh v e, hh u e']; exact h.holdUniq v u x
    · intro x; rw [hp, hst, List.mem_append]
      rintro (hx | hx)
      · rcases h.popCases x hx with hx | ⟨v, hv⟩
        · exact Or.inl hx
        · refine Or.inr ⟨v, ?_⟩
          rw [hh v]; exact hv
          rintro rfl; rw [h0] at hv; cases hv
      · simp only [List.mem_singleton] at hx; subst hx; exact Or.inr ⟨w, h1⟩
    · rw [hst]; exact h.stNodup
    · intro v x k; rw [hw, hst, hf, htr.1]; exact h.run v x k
    · intro v u x k k'; rw [hw]; exact h.runUniq v u x k k'
    · intro x; rw [hf, hst, htr.1]; exact h.fin x
    · rw [hst, hf, hw]; exact h.stCases
    · intro x; rw [hst, htr.1]; exact h.unstarted x
    · rw [htr.1, htr.2]; exact h.mem
  | start w t hp h0 h1 hh hst hf hold hw htr =>
    have ht := h.hold w t h0
    have hnf : s.finished t = false := by
      cases e : s.finished t with
      | false => rfl
      | true => exact absurd (h.fin t e).1 ht.2
    refine ⟨hnd, ?_, ?_, ?_, ?_, ?_, ?_, ?_, ?_, ?_, ?_, ?_⟩
    · intro x; rw [hst, hp, List.mem_append]
      rintro (hx | hx)
      · exact h.stPop x hx
      · simp only [List.mem_singleton] at hx; subst hx; exact ht.1
    · intro v x; rw [hp, hst]
      by_cases e : v = w
      · subst e; rw [h1]; rintro ⟨⟩
      · rw [hh v e]; intro hx
        refine ⟨(h.hold v x hx).1, ?_⟩
        rw [List.mem_append, not_or]
        refine ⟨(h.hold v x hx).2, ?_⟩
        simp only [List.mem_singleton]
        rintro rfl
        exact e (h.holdUniq v w x hx h0)
    · intro v u x
      by_cases e : v = w
      · subst e; rw [h1]; rintro ⟨⟩
      · by_cases e' : u = w
        · subst e'; rw [h1]; rintro _ ⟨⟩
        · rw [hh v e, hh u e']; exact h.holdUniq v u x
    · intro x; rw [hp, hst]; intro hx
      rcases h.popCases x hx with hx | ⟨v, hv⟩
      · exact Or.inl (List.mem_append_left _ hx)
      · by_cases e : v = w
        · subst e; rw [h0] at hv; cases hv; exact Or.inl (by simp)
        · exact Or.inr ⟨v, by rw [hh v e]; exact hv⟩
    · rw [hst, List.nodup_append]
      refine ⟨h.stNodup, by simp, ?_⟩
      intro a ha b hb
      simp only [List.mem_singleton] at hb
      subst hb
      exact fun e => ht.2 (e ▸ ha)
    · intro v x k; rw [hw, hst, hf, htr.1]
      by_cases e : v = w
      · subst e; rw [Function.update_self]; intro hx
        injection hx with h1 h2
        subst h1; subst h2
        exact ⟨by simp, hnf, Nat.zero_le _, by rw [h.unstarted _ ht.2]; rfl⟩
      · rw [Function.update_of_ne e]; intro hx
        have := h.run v x k hx
        exact ⟨List.mem_append_left _ this.1, this.2⟩
    · intro v u x k k'; rw [hw]
      have key : ∀ v k, v ≠ w → s.wpc v = .run t k → False := fun v k _ hv => ht.2 (h.run v t k hv).1
      by_cases e : v = w
      · by_cases e' : u = w
        · intros; rw [e, e']
        · subst e; rw [Function.update_self, Function.update_of_ne e']; intro hx hy
          injection hx with h1 h2; subst h1
          exact (key u k' e' hy).elim
      · by_cases e' : u = w
        · subst e'; rw [Function.update_self, Function.update_of_ne e]; intro hy hx
          injection hx with h1 h2; subst h1
          exact (key v k e hy).elim
        · rw [Function.update_of_ne e, Function.update_of_ne e']; exact h.runUniq v u x k k'
    · intro x; rw [hf, hst, htr.1]; intro hx
      exact ⟨List.mem_append_left _ (h.fin x hx).1, (h.fin x hx).2⟩
    · intro x; rw [hst, hf, hw, List.mem_append]
      rintro (hx | hx)
      · rcases h.stCases x hx with hx | ⟨v, k, hv⟩
        · exact Or.inl hx
        · refine Or.inr ⟨v, k, ?_⟩
          rw [Function.update_of_ne]; exact hv
          rintro rfl; exact hold _ _ hv
      · simp only [List.mem_singleton] at hx; subst hx
        exact Or.inr ⟨w, 0, by simp⟩
    · intro x; rw [hst, htr.1, List.mem_append, not_or]
      exact fun hx => h.unstarted x hx.1
    · rw [htr.1, htr.2]; exact h.mem
  | work w t k f hq hst hf hold hw hpr htr =>
    have hr := h.run w t k hold
    have hk : k < (prog t).length := by
      by_contra hc
      rw [List.getElem?_eq_none (by omega)] at hpr; cases hpr
    have hso : ∀ x, x ≠ t → stepsOf x s'.trace = stepsOf x s.trace := by
      intro x hx; rw [htr.1, stepsOf_append]; simp [stepsOf, Ne.symm hx]
    have hst' : stepsOf t s'.trace = List.range (k + 1) := by
      rw [htr.1, stepsOf_append, hr.2.2.2, List.range_succ]; simp [stepsOf]
    have nfin : s.finished t = false := hr.2.1
    refine ⟨hnd, ?_, ?_, ?_, ?_, ?_, ?_, ?_, ?_, ?_, ?_, ?_⟩
    · rw [hst, hq]; exact h.stPop
    · rw [hst, hq]; exact h.hold
    · rw [hq]; exact h.holdUniq
    · rw [hst, hq]; exact h.popCases
    · rw [hst]; exact h.stNodup
    · intro v x k'; rw [hw, hst, hf]
      by_cases e : v = w
      · subst e; rw [Function.update_self]; intro hx
        injection hx with h1 h2; subst h1; subst h2
        exact ⟨hr.1, hr.2.1, hk, hst'⟩
      · rw [Function.update_of_ne e]; intro hx
        have hxt : x ≠ t := by rintro rfl; exact e (h.runUniq v w x k' k hx hold)
        rw [hso x hxt]; exact h.run v x k' hx
    · intro v u x a b; rw [hw]
      by_cases e : v = w
      · by_cases e' : u = w
        · intros; rw [e, e']
        · subst e; rw [Function.update_self, Function.update_of_ne e']; intro hx hy
          injection hx with h1 h2; subst h1
          exact h.runUniq v u t k b hold hy
      · by_cases e' : u = w
        · subst e'; rw [Function.update_self, Function.update_of_ne e]; intro hy hx
          injection hx with h1 h2; subst h1
          exact h.runUniq v u t a k hy hold
        · rw [Function.update_of_ne e, Function.update_of_ne e']; exact h.runUniq v u x a b
    · intro x; rw [hf, hst]; intro hx
      have hxt : x ≠ t := by rintro rfl; rw [nfin] at hx; cases hx
      rw [hso x hxt]; exact h.fin x hx
    · intro x; rw [hst, hf, hw]; intro hx
      rcases h.stCases x hx with hx | ⟨v, a, hv⟩
      · exact Or.inl hx
      · by_cases e : v = w
        · subst e; rw [hold] at hv; injection hv with h1 h2; subst h1
          exact Or.inr ⟨v, k + 1, by simp⟩
        · exact Or.inr ⟨v, a, by rw [Function.update_of_ne e]; exact hv⟩
    · intro x; rw [hst]; intro hx
      have hxt : x ≠ t := by rintro rfl; exact hx hr.1
      rw [hso x hxt]; exact h.unstarted x hx
    · rw [htr.1, htr.2, replay_append, ← h.mem]; simp [replay, hpr]
  | finish w t k hq hst hf hold hw hpr htr =>
    have hr := h.run w t k hold
    have hk : k = (prog t).length := by
      have := List.getElem?_eq_none_iff.1 hpr
      omega
    refine ⟨hnd, ?_, ?_, ?_, ?_, ?_, ?_, ?_, ?_, ?_, ?_, ?_⟩
    · rw [hst, hq]; exact h.stPop
    · rw [hst, hq]; exact h.hold
    · rw [hq]; exact h.holdUniq
    · rw [hst, hq]; exact h.popCases
    · rw [hst]; exact h.stNodup
    · intro v x k'; rw [hw, hst, hf, htr.1]
      by_cases e : v = w
      · subst e; rw [Function.update_self]; rintro ⟨⟩
      · rw [Function.update_of_ne e]; intro hx
        have hxt : x ≠ t := by rintro rfl; exact e (h.runUniq v w x k' k hx hold)
        rw [Function.update_of_ne hxt]; exact h.run v x k' hx
    · intro v u x a b; rw [hw]
      by_cases e : v = w
      · subst e; rw [Function.update_self]; rintro ⟨⟩
      · by_cases e' : u = w
        · subst e'; rw [Function.update_self]; rintro _ ⟨⟩
        · rw [Function.update_of_ne e, Function.update_of_ne e']; exact h.runUniq v u x a b
    · intro x; rw [hf, hst, htr.1]
      by_cases e : x = t
      · subst e; intro _; exact ⟨hr.1, by rw [hr.2.2.2, hk]⟩
      · rw [Function.update_of_ne e]; exact h.fin x
    · intro x; rw [hst, hf, hw]; intro hx
      by_cases ext : x = t
      · subst ext; exact Or.inl (by simp)
      · rw [Function.update_of_ne ext]
        rcases h.stCases x hx with hx | ⟨v, a, hv⟩
        · exact Or.inl hx
        · refine Or.inr ⟨v, a, ?_⟩
          rw [Function.update_of_ne]; exact hv
          rintro rfl; rw [hold] at hv; injection hv with h1; exact ext h1.symm
    · intro x; rw [hst, htr.1]; exact h.unstarted x
    · rw [htr.1, htr.2]; exact h.mem

theorem invA_step {prog : ℕ → List (M → M)} {s s' : St M} {i : Option ℕ} {c : Choice M} (h : InvA s)
    (hs : step prog i c s = .next s') : InvA s' ∧ TStep prog s s' := by
  cases i with
  | none => exact ⟨invA_owner h hs, tstep_owner h hs⟩
  | some w => exact ⟨invA_worker h hs, tstep_worker h hs⟩

theorem popped_prefix {s : St M} (h : InvA s) : s.q.popped <+: List.range (pushedUpTo s) := by
  obtain ⟨L, hL⟩ := Queue.inv_reachable h.hq
  exact ⟨L.map Prod.snd, by rw [hL.hist, h.pushed]⟩

theorem popped_nodup {s : St M} (h : InvA s) : s.q.popped.Nodup :=
  (popped_prefix h).sublist.nodup List.nodup_range

theorem inv_reachable {prog : ℕ → List (M → M)} {m : M} {s : St M} (h : Reachable prog m s) :
    InvA s ∧ InvB prog m s := by
  obtain ⟨a, h⟩ := h
  induction h with
  | refl => exact ⟨invA_init a m, invB_init prog a m⟩
  | tail _ hs ih =>
    obtain ⟨i, c, hs⟩ := hs
    obtain ⟨hA, hT⟩ := invA_step ih.1 hs
    exact ⟨hA, invB_step ih.2 hT (popped_nodup hA)⟩

end Altro.Pool
