import Verif.Model.PoolMove
import Mathlib.Algebra.BigOperators.Group.Finset.Basic
import Mathlib.Data.List.Count
import Mathlib.Tactic.Linarith

/-!
# C78: moving a thread pool keeps its tasks
-/

namespace Altro.Props.PoolMove
open Altro.PoolMove Finset

/-! ## What every operation does -/

theorem bind_ok' {α β : Type} {x : Except Fault α} {f : α → Except Fault β} {b : β} :
    (x >>= f) = .ok b ↔ ∃ a, x = .ok a ∧ f a = .ok b := by
  cases x <;> simp [bind, Except.bind]

theorem pure_ok' {α : Type} {a b : α} : (pure a : Except Fault α) = .ok b ↔ a = b := by
  simp [pure, Except.pure]

theorem get_ok {w : World} {a : ℕ} {p : Pool} : w.get a = .ok p ↔ w.pools a = some p := by
  unfold World.get
  cases w.pools a <;> simp

theorem assertIn_ok {d b : Bool} {u : Unit} : assertIn d b = .ok u ↔ (d = true → b = true) := by
  unfold assertIn; cases d <;> cases b <;> simp

theorem moveNew_ok {d : Bool} {w w' : World} {a : ℕ} : moveNew d w a = .ok w' ↔
    ∃ p, w.pools a = some p ∧ (d = true → p.running = false) ∧
      w' = { (w.put a (some { p with threads := [], futures := [], queue := none })).put w.next (some p) with
        next := w.next + 1 } := by
  unfold moveNew
  simp only [bind_ok', pure_ok', get_ok, assertIn_ok]
  constructor
  · rintro ⟨p, h1, _, h2, h3⟩
    exact ⟨p, h1, by simpa using h2, h3.symm⟩
  · rintro ⟨p, h1, h2, h3⟩
    exact ⟨p, h1, (), by simpa using h2, h3.symm⟩

theorem moveAssign_ok {d : Bool} {w w' : World} {a b : ℕ} : ¬ moveAssign d w a b = .ok w' := by
  unfold moveAssign
  simp only [bind_ok', get_ok, assertIn_ok]
  rintro ⟨s, _, _, _, p, _, h⟩
  split at h
  · cases h
  · cases h

theorem stop_eq {w : World} {a : ℕ} {p : Pool} (h : w.pools a = some p) :
    (∃ w', stop w a = .ok w') → stop w a = .ok (w.put a (some { p with running := false, threads := [] })) := by
  rintro ⟨w', hw⟩
  unfold stop at hw ⊢
  rw [get_ok.mpr h] at hw ⊢
  rw [bind_ok'] at hw
  obtain ⟨p', e, hw⟩ := hw
  cases e
  rw [bind_ok'] at hw
  obtain ⟨u, hj, _⟩ := hw
  refine bind_ok'.mpr ⟨p, rfl, bind_ok'.mpr ⟨u, hj, ?_⟩⟩
  rw [pure_ok']
  simp only [World.put]
  congr 1
  funext b
  by_cases hb : b = a <;> simp [hb]

theorem stop_ok {w w' : World} {a : ℕ} (h : stop w a = .ok w') :
    ∃ p, w.pools a = some p ∧ w' = w.put a (some { p with running := false, threads := [] }) := by
  have h0 := h
  unfold stop at h0
  rw [bind_ok'] at h0
  obtain ⟨p, hp, _⟩ := h0
  rw [get_ok] at hp
  have := stop_eq hp ⟨w', h⟩
  rw [h] at this
  exact ⟨p, hp, by cases this; rfl⟩

theorem destroy_ok {w w' : World} {a : ℕ} (h : destroy w a = .ok w') :
    ∃ p, w.pools a = some p ∧ (p.running = false → p.threads = []) ∧
      w' = { w.put a none with dropped := w.dropped ++ p.queue.getD [] } := by
  unfold destroy stopIfRunning at h
  simp only [bind_ok', get_ok] at h
  obtain ⟨p, hp, w1, h1, p1, hp1, h2⟩ := h
  refine ⟨p, hp, ?_, ?_⟩
  · intro hr
    rw [if_neg (by simp [hr]), pure_ok'] at h1
    subst h1
    rw [hp] at hp1
    cases hp1
    by_contra ht
    rw [if_pos ht] at h2
    cases h2
  · split at h1
    · obtain ⟨p', hp', rfl⟩ := stop_ok h1
      rw [hp] at hp'
      cases hp'
      simp only [World.put, if_pos, Option.some.injEq] at hp1
      subst hp1
      simp only [ne_eq, not_true_eq_false, if_false, pure_ok'] at h2
      rw [← h2]
      simp only [World.put]
      congr 1
      funext b
      by_cases hb : b = a <;> simp [hb]
    · rw [pure_ok'] at h1
      subst h1
      rw [hp] at hp1
      cases hp1
      split at h2
      · cases h2
      · rw [pure_ok'] at h2
        exact h2.symm

theorem addTask_ok {w w' : World} {a : ℕ} : addTask w a = .ok w' ↔
    ∃ p l, w.pools a = some p ∧ p.queue = some l ∧ w' =
      { w.put a (some { p with futures := p.futures ++ [w.nextTask], queue := some (l ++ [w.nextTask]) }) with
        nextTask := w.nextTask + 1 } := by
  unfold addTask
  simp only [bind_ok', pure_ok', get_ok]
  constructor
  · rintro ⟨p, h1, q, h2, h3⟩
    unfold QObj.push at h2
    cases hq : p.queue with
    | none => rw [hq] at h2; cases h2
    | some l =>
      rw [hq] at h2
      cases h2
      exact ⟨p, l, h1, hq, h3.symm⟩
  · rintro ⟨p, l, h1, h2, h3⟩
    exact ⟨p, h1, some (l ++ [w.nextTask]), by simp [QObj.push, h2], h3.symm⟩

theorem numTasks_ok {w : World} {a : ℕ} {n : ℕ} : numTasks w a = .ok n ↔
    ∃ p l, w.pools a = some p ∧ p.queue = some l ∧ n = l.length := by
  unfold numTasks
  simp only [bind_ok', get_ok]
  constructor
  · rintro ⟨p, h1, h2⟩
    unfold QObj.size at h2
    cases hq : p.queue with
    | none => rw [hq] at h2; cases h2
    | some l => rw [hq] at h2; cases h2; exact ⟨p, l, h1, hq, rfl⟩
  · rintro ⟨p, l, h1, h2, h3⟩
    exact ⟨p, h1, by simp [QObj.size, h2, h3]⟩

theorem launch_ok {d : Bool} {w w' : World} {a : ℕ} {n : ℤ} : launch d w a n = .ok w' ↔
    ∃ p, w.pools a = some p ∧ ((p.running = true ∧ d = false ∧ w' = w) ∨
      (p.running = false ∧ p.threads = [] ∧
        w' = w.put a (some { p with running := true, threads := List.replicate n.toNat a }))) := by
  unfold launch
  simp only [bind_ok', get_ok, assertIn_ok]
  constructor
  · rintro ⟨p, h1, _, h2, h3⟩
    refine ⟨p, h1, ?_⟩
    by_cases hr : p.running = true
    · rw [if_pos hr, pure_ok'] at h3
      have : d = false := by
        cases d with
        | false => rfl
        | true => have := h2 rfl; simp [hr] at this
      exact .inl ⟨hr, this, h3.symm⟩
    · rw [if_neg hr] at h3
      split at h3
      · cases h3
      · rename_i ht
        rw [pure_ok'] at h3
        exact .inr ⟨by simpa using hr, not_not.mp ht, h3.symm⟩
  · rintro ⟨p, h1, h | h⟩
    · obtain ⟨h2, rfl, rfl⟩ := h
      exact ⟨p, h1, (), by simp, by simp [h2, pure, Except.pure]⟩
    · obtain ⟨h2, h3, rfl⟩ := h
      exact ⟨p, h1, (), by simp [h2], by simp [h2, h3, pure, Except.pure]⟩

theorem wait_ok {w w' : World} {a : ℕ} : wait w a = .ok w' ↔
    ∃ p, w.pools a = some p ∧ w' = w.put a (some { p with futures := [] }) := by
  unfold wait
  simp only [bind_ok', pure_ok', get_ok]
  exact ⟨fun ⟨p, h1, h2⟩ => ⟨p, h1, h2.symm⟩, fun ⟨p, h1, h2⟩ => ⟨p, h1, h2.symm⟩⟩

/-- The three ways in which a round of a worker ends normally. -/
theorem workOn_ok {w w' : World} {c : ℕ} : workOn w c = .ok w' ↔
    ∃ p, w.pools c = some p ∧ ((p.running = false ∧ w' = w) ∨
      (p.running = true ∧ p.queue = some [] ∧ w' = w.put c (some p)) ∨
      ∃ t l, p.running = true ∧ p.queue = some (t :: l) ∧
        w' = { w.put c (some { p with queue := some l }) with done := w.done ++ [t] }) := by
  unfold workOn
  simp only [bind_ok', get_ok]
  constructor
  · rintro ⟨p, h1, h2⟩
    refine ⟨p, h1, ?_⟩
    by_cases hr : p.running = true
    · rw [if_pos hr, bind_ok'] at h2
      obtain ⟨r, h3, h4⟩ := h2
      unfold QObj.tryPop at h3
      cases hq : p.queue with
      | none => rw [hq] at h3; cases h3
      | some l =>
        rw [hq] at h3
        cases l with
        | nil =>
          cases h3
          have hp : ({ p with queue := some [] } : Pool) = p := by rw [← hq]
          refine .inr (.inl ⟨hr, rfl, ?_⟩)
          rw [← pure_ok'.mp h4]
          show w.put c (some { p with queue := some [] }) = _
          rw [hp]
        | cons t l =>
          cases h3
          exact .inr (.inr ⟨t, l, hr, rfl, (pure_ok'.mp h4).symm⟩)
    · rw [if_neg hr, pure_ok'] at h2
      exact .inl ⟨by simpa using hr, h2.symm⟩
  · rintro ⟨p, h1, h | h | ⟨t, l, h⟩⟩
    · exact ⟨p, h1, by rw [if_neg (by simp [h.1]), h.2]; rfl⟩
    · obtain ⟨h2, h3, rfl⟩ := h
      have hp : ({ p with queue := some [] } : Pool) = p := by rw [← h3]
      refine ⟨p, h1, ?_⟩
      rw [if_pos h2, bind_ok']
      refine ⟨(none, some []), by rw [h3]; rfl, ?_⟩
      show Except.ok (w.put c (some { p with queue := some [] })) = _
      rw [hp]
    · obtain ⟨h2, h3, rfl⟩ := h
      refine ⟨p, h1, ?_⟩
      rw [if_pos h2, bind_ok']
      exact ⟨(some t, some l), by rw [h3]; rfl, rfl⟩

/-! ## What a history of operations leaves behind -/

/-- The tasks waiting in the pool at an address. -/
def pending (w : World) (a : ℕ) : List ℕ := ((w.pools a).bind (·.queue)).getD []

/-- How many times the task is waiting anywhere. -/
def waiting (w : World) (t : ℕ) : ℕ := ∑ a ∈ range w.next, (pending w a).count t

theorem pending_put {w : World} {a : ℕ} {p : Option Pool} (b : ℕ) :
    pending (w.put a p) b = if b = a then (p.bind (·.queue)).getD [] else pending w b := by
  unfold pending World.put
  by_cases h : b = a <;> simp [h]

theorem sum_put {w : World} {a : ℕ} {p : Option Pool} {n : ℕ} (t : ℕ) (ha : a < n) :
    (∑ b ∈ range n, (pending (w.put a p) b).count t) + (pending w a).count t
      = (∑ b ∈ range n, (pending w b).count t) + ((p.bind (·.queue)).getD []).count t := by
  have hm : a ∈ range n := mem_range.mpr ha
  rw [← add_sum_erase _ _ hm, ← add_sum_erase (range n) (fun b => (pending w b).count t) hm]
  have : ∀ b ∈ (range n).erase a, (pending (w.put a p) b).count t = (pending w b).count t := by
    intro b hb
    rw [pending_put, if_neg (ne_of_mem_erase hb)]
  rw [sum_congr rfl this, pending_put, if_pos rfl]
  omega

/-- The invariant behind C78: no object beyond `next`; every task is in exactly one place; the tasks waiting in a pool are in the
order in which they were added. -/
structure Inv (w : World) : Prop where
  fresh : ∀ a, w.next ≤ a → w.pools a = none
  count : ∀ t, w.done.count t + w.dropped.count t + waiting w t = if t < w.nextTask then 1 else 0
  sorted : ∀ a, (pending w a).Pairwise (· < ·)
  bound : ∀ a, ∀ t ∈ pending w a, t < w.nextTask

theorem lt_next {w : World} (h : Inv w) {a : ℕ} {p : Pool} (hp : w.pools a = some p) : a < w.next := by
  by_contra hc
  rw [h.fresh a (not_lt.mp hc)] at hp
  cases hp

theorem pending_of {w : World} {a : ℕ} {p : Pool} (hp : w.pools a = some p) : pending w a = p.queue.getD [] := by
  simp [pending, hp]

theorem inv_init : Inv {} where
  fresh _ _ := rfl
  count t := by simp [waiting]
  sorted _ := List.Pairwise.nil
  bound _ t ht := by cases ht

/-- Replacing the pool at an address by another one with the same queue. -/
theorem inv_same {w : World} (h : Inv w) {a : ℕ} {p p' : Pool} (hp : w.pools a = some p) (hq : p'.queue = p.queue) :
    Inv (w.put a (some p')) := by
  have he : ∀ b, pending (w.put a (some p')) b = pending w b := by
    intro b
    rw [pending_put]
    split
    · rename_i e; subst e; rw [pending_of hp]; simp [hq]
    · rfl
  refine ⟨?_, ?_, ?_, ?_⟩
  · intro b hb
    have : b ≠ a := by
      have := lt_next h hp
      show b ≠ a
      have hb' : w.next ≤ b := hb
      omega
    simp only [World.put, if_neg this]
    exact h.fresh b hb
  · intro t
    have := h.count t
    unfold waiting at this ⊢
    simp only [he]
    exact this
  · intro b; rw [he]; exact h.sorted b
  · intro b t ht; rw [he] at ht; exact h.bound b t ht

theorem step_inv {d : Bool} {w w' : World} {op : Op} (h : Inv w) (hs : step d w op = .ok w') : Inv w' := by
  cases op with
  | new =>
    cases hs
    have he : ∀ b, pending (create w) b = pending w b := by
      intro b
      show pending (w.put w.next (some {})) b = _
      rw [pending_put]
      split
      · rename_i e; subst e; simp [pending, h.fresh _ le_rfl, QObj.new]
      · rfl
    refine ⟨?_, ?_, ?_, ?_⟩
    · intro b hb
      have hb' : w.next + 1 ≤ b := hb
      have : b ≠ w.next := by omega
      simp only [create, World.put, if_neg this]
      exact h.fresh b (by omega)
    · intro t
      have := h.count t
      unfold waiting at this ⊢
      simp only [he]
      show w.done.count t + w.dropped.count t + ∑ a ∈ range (w.next + 1), _ = _
      rw [sum_range_succ]
      have e0 : pending w w.next = [] := by simp [pending, h.fresh _ le_rfl]
      rw [e0]
      exact this
    · intro b; rw [he]; exact h.sorted b
    · intro b t ht; rw [he] at ht; exact h.bound b t ht
  | moveNew src =>
    obtain ⟨p, hp, -, rfl⟩ := moveNew_ok.mp hs
    have hl := lt_next h hp
    set w1 := w.put src (some { p with threads := [], futures := [], queue := none }) with hw1
    have e0 : pending w1 w.next = [] := by
      rw [hw1, pending_put, if_neg (by omega)]
      simp [pending, h.fresh _ le_rfl]
    have he : ∀ b, pending (w1.put w.next (some p)) b =
        if b = w.next then pending w src else if b = src then [] else pending w b := by
      intro b
      rw [pending_put]
      split
      · rw [pending_of hp]; rfl
      · rw [hw1, pending_put]; rfl
    refine ⟨?_, ?_, ?_, ?_⟩
    · intro b hb
      have hb' : w.next + 1 ≤ b := hb
      show (w1.put w.next (some p)).pools b = none
      have : b ≠ w.next := by omega
      have h2 : b ≠ src := by omega
      simp only [hw1, World.put, if_neg this, if_neg h2]
      exact h.fresh b (by omega)
    · intro t
      have := h.count t
      have s1 := sum_put (w := w) (p := some { p with threads := [], futures := [], queue := none }) t hl
      have s2 := sum_put (w := w1) (p := some p) t (Nat.lt_succ_self w.next)
      rw [e0] at s2
      rw [sum_range_succ (n := w.next) (f := fun b => (pending w1 b).count t), e0] at s2
      rw [← hw1] at s1
      have e1 := pending_of hp
      unfold waiting at this ⊢
      show w.done.count t + w.dropped.count t + ∑ a ∈ range (w.next + 1), (pending (w1.put w.next (some p)) a).count t = _
      have e2 : ((some p : Option Pool).bind (·.queue)).getD [] = pending w src := by rw [e1]; rfl
      rw [e2] at s2
      simp only [Option.bind_some, Option.getD_none, List.count_nil] at s1 s2
      show _ = if t < w.nextTask then 1 else 0
      rw [Nat.succ_eq_add_one] at s2
      omega
    · intro b
      show (pending (w1.put w.next (some p)) b).Pairwise _
      rw [he]
      split
      · exact h.sorted src
      · split
        · exact List.Pairwise.nil
        · exact h.sorted b
    · intro b t ht
      change t ∈ pending (w1.put w.next (some p)) b at ht
      rw [he] at ht
      show t < w.nextTask
      split at ht
      · exact h.bound src t ht
      · split at ht
        · cases ht
        · exact h.bound b t ht
  | moveAssign dst src => exact absurd hs moveAssign_ok
  | destroy a =>
    obtain ⟨p, hp, -, rfl⟩ := destroy_ok hs
    have hl := lt_next h hp
    have he : ∀ b, pending (w.put a none) b = if b = a then [] else pending w b := fun b => pending_put b
    refine ⟨?_, ?_, ?_, ?_⟩
    · intro b hb
      have hb' : w.next ≤ b := hb
      show (w.put a none).pools b = none
      simp only [World.put]
      split
      · rfl
      · exact h.fresh b hb'
    · intro t
      have := h.count t
      have s1 := sum_put (w := w) (p := none) t hl
      unfold waiting at this ⊢
      show w.done.count t + (w.dropped ++ p.queue.getD []).count t
        + ∑ b ∈ range w.next, (pending (w.put a none) b).count t = _
      rw [List.count_append, ← pending_of hp]
      simp only [Option.bind_none, Option.getD_none, List.count_nil] at s1
      show _ = if t < w.nextTask then 1 else 0
      omega
    · intro b
      show (pending (w.put a none) b).Pairwise _
      rw [he]
      split
      · exact List.Pairwise.nil
      · exact h.sorted b
    · intro b t ht
      change t ∈ pending (w.put a none) b at ht
      rw [he] at ht
      split at ht
      · cases ht
      · exact h.bound b t ht
  | addTask a =>
    obtain ⟨p, l, hp, hq, rfl⟩ := addTask_ok.mp hs
    have hl := lt_next h hp
    have e1 : pending w a = l := by rw [pending_of hp, hq]; rfl
    set p' : Pool := { p with futures := p.futures ++ [w.nextTask], queue := some (l ++ [w.nextTask]) } with hp'
    have he : ∀ b, pending (w.put a (some p')) b = if b = a then l ++ [w.nextTask] else pending w b :=
      fun b => pending_put b
    refine ⟨?_, ?_, ?_, ?_⟩
    · intro b hb
      have hb' : w.next ≤ b := hb
      show (w.put a (some p')).pools b = none
      have : b ≠ a := by omega
      simp only [World.put, if_neg this]
      exact h.fresh b hb'
    · intro t
      have := h.count t
      have s1 := sum_put (w := w) (p := some p') t hl
      unfold waiting at this ⊢
      show w.done.count t + w.dropped.count t + ∑ b ∈ range w.next, (pending (w.put a (some p')) b).count t
        = if t < w.nextTask + 1 then 1 else 0
      have e2 : ((some p' : Option Pool).bind (·.queue)).getD [] = l ++ [w.nextTask] := rfl
      rw [e2, e1, List.count_append, List.count_singleton] at s1
      by_cases ht : t = w.nextTask
      · subst ht
        rw [if_neg (lt_irrefl _)] at this
        rw [if_pos (Nat.lt_succ_self _)]
        simp only [beq_self_eq_true, if_true] at s1
        omega
      · have : (w.nextTask == t) = false := by simpa using fun e => ht e.symm
        rw [this] at s1
        split at * <;> split <;> first | omega | (simp at s1; omega)
    · intro b
      show (pending (w.put a (some p')) b).Pairwise _
      rw [he]
      split
      · rw [List.pairwise_append]
        refine ⟨e1 ▸ h.sorted a, List.pairwise_singleton _ _, ?_⟩
        intro x hx y hy
        rw [List.mem_singleton.mp hy]
        exact h.bound a x (e1 ▸ hx)
      · exact h.sorted b
    · intro b t ht
      change t ∈ pending (w.put a (some p')) b at ht
      rw [he] at ht
      show t < w.nextTask + 1
      split at ht
      · rcases List.mem_append.mp ht with h1 | h1
        · exact Nat.lt_succ_of_lt (h.bound a t (e1 ▸ h1))
        · rw [List.mem_singleton.mp h1]; exact Nat.lt_succ_self _
      · exact Nat.lt_succ_of_lt (h.bound b t ht)
  | numTasks a =>
    change (numTasks w a >>= fun _ => pure w) = _ at hs
    obtain ⟨_, -, hs⟩ := bind_ok'.mp hs
    rw [← pure_ok'.mp hs]
    exact h
  | launch a n =>
    obtain ⟨p, hp, h1 | h1⟩ := launch_ok.mp hs
    · rw [h1.2.2]; exact h
    · rw [h1.2.2]; exact inv_same h hp rfl
  | stop a =>
    obtain ⟨p, hp, rfl⟩ := stop_ok hs
    exact inv_same h hp rfl
  | wait a =>
    obtain ⟨p, hp, rfl⟩ := wait_ok.mp hs
    exact inv_same h hp rfl
  | work a i =>
    change (match (w.pools a).bind fun p => p.threads[i]? with
      | none => Except.ok w
      | some c => workOn w c) = _ at hs
    split at hs
    · cases hs; exact h
    · rename_i c _
      obtain ⟨p, hp, h1 | h1 | ⟨t, l, hr, hq, rfl⟩⟩ := workOn_ok.mp hs
      · rw [h1.2]; exact h
      · rw [h1.2.2]; exact inv_same h hp rfl
      · have hl := lt_next h hp
        have e1 : pending w c = t :: l := by rw [pending_of hp, hq]; rfl
        set p' : Pool := { p with queue := some l } with hp'
        have he : ∀ b, pending (w.put c (some p')) b = if b = c then l else pending w b := fun b => pending_put b
        refine ⟨?_, ?_, ?_, ?_⟩
        · intro b hb
          have hb' : w.next ≤ b := hb
          show (w.put c (some p')).pools b = none
          have : b ≠ c := by omega
          simp only [World.put, if_neg this]
          exact h.fresh b hb'
        · intro u
          have := h.count u
          have s1 := sum_put (w := w) (p := some p') u hl
          unfold waiting at this ⊢
          show (w.done ++ [t]).count u + w.dropped.count u
            + ∑ b ∈ range w.next, (pending (w.put c (some p')) b).count u = if u < w.nextTask then 1 else 0
          have e2 : ((some p' : Option Pool).bind (·.queue)).getD [] = l := rfl
          rw [e2, e1, List.count_cons] at s1
          rw [List.count_append, List.count_singleton]
          omega
        · intro b
          show (pending (w.put c (some p')) b).Pairwise _
          rw [he]
          split
          · have := h.sorted c
            rw [e1] at this
            exact this.of_cons
          · exact h.sorted b
        · intro b u hu
          change u ∈ pending (w.put c (some p')) b at hu
          rw [he] at hu
          show u < w.nextTask
          split at hu
          · exact h.bound c u (e1 ▸ List.mem_cons_of_mem _ hu)
          · exact h.bound b u hu

theorem run_inv {d : Bool} {ops : List Op} : ∀ {w w' : World}, Inv w → run d w ops = .ok w' → Inv w' := by
  induction ops with
  | nil => intro w w' h hr; cases hr; exact h
  | cons op ops ih =>
    intro w w' h hr
    obtain ⟨w1, h1, h2⟩ := bind_ok'.mp hr
    exact ih (step_inv h h1) h2

/-- C78: however pools are created, filled, moved, launched, stopped and destroyed, with assertions on or off: as long as no
call fails, every task that was added has been executed once, or was lost with the pool that was destroyed, or waits in exactly
one pool; nothing else was executed. -/
theorem C78_conserved (debug : Bool) (ops : List Op) (w : World) (h : run debug {} ops = .ok w) (t : ℕ) :
    w.done.count t + w.dropped.count t + ∑ a ∈ range w.next, (pending w a).count t
      = if t < w.nextTask then 1 else 0 :=
  (run_inv inv_init h).count t

/-- C78: the tasks waiting in a pool, also in one that was moved into, are in the order in which they were added. -/
theorem C78_order (debug : Bool) (ops : List Op) (w : World) (h : run debug {} ops = .ok w) (a : ℕ) :
    (pending w a).Pairwise (· < ·) :=
  (run_inv inv_init h).sorted a

/-- The number of tasks added in a history. -/
def added (ops : List Op) : ℕ := (ops.filter fun o => match o with | .addTask _ => true | _ => false).length

theorem step_nextTask {d : Bool} {w w' : World} {op : Op} (hs : step d w op = .ok w') :
    w'.nextTask = w.nextTask + added [op] := by
  cases op with
  | new => cases hs; rfl
  | moveNew src => obtain ⟨p, -, -, rfl⟩ := moveNew_ok.mp hs; rfl
  | moveAssign dst src => exact absurd hs moveAssign_ok
  | destroy a => obtain ⟨p, -, -, rfl⟩ := destroy_ok hs; rfl
  | addTask a => obtain ⟨p, l, -, -, rfl⟩ := addTask_ok.mp hs; rfl
  | numTasks a =>
    change (numTasks w a >>= fun _ => pure w) = _ at hs
    obtain ⟨_, -, hs⟩ := bind_ok'.mp hs
    rw [← pure_ok'.mp hs]
    rfl
  | launch a n =>
    obtain ⟨p, -, h1 | h1⟩ := launch_ok.mp hs
    · rw [h1.2.2]; rfl
    · rw [h1.2.2]; rfl
  | stop a => obtain ⟨p, -, rfl⟩ := stop_ok hs; rfl
  | wait a => obtain ⟨p, -, rfl⟩ := wait_ok.mp hs; rfl
  | work a i =>
    change (match (w.pools a).bind fun p => p.threads[i]? with
      | none => Except.ok w
      | some c => workOn w c) = _ at hs
    split at hs
    · cases hs; rfl
    · obtain ⟨p, -, h1 | h1 | ⟨t, l, -, -, rfl⟩⟩ := workOn_ok.mp hs
      · rw [h1.2]; rfl
      · rw [h1.2.2]; rfl
      · rfl

/-- C78: the tasks are numbered in the order in which they were added. -/
theorem C78_added (debug : Bool) (ops : List Op) (w : World) (h : run debug {} ops = .ok w) : w.nextTask = added ops := by
  suffices ∀ (ops : List Op) (w0 : World), run debug w0 ops = .ok w → w.nextTask = w0.nextTask + added ops by
    simpa using this ops {} h
  intro ops
  induction ops with
  | nil => intro w0 h; cases h; rfl
  | cons op ops ih =>
    intro w0 h
    obtain ⟨w1, h1, h2⟩ := bind_ok'.mp h
    rw [ih w1 h2, step_nextTask h1]
    unfold added
    cases op <;> simp <;> omega

/-- C78: moving a pool: the new pool is what the old one was; the old one keeps nothing; nothing else changes. -/
theorem C78_move (debug : Bool) (w w' : World) (a : ℕ) (h : moveNew debug w a = .ok w') (hf : w.pools w.next = none) :
    w'.pools w.next = w.pools a ∧ w'.next = w.next + 1 ∧
      (∃ p, w'.pools a = some p ∧ p.threads = [] ∧ p.futures = [] ∧ p.queue = none) ∧
      (∀ b, b ≠ a → b ≠ w.next → w'.pools b = w.pools b) ∧
      w'.done = w.done ∧ w'.dropped = w.dropped ∧ w'.nextTask = w.nextTask := by
  obtain ⟨p, hp, -, rfl⟩ := moveNew_ok.mp h
  have hne : a ≠ w.next := fun e => by rw [e, hf] at hp; cases hp
  refine ⟨by simp [World.put, hp], rfl, ⟨{ p with threads := [], futures := [], queue := none }, ?_, rfl, rfl, rfl⟩, ?_,
    rfl, rfl, rfl⟩
  · simp [World.put, hne]
  · intro b h1 h2
    simp [World.put, h1, h2]

/-! ## Which calls fail -/

/-- In a debug build a pool's threads are its own, and a pool that is not running has none. -/
def Own (w : World) : Prop :=
  ∀ a p, w.pools a = some p → (∀ c ∈ p.threads, c = a) ∧ (p.running = false → p.threads = [])

theorem own_put {w : World} (h : Own w) {a : ℕ} {p : Option Pool}
    (hp : ∀ q, p = some q → (∀ c ∈ q.threads, c = a) ∧ (q.running = false → q.threads = [])) : Own (w.put a p) := by
  intro b q hq
  simp only [World.put] at hq
  split at hq
  · rename_i e; subst e; exact hp q hq
  · exact h b q hq

theorem step_own {w w' : World} {op : Op} (h : Own w) (hs : step true w op = .ok w') : Own w' := by
  cases op with
  | new =>
    cases hs
    exact own_put h fun q e => by cases e; simp
  | moveNew src =>
    obtain ⟨p, hp, hr, rfl⟩ := moveNew_ok.mp hs
    have ht := (h src p hp).2 (hr rfl)
    refine own_put (own_put h fun q e => by cases e; simp) fun q e => ?_
    cases e
    simp [ht]
  | moveAssign dst src => exact absurd hs moveAssign_ok
  | destroy a => obtain ⟨p, -, -, rfl⟩ := destroy_ok hs; exact own_put h fun q e => by cases e
  | addTask a =>
    obtain ⟨p, l, hp, -, rfl⟩ := addTask_ok.mp hs
    exact own_put h fun q e => by cases e; exact h a p hp
  | numTasks a =>
    change (numTasks w a >>= fun _ => pure w) = _ at hs
    obtain ⟨_, -, hs⟩ := bind_ok'.mp hs
    rw [← pure_ok'.mp hs]
    exact h
  | launch a n =>
    obtain ⟨p, hp, h1 | h1⟩ := launch_ok.mp hs
    · exact absurd h1.2.1 (by simp)
    · rw [h1.2.2]
      exact own_put h fun q e => by
        cases e
        exact ⟨fun c hc => List.eq_of_mem_replicate hc, fun e => by cases e⟩
  | stop a =>
    obtain ⟨p, hp, rfl⟩ := stop_ok hs
    exact own_put h fun q e => by cases e; simp
  | wait a =>
    obtain ⟨p, hp, rfl⟩ := wait_ok.mp hs
    exact own_put h fun q e => by cases e; exact h a p hp
  | work a i =>
    change (match (w.pools a).bind fun p => p.threads[i]? with
      | none => Except.ok w
      | some c => workOn w c) = _ at hs
    split at hs
    · cases hs; exact h
    · rename_i c _
      obtain ⟨p, hp, h1 | h1 | ⟨t, l, -, -, rfl⟩⟩ := workOn_ok.mp hs
      · rw [h1.2]; exact h
      · rw [h1.2.2]; exact own_put h fun q e => by cases e; exact h c p hp
      · exact own_put h fun q e => by cases e; exact h c p hp

theorem run_own {ops : List Op} : ∀ {w w' : World}, Own w → run true w ops = .ok w' → Own w' := by
  induction ops with
  | nil => intro w w' h hr; cases hr; exact h
  | cons op ops ih =>
    intro w w' h hr
    obtain ⟨w1, h1, h2⟩ := bind_ok'.mp hr
    exact ih (step_own h h1) h2

/-- What goes wrong in a call, if anything. -/
def fault {α : Type} : Except Fault α → Option Fault
  | .ok _ => none
  | .error e => some e

/-- What the calls require, said of the pools the call names: which exist, which are running, which have been moved from. -/
def expected (w : World) : Op → Option Fault
  | .new => none
  | .moveNew a | .launch a _ =>
    match w.pools a with
    | none => some .undefined
    | some p => if p.running then some .assertion else none
  | .moveAssign d s =>
    match w.pools s, w.pools d with
    | none, _ => some .undefined
    | some p, q =>
      if p.running then some .assertion
      else if (q.map (·.threads)).getD [] = [] then some .undefined else some .terminate
  | .destroy a | .stop a | .wait a => if (w.pools a).isSome then none else some .undefined
  | .addTask a | .numTasks a => if ((w.pools a).bind (·.queue)).isSome then none else some .undefined
  | .work a i =>
    match w.pools a with
    | none => none
    | some p => if i < p.threads.length ∧ p.running ∧ p.queue = none then some .undefined else none

theorem stop_own {w : World} (h : Own w) {a : ℕ} {p : Pool} (hp : w.pools a = some p) :
    stop w a = .ok (w.put a (some { p with running := false, threads := [] })) := by
  refine stop_eq hp ?_
  unfold stop
  rw [get_ok.mpr hp]
  have key : ∀ l : List ℕ, (∀ c ∈ l, c = a) →
      l.forM (join (w.put a (some { p with running := false }))) = .ok () := by
    intro l
    induction l with
    | nil => intro _; rfl
    | cons c l ih =>
      intro hl
      show (join (w.put a (some { p with running := false })) c >>= fun _ =>
        l.forM (join (w.put a (some { p with running := false })))) = _
      rw [hl c (by simp)]
      have : join (w.put a (some { p with running := false })) a = .ok () := by
        simp [join, World.get, World.put, bind, Except.bind]
      rw [this]
      exact ih fun c hc => hl c (by simp [hc])
  refine ⟨_, bind_ok'.mpr ⟨p, rfl, bind_ok'.mpr ⟨(), key _ (h a p hp).1, rfl⟩⟩⟩

/-- C78: in a debug build, after any history of calls that did not fail, a call fails exactly when it names a pool that is gone
or needs the queue of one that was moved from (undefined behaviour), moves or launches a running one (an assertion), or
move-assigns (never right).  In particular nothing else ends the program, and `StopThreads` and the destructor always
return. -/
theorem C78_safe (ops : List Op) (w : World) (h : run true {} ops = .ok w) (op : Op) :
    fault (step true w op) = expected w op := by
  have hown : Own w := run_own (fun a p hp => by cases hp) h
  cases op with
  | new => rfl
  | moveNew a =>
    simp only [step, expected, moveNew, World.get]
    cases hp : w.pools a with
    | none => rfl
    | some p =>
      simp only [bind, Except.bind, assertIn]
      cases p.running <;> rfl
  | moveAssign d s =>
    simp only [step, expected, moveAssign, World.get]
    cases hs : w.pools s with
    | none => rfl
    | some p =>
      simp only [bind, Except.bind, assertIn]
      cases p.running with
      | true => rfl
      | false =>
        cases hd : w.pools d with
        | none => rfl
        | some q =>
          simp only [Bool.not_false, Bool.not_true, Bool.and_false, Bool.false_eq_true, if_false, Option.map_some,
            Option.getD_some]
          by_cases ht : q.threads = []
          · rw [if_neg (not_not.mpr ht), if_pos ht]; rfl
          · rw [if_pos ht, if_neg ht]; rfl
  | destroy a =>
    simp only [step, expected, destroy]
    cases hp : w.pools a with
    | none => simp only [World.get, hp]; rfl
    | some p =>
      rw [get_ok.mpr hp]
      show fault ((stopIfRunning w a p) >>= _) = none
      unfold stopIfRunning
      cases hr : p.running with
      | true =>
        simp only [if_true]
        rw [stop_own hown hp]
        simp [bind, Except.bind, World.get, World.put, fault, pure, Except.pure]
      | false =>
        have ht := (hown a p hp).2 hr
        simp [bind, Except.bind, World.get, World.put, fault, pure, Except.pure, hp, ht]
  | addTask a =>
    simp only [step, expected, addTask]
    cases hp : w.pools a with
    | none => simp only [World.get, hp]; rfl
    | some p =>
      rw [get_ok.mpr hp]
      cases hq : p.queue with
      | none => simp [bind, Except.bind, QObj.push, fault, hq]
      | some l => simp [bind, Except.bind, QObj.push, fault, hq, pure, Except.pure]
  | numTasks a =>
    simp only [step, expected, numTasks]
    cases hp : w.pools a with
    | none => simp only [World.get, hp]; rfl
    | some p =>
      rw [get_ok.mpr hp]
      cases hq : p.queue with
      | none => simp [bind, Except.bind, QObj.size, fault, hq]
      | some l => simp [bind, Except.bind, QObj.size, fault, hq, pure, Except.pure]
  | launch a n =>
    simp only [step, expected, launch, World.get]
    cases hp : w.pools a with
    | none => rfl
    | some p =>
      simp only [bind, Except.bind, assertIn]
      cases hr : p.running with
      | true => rfl
      | false =>
        have ht := (hown a p hp).2 hr
        simp [ht, fault, pure, Except.pure]
  | stop a =>
    simp only [step, expected]
    cases hp : w.pools a with
    | none => simp only [stop, World.get, hp]; rfl
    | some p => rw [stop_own hown hp]; rfl
  | wait a =>
    simp only [step, expected, wait]
    cases hp : w.pools a with
    | none => simp only [World.get, hp]; rfl
    | some p => rw [get_ok.mpr hp]; rfl
  | work a i =>
    simp only [step, expected]
    cases hp : w.pools a with
    | none => rfl
    | some p =>
      simp only [Option.bind_some]
      by_cases hi : i < p.threads.length
      · rw [List.getElem?_eq_getElem hi]
        have hc := (hown a p hp).1 _ (List.getElem_mem hi)
        simp only [hc, workOn]
        rw [get_ok.mpr hp]
        simp only [bind, Except.bind]
        cases hr : p.running with
        | false => simp [fault, pure, Except.pure]
        | true =>
          cases hq : p.queue with
          | none => simp [fault, QObj.tryPop, hi]
          | some l =>
            cases l with
            | nil => simp [fault, QObj.tryPop, pure, Except.pure]
            | cons t l => simp [fault, QObj.tryPop, pure, Except.pure]
      · rw [List.getElem?_eq_none (not_lt.mp hi)]
        simp [fault, hi]

/-- C78 does not hold of move assignment: it never returns normally, whatever the two pools hold and with assertions on or
off. -/
theorem C78_assign_counterexample (debug : Bool) (w w' : World) (dst src : ℕ) : moveAssign debug w dst src ≠ .ok w' :=
  moveAssign_ok

/-- C78 does not hold with assertions off: a running pool can be moved, and then the next round of each of its threads is
undefined behaviour. -/
theorem C78_release_counterexample (w w' : World) (a i : ℕ) (p : Pool) (hp : w.pools a = some p) (hr : p.running = true)
    (hf : w.pools w.next = none) (hi : p.threads[i]? = some a) (h : moveNew false w a = .ok w') :
    step false w' (.work w.next i) = .error .undefined := by
  obtain ⟨q, hq, -, rfl⟩ := moveNew_ok.mp h
  rw [hp] at hq
  cases hq
  have hne : a ≠ w.next := fun e => by rw [e, hf] at hp; cases hp
  simp only [step, World.put, if_true, Option.bind_some, hi, workOn, World.get, if_neg hne]
  simp [bind, Except.bind, hr, QObj.tryPop]

/-- The queue's queries agree: `IsEmpty` says whether `Size` is zero, and whether `TryPop` finds nothing; after `Push` it says no. -/
theorem C78_queue_empty (l : List ℕ) (t : ℕ) : ∃ b, QObj.isEmpty (some l) = .ok b ∧ (b = true ↔ QObj.size (some l) = .ok 0) ∧
    (b = true ↔ ∃ q, QObj.tryPop (some l) = .ok (none, q)) ∧
    (QObj.push (some l) t >>= QObj.isEmpty) = .ok false := by
  cases l <;> simp [QObj.isEmpty, QObj.size, QObj.tryPop, QObj.push, bind, Except.bind]

/-! ## Examples -/

/-- What can be seen of a world: tasks executed and lost, and what waits in the first three pools. -/
def seen (r : Except Fault World) : Except Fault (List (List ℕ)) :=
  r.map fun w => [w.done, w.dropped, pending w 0, pending w 1, pending w 2]

/-- Two tasks, moved, a third one added to the new pool, two executed; the old pool is destroyed, then the new one. -/
def moveRun : List Op :=
  [.new, .addTask 0, .addTask 0, .moveNew 0, .addTask 1, .destroy 0, .launch 1 2, .work 1 1, .work 1 0]

example : seen (run true {} moveRun) = .ok [[0, 1], [], [], [2], []] := by decide +kernel
example : seen (run true {} (moveRun ++ [.destroy 1])) = .ok [[0, 1], [2], [], [], []] := by decide +kernel
example : added moveRun = 3 := by decide +kernel

-- every clause of `expected` occurs
example : fault (run true {} (moveRun ++ [.moveNew 1])) = some .assertion := by decide +kernel
example : fault (run true {} (moveRun ++ [.addTask 0])) = some .undefined := by decide +kernel
example : fault (run true {} [.new, .moveNew 0, .addTask 0]) = some .undefined := by decide +kernel
example : fault (run true {} [.new, .moveNew 0, .stop 0, .wait 0, .destroy 0]) = none := by decide +kernel
example : fault (run true {} [.new, .moveNew 0, .launch 0 1, .work 0 0]) = some .undefined := by decide +kernel
example : fault (run true {} [.new, .new, .moveAssign 0 1]) = some .undefined := by decide +kernel
example : fault (run true {} [.new, .new, .launch 0 1, .moveAssign 0 1]) = some .terminate := by decide +kernel

-- the same with assertions off
example : fault (run false {} (moveRun ++ [.moveNew 1])) = none := by decide +kernel
example : fault (run false {} (moveRun ++ [.moveNew 1, .work 2 0])) = some .undefined := by decide +kernel
example : fault (run false {} (moveRun ++ [.moveNew 1, .destroy 2])) = some .blocked := by decide +kernel

end Altro.Props.PoolMove
