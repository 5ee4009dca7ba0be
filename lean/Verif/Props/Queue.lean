import Verif.Proofs.Queue
import Verif.Spec.Queue
import Mathlib.Algebra.BigOperators.Group.Finset.Basic
import Mathlib.Data.Fintype.Basic
import Mathlib.Tactic.Ring

/-!
# C45-C47: the thread-safe queue
-/

namespace Altro.Queue
open Spec.Queue

variable {T V : Type} [DecidableEq T]

/-- The events of one step.  A push takes effect when `tail_` is assigned, a successful pop when `head_` is assigned, a
failing pop and `IsEmpty` when they read `tail_`. -/
def events (i : T) (op : Op V) (s : St T V) : List (T × Ev V) :=
  match s.pc i with
  | .idle => match op with
    | .push v _ => [(i, .call (.push v))]
    | .pop => [(i, .call .pop)]
    | .isEmpty => [(i, .call .isEmpty)]
    | _ => []
  | .push4 v _ => [(i, .effect (.push v))]
  | .pop3 .pop => if s.head = some s.tail then [(i, .effect .failed)] else []
  | .pop3 .isEmpty => [(i, .effect (.isEmpty (decide (s.head = some s.tail))))]
  | .pop9 v _ => [(i, .effect (.popped v))]
  | .ret (.pushed v) => [(i, .ret (.push v))]
  | .ret (.popped v) => [(i, .ret (.popped v))]
  | .ret (.none _) => [(i, .ret .failed)]
  | .ret (.isEmpty b _) => [(i, .ret (.isEmpty b))]
  | _ => []

/-- A run and its log. -/
inductive Run (s : St T V) : List (T × Ev V) → St T V → Prop
  | refl : Run s [] s
  | step {log s' s''} (i : T) (op : Op V) : Run s log s' → step i op s' = .next s'' → Run s (log ++ events i op s') s''

/-- What a program counter means for the specification. -/
def phaseOf : PC V → Option (Call V ⊕ Obs V)
  | .push1 v _ | .push2 v _ | .push3 v _ | .push4 v _ => some (.inl (.push v))
  | .push5 v | .push6 v => some (.inr (.push v))
  | .pop1 .pop | .pop2 .pop | .pop3 .pop => some (.inl .pop)
  | .pop4 .pop _ e | .pop5 .pop _ e => if e then some (.inr .failed) else some (.inl .pop)
  | .popFail _ => some (.inr .failed)
  | .pop6 | .pop7 | .pop8 _ | .pop9 _ _ => some (.inl .pop)
  | .pop10 v _ | .pop11 v _ => some (.inr (.popped v))
  | .pop1 .isEmpty | .pop2 .isEmpty | .pop3 .isEmpty => some (.inl .isEmpty)
  | .pop4 .isEmpty _ e | .pop5 .isEmpty _ e => some (.inr (.isEmpty e))
  | .empty b _ => some (.inr (.isEmpty b))
  | .ret (.pushed v) => some (.inr (.push v))
  | .ret (.popped v) => some (.inr (.popped v))
  | .ret (.none _) => some (.inr .failed)
  | .ret (.isEmpty b _) => some (.inr (.isEmpty b))
  | _ => none

theorem proj_append (i : T) (l l' : List (T × Ev V)) : proj i (l ++ l') = proj i l ++ proj i l' := by
  simp [proj]

theorem effects_append (l l' : List (T × Ev V)) : effects (l ++ l') = effects l ++ effects l' := by
  simp [effects]

theorem Run.reachable {a : ℕ} {log : List (T × Ev V)} {s : St T V} (h : Run (init a) log s) : Reachable s := by
  refine ⟨a, ?_⟩
  induction h with
  | refl => exact .refl
  | step i op _ hs ih => exact ih.tail ⟨i, op, hs⟩

theorem Reachable.run {s : St T V} (h : Reachable s) : ∃ a log, Run (init a) log s := by
  obtain ⟨a, h⟩ := h
  refine ⟨a, ?_⟩
  induction h with
  | refl => exact ⟨[], .refl⟩
  | tail _ hs ih =>
    obtain ⟨log, ih⟩ := ih
    obtain ⟨i, op, hs⟩ := hs
    exact ⟨_, ih.step i op hs⟩

/-- The phases of the other threads do not change. -/
theorem other_pc {s s' : St T V} {i j : T} {op : Op V} (hs : step i op s = .next s') (hj : j ≠ i) :
    s'.pc j = s.pc j := by
  unfold step at hs
  split at hs <;> (try split at hs) <;> (try split at hs) <;> simp at hs <;> subst hs <;>
    simp [St.goto, Function.update_of_ne hj]

/-- The content of the queue. -/
def content (s : St T V) : List V := s.pushed.drop s.popped.length

theorem Inv.content {s : St T V} {L : List (ℕ × V)} (h : Inv s L) : content s = L.map Prod.snd := by
  rw [Queue.content, ← h.hist]; simp

theorem proj_self (i : T) (e : Ev V) : proj i [(i, e)] = [e] := by simp [proj]
theorem proj_other {i j : T} (hj : j ≠ i) (e : Ev V) : proj j [(i, e)] = [] := by simp [proj, Ne.symm hj]
theorem proj_nil (i : T) : proj i ([] : List (T × Ev V)) = [] := rfl
theorem effects_nil : effects ([] : List (T × Ev V)) = [] := rfl
theorem effects_call (i : T) (c : Call V) : effects [(i, .call c)] = [] := rfl
theorem effects_ret (i : T) (o : Obs V) : effects [(i, .ret o)] = [] := rfl
theorem effects_effect (i : T) (o : Obs V) : effects [(i, .effect o)] = [o] := rfl

/-- Which events a step can have, and what they do. -/
theorem step_events {s s' : St T V} {L : List (ℕ × V)} (h : Inv s L) {i : T} {op : Op V}
    (hs : step i op s = .next s') :
    (∃ c, events i op s = [(i, .call c)] ∧ phaseOf (s.pc i) = none ∧ phaseOf (s'.pc i) = some (.inl c) ∧
      content s' = content s) ∨
    (∃ o, events i op s = [(i, .ret o)] ∧ phaseOf (s.pc i) = some (.inr o) ∧ phaseOf (s'.pc i) = none ∧
      content s' = content s) ∨
    (∃ o, events i op s = [(i, .effect o)] ∧ phaseOf (s.pc i) = some (.inl o.call) ∧
      phaseOf (s'.pc i) = some (.inr o) ∧ ∀ os, Seq [] os (content s) → Seq [] (os ++ [o]) (content s')) ∨
    (events i op s = [] ∧ phaseOf (s'.pc i) = phaseOf (s.pc i) ∧ content s' = content s) := by
  have self : ∀ p, (s.goto i p).pc i = p := fun p => by simp [St.goto]
  have ct : ∀ p, content (s.goto i p) = content s := fun p => rfl
  unfold step at hs
  unfold events
  cases hp : s.pc i with
  | idle =>
    rw [hp] at hs
    cases op with
    | push v n =>
      cases hn : s.nodes n with
      | some _ => simp [hn] at hs
      | none =>
        simp [hn] at hs; subst hs
        exact Or.inl ⟨_, rfl, by simp [phaseOf], by simp [phaseOf], rfl⟩
    | pop => simp at hs; subst hs; exact Or.inl ⟨_, rfl, rfl, by rw [self]; rfl, rfl⟩
    | isEmpty => simp at hs; subst hs; exact Or.inl ⟨_, rfl, rfl, by rw [self]; rfl, rfl⟩
    | size => simp at hs; subst hs; exact Or.inr (Or.inr (Or.inr ⟨rfl, by rw [self]; rfl, rfl⟩))
    | clear => simp at hs; subst hs; exact Or.inr (Or.inr (Or.inr ⟨rfl, by rw [self]; rfl, rfl⟩))
  | push4 v n =>
    rw [hp] at hs
    simp at hs; subst hs
    refine Or.inr (Or.inr (Or.inl ⟨_, rfl, rfl, by show phaseOf ((s.goto i _).pc i) = _; rw [self]; rfl, ?_⟩))
    intro os hos
    have e := (inv_push4 h v n hp).content
    rw [e]
    rw [h.content] at hos
    simpa using hos.push v
  | pop3 md =>
    rw [hp] at hs
    simp at hs; subst hs
    have hm := (h.hmx i).1 (by rw [hp]; rfl)
    have hh : s.head = some (hdOf L s.tail) := by rw [h.headc, hm]; simp [hp, headAt]
    have he : (s.head = some s.tail) = (L = []) := by rw [hh]; simp [hdOf_eq_tail h.nodup]
    have hlen : (s.popped.length = s.pushed.length) = (L = []) := by rw [← h.hist]; simp
    cases md with
    | pop =>
      by_cases hL : L = []
      · refine Or.inr (Or.inr (Or.inl ⟨.failed, by simp [he, hL], rfl, ?_, ?_⟩))
        · rw [self]; simp [phaseOf, hlen, hL]
        · intro os hos
          rw [ct]
          rw [h.content, hL] at hos ⊢
          exact hos.failed
      · refine Or.inr (Or.inr (Or.inr ⟨by simp [he, hL], ?_, ct _⟩))
        rw [self]; simp [phaseOf, hlen, hL]
    | isEmpty =>
      refine Or.inr (Or.inr (Or.inl ⟨_, rfl, rfl, ?_, ?_⟩))
      · rw [self]; simp [phaseOf, hlen, he]
      · intro os hos
        rw [ct]
        cases L with
        | nil =>
          rw [h.content] at hos ⊢
          simp only [he, decide_true]
          exact hos.isEmptyTrue
        | cons x L =>
          rw [h.content] at hos ⊢
          simp only [he, reduceCtorEq, decide_false]
          exact hos.isEmptyFalse
    | clear =>
      exact Or.inr (Or.inr (Or.inr ⟨rfl, by rw [self]; rfl, ct _⟩))
  | pop5 md t e =>
    rw [hp] at hs
    have hl := h.loc i
    rw [hp] at hl
    have hm := (h.hmx i).1 (by rw [hp]; rfl)
    have hh : s.head = some (hdOf L s.tail) := by rw [h.headc, hm]; simp [hp, headAt]
    have he : s.head = some t ↔ e = true := by rw [hh, hl.2]; simp [eq_comm]
    cases md with
    | pop =>
      simp at hs; subst hs
      refine Or.inr (Or.inr (Or.inr ⟨rfl, ?_, ct _⟩))
      rw [self]
      cases e <;> simp_all [phaseOf]
    | isEmpty =>
      simp at hs; subst hs
      refine Or.inr (Or.inr (Or.inr ⟨rfl, ?_, ct _⟩))
      rw [self]
      cases e <;> simp_all [phaseOf]
    | clear => simp at hs
  | pop9 v o =>
    obtain ⟨nd, L', hn, _, hL, hi⟩ := inv_pop9 h v o hp
    rw [hp] at hs
    simp [hn] at hs; subst hs
    refine Or.inr (Or.inr (Or.inl ⟨_, rfl, rfl, by show phaseOf ((s.goto i _).pc i) = _; rw [self]; rfl, ?_⟩))
    intro os hos
    rw [hi.content]
    rw [h.content, hL] at hos
    exact hos.popped
  | ret r =>
    rw [hp] at hs
    simp at hs; subst hs
    cases r with
    | size n => exact Or.inr (Or.inr (Or.inr ⟨rfl, by rw [self]; rfl, ct _⟩))
    | _ => exact Or.inr (Or.inl ⟨_, rfl, rfl, by rw [self]; rfl, ct _⟩)
  | pop1 md =>
    rw [hp] at hs
    simp only at hs; split at hs <;> simp at hs; subst hs
    refine Or.inr (Or.inr (Or.inr ⟨rfl, ?_, rfl⟩))
    show phaseOf ((s.goto i _).pc i) = _
    rw [self]; cases md <;> rfl
  | pop2 md =>
    rw [hp] at hs
    simp only at hs; split at hs <;> simp at hs; subst hs
    refine Or.inr (Or.inr (Or.inr ⟨rfl, ?_, rfl⟩))
    show phaseOf ((s.goto i _).pc i) = _
    rw [self]; cases md <;> rfl
  | pop4 md t e =>
    rw [hp] at hs
    simp at hs; subst hs
    refine Or.inr (Or.inr (Or.inr ⟨rfl, ?_, rfl⟩))
    show phaseOf ((s.goto i _).pc i) = _
    rw [self]; cases md <;> rfl
  | _ =>
    rw [hp] at hs
    simp only at hs
    refine Or.inr (Or.inr (Or.inr ⟨rfl, ?_, ?_⟩)) <;>
    · (try split at hs) <;> (try split at hs) <;> simp at hs <;> subst hs <;>
        simp [St.goto, content, phaseOf]

theorem run_phases {a : ℕ} {log : List (T × Ev V)} {s : St T V} (h : Run (init a) log s) :
    Seq [] (effects log) (content s) ∧ ∀ i, Phase (proj i log) (phaseOf (s.pc i)) := by
  induction h with
  | refl => exact ⟨.nil _, fun i => .nil⟩
  | @step log s' s'' i op hr hs ih =>
    obtain ⟨L, hL⟩ := inv_reachable hr.reachable
    obtain ⟨ih1, ih2⟩ := ih
    rw [effects_append]
    have oth : ∀ j, j ≠ i → ∀ e, Phase (proj j (log ++ [(i, e)])) (phaseOf (s''.pc j)) := fun j hj e => by
      rw [proj_append, proj_other hj, List.append_nil, other_pc hs hj]; exact ih2 j
    rcases step_events hL hs with ⟨c, he, h1, h2, hc⟩ | ⟨o, he, h1, h2, hc⟩ | ⟨o, he, h1, h2, hc⟩ | ⟨he, h1, hc⟩ <;>
      rw [he]
    · refine ⟨by rw [effects_call, List.append_nil, hc]; exact ih1, fun j => ?_⟩
      by_cases hj : j = i
      · subst hj; rw [proj_append, proj_self, h2]; exact .call c (h1 ▸ ih2 j)
      · exact oth j hj _
    · refine ⟨by rw [effects_ret, List.append_nil, hc]; exact ih1, fun j => ?_⟩
      by_cases hj : j = i
      · subst hj; rw [proj_append, proj_self, h2]; exact .ret o (h1 ▸ ih2 j)
      · exact oth j hj _
    · refine ⟨by rw [effects_effect]; exact hc _ ih1, fun j => ?_⟩
      by_cases hj : j = i
      · subst hj; rw [proj_append, proj_self, h2]; exact .effect o (h1 ▸ ih2 j)
      · exact oth j hj _
    · refine ⟨by rw [effects_nil, List.append_nil, hc]; exact ih1, fun j => ?_⟩
      rw [List.append_nil]
      by_cases hj : j = i
      · subst hj; rw [h1]; exact ih2 j
      · rw [other_pc hs hj]; exact ih2 j

/-- C45: every run of any number of threads is a linearizable FIFO history. -/
theorem C45_linearizable {a : ℕ} {log : List (T × Ev V)} {s : St T V} (h : Run (init a) log s) :
    Linearizable log (content s) :=
  ⟨(run_phases h).1, fun i => ⟨_, (run_phases h).2 i⟩⟩

/-- C45: the popped values are a prefix of the pushed values, and the rest is in the queue. -/
theorem C45_prefix {a : ℕ} {log : List (T × Ev V)} {s : St T V} (h : Run (init a) log s) :
    pops (effects log) ++ content s = pushes (effects log) :=
  (run_phases h).1.prefix

/-- C45: the nodes between `head_` and `tail_` hold exactly the content, whenever no thread is inside a function. -/
theorem C45_nodes {s : St T V} (h : Reachable s) (hq : ∀ i, s.pc i = .idle) :
    ∃ L : List (ℕ × V), L.map Prod.snd = content s ∧ (L.map Prod.fst ++ [s.tail]).Nodup ∧
      s.head = some (hdOf L s.tail) ∧ Linked s.nodes s.tail L ∧ s.nodes s.tail = some ⟨none, none⟩ := by
  obtain ⟨L, hL⟩ := inv_reachable h
  have hm : s.hm = none := by
    cases e : s.hm with
    | none => rfl
    | some i => have := (hL.hmx i).2 e; rw [hq] at this; simp [holdsHead] at this
  have tm : s.tm = none := by
    cases e : s.tm with
    | none => rfl
    | some i => have := (hL.tmx i).2 e; rw [hq] at this; simp [holdsTail] at this
  exact ⟨L, hL.content.symm, hL.nodup, by rw [hL.headc, hm], hL.links, by rw [hL.tailc, tm]⟩

/-- C45: no step follows a null pointer or uses a node that was freed. -/
theorem C45_defined {s : St T V} (h : Reachable s) (i : T) (op : Op V) : step i op s ≠ .ub := by
  obtain ⟨L, hL⟩ := inv_reachable h
  exact (step_inv hL i op).1

theorem access_head {s : St T V} {p : PC V} {w : Bool} (h : (Loc.headPtr, w) ∈ accesses s p) : holdsHead p = true := by
  cases p <;> simp [accesses, holdsHead] at h ⊢

theorem access_tail {s : St T V} {p : PC V} {w : Bool} (h : (Loc.tailPtr, w) ∈ accesses s p) : holdsTail p = true := by
  cases p <;> simp [accesses, holdsTail] at h ⊢

theorem access_node {s : St T V} {p : PC V} {w : Bool} {a : ℕ} (h : (Loc.node a, w) ∈ accesses s p) :
    (holdsTail p = true ∧ a = s.tail) ∨
      (holdsHead p = true ∧ ((∃ v, p = .pop9 v a) ∨ (p = .pop7 ∧ s.head = some a))) ∨ ∃ v, p = .pop11 v a := by
  cases p <;> simp_all [accesses, holdsTail, holdsHead]

/-- C45, `accesses` lists every write: a step changes `head_`, `tail_` or a node only if `accesses` says so, except that `Push` allocates. -/
theorem C45_writes {s s' : St T V} {i : T} {op : Op V} (h : step i op s = .next s') :
    (s'.head ≠ s.head → (Loc.headPtr, true) ∈ accesses s (s.pc i)) ∧ (s'.tail ≠ s.tail → (Loc.tailPtr, true) ∈ accesses s (s.pc i)) ∧
    ∀ a, s'.nodes a ≠ s.nodes a → (Loc.node a, true) ∈ accesses s (s.pc i) ∨ (s.nodes a = none ∧ ∃ v, s'.pc i = .push1 v a) := by
  unfold step at h
  split at h <;> rename_i hp <;> rw [hp] <;> (try split at h) <;> (try split at h) <;> (try simp only [reduceCtorEq] at h) <;>
    (try simp only [Out.next.injEq] at h) <;> (try subst h) <;> refine ⟨fun c => ?_, fun c => ?_, fun a c => ?_⟩ <;>
    (try simp only [St.goto, ne_eq, not_true_eq_false] at c) <;> (try simp only [accesses, List.mem_cons, true_or, or_true])
  all_goals
    by_contra hne
    apply c
    first
      | rw [Function.update_of_ne]; rintro rfl; apply hne; simp_all [Function.update]
      | simp_all [Function.update]

/-- An outcome with the next state changed. -/
def Out.map {S : Type} (f : S → S) : Out S → Out S
  | .next s => .next (f s)
  | .blocked => .blocked
  | .ub => .ub

/-- C45, `accesses` lists every read: what a step does depends on `head_`, `tail_` or a node only if `accesses` says so (the allocator of
`Push` picks a free address). -/
theorem C45_reads {s : St T V} {i : T} {op : Op V} :
    ((∀ w, (Loc.headPtr, w) ∉ accesses s (s.pc i)) →
      ∀ h, step i op { s with head := h } = (step i op s).map fun s' => { s' with head := h }) ∧
    ((∀ w, (Loc.tailPtr, w) ∉ accesses s (s.pc i)) →
      ∀ t, step i op { s with tail := t } = (step i op s).map fun s' => { s' with tail := t }) ∧
    ∀ a, (∀ w, (Loc.node a, w) ∉ accesses s (s.pc i)) → (∀ v, s.pc i = .idle → op ≠ .push v a) →
      ∀ n, step i op { s with nodes := Function.update s.nodes a n } =
        (step i op s).map fun s' => { s' with nodes := Function.update s'.nodes a n } := by
  refine ⟨fun hn h => ?_, fun hn h => ?_, fun a hn ho n => ?_⟩
  · unfold step
    dsimp only
    split <;> rename_i hp <;> rw [hp] at hn <;> simp [accesses] at hn <;> (try split) <;> (try split) <;> rfl
  · unfold step
    dsimp only
    split <;> rename_i hp <;> rw [hp] at hn <;> simp [accesses] at hn <;> (try split) <;> (try split) <;> rfl
  · unfold step
    dsimp only
    split <;> rename_i hp <;> rw [hp] at hn <;> simp [accesses] at hn
    · cases op with
      | push v b =>
        have hb : b ≠ a := fun e => ho v hp (by rw [e])
        dsimp only
        rw [Function.update_of_ne hb]
        split
        · rfl
        · simp only [Out.map]; rw [Function.update_comm hb]
      | _ => rfl
    all_goals
      first
        | rfl
        | (split <;> rfl)
        | (rw [Function.update_of_ne (Ne.symm hn)]
           split
           · rfl
           · simp only [Out.map, St.goto]; rw [Function.update_comm (Ne.symm hn)])
        | (split
           · rfl
           · rename_i b hb
             rw [Function.update_of_ne (fun e => hn (by rw [hb, e]))]
             split <;> rfl)
        | (rw [Function.update_of_ne (Ne.symm hn)]
           split
           · simp only [Out.map, St.goto]; rw [Function.update_comm (Ne.symm hn)]
           · rfl)

/-- Both at work: a thread about to take the head from the queue writes `head_`, and one about to publish a new tail does not use it. -/
example : (Loc.headPtr, true) ∈ accesses (init 0 : St ℕ ℕ) (.pop8 3) ∧ ∀ w, (Loc.headPtr, w) ∉ accesses (init 0 : St ℕ ℕ) (.push4 7 1) := by
  simp [accesses]

/-- C45: no two threads are ever about to make conflicting accesses to `head_`, `tail_` or a node. -/
theorem C45_no_race {s : St T V} (h : Reachable s) : ¬ Race s := by
  obtain ⟨L, hL⟩ := inv_reachable h
  rintro ⟨i, j, hij, l, w, w', hi, hj, hw⟩
  -- a node being removed is not the tail
  have key : ∀ k o, ((∃ v, s.pc k = .pop9 v o) ∨ (∃ v, s.pc k = .pop11 v o) ∨ (s.pc k = .pop7 ∧ s.head = some o)) →
      o ≠ s.tail := by
    rintro k o (⟨v, hk⟩ | ⟨v, hk⟩ | ⟨hk, ho⟩) rfl
    · have := hL.loc k; rw [hk] at this
      obtain ⟨L', e⟩ := this
      have := (hdOf_eq_tail hL.nodup).1 (by rw [e]; rfl)
      simp [e] at this
    · exact (hL.own k s.tail ⟨some v, none⟩ (by rw [hk]; rfl)).2 (tail_mem _ _)
    · have := hL.loc k; rw [hk] at this
      have hm := (hL.hmx k).1 (by rw [hk]; rfl)
      have e := hL.headc
      rw [hm, ho] at e
      simp only [hk, headAt, Option.some.injEq] at e
      exact this ((hdOf_eq_tail hL.nodup).1 e.symm)
  -- a node that was removed is not the head
  have key2 : ∀ k k' o, (∃ v, s.pc k = .pop11 v o) →
      ((∃ v, s.pc k' = .pop9 v o) ∨ (s.pc k' = .pop7 ∧ s.head = some o)) → False := by
    rintro k k' o ⟨v, hk⟩ hk'
    have ow := (hL.own k o ⟨some v, none⟩ (by rw [hk]; rfl)).2
    rcases hk' with ⟨v', hk'⟩ | ⟨hk', ho⟩
    · have := hL.loc k'; rw [hk'] at this
      obtain ⟨L', e⟩ := this
      exact ow (by simp [e, addrs])
    · have hm := (hL.hmx k').1 (by rw [hk']; rfl)
      have e := hL.headc
      rw [hm, ho] at e
      simp only [hk', headAt, Option.some.injEq] at e
      exact ow (e ▸ hdOf_mem _ _)
  have key3 : ∀ k k' o, k ≠ k' → (∃ v, s.pc k = .pop11 v o) → (∃ v, s.pc k' = .pop11 v o) → False := by
    rintro k k' o hkk ⟨v, hk⟩ ⟨v', hk'⟩
    exact hL.disj k k' o ⟨some v, none⟩ ⟨some v', none⟩ hkk (by rw [hk]; rfl) (by rw [hk']; rfl)
  cases l with
  | headPtr => exact hij (hL.headUnique (access_head hi) (access_head hj))
  | tailPtr => exact hij (hL.tailUnique (access_tail hi) (access_tail hj))
  | node x =>
    rcases access_node hi with ⟨ti, rfl⟩ | ⟨hi', ci⟩ | ci
    · rcases access_node hj with ⟨tj, -⟩ | ⟨-, cj⟩ | cj
      · exact hij (hL.tailUnique ti tj)
      · exact key j _ (cj.elim Or.inl fun c => Or.inr (Or.inr c)) rfl
      · exact key j _ (Or.inr (Or.inl cj)) rfl
    · rcases access_node hj with ⟨tj, rfl⟩ | ⟨hj', cj⟩ | cj
      · exact key i _ (ci.elim Or.inl fun c => Or.inr (Or.inr c)) rfl
      · exact hij (hL.headUnique hi' hj')
      · exact key2 j i x cj ci
    · rcases access_node hj with ⟨tj, rfl⟩ | ⟨hj', cj⟩ | cj
      · exact key i _ (Or.inr (Or.inl ci)) rfl
      · exact key2 i j x ci cj
      · exact key3 i j x hij ci cj

/-! ## C46: the size -/

/-- 1 if the thread has pushed its element and not counted it yet, or has counted a removal not done yet. -/
def inFlight : PC V → ℕ
  | .push5 _ | .push6 _ | .pop7 | .pop8 _ | .pop9 _ _ => 1
  | _ => 0

section
variable [Fintype T]

theorem sum_update (f : T → PC V) (i : T) (p : PC V) :
    (∑ j, inFlight (Function.update f i p j)) + inFlight (f i) = (∑ j, inFlight (f j)) + inFlight p := by
  rw [← Finset.add_sum_erase _ _ (Finset.mem_univ i), ← Finset.add_sum_erase _ (fun j => inFlight (f j)) (Finset.mem_univ i)]
  have : ∑ j ∈ Finset.univ.erase i, inFlight (Function.update f i p j) = ∑ j ∈ Finset.univ.erase i, inFlight (f j) :=
    Finset.sum_congr rfl fun j hj => by rw [Function.update_of_ne (Finset.ne_of_mem_erase hj)]
  rw [this, Function.update_self]
  ring

theorem step_size {s s' : St T V} {L : List (ℕ × V)} (h : Inv s L) {i : T} {op : Op V}
    (hs : step i op s = .next s')
    (ih : (s.size + ∑ j, inFlight (s.pc j)) % sizeMod = (content s).length % sizeMod) :
    (s'.size + ∑ j, inFlight (s'.pc j)) % sizeMod = (content s').length % sizeMod := by
  have key : ∀ p, inFlight p = inFlight (s.pc i) →
      ∑ j, inFlight (Function.update s.pc i p j) = ∑ j, inFlight (s.pc j) := fun p hp => by
    have := sum_update s.pc i p; omega
  have up := sum_update s.pc i
  have M : sizeMod = 18446744073709551616 := rfl
  obtain ⟨L', hL'⟩ := (step_inv h i op).2 s' hs
  unfold step at hs
  cases hp : s.pc i with
  | push4 v n =>
    rw [hp] at hs
    simp at hs; subst hs
    rw [(inv_push4 h v n hp).content]
    rw [h.content] at ih
    have := up (.push5 v)
    rw [hp, show inFlight (PC.push4 v n) = 0 from rfl, show inFlight (PC.push5 v) = 1 from rfl] at this
    simp only [St.goto]
    simp only [M] at ih ⊢
    simp only [List.length_map, List.map_append, List.length_append, List.map_cons, List.map_nil, List.length_cons,
      List.length_nil] at ih ⊢
    omega
  | push6 v =>
    rw [hp] at hs
    simp at hs; subst hs
    have := up (.ret (.pushed v))
    rw [hp, show inFlight (PC.push6 v) = 1 from rfl, show inFlight (PC.ret (.pushed v) : PC V) = 0 from rfl] at this
    simp only [M, St.goto, content] at this ih ⊢
    omega
  | pop6 =>
    rw [hp] at hs
    simp at hs; subst hs
    have := up .pop7
    rw [hp, show inFlight (PC.pop7 : PC V) = 1 from rfl, show inFlight (PC.pop6 : PC V) = 0 from rfl] at this
    simp only [M, St.goto, content] at this ih ⊢
    omega
  | pop9 v o =>
    obtain ⟨nd, L', hn, _, hL, hi⟩ := inv_pop9 h v o hp
    rw [hp] at hs
    simp [hn] at hs; subst hs
    rw [hi.content]
    rw [h.content, hL] at ih
    have := up (.pop10 v o)
    rw [hp, show inFlight (PC.pop9 v o) = 1 from rfl, show inFlight (PC.pop10 v o) = 0 from rfl] at this
    simp only [M, St.goto] at this ih ⊢
    simp only [List.length_map, List.map_cons, List.length_cons] at ih ⊢
    omega
  | pop5 md t e =>
    rw [hp] at hs
    cases md <;> simp at hs <;> subst hs <;> simp only [St.goto, content] at ih ⊢ <;>
      rw [key _ (by by_cases hh : s.head = some t <;> simp [hp, hh, inFlight])] <;> exact ih
  | ret r =>
    rw [hp] at hs
    simp at hs; subst hs
    simp only [St.goto, content] at ih ⊢
    rw [key _ (by rw [hp]; cases r <;> rfl)]; exact ih
  | _ =>
    rw [hp] at hs
    simp only at hs
    (try split at hs) <;> (try split at hs) <;> (try split at hs) <;> simp at hs <;> subst hs <;>
      simp only [St.goto, content] at ih ⊢ <;> rw [key _ (by simp [hp, inFlight, apply_ite inFlight])] <;> exact ih

/-- C46, what holds: the size differs from the length only by the operations that are between changing the list and
changing the counter, modulo 2⁶⁴. -/
theorem C46_bound_partial {s : St T V} (h : Reachable s) :
    (s.size + ∑ i, inFlight (s.pc i)) % sizeMod = (content s).length % sizeMod := by
  obtain ⟨a, h⟩ := h
  induction h with
  | refl => simp [init, content, inFlight]
  | tail hr hs ih =>
    obtain ⟨L, hL⟩ := inv_reachable ⟨a, hr⟩
    obtain ⟨i, op, hs⟩ := hs
    exact step_size hL hs ih

theorem size_lt {s : St T V} (h : Reachable s) : s.size < sizeMod := by
  obtain ⟨a, h⟩ := h
  induction h with
  | refl => exact Nat.two_pow_pos 64
  | @tail s s' hr hs ih =>
    obtain ⟨i, op, hs⟩ := hs
    unfold step at hs
    split at hs <;> (try split at hs) <;> (try split at hs) <;> simp at hs <;> subst hs <;>
      first | exact Nat.mod_lt _ (Nat.two_pow_pos 64) | exact ih

/-- C46, what holds: when no operation is in progress the size is exact. -/
theorem C46_quiescent_partial {s : St T V} (h : Reachable s) (hq : ∀ i, s.pc i = .idle)
    (hl : (content s).length < sizeMod) : s.size = (content s).length := by
  have := C46_bound_partial h
  simp only [hq, inFlight, Finset.sum_const_zero, Nat.add_zero] at this
  rwa [Nat.mod_eq_of_lt (size_lt h), Nat.mod_eq_of_lt hl] at this

end

/-- Run a schedule. -/
def sched : List (T × Op V) → St T V → Option (St T V)
  | [], s => some s
  | (i, op) :: l, s => match step i op s with
    | .next s' => sched l s'
    | _ => none

theorem sched_reachable {l : List (T × Op V)} {s s' : St T V} (h : Reachable s) (hs : sched l s = some s') :
    Reachable s' := by
  induction l generalizing s with
  | nil => simp [sched] at hs; exact hs ▸ h
  | cons x l ih =>
    obtain ⟨i, op⟩ := x
    unfold sched at hs
    split at hs
    next s1 h1 =>
      obtain ⟨a, h⟩ := h
      exact ih ⟨a, h.tail ⟨i, op, h1⟩⟩ hs
    next => cases hs

/-- Thread 0 pushes 7 and stops just before `++size_`; thread 1 pops it. -/
def demoUnderflow : List (Fin 2 × Op ℕ) :=
  List.replicate 6 (0, .push 7 1) ++ List.replicate 13 (1, .pop) ++ [(1, .size)]

/-- The result thread 1 is about to return. -/
def resultOf (i : T) (s : St T V) : Option (Res V) := match s.pc i with
  | .ret r => some r
  | _ => none

/-- C46 is false: an empty queue reports size 2⁶⁴ - 1. -/
theorem C46_counterexample : ∃ s : St (Fin 2) ℕ, Reachable s ∧ content s = [] ∧
    s.pc 1 = .ret (.size 18446744073709551615) := by
  have h : (sched demoUnderflow (init 0)).map (fun s => (s.pushed, s.popped,
      match s.pc 1 with | .ret (.size n) => n | _ => 0)) = some ([7], [7], 18446744073709551615) := by
    decide +kernel
  cases hb : sched demoUnderflow (init 0 : St (Fin 2) ℕ) with
  | none => rw [hb] at h; cases h
  | some s =>
    rw [hb] at h
    simp only [Option.map_some, Option.some.injEq, Prod.mk.injEq] at h
    refine ⟨s, sched_reachable ⟨0, .refl⟩ hb, by simp [content, h.1, h.2.1], ?_⟩
    have h3 := h.2.2
    split at h3
    next n hp => rw [hp, h3]
    next => cases h3

/-- C45 is about something: a schedule of two pushing threads and one popping thread that interleave. -/
example : (sched ((List.replicate 3 (0, Op.push 7 1) ++ [(1, .push 8 2)] ++ List.replicate 3 (0, .push 7 1) ++
    List.replicate 5 (1, .push 8 2) ++ List.replicate 13 (2, .pop) : List (Fin 3 × Op ℕ))) (init 0)).map
      (fun s => (s.pushed, s.popped)) = some ([7, 8], [7]) := by
  decide +kernel

/-! ## C47: Clear -/

/-- C47 is false: a thread that has entered `Clear` stays there for ever, whatever the schedule, with the head mutex
locked; from then on nothing is removed from the queue by anybody. -/
theorem C47_never_returns_counterexample {s s' : St T V} (h : Reachable s) (i : T) (hp : s.pc i = .pop1 .clear)
    (hr : Relation.ReflTransGen Step s s') :
    s'.pc i = .pop1 .clear ∧ s'.hm = some i ∧ (∀ op, step i op s' = .blocked) ∧ s.pushed <+: s'.pushed ∧
      s'.popped = s.popped := by
  have hx : Reachable s' := by obtain ⟨a, h⟩ := h; exact ⟨a, h.trans hr⟩
  have blocked : ∀ s' : St T V, Reachable s' → s'.pc i = .pop1 .clear →
      s'.hm = some i ∧ ∀ op, step i op s' = .blocked := by
    intro s' hx hp
    obtain ⟨L, hL⟩ := inv_reachable hx
    have hm := (hL.hmx i).1 (by rw [hp]; rfl)
    exact ⟨hm, fun op => by unfold step; simp [hp, hm]⟩
  have main : s'.pc i = .pop1 .clear ∧ s.pushed <+: s'.pushed ∧ s'.popped = s.popped := by
    clear hx
    induction hr with
    | refl => exact ⟨hp, List.prefix_refl _, rfl⟩
    | @tail s1 s2 h1 h2 ih =>
      have hx : Reachable s1 := by obtain ⟨a, h⟩ := h; exact ⟨a, h.trans h1⟩
      obtain ⟨j, op, hs⟩ := h2
      have hb := blocked s1 hx ih.1
      obtain ⟨L, hL⟩ := inv_reachable hx
      by_cases hj : i = j
      · subst hj; rw [hb.2] at hs; cases hs
      · refine ⟨by rw [other_pc hs hj]; exact ih.1, ?_⟩
        have hn : holdsHead (s1.pc j) = false := by
          by_contra hc
          have := (hL.hmx j).1 (by simpa using hc)
          rw [hb.1] at this
          exact hj (Option.some.inj this)
        unfold step at hs
        cases hq : s1.pc j <;> rw [hq] at hs hn <;> simp only at hs <;>
          first
          | (simp [holdsHead] at hn; done)
          | ((try split at hs) <;> (try split at hs) <;> simp at hs <;> subst hs <;>
              simp only [St.goto] <;>
              first | exact ih.2 | exact ⟨ih.2.1.trans (List.prefix_append _ _), ih.2.2⟩)
  exact ⟨main.1, (blocked s' hx main.1).1, (blocked s' hx main.1).2, main.2⟩

/-- `Clear` always gets there: it locks the head mutex and then calls `IsEmpty`, which locks it again. -/
theorem C47_enters (i : T) (op : Op V) (s s' : St T V) (hp : s.pc i = .clear1) (hs : step i op s = .next s') :
    s'.pc i = .pop1 .clear := by
  unfold step at hs
  rw [hp] at hs
  simp only at hs
  split at hs <;> simp at hs
  subst hs
  simp [St.goto]

/-- A single thread that calls `Clear` on a new queue is stuck after two steps. -/
theorem C47_counterexample : ∃ s : St (Fin 1) ℕ, Reachable s ∧ s.pc 0 = .pop1 .clear ∧
    ∀ i op, step i op s = .blocked := by
  have h : (sched [(0, .clear), (0, .clear)] (init 0 : St (Fin 1) ℕ)).map
      (fun s => match s.pc 0 with | .pop1 .clear => true | _ => false) = some true := by decide +kernel
  cases hb : sched [(0, .clear), (0, .clear)] (init 0 : St (Fin 1) ℕ) with
  | none => rw [hb] at h; cases h
  | some s =>
    rw [hb] at h
    have hr := sched_reachable ⟨0, .refl⟩ hb
    have hp : s.pc 0 = .pop1 .clear := by
      simp only [Option.map_some, Option.some.injEq] at h
      split at h
      next hp => exact hp
      next => cases h
    refine ⟨s, hr, hp, fun i op => ?_⟩
    rw [Subsingleton.elim i 0]
    exact (C47_never_returns_counterexample hr 0 hp .refl).2.2.1 op

/-! ## C63: the other operations make progress -/

/-- A thread inside `Clear`. -/
def inClear : PC V → Prop
  | .clear1 | .pop1 .clear | .pop2 .clear | .pop3 .clear | .pop4 .clear _ _ | .pop5 .clear _ _ => True
  | _ => False

/-- C63: as long as nobody calls `Clear`, whenever a thread is inside an operation some thread inside an operation can
make a step: the two mutexes never deadlock. -/
theorem C63_no_deadlock {s : St T V} (h : Reachable s) (hc : ∀ i, ¬ inClear (s.pc i))
    {i : T} (hi : s.pc i ≠ .idle) : ∃ j, s.pc j ≠ .idle ∧ ∀ op, ∃ s', step j op s = .next s' := by
  obtain ⟨L, hL⟩ := inv_reachable h
  have ok : ∀ j, (∀ op, step j op s ≠ .blocked) → ∀ op, ∃ s', step j op s = .next s' := fun j hj op => by
    cases hx : step j op s with
    | blocked => exact absurd hx (hj op)
    | ub => exact absurd hx (step_inv hL j op).1
    | next s' => exact ⟨s', rfl⟩
  -- every thread that does not wait for a mutex can step
  have free : ∀ j, s.pc j ≠ .idle → (∀ md, s.pc j = .pop1 md → s.hm = none) → (∀ md, s.pc j = .pop2 md → s.tm = none) →
      (∀ v n, s.pc j = .push1 v n → s.tm = none) → ∀ op, step j op s ≠ .blocked := by
    intro j h0 h1 h2 h3 op
    have hcj := hc j
    unfold step
    cases hp : s.pc j with
    | idle => exact absurd hp h0
    | pop1 md => simp [h1 md hp]
    | pop2 md => simp [h2 md hp]
    | push1 v n => simp [h3 v n hp]
    | pop5 md t e => cases md <;> simp [hp, inClear] at hcj ⊢
    | clear1 => simp [hp, inClear] at hcj
    | _ => simp only []; (try split) <;> (try split) <;> simp
  cases ht : s.tm with
  | some j =>
    have hj := (hL.tmx j).2 ht
    refine ⟨j, fun e => by rw [e] at hj; simp [holdsTail] at hj, ok j (free j ?_ ?_ ?_ ?_)⟩
    · intro e; rw [e] at hj; simp [holdsTail] at hj
    · intro _ e; rw [e] at hj; simp [holdsTail] at hj
    · intro _ e; rw [e] at hj; simp [holdsTail] at hj
    · intro _ _ e; rw [e] at hj; simp [holdsTail] at hj
  | none =>
    cases hh : s.hm with
    | some j =>
      have hj := (hL.hmx j).2 hh
      refine ⟨j, fun e => by rw [e] at hj; simp [holdsHead] at hj, ok j (free j ?_ ?_ ?_ ?_)⟩
      · intro e; rw [e] at hj; simp [holdsHead] at hj
      · intro md e
        have := hc j
        rw [e] at hj this
        cases md <;> simp [holdsHead, inClear] at hj this
      · intros; exact ht
      · intros; exact ht
    | none => exact ⟨i, hi, ok i (free i hi (fun _ _ => hh) (fun _ _ => ht) fun _ _ _ => ht)⟩

/-- The number of steps left in an operation. -/
def rank : PC V → ℕ
  | .idle => 0
  | .ret _ => 1
  | .push1 .. => 7 | .push2 .. => 6 | .push3 .. => 5 | .push4 .. => 4 | .push5 _ => 3 | .push6 _ => 2
  | .clear1 => 13 | .pop1 _ => 12 | .pop2 _ => 11 | .pop3 _ => 10 | .pop4 .. => 9 | .pop5 .. => 8
  | .popFail _ => 2 | .empty .. => 2
  | .pop6 => 7 | .pop7 => 6 | .pop8 _ => 5 | .pop9 .. => 4 | .pop10 .. => 3 | .pop11 .. => 2

/-- C63: every operation returns after at most 13 steps of its own: each step of a thread inside an operation lowers a
bound that is at most 13. -/
theorem C63_bounded {s s' : St T V} {i : T} {op : Op V} (hi : s.pc i ≠ .idle) (hs : step i op s = .next s') :
    rank (s'.pc i) < rank (s.pc i) ∧ rank (s.pc i) ≤ 13 := by
  unfold step at hs
  cases hp : s.pc i <;> rw [hp] at hs hi <;> simp only at hs <;>
    first
    | exact absurd rfl hi
    | (rename_i md _ _
       refine ⟨?_, by simp [rank]⟩
       cases md <;> simp at hs <;> subst hs <;> simp only [St.goto, Function.update_self] <;>
        first | (simp only [rank]; omega) | (split <;> simp [rank]))
    | (refine ⟨?_, by simp [rank]⟩
       (try split at hs) <;> (try split at hs) <;> simp at hs <;> subst hs <;>
        simp only [St.goto, Function.update_self, rank] <;> first | omega | (split <;> simp [rank]))

end Altro.Queue
