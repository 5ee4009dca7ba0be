import Verif.Model.Queue
import Mathlib.Data.List.Nodup
import Mathlib.Tactic.Common

/-! The invariant of the queue. -/

namespace Altro.Queue
variable {T V : Type} [DecidableEq T]

def holdsHead : PC V → Bool
  | .pop1 .clear => true
  | .pop2 _ | .pop3 _ | .pop4 .. | .pop5 .. | .popFail _ | .empty .. | .pop6 | .pop7 | .pop8 _ | .pop9 .. | .pop10 .. => true
  | _ => false

def holdsTail : PC V → Bool
  | .push2 .. | .push3 .. | .push4 .. | .push5 _ | .pop3 _ | .pop4 .. => true
  | _ => false

/-- The node a thread owns. -/
def ownSpec : PC V → Option (ℕ × Node V)
  | .push1 _ n | .push2 _ n | .push3 _ n | .push4 _ n => some (n, ⟨none, none⟩)
  | .pop10 v o | .pop11 v o => some (o, ⟨some v, none⟩)
  | _ => none

/-- The content of the tail node while a thread holds the tail mutex. -/
def tailAt : PC V → Node V
  | .push3 v _ => ⟨some v, none⟩
  | .push4 v n => ⟨some v, some n⟩
  | _ => ⟨none, none⟩

/-- `head_` while a thread holds the head mutex. -/
def headAt (a : ℕ) : PC V → Option ℕ
  | .pop9 .. => none
  | _ => some a

def hdOf (L : List (ℕ × V)) (t : ℕ) : ℕ := match L with
  | [] => t
  | (a, _) :: _ => a

/-- The nodes before the tail, in order. -/
def Linked (nodes : ℕ → Option (Node V)) (t : ℕ) : List (ℕ × V) → Prop
  | [] => True
  | (a, v) :: L => nodes a = some ⟨some v, some (hdOf L t)⟩ ∧ Linked nodes t L

def addrs (L : List (ℕ × V)) (t : ℕ) : List ℕ := L.map Prod.fst ++ [t]

/-- What a thread in the middle of a function knows. -/
def locOk (L : List (ℕ × V)) (t : ℕ) : PC V → Prop
  | .pop4 _ r e | .pop5 _ r e => r ∈ addrs L t ∧ (e = true ↔ r = hdOf L t)
  | .popFail e => e = true
  | .empty b e => b = e
  | .pop6 | .pop7 => L ≠ []
  | .pop8 v => ∃ a L', L = (a, v) :: L'
  | .pop9 v o => ∃ L', L = (o, v) :: L'
  | .ret (.none e) => e = true
  | .ret (.isEmpty b e) => b = e
  | _ => True

structure Inv (s : St T V) (L : List (ℕ × V)) : Prop where
  nodup : (addrs L s.tail).Nodup
  links : Linked s.nodes s.tail L
  tailc : s.nodes s.tail = some (match s.tm with | none => ⟨none, none⟩ | some i => tailAt (s.pc i))
  headc : s.head = (match s.hm with | none => some (hdOf L s.tail) | some i => headAt (hdOf L s.tail) (s.pc i))
  hist : s.popped ++ L.map Prod.snd = s.pushed
  hmx : ∀ i, holdsHead (s.pc i) = true ↔ s.hm = some i
  tmx : ∀ i, holdsTail (s.pc i) = true ↔ s.tm = some i
  own : ∀ i a c, ownSpec (s.pc i) = some (a, c) → s.nodes a = some c ∧ a ∉ addrs L s.tail
  disj : ∀ i j a c c', i ≠ j → ownSpec (s.pc i) = some (a, c) → ownSpec (s.pc j) = some (a, c') → False
  loc : ∀ i, locOk L s.tail (s.pc i)

theorem inv_init (a : ℕ) : Inv (init a : St T V) [] where
  nodup := by simp [addrs]
  links := trivial
  tailc := by simp [init]
  headc := rfl
  hist := rfl
  hmx i := by simp [init, holdsHead]
  tmx i := by simp [init, holdsTail]
  own i a c h := by simp [init, ownSpec] at h
  disj i j a c c' _ h := by simp [init, ownSpec] at h
  loc i := trivial

theorem Linked.congr {nodes nodes' : ℕ → Option (Node V)} {t : ℕ} {L : List (ℕ × V)}
    (h : Linked nodes t L) (he : ∀ a ∈ L.map Prod.fst, nodes' a = nodes a) : Linked nodes' t L := by
  induction L with
  | nil => trivial
  | cons x L ih =>
    obtain ⟨a, v⟩ := x
    exact ⟨by rw [he a (by simp)]; exact h.1, ih h.2 fun b hb => he b (by simp_all)⟩

/-- A step that changes only a program counter and keeps the mutexes. -/
theorem inv_goto {s : St T V} {L : List (ℕ × V)} (h : Inv s L) (i : T) (p : PC V)
    (hh : holdsHead p = holdsHead (s.pc i)) (ht : holdsTail p = holdsTail (s.pc i))
    (ho : ownSpec p = ownSpec (s.pc i)) (hta : tailAt p = tailAt (s.pc i))
    (hha : ∀ a, headAt a p = headAt a (s.pc i)) (hl : locOk L s.tail p) : Inv (s.goto i p) L := by
  have pcj : ∀ j, (s.goto i p).pc j = if j = i then p else s.pc j := by
    intro j; simp [St.goto, Function.update_apply]
  refine ⟨h.nodup, h.links, ?_, ?_, h.hist, ?_, ?_, ?_, ?_, ?_⟩
  · show s.nodes s.tail = _
    rw [h.tailc]
    show _ = some (match s.tm with | none => _ | some j => tailAt ((s.goto i p).pc j))
    cases hm : s.tm with
    | none => rfl
    | some j =>
      simp only [pcj]
      by_cases hj : j = i
      · subst hj; simp [hta]
      · simp [hj]
  · show s.head = _
    rw [h.headc]
    show _ = (match s.hm with | none => _ | some j => headAt (hdOf L s.tail) ((s.goto i p).pc j))
    cases hm : s.hm with
    | none => rfl
    | some j =>
      simp only [pcj]
      by_cases hj : j = i
      · subst hj; simp [hha]
      · simp [hj]
  · intro j; rw [pcj]; by_cases hj : j = i
    · subst hj; simp only [if_true, hh]; exact h.hmx j
    · simp only [hj, if_false]; exact h.hmx j
  · intro j; rw [pcj]; by_cases hj : j = i
    · subst hj; simp only [if_true, ht]; exact h.tmx j
    · simp only [hj, if_false]; exact h.tmx j
  · intro j a c; rw [pcj]; by_cases hj : j = i
    · subst hj; simp only [if_true, ho]; exact h.own j a c
    · simp only [hj, if_false]; exact h.own j a c
  · intro j k a c c' hjk
    have e : ∀ j, ownSpec ((s.goto i p).pc j) = ownSpec (s.pc j) := by
      intro j; rw [pcj]; split
      next hj => subst hj; exact ho
      next => rfl
    rw [e, e]; exact h.disj j k a c c' hjk
  · intro j; rw [pcj]; split
    · exact hl
    · exact h.loc j


/-- Locking and unlocking. -/
theorem inv_lockHead {s : St T V} {L : List (ℕ × V)} (h : Inv s L) (i : T) (p : PC V) (hf : s.hm = none)
    (hh : holdsHead p = true) (ht : holdsTail p = holdsTail (s.pc i))
    (ho : ownSpec p = ownSpec (s.pc i)) (hta : tailAt p = tailAt (s.pc i))
    (hha : ∀ a, headAt a p = some a) (hl : locOk L s.tail p) : Inv { (s.goto i p) with hm := some i } L := by
  have pcj : ∀ j, (s.goto i p).pc j = if j = i then p else s.pc j := by
    intro j; simp [St.goto, Function.update_apply]
  refine ⟨h.nodup, h.links, ?_, ?_, h.hist, ?_, ?_, ?_, ?_, ?_⟩
  · show s.nodes s.tail = some (match s.tm with | none => _ | some j => tailAt ((s.goto i p).pc j))
    rw [h.tailc]
    cases hm : s.tm with
    | none => rfl
    | some j =>
      simp only [pcj]
      by_cases hj : j = i
      · subst hj; simp [hta]
      · simp [hj]
  · show s.head = headAt (hdOf L s.tail) ((s.goto i p).pc i)
    rw [h.headc, hf, pcj, if_pos rfl, hha]
  · intro j; show holdsHead ((s.goto i p).pc j) = true ↔ some i = some j
    rw [pcj]; by_cases hj : j = i
    · subst hj; simp [hh]
    · simp only [hj, if_false]; rw [h.hmx j, hf]; simp [Ne.symm hj]
  · intro j; show holdsTail ((s.goto i p).pc j) = true ↔ s.tm = some j
    rw [pcj]; by_cases hj : j = i
    · subst hj; simp only [if_true, ht]; exact h.tmx j
    · simp only [hj, if_false]; exact h.tmx j
  · intro j a c; show ownSpec ((s.goto i p).pc j) = _ → _
    rw [pcj]; by_cases hj : j = i
    · subst hj; simp only [if_true, ho]; exact h.own j a c
    · simp only [hj, if_false]; exact h.own j a c
  · intro j k a c c' hjk
    show ownSpec ((s.goto i p).pc j) = _ → ownSpec ((s.goto i p).pc k) = _ → _
    have e : ∀ j, ownSpec ((s.goto i p).pc j) = ownSpec (s.pc j) := by
      intro j; rw [pcj]; split
      next hj => subst hj; exact ho
      next => rfl
    rw [e, e]; exact h.disj j k a c c' hjk
  · intro j; show locOk L s.tail ((s.goto i p).pc j)
    rw [pcj]; split
    · exact hl
    · exact h.loc j

theorem inv_unlockHead {s : St T V} {L : List (ℕ × V)} (h : Inv s L) (i : T) (p : PC V)
    (hb : holdsHead (s.pc i) = true)
    (hh : holdsHead p = false) (ht : holdsTail p = holdsTail (s.pc i))
    (ho : ownSpec p = ownSpec (s.pc i)) (hta : tailAt p = tailAt (s.pc i))
    (hha : ∀ a, headAt a (s.pc i) = some a) (hl : locOk L s.tail p) : Inv { (s.goto i p) with hm := none } L := by
  have hf := (h.hmx i).1 hb
  have pcj : ∀ j, (s.goto i p).pc j = if j = i then p else s.pc j := by
    intro j; simp [St.goto, Function.update_apply]
  refine ⟨h.nodup, h.links, ?_, ?_, h.hist, ?_, ?_, ?_, ?_, ?_⟩
  · show s.nodes s.tail = some (match s.tm with | none => _ | some j => tailAt ((s.goto i p).pc j))
    rw [h.tailc]
    cases hm : s.tm with
    | none => rfl
    | some j =>
      simp only [pcj]
      by_cases hj : j = i
      · subst hj; simp [hta]
      · simp [hj]
  · show s.head = some _
    rw [h.headc, hf]; exact hha _
  · intro j; show holdsHead ((s.goto i p).pc j) = true ↔ none = some j
    rw [pcj]; by_cases hj : j = i
    · subst hj; simp [hh]
    · simp only [hj, if_false]; rw [h.hmx j, hf]; simp [Ne.symm hj]
  · intro j; show holdsTail ((s.goto i p).pc j) = true ↔ s.tm = some j
    rw [pcj]; by_cases hj : j = i
    · subst hj; simp only [if_true, ht]; exact h.tmx j
    · simp only [hj, if_false]; exact h.tmx j
  · intro j a c; show ownSpec ((s.goto i p).pc j) = _ → _
    rw [pcj]; by_cases hj : j = i
    · subst hj; simp only [if_true, ho]; exact h.own j a c
    · simp only [hj, if_false]; exact h.own j a c
  · intro j k a c c' hjk
    show ownSpec ((s.goto i p).pc j) = _ → ownSpec ((s.goto i p).pc k) = _ → _
    have e : ∀ j, ownSpec ((s.goto i p).pc j) = ownSpec (s.pc j) := by
      intro j; rw [pcj]; split
      next hj => subst hj; exact ho
      next => rfl
    rw [e, e]; exact h.disj j k a c c' hjk
  · intro j; show locOk L s.tail ((s.goto i p).pc j)
    rw [pcj]; split
    · exact hl
    · exact h.loc j

theorem inv_lockTail {s : St T V} {L : List (ℕ × V)} (h : Inv s L) (i : T) (p : PC V) (hf : s.tm = none)
    (ht : holdsTail p = true) (hh : holdsHead p = holdsHead (s.pc i))
    (ho : ownSpec p = ownSpec (s.pc i)) (hta : tailAt p = ⟨none, none⟩)
    (hha : ∀ a, headAt a p = headAt a (s.pc i)) (hl : locOk L s.tail p) :
    Inv { (s.goto i p) with tm := some i } L := by
  have pcj : ∀ j, (s.goto i p).pc j = if j = i then p else s.pc j := by
    intro j; simp [St.goto, Function.update_apply]
  refine ⟨h.nodup, h.links, ?_, ?_, h.hist, ?_, ?_, ?_, ?_, ?_⟩
  · show s.nodes s.tail = some (tailAt ((s.goto i p).pc i))
    rw [h.tailc, hf, pcj, if_pos rfl, hta]
  · show s.head = (match s.hm with | none => _ | some j => headAt (hdOf L s.tail) ((s.goto i p).pc j))
    rw [h.headc]
    cases hm : s.hm with
    | none => rfl
    | some j =>
      simp only [pcj]
      by_cases hj : j = i
      · subst hj; simp [hha]
      · simp [hj]
  · intro j; show holdsHead ((s.goto i p).pc j) = true ↔ s.hm = some j
    rw [pcj]; by_cases hj : j = i
    · subst hj; simp only [if_true, hh]; exact h.hmx j
    · simp only [hj, if_false]; exact h.hmx j
  · intro j; show holdsTail ((s.goto i p).pc j) = true ↔ some i = some j
    rw [pcj]; by_cases hj : j = i
    · subst hj; simp [ht]
    · simp only [hj, if_false]; rw [h.tmx j, hf]; simp [Ne.symm hj]
  · intro j a c; show ownSpec ((s.goto i p).pc j) = _ → _
    rw [pcj]; by_cases hj : j = i
    · subst hj; simp only [if_true, ho]; exact h.own j a c
    · simp only [hj, if_false]; exact h.own j a c
  · intro j k a c c' hjk
    show ownSpec ((s.goto i p).pc j) = _ → ownSpec ((s.goto i p).pc k) = _ → _
    have e : ∀ j, ownSpec ((s.goto i p).pc j) = ownSpec (s.pc j) := by
      intro j; rw [pcj]; split
      next hj => subst hj; exact ho
      next => rfl
    rw [e, e]; exact h.disj j k a c c' hjk
  · intro j; show locOk L s.tail ((s.goto i p).pc j)
    rw [pcj]; split
    · exact hl
    · exact h.loc j

theorem inv_unlockTail {s : St T V} {L : List (ℕ × V)} (h : Inv s L) (i : T) (p : PC V)
    (hb : holdsTail (s.pc i) = true)
    (ht : holdsTail p = false) (hh : holdsHead p = holdsHead (s.pc i))
    (ho : ownSpec p = ownSpec (s.pc i)) (hta : tailAt (s.pc i) = ⟨none, none⟩)
    (hha : ∀ a, headAt a p = headAt a (s.pc i)) (hl : locOk L s.tail p) :
    Inv { (s.goto i p) with tm := none } L := by
  have hf := (h.tmx i).1 hb
  have pcj : ∀ j, (s.goto i p).pc j = if j = i then p else s.pc j := by
    intro j; simp [St.goto, Function.update_apply]
  refine ⟨h.nodup, h.links, ?_, ?_, h.hist, ?_, ?_, ?_, ?_, ?_⟩
  · show s.nodes s.tail = some _
    rw [h.tailc, hf]; exact congrArg some hta
  · show s.head = (match s.hm with | none => _ | some j => headAt (hdOf L s.tail) ((s.goto i p).pc j))
    rw [h.headc]
    cases hm : s.hm with
    | none => rfl
    | some j =>
      simp only [pcj]
      by_cases hj : j = i
      · subst hj; simp [hha]
      · simp [hj]
  · intro j; show holdsHead ((s.goto i p).pc j) = true ↔ s.hm = some j
    rw [pcj]; by_cases hj : j = i
    · subst hj; simp only [if_true, hh]; exact h.hmx j
    · simp only [hj, if_false]; exact h.hmx j
  · intro j; show holdsTail ((s.goto i p).pc j) = true ↔ none = some j
    rw [pcj]; by_cases hj : j = i
    · subst hj; simp [ht]
    · simp only [hj, if_false]; rw [h.tmx j, hf]; simp [Ne.symm hj]
  · intro j a c; show ownSpec ((s.goto i p).pc j) = _ → _
    rw [pcj]; by_cases hj : j = i
    · subst hj; simp only [if_true, ho]; exact h.own j a c
    · simp only [hj, if_false]; exact h.own j a c
  · intro j k a c c' hjk
    show ownSpec ((s.goto i p).pc j) = _ → ownSpec ((s.goto i p).pc k) = _ → _
    have e : ∀ j, ownSpec ((s.goto i p).pc j) = ownSpec (s.pc j) := by
      intro j; rw [pcj]; split
      next hj => subst hj; exact ho
      next => rfl
    rw [e, e]; exact h.disj j k a c c' hjk
  · intro j; show locOk L s.tail ((s.goto i p).pc j)
    rw [pcj]; split
    · exact hl
    · exact h.loc j

theorem inv_size {s : St T V} {L : List (ℕ × V)} (h : Inv s L) (n : ℕ) : Inv { s with size := n } L :=
  ⟨h.nodup, h.links, h.tailc, h.headc, h.hist, h.hmx, h.tmx, h.own, h.disj, h.loc⟩

theorem hdOf_mem (L : List (ℕ × V)) (t : ℕ) : hdOf L t ∈ addrs L t := by
  cases L <;> simp [hdOf, addrs]

theorem tail_mem (L : List (ℕ × V)) (t : ℕ) : t ∈ addrs L t := by simp [addrs]

theorem tail_not_mem {L : List (ℕ × V)} {t : ℕ} (h : (addrs L t).Nodup) : t ∉ L.map Prod.fst := by
  intro hm
  rw [addrs, List.nodup_append] at h
  exact h.2.2 t hm t (by simp) rfl

theorem hdOf_eq_tail {L : List (ℕ × V)} {t : ℕ} (h : (addrs L t).Nodup) : hdOf L t = t ↔ L = [] := by
  cases L with
  | nil => simp [hdOf]
  | cons x L =>
    obtain ⟨a, v⟩ := x
    simp only [hdOf, reduceCtorEq, iff_false]
    intro ha
    exact tail_not_mem h (by simp [ha])

/-- A mutex has one holder. -/
theorem Inv.headUnique {s : St T V} {L : List (ℕ × V)} (h : Inv s L) {i j : T}
    (hi : holdsHead (s.pc i) = true) (hj : holdsHead (s.pc j) = true) : i = j := by
  have := (h.hmx i).1 hi; rw [(h.hmx j).1 hj] at this; exact (Option.some.inj this).symm

theorem Inv.tailUnique {s : St T V} {L : List (ℕ × V)} (h : Inv s L) {i j : T}
    (hi : holdsTail (s.pc i) = true) (hj : holdsTail (s.pc j) = true) : i = j := by
  have := (h.tmx i).1 hi; rw [(h.tmx j).1 hj] at this; exact (Option.some.inj this).symm

/-- Facts about another thread do not depend on what is appended. -/
theorem locOk_append {L : List (ℕ × V)} {t n : ℕ} {v : V} {p : PC V} (hn : n ∉ addrs L t)
    (h : locOk L t p) : locOk (L ++ [(t, v)]) n p := by
  have hh : hdOf (L ++ [(t, v)]) n = hdOf L t := by cases L <;> rfl
  have hm : ∀ r, r ∈ addrs L t → r ∈ addrs (L ++ [(t, v)]) n := by
    intro r hr; simp [addrs] at hr ⊢; tauto
  unfold locOk at h ⊢
  split <;> simp_all
  · obtain ⟨a, L', rfl⟩ := h; exact ⟨a, _, rfl⟩
  · obtain ⟨L', rfl⟩ := h; exact ⟨_, rfl⟩

theorem Linked.alloc {nodes : ℕ → Option (Node V)} {t : ℕ} {L : List (ℕ × V)} (h : Linked nodes t L) :
    ∀ a ∈ L.map Prod.fst, nodes a ≠ none := by
  induction L with
  | nil => simp
  | cons x L ih =>
    obtain ⟨b, v⟩ := x
    intro a ha
    simp only [List.map_cons, List.mem_cons] at ha
    rcases ha with rfl | ha
    · rw [h.1]; simp
    · exact ih h.2 a ha

theorem Inv.alloc {s : St T V} {L : List (ℕ × V)} (h : Inv s L) : ∀ a ∈ addrs L s.tail, s.nodes a ≠ none := by
  intro a ha
  simp only [addrs, List.mem_append, List.mem_singleton] at ha
  rcases ha with ha | rfl
  · exact h.links.alloc a ha
  · rw [h.tailc]; simp

section
variable {s : St T V} {L : List (ℕ × V)} {i : T}

theorem inv_alloc (h : Inv s L) (hp : s.pc i = .idle) (v : V) (n : ℕ) (hn : s.nodes n = none) :
    Inv { s with nodes := Function.update s.nodes n (some ⟨none, none⟩), pc := Function.update s.pc i (.push1 v n) }
      L := by
  have nin : n ∉ addrs L s.tail := fun hm => h.alloc n hm hn
  have ntail : s.tail ≠ n := fun e => nin (e ▸ tail_mem L s.tail)
  have hi : s.hm ≠ some i := fun e => by have := (h.hmx i).2 e; simp [hp, holdsHead] at this
  have ti : s.tm ≠ some i := fun e => by have := (h.tmx i).2 e; simp [hp, holdsTail] at this
  have nown : ∀ j c, ownSpec (s.pc j) ≠ some (n, c) := fun j c hj => by
    have := (h.own j n c hj).1; rw [hn] at this; simp at this
  refine ⟨h.nodup, ?_, ?_, ?_, h.hist, ?_, ?_, ?_, ?_, ?_⟩
  · exact h.links.congr fun a ha => Function.update_of_ne (show a ≠ n from fun e => nin (by rw [← e]; exact List.mem_append_left _ ha)) _ _
  · simp only [Function.update_of_ne ntail]
    rw [h.tailc]
    cases hm : s.tm with
    | none => rfl
    | some j =>
      have : j ≠ i := fun e => ti (by rw [hm, e])
      simp [Function.update_of_ne this]
  · simp only
    rw [h.headc]
    cases hm : s.hm with
    | none => rfl
    | some j =>
      have : j ≠ i := fun e => hi (by rw [hm, e])
      simp [Function.update_of_ne this]
  · intro j
    by_cases hj : j = i
    · subst hj; simp [holdsHead, hi]
    · simp only [Function.update_of_ne hj]; exact h.hmx j
  · intro j
    by_cases hj : j = i
    · subst hj; simp [holdsTail, ti]
    · simp only [Function.update_of_ne hj]; exact h.tmx j
  · intro j a c
    by_cases hj : j = i
    · subst hj
      simp only [Function.update_self, ownSpec, Option.some.injEq, Prod.mk.injEq]
      rintro ⟨rfl, rfl⟩
      exact ⟨by simp, nin⟩
    · simp only [Function.update_of_ne hj]
      intro ho
      have := h.own j a c ho
      have hne : a ≠ n := fun e => nown j c (e ▸ ho)
      exact ⟨by rw [Function.update_of_ne hne]; exact this.1, this.2⟩
  · intro j k a c c' hjk
    by_cases hj : j = i
    · subst hj
      simp only [Function.update_self, Function.update_of_ne (Ne.symm hjk), ownSpec, Option.some.injEq, Prod.mk.injEq]
      rintro ⟨rfl, rfl⟩ ho
      exact nown k c' ho
    · by_cases hk : k = i
      · subst hk
        simp only [Function.update_self, Function.update_of_ne hj, ownSpec, Option.some.injEq, Prod.mk.injEq]
        rintro ho ⟨rfl, rfl⟩
        exact nown j c ho
      · simp only [Function.update_of_ne hj, Function.update_of_ne hk]
        exact h.disj j k a c c' hjk
  · intro j
    by_cases hj : j = i
    · subst hj; simp [locOk]
    · simp only [Function.update_of_ne hj]; exact h.loc j

/-- Writing the tail node while holding the tail mutex. -/
theorem inv_writeTail (h : Inv s L) (p : PC V) (c : Node V)
    (ht : holdsTail (s.pc i) = true) (ht' : holdsTail p = true)
    (hh : holdsHead p = holdsHead (s.pc i)) (ho : ownSpec p = ownSpec (s.pc i)) (hta : tailAt p = c)
    (hha : ∀ a, headAt a p = headAt a (s.pc i)) (hl : locOk L s.tail p) :
    Inv { (s.goto i p) with nodes := Function.update s.nodes s.tail (some c) } L := by
  have tm := (h.tmx i).1 ht
  have pcj : ∀ j, (s.goto i p).pc j = if j = i then p else s.pc j := by
    intro j; simp [St.goto, Function.update_apply]
  have e : ∀ j, ownSpec ((s.goto i p).pc j) = ownSpec (s.pc j) := by
    intro j; rw [pcj]; split
    next hj => subst hj; exact ho
    next => rfl
  refine ⟨h.nodup, ?_, ?_, ?_, h.hist, ?_, ?_, ?_, ?_, ?_⟩
  · exact h.links.congr fun a ha =>
      Function.update_of_ne (show a ≠ s.tail from fun e => tail_not_mem h.nodup (e ▸ ha)) _ _
  · show Function.update s.nodes s.tail (some c) s.tail =
      some (match s.tm with | none => _ | some j => tailAt ((s.goto i p).pc j))
    rw [Function.update_self, tm]
    simp [pcj, hta]
  · show s.head = (match s.hm with | none => _ | some j => headAt (hdOf L s.tail) ((s.goto i p).pc j))
    rw [h.headc]
    cases hm : s.hm with
    | none => rfl
    | some j =>
      simp only [pcj]
      by_cases hj : j = i
      · subst hj; simp [hha]
      · simp [hj]
  · intro j; show holdsHead ((s.goto i p).pc j) = true ↔ s.hm = some j
    rw [pcj]; by_cases hj : j = i
    · subst hj; simp only [if_true, hh]; exact h.hmx j
    · simp only [hj, if_false]; exact h.hmx j
  · intro j; show holdsTail ((s.goto i p).pc j) = true ↔ s.tm = some j
    rw [pcj]; by_cases hj : j = i
    · subst hj; simp [ht', tm]
    · simp only [hj, if_false]; exact h.tmx j
  · intro j a c'; show ownSpec ((s.goto i p).pc j) = _ → _
    rw [e]
    intro hj
    have := h.own j a c' hj
    refine ⟨?_, this.2⟩
    show Function.update s.nodes s.tail (some c) a = _
    rw [Function.update_of_ne (show a ≠ s.tail from fun e => this.2 (e ▸ tail_mem L s.tail))]; exact this.1
  · intro j k a c c' hjk
    show ownSpec ((s.goto i p).pc j) = _ → ownSpec ((s.goto i p).pc k) = _ → _
    rw [e, e]; exact h.disj j k a c c' hjk
  · intro j; show locOk L s.tail ((s.goto i p).pc j)
    rw [pcj]; split
    · exact hl
    · exact h.loc j

theorem Linked.append {nodes : ℕ → Option (Node V)} {t n : ℕ} {v : V} {L : List (ℕ × V)} (h : Linked nodes t L)
    (ht : nodes t = some ⟨some v, some n⟩) : Linked nodes n (L ++ [(t, v)]) := by
  induction L with
  | nil => exact ⟨ht, trivial⟩
  | cons x L ih =>
    obtain ⟨b, w⟩ := x
    refine ⟨?_, ih h.2⟩
    rw [h.1]
    cases L <;> rfl

theorem inv_push4 (h : Inv s L) (v : V) (n : ℕ) (hp : s.pc i = .push4 v n) :
    Inv { (s.goto i (.push5 v)) with tail := n, pushed := s.pushed ++ [v] } (L ++ [(s.tail, v)]) := by
  have tm := (h.tmx i).1 (by rw [hp]; rfl)
  have hmi : s.hm ≠ some i := fun e => by have := (h.hmx i).2 e; simp [hp, holdsHead] at this
  have pcj : ∀ j, (s.goto i (.push5 v)).pc j = if j = i then .push5 v else s.pc j := by
    intro j; simp [St.goto, Function.update_apply]
  have ow := h.own i n ⟨none, none⟩ (by rw [hp]; rfl)
  have ad : addrs (L ++ [(s.tail, v)]) n = addrs L s.tail ++ [n] := by simp [addrs]
  have hd : hdOf (L ++ [(s.tail, v)]) n = hdOf L s.tail := by cases L <;> rfl
  refine ⟨?_, ?_, ?_, ?_, ?_, ?_, ?_, ?_, ?_, ?_⟩
  · show (addrs (L ++ [(s.tail, v)]) n).Nodup
    rw [ad, List.nodup_append]
    refine ⟨h.nodup, by simp, ?_⟩
    intro a ha b hb
    simp only [List.mem_singleton] at hb
    subst hb
    exact fun e => ow.2 (e ▸ ha)
  · exact h.links.append (by rw [h.tailc, tm]; simp [hp, tailAt])
  · show s.nodes n = some (match s.tm with | none => _ | some j => tailAt ((s.goto i (.push5 v)).pc j))
    rw [ow.1, tm]; simp [pcj, tailAt]
  · show s.head = (match s.hm with
      | none => some (hdOf (L ++ [(s.tail, v)]) n)
      | some j => headAt (hdOf (L ++ [(s.tail, v)]) n) ((s.goto i (.push5 v)).pc j))
    rw [h.headc, hd]
    cases hm : s.hm with
    | none => rfl
    | some j =>
      have : j ≠ i := fun e => hmi (by rw [hm, e])
      simp [pcj, this]
  · show s.popped ++ (L ++ [(s.tail, v)]).map Prod.snd = s.pushed ++ [v]
    rw [← h.hist]; simp
  · intro j; show holdsHead ((s.goto i (.push5 v)).pc j) = true ↔ s.hm = some j
    rw [pcj]; by_cases hj : j = i
    · subst hj; simp [holdsHead, hmi]
    · simp only [hj, if_false]; exact h.hmx j
  · intro j; show holdsTail ((s.goto i (.push5 v)).pc j) = true ↔ s.tm = some j
    rw [pcj]; by_cases hj : j = i
    · subst hj; simp [holdsTail, tm]
    · simp only [hj, if_false]; exact h.tmx j
  · intro j a c; show ownSpec ((s.goto i (.push5 v)).pc j) = _ → s.nodes a = _ ∧ a ∉ addrs (L ++ [(s.tail, v)]) n
    rw [pcj]; by_cases hj : j = i
    · subst hj; simp [ownSpec]
    · simp only [hj, if_false]
      intro ho
      refine ⟨(h.own j a c ho).1, ?_⟩
      rw [ad, List.mem_append, not_or]
      refine ⟨(h.own j a c ho).2, ?_⟩
      simp only [List.mem_singleton]
      rintro rfl
      exact h.disj j i _ _ _ hj ho (by rw [hp]; rfl)
  · intro j k a c c' hjk
    show ownSpec ((s.goto i (.push5 v)).pc j) = _ → ownSpec ((s.goto i (.push5 v)).pc k) = _ → _
    rw [pcj, pcj]
    by_cases hj : j = i
    · simp [hj, ownSpec]
    · by_cases hk : k = i
      · simp [hk, ownSpec]
      · simp only [hj, hk, if_false]; exact h.disj j k a c c' hjk
  · intro j; show locOk (L ++ [(s.tail, v)]) n ((s.goto i (.push5 v)).pc j)
    rw [pcj]; split
    · simp [locOk]
    · exact locOk_append ow.2 (h.loc j)

theorem inv_pop8 (h : Inv s L) (v : V) (hp : s.pc i = .pop8 v) :
    ∃ a, s.head = some a ∧ Inv { (s.goto i (.pop9 v a)) with head := none } L := by
  have hm := (h.hmx i).1 (by rw [hp]; rfl)
  have tmi : s.tm ≠ some i := fun e => by have := (h.tmx i).2 e; simp [hp, holdsTail] at this
  have hl := h.loc i
  rw [hp] at hl
  obtain ⟨a, L', hL⟩ := hl
  have hh : s.head = some a := by rw [h.headc, hm, hL]; simp [hp, headAt, hdOf]
  refine ⟨a, hh, ?_⟩
  have pcj : ∀ j, (s.goto i (.pop9 v a)).pc j = if j = i then .pop9 v a else s.pc j := by
    intro j; simp [St.goto, Function.update_apply]
  refine ⟨h.nodup, h.links, ?_, ?_, h.hist, ?_, ?_, ?_, ?_, ?_⟩
  · show s.nodes s.tail = some (match s.tm with | none => _ | some j => tailAt ((s.goto i _).pc j))
    rw [h.tailc]
    cases hm : s.tm with
    | none => rfl
    | some j =>
      have : j ≠ i := fun e => tmi (by rw [hm, e])
      simp [pcj, this]
  · show none = (match s.hm with | none => _ | some j => headAt (hdOf L s.tail) ((s.goto i _).pc j))
    rw [hm]; simp [pcj, headAt]
  · intro j; show holdsHead ((s.goto i _).pc j) = true ↔ s.hm = some j
    rw [pcj]; by_cases hj : j = i
    · subst hj; simp [holdsHead, hm]
    · simp only [hj, if_false]; exact h.hmx j
  · intro j; show holdsTail ((s.goto i _).pc j) = true ↔ s.tm = some j
    rw [pcj]; by_cases hj : j = i
    · subst hj; simp [holdsTail, tmi]
    · simp only [hj, if_false]; exact h.tmx j
  · intro j b c; show ownSpec ((s.goto i _).pc j) = _ → _
    rw [pcj]; by_cases hj : j = i
    · subst hj; simp [ownSpec]
    · simp only [hj, if_false]; exact h.own j b c
  · intro j k b c c' hjk
    show ownSpec ((s.goto i _).pc j) = _ → ownSpec ((s.goto i _).pc k) = _ → _
    rw [pcj, pcj]
    by_cases hj : j = i
    · simp [hj, ownSpec]
    · by_cases hk : k = i
      · simp [hk, ownSpec]
      · simp only [hj, hk, if_false]; exact h.disj j k b c c' hjk
  · intro j; show locOk L s.tail ((s.goto i _).pc j)
    rw [pcj]; split
    · exact ⟨L', hL⟩
    · exact h.loc j

/-- Facts about threads that do not hold the head mutex survive removing the first node. -/
theorem locOk_of_not_head {L L' : List (ℕ × V)} {t t' : ℕ} {p : PC V} (hh : holdsHead p = false) (h : locOk L t p) :
    locOk L' t' p := by
  cases p with
  | ret r => cases r <;> simp_all [locOk]
  | _ => simp_all [holdsHead, locOk]

theorem inv_pop9 (h : Inv s L) (v : V) (o : ℕ) (hp : s.pc i = .pop9 v o) :
    ∃ nd L', s.nodes o = some nd ∧ nd.data = some v ∧ L = (o, v) :: L' ∧
      Inv { (s.goto i (.pop10 v o)) with
        head := nd.next, nodes := Function.update s.nodes o (some { nd with next := none })
        popped := s.popped ++ [v] } L' := by
  have hm := (h.hmx i).1 (by rw [hp]; rfl)
  have tmi : s.tm ≠ some i := fun e => by have := (h.tmx i).2 e; simp [hp, holdsTail] at this
  have hl := h.loc i
  rw [hp] at hl
  obtain ⟨L', hL⟩ := hl
  subst hL
  have lk := h.links
  have nd := h.nodup
  have onin : o ∉ addrs L' s.tail := by
    simp only [addrs, List.map_cons, List.cons_append, List.nodup_cons] at nd
    exact nd.1
  have nd' : (addrs L' s.tail).Nodup := by
    simp only [addrs, List.map_cons, List.cons_append, List.nodup_cons] at nd
    exact nd.2
  have sub : ∀ a, a ∈ addrs L' s.tail → a ∈ addrs ((o, v) :: L') s.tail := by
    intro a ha; simp [addrs] at ha ⊢; tauto
  have omem : o ∈ addrs ((o, v) :: L') s.tail := by simp [addrs]
  refine ⟨_, L', lk.1, rfl, rfl, ?_⟩
  have pcj : ∀ j, (s.goto i (.pop10 v o)).pc j = if j = i then .pop10 v o else s.pc j := by
    intro j; simp [St.goto, Function.update_apply]
  refine ⟨nd', ?_, ?_, ?_, ?_, ?_, ?_, ?_, ?_, ?_⟩
  · exact lk.2.congr fun a ha => Function.update_of_ne (show a ≠ o from fun e => onin (by rw [← e]; exact List.mem_append_left _ ha)) _ _
  · show Function.update s.nodes o _ s.tail = some (match s.tm with | none => _ | some j => tailAt ((s.goto i _).pc j))
    rw [Function.update_of_ne (show s.tail ≠ o from fun e => onin (e ▸ tail_mem L' s.tail)), h.tailc]
    cases hm : s.tm with
    | none => rfl
    | some j =>
      have : j ≠ i := fun e => tmi (by rw [hm, e])
      simp [pcj, this]
  · show some _ = (match s.hm with | none => _ | some j => headAt (hdOf L' s.tail) ((s.goto i _).pc j))
    rw [hm]; simp [pcj, headAt]
  · show s.popped ++ [v] ++ L'.map Prod.snd = s.pushed
    rw [← h.hist]; simp
  · intro j; show holdsHead ((s.goto i _).pc j) = true ↔ s.hm = some j
    rw [pcj]; by_cases hj : j = i
    · subst hj; simp [holdsHead, hm]
    · simp only [hj, if_false]; exact h.hmx j
  · intro j; show holdsTail ((s.goto i _).pc j) = true ↔ s.tm = some j
    rw [pcj]; by_cases hj : j = i
    · subst hj; simp [holdsTail, tmi]
    · simp only [hj, if_false]; exact h.tmx j
  · intro j a c
    show ownSpec ((s.goto i _).pc j) = _ → Function.update s.nodes o _ a = _ ∧ a ∉ addrs L' s.tail
    rw [pcj]; by_cases hj : j = i
    · subst hj
      simp only [if_true, ownSpec, Option.some.injEq, Prod.mk.injEq]
      rintro ⟨rfl, rfl⟩
      exact ⟨by simp, onin⟩
    · simp only [hj, if_false]
      intro ho
      have := h.own j a c ho
      refine ⟨?_, fun hm => this.2 (sub a hm)⟩
      rw [Function.update_of_ne (show a ≠ o from fun e => this.2 (e ▸ omem))]; exact this.1
  · intro j k a c c' hjk
    show ownSpec ((s.goto i _).pc j) = _ → ownSpec ((s.goto i _).pc k) = _ → _
    rw [pcj, pcj]
    by_cases hj : j = i
    · subst hj
      simp only [if_true, Ne.symm hjk, if_false, ownSpec, Option.some.injEq, Prod.mk.injEq]
      rintro ⟨rfl, rfl⟩ ho
      exact (h.own k _ _ ho).2 omem
    · by_cases hk : k = i
      · subst hk
        simp only [if_true, hj, if_false, ownSpec, Option.some.injEq, Prod.mk.injEq]
        rintro ho ⟨rfl, rfl⟩
        exact (h.own j _ _ ho).2 omem
      · simp only [hj, hk, if_false]; exact h.disj j k a c c' hjk
  · intro j; show locOk L' s.tail ((s.goto i _).pc j)
    rw [pcj]; split
    · simp [locOk]
    · rename_i hj
      refine locOk_of_not_head ?_ (h.loc j)
      by_contra hc
      exact hj (h.headUnique (by simpa using hc) (by rw [hp]; rfl))

theorem inv_pop11 (h : Inv s L) (v : V) (o : ℕ) (hp : s.pc i = .pop11 v o) :
    s.nodes o = some ⟨some v, none⟩ ∧
      Inv { (s.goto i (.ret (.popped v))) with nodes := Function.update s.nodes o none } L := by
  have hmi : s.hm ≠ some i := fun e => by have := (h.hmx i).2 e; simp [hp, holdsHead] at this
  have tmi : s.tm ≠ some i := fun e => by have := (h.tmx i).2 e; simp [hp, holdsTail] at this
  have ow := h.own i o ⟨some v, none⟩ (by rw [hp]; rfl)
  refine ⟨ow.1, ?_⟩
  have pcj : ∀ j, (s.goto i (.ret (.popped v))).pc j = if j = i then .ret (.popped v) else s.pc j := by
    intro j; simp [St.goto, Function.update_apply]
  refine ⟨h.nodup, ?_, ?_, ?_, h.hist, ?_, ?_, ?_, ?_, ?_⟩
  · exact h.links.congr fun a ha =>
      Function.update_of_ne (show a ≠ o from fun e => ow.2 (by rw [← e]; exact List.mem_append_left _ ha)) _ _
  · show Function.update s.nodes o _ s.tail = some (match s.tm with | none => _ | some j => tailAt ((s.goto i _).pc j))
    rw [Function.update_of_ne (show s.tail ≠ o from fun e => ow.2 (e ▸ tail_mem L s.tail)), h.tailc]
    cases hm : s.tm with
    | none => rfl
    | some j =>
      have : j ≠ i := fun e => tmi (by rw [hm, e])
      simp [pcj, this]
  · show s.head = (match s.hm with | none => _ | some j => headAt (hdOf L s.tail) ((s.goto i _).pc j))
    rw [h.headc]
    cases hm : s.hm with
    | none => rfl
    | some j =>
      have : j ≠ i := fun e => hmi (by rw [hm, e])
      simp [pcj, this]
  · intro j; show holdsHead ((s.goto i _).pc j) = true ↔ s.hm = some j
    rw [pcj]; by_cases hj : j = i
    · subst hj; simp [holdsHead, hmi]
    · simp only [hj, if_false]; exact h.hmx j
  · intro j; show holdsTail ((s.goto i _).pc j) = true ↔ s.tm = some j
    rw [pcj]; by_cases hj : j = i
    · subst hj; simp [holdsTail, tmi]
    · simp only [hj, if_false]; exact h.tmx j
  · intro j a c
    show ownSpec ((s.goto i _).pc j) = _ → Function.update s.nodes o _ a = _ ∧ a ∉ addrs L s.tail
    rw [pcj]; by_cases hj : j = i
    · subst hj; simp [ownSpec]
    · simp only [hj, if_false]
      intro ho
      have := h.own j a c ho
      refine ⟨?_, this.2⟩
      rw [Function.update_of_ne]
      · exact this.1
      · rintro rfl; exact h.disj j i _ _ _ hj ho (by rw [hp]; rfl)
  · intro j k a c c' hjk
    show ownSpec ((s.goto i _).pc j) = _ → ownSpec ((s.goto i _).pc k) = _ → _
    rw [pcj, pcj]
    by_cases hj : j = i
    · simp [hj, ownSpec]
    · by_cases hk : k = i
      · simp [hk, ownSpec]
      · simp only [hj, hk, if_false]; exact h.disj j k a c c' hjk
  · intro j; show locOk L s.tail ((s.goto i _).pc j)
    rw [pcj]; split
    · simp [locOk]
    · exact h.loc j

end

/-- Every step keeps the invariant, and none is undefined. -/
theorem step_inv {s : St T V} {L : List (ℕ × V)} (h : Inv s L) (i : T) (op : Op V) :
    step i op s ≠ .ub ∧ ∀ s', step i op s = .next s' → ∃ L', Inv s' L' := by
  unfold step
  cases hp : s.pc i with
  | idle =>
    cases op with
    | push v n =>
      cases hn : s.nodes n with
      | some _ => simp [hn]
      | none => simp [hn]; exact ⟨L, inv_alloc h hp v n hn⟩
    | pop => simp; exact ⟨L, inv_goto h i _ (by rw [hp]; rfl) (by rw [hp]; rfl) (by rw [hp]; rfl) (by rw [hp]; rfl) (by rw [hp]; intro; rfl) trivial⟩
    | isEmpty => simp; exact ⟨L, inv_goto h i _ (by rw [hp]; rfl) (by rw [hp]; rfl) (by rw [hp]; rfl) (by rw [hp]; rfl) (by rw [hp]; intro; rfl) trivial⟩
    | size => simp; exact ⟨L, inv_goto h i _ (by rw [hp]; rfl) (by rw [hp]; rfl) (by rw [hp]; rfl) (by rw [hp]; rfl) (by rw [hp]; intro; rfl) trivial⟩
    | clear => simp; exact ⟨L, inv_goto h i _ (by rw [hp]; rfl) (by rw [hp]; rfl) (by rw [hp]; rfl) (by rw [hp]; rfl) (by rw [hp]; intro; rfl) trivial⟩
  | push1 v n =>
    cases hm : s.tm with
    | some _ => simp
    | none =>
      simp
      exact ⟨L, inv_lockTail h i _ hm rfl (by rw [hp]; rfl) (by rw [hp]; rfl) rfl (by rw [hp]; intro; rfl) trivial⟩
  | push2 v n =>
    have tm := (h.tmx i).1 (by rw [hp]; rfl)
    have tc := h.tailc
    rw [tm] at tc
    simp only [hp, tailAt] at tc
    simp [tc]
    exact ⟨L, inv_writeTail h _ _ (by rw [hp]; rfl) rfl (by rw [hp]; rfl) (by rw [hp]; rfl) rfl (by rw [hp]; intro; rfl) trivial⟩
  | push3 v n =>
    have tm := (h.tmx i).1 (by rw [hp]; rfl)
    have tc := h.tailc
    rw [tm] at tc
    simp only [hp, tailAt] at tc
    simp [tc]
    exact ⟨L, inv_writeTail h _ _ (by rw [hp]; rfl) rfl (by rw [hp]; rfl) (by rw [hp]; rfl) rfl (by rw [hp]; intro; rfl) trivial⟩
  | push4 v n => simp; exact ⟨_, inv_push4 h v n hp⟩
  | push5 v =>
    simp
    exact ⟨L, inv_unlockTail h i _ (by rw [hp]; rfl) rfl (by rw [hp]; rfl) (by rw [hp]; rfl) (by rw [hp]; rfl) (by rw [hp]; intro; rfl) trivial⟩
  | push6 v =>
    simp
    exact ⟨L, inv_size (inv_goto h i (.ret (.pushed v)) (by rw [hp]; rfl) (by rw [hp]; rfl) (by rw [hp]; rfl) (by rw [hp]; rfl) (by rw [hp]; intro; rfl) trivial) _⟩
  | pop1 md =>
    cases hm : s.hm with
    | some _ => simp
    | none =>
      simp
      exact ⟨L, inv_lockHead h i _ hm rfl (by rw [hp]; rfl) (by rw [hp]; rfl) (by rw [hp]; rfl) (by intro; rfl) trivial⟩
  | pop2 md =>
    cases hm : s.tm with
    | some _ => simp
    | none =>
      simp
      exact ⟨L, inv_lockTail h i _ hm rfl (by rw [hp]; rfl) (by rw [hp]; rfl) rfl (by rw [hp]; intro; rfl) trivial⟩
  | pop3 md =>
    simp
    refine ⟨L, inv_goto h i _ (by rw [hp]; rfl) (by rw [hp]; rfl) (by rw [hp]; rfl) (by rw [hp]; rfl) (by rw [hp]; intro; rfl) ?_⟩
    refine ⟨tail_mem _ _, ?_⟩
    rw [decide_eq_true_eq, eq_comm (a := s.tail), hdOf_eq_tail h.nodup, ← h.hist]
    simp
  | pop4 md t e =>
    have := h.loc i
    rw [hp] at this
    simp
    exact ⟨L, inv_unlockTail h i _ (by rw [hp]; rfl) rfl (by rw [hp]; rfl) (by rw [hp]; rfl) (by rw [hp]; rfl) (by rw [hp]; intro; rfl) this⟩
  | pop5 md t e =>
    have hl := h.loc i
    rw [hp] at hl
    have hm := (h.hmx i).1 (by rw [hp]; rfl)
    have hh : s.head = some (hdOf L s.tail) := by rw [h.headc, hm]; simp [hp, headAt]
    cases md with
    | pop =>
      simp only [reduceCtorEq, ne_eq, not_false_eq_true, Out.next.injEq, true_and]
      rintro s' rfl
      refine ⟨L, ?_⟩
      rw [hh]
      by_cases ht : hdOf L s.tail = t
      · rw [if_pos (by rw [ht])]
        exact inv_goto h i _ (by rw [hp]; rfl) (by rw [hp]; rfl) (by rw [hp]; rfl) (by rw [hp]; rfl) (by rw [hp]; intro; rfl) (hl.2.2 ht.symm)
      · rw [if_neg (by simpa using ht)]
        refine inv_goto h i _ (by rw [hp]; rfl) (by rw [hp]; rfl) (by rw [hp]; rfl) (by rw [hp]; rfl) (by rw [hp]; intro; rfl) ?_
        rintro rfl
        have := hl.1
        simp [addrs] at this
        exact ht (by simp [hdOf, this])
    | isEmpty =>
      simp only [reduceCtorEq, ne_eq, not_false_eq_true, Out.next.injEq, true_and]
      rintro s' rfl
      refine ⟨L, inv_goto h i _ (by rw [hp]; rfl) (by rw [hp]; rfl) (by rw [hp]; rfl) (by rw [hp]; rfl) (by rw [hp]; intro; rfl) ?_⟩
      show decide (s.head = some t) = e
      rw [hh]
      have := hl.2
      cases e <;> simp_all [eq_comm]
    | clear => simp
  | popFail e =>
    have := h.loc i
    rw [hp] at this
    simp
    exact ⟨L, inv_unlockHead h i _ (by rw [hp]; rfl) rfl (by rw [hp]; rfl) (by rw [hp]; rfl) (by rw [hp]; rfl) (by rw [hp]; intro; rfl) this⟩
  | empty b e =>
    have := h.loc i
    rw [hp] at this
    simp
    exact ⟨L, inv_unlockHead h i _ (by rw [hp]; rfl) rfl (by rw [hp]; rfl) (by rw [hp]; rfl) (by rw [hp]; rfl) (by rw [hp]; intro; rfl) this⟩
  | pop6 =>
    have := h.loc i
    rw [hp] at this
    simp
    exact ⟨L, inv_size (inv_goto h i .pop7 (by rw [hp]; rfl) (by rw [hp]; rfl) (by rw [hp]; rfl) (by rw [hp]; rfl) (by rw [hp]; intro; rfl) this) _⟩
  | pop7 =>
    have hl := h.loc i
    rw [hp] at hl
    have hm := (h.hmx i).1 (by rw [hp]; rfl)
    cases L with
    | nil => exact absurd rfl hl
    | cons x L =>
      obtain ⟨a, v⟩ := x
      have hh : s.head = some a := by rw [h.headc, hm]; simp [hp, headAt, hdOf]
      simp [hh, h.links.1]
      exact ⟨_, inv_goto h i _ (by rw [hp]; rfl) (by rw [hp]; rfl) (by rw [hp]; rfl) (by rw [hp]; rfl) (by rw [hp]; intro; rfl) ⟨a, L, rfl⟩⟩
  | pop8 v =>
    obtain ⟨a, hh, hi⟩ := inv_pop8 h v hp
    simp [hh]
    exact ⟨_, hi⟩
  | pop9 v o =>
    obtain ⟨nd, L', hn, _, _, hi⟩ := inv_pop9 h v o hp
    simp [hn]
    exact ⟨_, hi⟩
  | pop10 v o =>
    simp
    exact ⟨L, inv_unlockHead h i _ (by rw [hp]; rfl) rfl (by rw [hp]; rfl) (by rw [hp]; rfl) (by rw [hp]; rfl) (by rw [hp]; intro; rfl) trivial⟩
  | pop11 v o =>
    obtain ⟨hn, hi⟩ := inv_pop11 h v o hp
    simp [hn]
    exact ⟨_, hi⟩
  | clear1 =>
    cases hm : s.hm with
    | some _ => simp
    | none =>
      simp
      exact ⟨L, inv_lockHead h i _ hm rfl (by rw [hp]; rfl) (by rw [hp]; rfl) (by rw [hp]; rfl) (by intro; rfl) trivial⟩
  | ret r =>
    simp
    exact ⟨L, inv_goto h i _ (by rw [hp]; rfl) (by rw [hp]; rfl) (by rw [hp]; rfl) (by rw [hp]; rfl) (by rw [hp]; intro; rfl) trivial⟩

theorem inv_reachable {s : St T V} (h : Reachable s) : ∃ L, Inv s L := by
  obtain ⟨a, h⟩ := h
  induction h with
  | refl => exact ⟨[], inv_init a⟩
  | tail _ hs ih =>
    obtain ⟨L, hL⟩ := ih
    obtain ⟨i, op, hs⟩ := hs
    exact (step_inv hL i op).2 _ hs

end Altro.Queue
