import Verif.Spec.TrajectoryValues
import Verif.Proofs.Problem

/-!
# The memory of trajectories represents the values
-/

namespace Altro.TrajMem
open Altro.Spec.TrajVal

variable {α : Type}

theorem upd_same {β : Type} (f : ℕ → β) (i : ℕ) (b : β) : upd f i b i = b := by simp [upd]

theorem upd_other {β : Type} (f : ℕ → β) {i k : ℕ} (b : β) (h : k ≠ i) : upd f i b k = f k := by simp [upd, h]

theorem upd_upd {β : Type} (f : ℕ → β) (i : ℕ) (a b : β) : upd (upd f i a) i b = upd f i b := by
  funext k; simp only [upd]; split <;> rfl

theorem upd_self {β : Type} (f : ℕ → β) (i : ℕ) (b : β) (h : f i = b) : upd f i b = f := by
  funext k; simp only [upd]; split
  · next e => rw [e, h]
  · rfl

/-- The memory `s` represents the values `v`: every trajectory has its own block with its elements, every block belongs to a
trajectory, and the pointers agree. -/
structure Rel (s : Mem α) (v : Vals α) : Prop where
  alive : ∀ i, s.objs i = none ↔ v.list i = none
  null : ∀ i, s.objs i = some none → v.list i = some []
  block : ∀ i b, s.objs i = some (some b) → ∃ l, s.bufs b = some l ∧ v.list i = some l
  one : ∀ i j b, s.objs i = some (some b) → s.objs j = some (some b) → i = j
  owned : ∀ b, s.bufs b ≠ none → ∃ i, s.objs i = some (some b)
  below : ∀ b, s.bufs b ≠ none → b < s.next
  unnamed : ∀ r, s.refs r = none ↔ v.target r = none
  named : ∀ r b k, s.refs r = some (b, k) → b < s.next ∧ ∃ a, v.target r = some a ∧
    ∀ i k', a = some (i, k') ↔ s.objs i = some (some b) ∧ k' = k

theorem rel_empty : Rel (Mem.empty : Mem α) Vals.empty := by
  constructor <;> simp [Mem.empty, Vals.empty]

theorem redirect_none (j : ℕ) (n : ℕ → Option (ℕ × ℕ)) (t : ℕ → Option (Option (ℕ × ℕ))) (r : ℕ) :
    redirect j n t r = none ↔ t r = none := by simp [redirect]

namespace Rel
variable {s : Mem α} {v : Vals α}

theorem used (h : Rel s v) {i b : ℕ} (hb : s.objs i = some (some b)) : b < s.next := by
  obtain ⟨l, hl, -⟩ := h.block i b hb
  exact h.below b (by simp [hl])

/-- The elements of an object. -/
theorem elems (h : Rel s v) {i : ℕ} {p : Option ℕ} (hp : s.objs i = some p) :
    ∃ l, s.elems p = .ok l ∧ v.list i = some l := by
  cases p with
  | none => exact ⟨[], rfl, h.null i hp⟩
  | some b =>
    obtain ⟨l, h1, h2⟩ := h.block i b hp
    exact ⟨l, by simp [Mem.elems, h1], h2⟩

/-- Giving back the block. -/
theorem giveup (h : Rel s v) {i : ℕ} {p : Option ℕ} (hp : s.objs i = some p) :
    ∃ s', s.free p = .ok s' ∧ s'.objs = s.objs ∧
      Rel { s' with objs := upd s'.objs i (some none) } ⟨upd v.list i (some []), invalidate i v.target⟩ := by
  cases p with
  | none =>
    refine ⟨s, rfl, rfl, ?_⟩
    have e1 : upd s.objs i (some none) = s.objs := upd_self _ _ _ hp
    have e2 : upd v.list i (some []) = v.list := upd_self _ _ _ (h.null i hp)
    have e3 : invalidate i v.target = v.target := by
      funext r
      simp only [invalidate, redirect]
      cases hr : s.refs r with
      | none => rw [(h.unnamed r).mp hr]; rfl
      | some bk =>
        obtain ⟨b, k⟩ := bk
        obtain ⟨-, a, ha, hi⟩ := h.named r b k hr
        rw [ha]
        cases a with
        | none => rfl
        | some q =>
          have := (hi q.1 q.2).mp rfl
          have : q.1 ≠ i := fun e => by rw [e, hp] at this; simp at this
          simp [this]
    rw [e1, e2, e3]
    exact h
  | some b =>
    obtain ⟨l, hl, hv⟩ := h.block i b hp
    refine ⟨{ s with bufs := upd s.bufs b none }, by simp [Mem.free, hl], rfl, ?_⟩
    constructor
    · intro k
      by_cases e : k = i
      · subst e; simp [upd]
      · simp only [upd, e, if_false]; exact h.alive k
    · intro k hk
      by_cases e : k = i
      · subst e; simp [upd]
      · simp only [upd, e, if_false] at hk ⊢; exact h.null k hk
    · intro k c hk
      by_cases e : k = i
      · subst e; simp [upd] at hk
      · simp only [upd, e, if_false] at hk ⊢
        have : c ≠ b := fun e' => e (h.one k i b (e' ▸ hk) hp)
        simp only [this, if_false]
        exact h.block k c hk
    · intro k j c hk hj
      by_cases e : k = i
      · subst e; simp [upd] at hk
      by_cases e' : j = i
      · subst e'; simp [upd] at hj
      simp only [upd, e, e', if_false] at hk hj
      exact h.one k j c hk hj
    · intro c hc
      by_cases e : c = b
      · subst e; simp [upd] at hc
      · simp only [upd, e, if_false] at hc
        obtain ⟨k, hk⟩ := h.owned c hc
        refine ⟨k, ?_⟩
        have : k ≠ i := fun e' => by rw [e', hp] at hk; simp at hk; exact e hk.symm
        simp only [upd, this, if_false]; exact hk
    · intro c hc
      by_cases e : c = b
      · subst e; simp [upd] at hc
      · simp only [upd, e, if_false] at hc; exact h.below c hc
    · intro r
      show s.refs r = none ↔ redirect i (fun _ => none) v.target r = none
      rw [redirect_none]; exact h.unnamed r
    · intro r c k hr
      obtain ⟨h1, a, ha, hi⟩ := h.named r c k hr
      refine ⟨h1, a.bind fun p => if p.1 = i then none else some p, by simp [invalidate, redirect, ha], fun j k' => ?_⟩
      cases a with
      | none =>
        simp only [Option.bind_none, reduceCtorEq, false_iff, not_and]
        intro hj
        by_cases e : j = i
        · subst e; simp [upd] at hj
        · simp only [upd, e, if_false] at hj
          intro hk
          exact absurd ((hi j k').mpr ⟨hj, hk⟩) (by simp)
      | some q =>
        by_cases e : q.1 = i
        · simp only [Option.bind_some, e, if_true, reduceCtorEq, false_iff, not_and]
          intro hj hk
          have h3 := (hi q.1 q.2).mp rfl
          by_cases e' : j = i
          · subst e'; simp [upd] at hj
          · simp only [upd, e', if_false] at hj
            exact e' ((h.one j q.1 c hj h3.1).trans e)
        · simp only [Option.bind_some, e, if_false]
          constructor
          · intro hq
            have := (hi j k').mp hq
            have e' : j ≠ i := fun e' => e (by injection hq with hq; rw [hq]; exact e')
            simpa only [upd, e', if_false] using this
          · rintro ⟨hj, hk⟩
            by_cases e' : j = i
            · subst e'; simp [upd] at hj
            · simp only [upd, e', if_false] at hj
              exact (hi j k').mpr ⟨hj, hk⟩

/-- No pointer points into a trajectory without a block. -/
theorem no_target (h : Rel s v) {i : ℕ} (hi : ∀ b, s.objs i ≠ some (some b)) (r k : ℕ) :
    v.target r ≠ some (some (i, k)) := by
  intro ht
  cases hr : s.refs r with
  | none => rw [(h.unnamed r).mp hr] at ht; simp at ht
  | some bk =>
    obtain ⟨b, k'⟩ := bk
    obtain ⟨-, a, ha, hh⟩ := h.named r b k' hr
    rw [ha] at ht
    exact hi b ((hh i k).mp (by simpa using ht)).1

/-- A new block. -/
theorem alloc (h : Rel s v) {i : ℕ} (hi : ∀ b, s.objs i ≠ some (some b)) (l : List α) :
    Rel (s.alloc i l) { v with list := upd v.list i (some l) } := by
  unfold Mem.alloc
  by_cases hl : l = []
  · subst hl
    rw [if_pos rfl]
    constructor
    · intro k
      by_cases e : k = i
      · subst e; simp [upd]
      · simp only [upd, e, if_false]; exact h.alive k
    · intro k hk
      by_cases e : k = i
      · subst e; simp [upd]
      · simp only [upd, e, if_false] at hk ⊢; exact h.null k hk
    · intro k c hk
      by_cases e : k = i
      · subst e; simp [upd] at hk
      · simp only [upd, e, if_false] at hk ⊢; exact h.block k c hk
    · intro k j c hk hj
      by_cases e : k = i
      · subst e; simp [upd] at hk
      by_cases e' : j = i
      · subst e'; simp [upd] at hj
      simp only [upd, e, e', if_false] at hk hj
      exact h.one k j c hk hj
    · intro c hc
      obtain ⟨k, hk⟩ := h.owned c hc
      have : k ≠ i := fun e => hi c (e ▸ hk)
      exact ⟨k, by simpa only [upd, this, if_false] using hk⟩
    · exact h.below
    · exact h.unnamed
    · intro r c k hr
      obtain ⟨h1, a, ha, hh⟩ := h.named r c k hr
      refine ⟨h1, a, ha, fun j k' => ?_⟩
      rw [hh]
      by_cases e : j = i
      · subst e; simp [upd, hi]
      · simp [upd, e]
  · rw [if_neg hl]
    have hn : s.bufs s.next = none := by
      by_contra hc; exact absurd (h.below _ hc) (lt_irrefl _)
    have hne : ∀ {k b}, s.objs k = some (some b) → b ≠ s.next := fun hk e => absurd (h.used hk) (by rw [e]; exact lt_irrefl _)
    constructor
    · intro k
      by_cases e : k = i
      · subst e; simp [upd]
      · simp only [upd, e, if_false]; exact h.alive k
    · intro k hk
      by_cases e : k = i
      · subst e; simp [upd] at hk
      · simp only [upd, e, if_false] at hk ⊢; exact h.null k hk
    · intro k c hk
      by_cases e : k = i
      · subst e
        simp only [upd_same, Option.some.injEq] at hk
        subst hk
        exact ⟨l, upd_same _ _ _, upd_same _ _ _⟩
      · simp only [upd, e, if_false] at hk ⊢
        simp only [hne hk, if_false]
        exact h.block k c hk
    · intro k j c hk hj
      by_cases e : k = i
      · by_cases e' : j = i
        · rw [e, e']
        · subst e
          simp only [upd, e', if_false] at hk hj
          simp only [if_true, Option.some.injEq] at hk
          exact absurd hk.symm (hne hj)
      · by_cases e' : j = i
        · subst e'
          simp only [upd, e, if_false] at hk hj
          simp only [if_true, Option.some.injEq] at hj
          exact absurd hj.symm (hne hk)
        · simp only [upd, e, e', if_false] at hk hj
          exact h.one k j c hk hj
    · intro c hc
      by_cases e : c = s.next
      · exact ⟨i, by rw [e]; exact upd_same _ _ _⟩
      · simp only [upd, e, if_false] at hc
        obtain ⟨k, hk⟩ := h.owned c hc
        have : k ≠ i := fun e => hi c (e ▸ hk)
        exact ⟨k, by simpa only [upd, this, if_false] using hk⟩
    · intro c hc
      by_cases e : c = s.next
      · rw [e]; exact Nat.lt_succ_self _
      · simp only [upd, e, if_false] at hc
        exact (h.below c hc).trans (Nat.lt_succ_self _)
    · exact h.unnamed
    · intro r c k hr
      obtain ⟨h1, a, ha, hh⟩ := h.named r c k hr
      refine ⟨h1.trans (Nat.lt_succ_self _), a, ha, fun j k' => ?_⟩
      rw [hh]
      by_cases e : j = i
      · subst e
        have : s.next ≠ c := fun e => absurd h1 (by rw [e]; exact lt_irrefl _)
        simp [upd, hi, this]
      · simp [upd, e]

/-- Handing over a block. -/
theorem move (h : Rel s v) {i j : ℕ} (hij : i ≠ j) (hi : ∀ b, s.objs i ≠ some (some b)) {p : Option ℕ} {l : List α}
    (hj : s.objs j = some p) (hl : v.list j = some l) :
    Rel { s with objs := upd (upd s.objs j (some none)) i (some p) }
      ⟨upd (upd v.list j (some [])) i (some l), follow i j v.target⟩ := by
  have hi' : ∀ {k b}, s.objs k = some (some b) → k ≠ i := fun hk e => hi _ (e ▸ hk)
  constructor
  · intro k
    by_cases e : k = i
    · subst e; simp [upd]
    by_cases e' : k = j
    · subst e'; simp [upd, e]
    simp only [upd, e, e', if_false]; exact h.alive k
  · intro k hk
    by_cases e : k = i
    · subst e
      simp only [upd_same, Option.some.injEq] at hk ⊢
      have := h.null j (hk ▸ hj)
      rw [hl] at this
      simpa using this
    by_cases e' : k = j
    · subst e'; simp [upd, e]
    simp only [upd, e, e', if_false] at hk ⊢; exact h.null k hk
  · intro k c hk
    by_cases e : k = i
    · subst e
      simp only [upd_same, Option.some.injEq] at hk ⊢
      obtain ⟨l', h1, h2⟩ := h.block j c (hk ▸ hj)
      exact ⟨l', h1, Option.some.inj (hl.symm.trans h2)⟩
    by_cases e' : k = j
    · subst e'; simp [upd, e] at hk
    simp only [upd, e, e', if_false] at hk ⊢; exact h.block k c hk
  · intro k k' c hk hk'
    have key : ∀ k, upd (upd s.objs j (some none)) i (some p) k = some (some c) →
        (k = i ∧ s.objs j = some (some c)) ∨ (k ≠ i ∧ k ≠ j ∧ s.objs k = some (some c)) := by
      intro k hk
      by_cases e : k = i
      · left; subst e; simp only [upd_same, Option.some.injEq] at hk; exact ⟨rfl, hk ▸ hj⟩
      by_cases e' : k = j
      · subst e'; simp [upd, e] at hk
      simp only [upd, e, e', if_false] at hk
      exact Or.inr ⟨e, e', hk⟩
    rcases key k hk with ⟨e, h1⟩ | ⟨e, e1, h1⟩ <;> rcases key k' hk' with ⟨e', h2⟩ | ⟨e', e2, h2⟩
    · rw [e, e']
    · exact absurd (h.one _ _ _ h2 h1) e2
    · exact absurd (h.one _ _ _ h1 h2) e1
    · exact h.one _ _ _ h1 h2
  · intro c hc
    obtain ⟨k, hk⟩ := h.owned c hc
    by_cases e : k = j
    · subst e
      exact ⟨i, by simp only [upd_same]; rw [← hj, hk]⟩
    · exact ⟨k, by simp only [upd, hi' hk, e, if_false]; exact hk⟩
  · exact h.below
  · intro r
    show s.refs r = none ↔ redirect j (fun k => some (i, k)) v.target r = none
    rw [redirect_none]; exact h.unnamed r
  · intro r c k hr
    obtain ⟨h1, a, ha, hh⟩ := h.named r c k hr
    refine ⟨h1, a.bind fun p => if p.1 = j then some (i, p.2) else some p, by simp [follow, redirect, ha], fun k' l' => ?_⟩
    have key : upd (upd s.objs j (some none)) i (some p) k' = some (some c) ↔
        (k' = i ∧ s.objs j = some (some c)) ∨ (k' ≠ i ∧ k' ≠ j ∧ s.objs k' = some (some c)) := by
      by_cases e : k' = i
      · subst e; simp [upd_same, hj]
      by_cases e' : k' = j
      · subst e'; simp [upd, e]
      simp [upd, e, e']
    show _ ↔ upd (upd s.objs j (some none)) i (some p) k' = some (some c) ∧ _
    rw [key]
    cases a with
    | none =>
      simp only [Option.bind_none, reduceCtorEq, false_iff, not_and]
      rintro (⟨-, h3⟩ | ⟨-, -, h3⟩) hk
      · exact absurd ((hh j l').mpr ⟨h3, hk⟩) (by simp)
      · exact absurd ((hh k' l').mpr ⟨h3, hk⟩) (by simp)
    | some q =>
      obtain ⟨q1, q2⟩ := q
      have h3 := (hh q1 q2).mp rfl
      by_cases e : q1 = j
      · subst e
        simp only [Option.bind_some, if_true, Option.some.injEq, Prod.mk.injEq]
        constructor
        · rintro ⟨rfl, rfl⟩; exact ⟨Or.inl ⟨rfl, h3.1⟩, h3.2⟩
        · rintro ⟨⟨e1, -⟩ | ⟨-, e2, e3⟩, e4⟩
          · exact ⟨e1.symm, h3.2.trans e4.symm⟩
          · exact absurd (h.one _ _ _ e3 h3.1) e2
      · simp only [Option.bind_some, e, if_false, Option.some.injEq, Prod.mk.injEq]
        constructor
        · rintro ⟨rfl, rfl⟩; exact ⟨Or.inr ⟨hi' h3.1, e, h3.1⟩, h3.2⟩
        · rintro ⟨⟨-, e1⟩ | ⟨-, -, e3⟩, e4⟩
          · exact absurd (h.one _ _ _ h3.1 e1) e
          · exact ⟨h.one _ _ _ h3.1 e3, h3.2.trans e4.symm⟩

/-- Writing into a block. -/
theorem setBuf (h : Rel s v) {i b : ℕ} (hb : s.objs i = some (some b)) (l : List α) :
    Rel { s with bufs := upd s.bufs b (some l) } { v with list := upd v.list i (some l) } := by
  obtain ⟨l0, hl0, hv⟩ := h.block i b hb
  constructor
  · intro k
    by_cases e : k = i
    · subst e; simp [upd, hb]
    · simp only [upd, e, if_false]; exact h.alive k
  · intro k hk
    by_cases e : k = i
    · subst e; have hk' : s.objs k = some none := hk; rw [hb] at hk'; simp at hk'
    · simp only [upd, e, if_false]; exact h.null k hk
  · intro k c hk
    by_cases e : k = i
    · subst e
      have hk' : s.objs k = some (some c) := hk
      rw [hb] at hk'
      simp only [Option.some.injEq] at hk'
      subst hk'
      exact ⟨l, upd_same _ _ _, upd_same _ _ _⟩
    · have : c ≠ b := fun e' => e (h.one k i b (e' ▸ hk) hb)
      simp only [upd, e, this, if_false]
      exact h.block k c hk
  · exact h.one
  · intro c hc
    by_cases e : c = b
    · exact ⟨i, e ▸ hb⟩
    · simp only [upd, e, if_false] at hc; exact h.owned c hc
  · intro c hc
    by_cases e : c = b
    · rw [e]; exact h.used hb
    · simp only [upd, e, if_false] at hc; exact h.below c hc
  · exact h.unnamed
  · exact h.named

/-- Removing an object without a block. -/
theorem remove (h : Rel s v) {i : ℕ} (hi : s.objs i = some none) :
    Rel { s with objs := upd s.objs i none } { v with list := upd v.list i none } := by
  have hi' : ∀ {k b}, s.objs k = some (some b) → k ≠ i := fun hk e => by rw [e, hi] at hk; simp at hk
  constructor
  · intro k
    by_cases e : k = i
    · subst e; simp [upd]
    · simp only [upd, e, if_false]; exact h.alive k
  · intro k hk
    by_cases e : k = i
    · subst e; simp [upd] at hk
    · simp only [upd, e, if_false] at hk ⊢; exact h.null k hk
  · intro k c hk
    by_cases e : k = i
    · subst e; simp [upd] at hk
    · simp only [upd, e, if_false] at hk ⊢; exact h.block k c hk
  · intro k j c hk hj
    by_cases e : k = i
    · subst e; simp [upd] at hk
    by_cases e' : j = i
    · subst e'; simp [upd] at hj
    simp only [upd, e, e', if_false] at hk hj
    exact h.one k j c hk hj
  · intro c hc
    obtain ⟨k, hk⟩ := h.owned c hc
    exact ⟨k, by simpa only [upd, hi' hk, if_false] using hk⟩
  · exact h.below
  · exact h.unnamed
  · intro r c k hr
    obtain ⟨h1, a, ha, hh⟩ := h.named r c k hr
    refine ⟨h1, a, ha, fun j k' => ?_⟩
    rw [hh]
    by_cases e : j = i
    · subst e; simp [upd, hi]
    · simp [upd, e]

end Rel

/-- Both fail in the same way, or both succeed with related results. -/
def Both (a : Except Err (Mem α)) (b : Except Err (Vals α)) : Prop :=
  match a, b with
  | .ok s, .ok v => Rel s v
  | .error e, .error e' => e = e'
  | _, _ => False

theorem obj_some {s : Mem α} {i : ℕ} {p : Option ℕ} (h : s.objs i = some p) : s.obj i = .ok p := by simp [Mem.obj, h]
theorem obj_none {s : Mem α} {i : ℕ} (h : s.objs i = none) : s.obj i = .error .undefined := by simp [Mem.obj, h]
theorem fresh_some {s : Mem α} {i : ℕ} {p : Option ℕ} (h : s.objs i = some p) : s.fresh i = .error .undefined := by
  simp [Mem.fresh, h]
theorem fresh_none {s : Mem α} {i : ℕ} (h : s.objs i = none) : s.fresh i = .ok () := by simp [Mem.fresh, h]

theorem alloc_upd (s : Mem α) (i : ℕ) (p : Option (Option ℕ)) (l : List α) :
    Mem.alloc { s with objs := upd s.objs i p } i l = s.alloc i l := by
  unfold Mem.alloc
  split <;> simp [upd_upd]

theorem vread_ok {β : Type} (l : List β) (k : ℤ) :
    (∃ z, vread l k = .ok z ∧ l[k.toNat]? = some z ∧ 0 ≤ k ∧ k < l.length) ∨
    (vread l k = .error .undefined ∧ ¬ (0 ≤ k ∧ k < l.length)) := by
  unfold vread
  by_cases h0 : 0 ≤ k
  · rw [if_pos h0]
    by_cases h1 : k < l.length
    · have h2 : k.toNat < l.length := by omega
      left
      exact ⟨l[k.toNat], by simp [List.getElem?_eq_getElem h2], by simp [List.getElem?_eq_getElem h2], h0, h1⟩
    · right
      have : l[k.toNat]? = none := by rw [List.getElem?_eq_none_iff]; omega
      exact ⟨by simp [this], fun h => h1 h.2⟩
  · right; rw [if_neg h0]; exact ⟨rfl, fun h => h0 h.1⟩

theorem modify_set {β : Type} (l : List β) (k : ℕ) (f : β → β) (z : β) (h : l[k]? = some z) :
    l.set k (f z) = l.modify k f := by
  apply List.ext_getElem?
  intro j
  rw [List.getElem?_set, List.getElem?_modify]
  by_cases e : k = j
  · subst e
    obtain ⟨h1, h2⟩ := List.getElem?_eq_some_iff.mp h
    simp [h1, h2]
  · simp [e]

theorem both_modify {s : Mem α} {v : Vals α} (h : Rel s v) (i : ℕ) (f g : List α → Except Err (List α))
    (hfg : ∀ l, f l = g l) (hg : ∀ l, f [] = .ok l → l = []) : Both (s.modify i f) (change v i g) := by
  have e : f = g := funext hfg
  subst e
  cases ho : s.objs i with
  | none =>
    simp only [Mem.modify, obj_none ho, change, (h.alive i).mp ho, bind, Except.bind]
    exact rfl
  | some p =>
    obtain ⟨l, h1, h2⟩ := h.elems ho
    simp only [Mem.modify, obj_some ho, h1, change, h2, bind, Except.bind]
    cases hf : f l with
    | error e => simp only [Except.map]; exact rfl
    | ok l' =>
      simp only [Except.map]
      cases p with
      | some b => exact h.setBuf ho l'
      | none =>
        simp only [Mem.elems, Except.ok.injEq] at h1
        subst h1
        have := hg l' hf
        subst this
        show Rel s _
        rw [upd_self _ _ _ h2]
        exact h

theorem both_new {s : Mem α} {v : Vals α} (h : Rel s v) (i : ℕ) (l : Except Err (List α)) :
    Both (s.ofElems i l) (new v i l) := by
  cases ho : s.objs i with
  | some p =>
    have : v.list i ≠ none := fun e => by rw [(h.alive i).mpr e] at ho; simp at ho
    simp only [Mem.ofElems, fresh_some ho, new, this, if_false, bind, Except.bind]
    exact rfl
  | none =>
    simp only [Mem.ofElems, fresh_none ho, new, (h.alive i).mp ho, if_true, bind, Except.bind]
    cases l with
    | error e => exact rfl
    | ok l => exact h.alloc (by simp [ho]) l

end Altro.TrajMem
