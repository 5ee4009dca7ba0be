import Mathlib.Data.List.InsertIdx
import Mathlib.Tactic.Set
import Verif.Model.LoggerMove
import Verif.Spec.LoggerValues

/-!
# C114: loggers that are moved print their columns; copies do not keep them

`C114_values`: what the objects show is what lists of titles would show, for programs without copies, or in which no map
ends.  `C114_not_copied`: in all programs, loggers whose columns do not come from a copy show theirs.  `C114_copy` and `C114_copy_dangles`: a copy shows the columns of the original and is left with dangling pointers
when the original is destroyed.
-/

namespace Altro.LoggerMove
open Altro.Spec

/-- The titles in the nodes that the pointers lead to, freed or not. -/
def view (m : Mem) : LoggerValues.Vals := fun i => (m.obj i).map fun o => o.order.map m.title

structure Bnd (m : Mem) : Prop where
  own : ∀ i o, m.obj i = some o → ∀ n ∈ o.own, n < m.next
  order : ∀ i o, m.obj i = some o → ∀ n ∈ o.order, n < m.next

structure EmplaceFacts (m : Mem) (o : Obj) (t : String) (r : Mem × Obj × ℕ) : Prop where
  le : m.next ≤ r.1.next
  old : ∀ n < m.next, r.1.title n = m.title n
  title : r.1.title r.2.2 = t
  lt : r.2.2 < r.1.next
  order : r.2.1.order = o.order
  own : ∀ n ∈ r.2.1.own, n ∈ o.own ∨ (n = m.next ∧ n < r.1.next)
  mem : r.2.2 ∈ r.2.1.own
  sub : ∀ n ∈ o.own, n ∈ r.2.1.own
  obj : r.1.obj = m.obj
  freed : r.1.freed = m.freed

theorem emplace_facts (m : Mem) (o : Obj) (t : String) (hb : ∀ n ∈ o.own, n < m.next) :
    EmplaceFacts m o t (emplace m o t) := by
  unfold emplace
  cases hf : o.own.find? (fun n => m.title n = t) with
  | some n =>
    have h1 := List.mem_of_find?_eq_some hf
    have h2 := List.find?_some hf
    exact ⟨le_refl _, fun _ _ => rfl, by simpa using h2, hb n h1, rfl, fun n h => .inl h, h1, fun n h => h, rfl, rfl⟩
  | none =>
    refine ⟨Nat.le_succ _, fun n hn => if_neg (Nat.ne_of_lt hn), if_pos rfl, Nat.lt_succ_self _, rfl, ?_, ?_, ?_, rfl, rfl⟩
    · intro n hn
      rcases List.mem_append.1 hn with h | h
      · exact .inl h
      · exact .inr ⟨List.mem_singleton.1 h, (List.mem_singleton.1 h) ▸ Nat.lt_succ_self _⟩
    · exact List.mem_append_right _ (List.mem_singleton.2 rfl)
    · exact fun n hn => List.mem_append_left _ hn

theorem map_title {f g : ℕ → String} {N : ℕ} (h : ∀ n < N, f n = g n) {l : List ℕ} (hl : ∀ n ∈ l, n < N) :
    l.map f = l.map g := List.map_congr_left fun n hn => h n (hl n hn)

theorem view_put {m m' : Mem} {i : ℕ} {o : Obj} (hb : Bnd m) (hobj : m'.obj = m.obj)
    (ht : ∀ n < m.next, m'.title n = m.title n) :
    view (put m' i (some o)) = LoggerValues.set (view m) i (some (o.order.map m'.title)) := by
  funext k
  by_cases hk : k = i
  · simp [view, put, LoggerValues.set, hk]
  · simp only [view, put, LoggerValues.set, hk, if_false, hobj]
    cases h : m.obj k with
    | none => rfl
    | some q => simp [map_title ht (hb.order k q h)]

theorem bnd_put {m m' : Mem} {i : ℕ} {o : Obj} (hb : Bnd m) (hobj : m'.obj = m.obj) (hle : m.next ≤ m'.next)
    (h1 : ∀ n ∈ o.own, n < m'.next) (h2 : ∀ n ∈ o.order, n < m'.next) : Bnd (put m' i (some o)) := by
  constructor
  · intro k q hq n hn
    by_cases hk : k = i
    · simp only [put, hk, if_true, Option.some.injEq] at hq; subst hq; exact h1 n hn
    · simp only [put, hk, if_false, hobj] at hq; exact lt_of_lt_of_le (hb.own k q hq n hn) hle
  · intro k q hq n hn
    by_cases hk : k = i
    · simp only [put, hk, if_true, Option.some.injEq] at hq; subst hq; exact h2 n hn
    · simp only [put, hk, if_false, hobj] at hq; exact lt_of_lt_of_le (hb.order k q hq n hn) hle

theorem bnd_free {m : Mem} (hb : Bnd m) (l : List ℕ) : Bnd (free m l) := ⟨hb.own, hb.order⟩

theorem step_sim {m : Mem} (hb : Bnd m) (op : Op) :
    (∃ m', step m op = .ok m' ∧ Bnd m' ∧ LoggerValues.step (view m) op = some (view m')) ∨
      (step m op = .error .undefined ∧ LoggerValues.step (view m) op = none) := by
  have hnil : ∀ n ∈ ([] : List ℕ), n < m.next := fun n h => absurd h List.not_mem_nil
  cases op with
  | new i =>
    cases hi : m.obj i with
    | some o => exact .inr ⟨by simp [step, hi], by simp [LoggerValues.step, view, hi]⟩
    | none =>
      refine .inl ⟨put m i (some ⟨[], []⟩), by simp [step, hi], bnd_put hb rfl (le_refl _) hnil hnil, ?_⟩
      rw [view_put hb rfl fun _ _ => rfl]
      simp [LoggerValues.step, view, hi]
  | add i t pos =>
    cases hi : m.obj i with
    | none => exact .inr ⟨by simp [step, hi], by simp [LoggerValues.step, view, hi]⟩
    | some o =>
      by_cases hp : pos ≤ o.order.length
      · have E := emplace_facts m o t (hb.own i o hi)
        refine .inl ⟨put (emplace m o t).1 i (some { (emplace m o t).2.1 with order := o.order.insertIdx pos (emplace m o t).2.2 }),
          by simp only [step, hi, hp, if_true], bnd_put hb E.obj E.le ?_ ?_, ?_⟩
        · intro n hn
          rcases E.own n hn with h | h
          · exact lt_of_lt_of_le (hb.own i o hi n h) E.le
          · exact h.2
        · intro n hn
          rcases (List.mem_insertIdx hp).1 hn with h | h
          · exact h ▸ E.lt
          · exact lt_of_lt_of_le (hb.order i o hi n h) E.le
        · rw [view_put hb E.obj E.old]
          simp only [LoggerValues.step, view, hi, Option.map_some, Option.bind_some, List.length_map, hp, if_true]
          rw [List.map_insertIdx, E.title, map_title E.old (hb.order i o hi)]
      · exact .inr ⟨by simp [step, hi, hp], by simp [LoggerValues.step, view, hi, hp]⟩
  | touch i t =>
    cases hi : m.obj i with
    | none => exact .inr ⟨by simp [step, hi], by simp [LoggerValues.step, view, hi]⟩
    | some o =>
      have E := emplace_facts m o t (hb.own i o hi)
      refine .inl ⟨put (emplace m o t).1 i (some (emplace m o t).2.1), by simp only [step, hi], bnd_put hb E.obj E.le ?_ ?_, ?_⟩
      · intro n hn
        rcases E.own n hn with h | h
        · exact lt_of_lt_of_le (hb.own i o hi n h) E.le
        · exact h.2
      · intro n hn
        exact lt_of_lt_of_le (hb.order i o hi n (E.order ▸ hn)) E.le
      · rw [view_put hb E.obj E.old, E.order, map_title E.old (hb.order i o hi)]
        simp only [LoggerValues.step]
        have : view m i = some (o.order.map m.title) := by simp [view, hi]
        rw [this, Option.map_some, Option.some.injEq]
        funext k
        by_cases hk : k = i
        · simp [LoggerValues.set, hk, this]
        · simp [LoggerValues.set, hk]
  | copy i j =>
    cases hi : m.obj i with
    | none => exact .inr ⟨by simp [step, hi], by simp [LoggerValues.step, view, hi]⟩
    | some o =>
      cases hj : m.obj j with
      | some p => exact .inr ⟨by simp [step, hi, hj], by simp [LoggerValues.step, view, hi, hj]⟩
      | none =>
        have ht : ∀ n < m.next, (copyNodes m o.own).title n = m.title n := fun n hn =>
          if_neg fun h => absurd h.1 (Nat.not_le.2 hn)
        refine .inl ⟨put (copyNodes m o.own) j (some ⟨(List.range o.own.length).map (m.next + ·), o.order⟩),
          by simp only [step, hi, hj], bnd_put hb rfl (Nat.le_add_right _ _) ?_ ?_, ?_⟩
        · intro n hn
          obtain ⟨k, hk, rfl⟩ := List.mem_map.1 hn
          exact Nat.add_lt_add_left (List.mem_range.1 hk) _
        · exact fun n hn => lt_of_lt_of_le (hb.order i o hi n hn) (Nat.le_add_right _ _)
        · rw [view_put (m' := copyNodes m o.own) hb rfl ht, map_title ht (hb.order i o hi)]
          simp [LoggerValues.step, view, hi, hj]
  | move i j =>
    cases hi : m.obj i with
    | none => exact .inr ⟨by simp [step, hi], by simp [LoggerValues.step, view, hi]⟩
    | some o =>
      cases hj : m.obj j with
      | some p => exact .inr ⟨by simp [step, hi, hj], by simp [LoggerValues.step, view, hi, hj]⟩
      | none =>
        have hb' : Bnd (put m j (some o)) := bnd_put hb rfl (le_refl _) (hb.own i o hi) (hb.order i o hi)
        refine .inl ⟨put (put m j (some o)) i (some ⟨[], []⟩), by simp only [step, hi, hj], bnd_put hb' rfl (le_refl _) hnil hnil, ?_⟩
        rw [view_put hb' rfl fun _ _ => rfl, view_put hb rfl fun _ _ => rfl]
        simp [LoggerValues.step, view, hi, hj]
  | moveAssign i j =>
    cases hi : m.obj i with
    | none => exact .inr ⟨by simp [step, hi], by simp [LoggerValues.step, view, hi]⟩
    | some o =>
      cases hj : m.obj j with
      | none => exact .inr ⟨by simp [step, hi, hj], by simp [LoggerValues.step, view, hi, hj]⟩
      | some p =>
        by_cases hij : i = j
        · exact .inr ⟨by simp only [step, hj, hij, if_true], by simp [LoggerValues.step, hij, view, hj]⟩
        · have hf := bnd_free hb p.own
          have hb' : Bnd (put (free m p.own) j (some o)) := bnd_put hf rfl (le_refl _) (hb.own i o hi) (hb.order i o hi)
          refine .inl ⟨put (put (free m p.own) j (some o)) i (some ⟨[], []⟩),
            by simp only [step, hi, hj, hij, if_false], bnd_put hb' rfl (le_refl _) hnil hnil, ?_⟩
          rw [view_put hb' rfl fun _ _ => rfl, view_put (m' := free m p.own) hb rfl fun _ _ => rfl]
          simp [LoggerValues.step, view, hi, hj, hij, free]
  | destroy i =>
    cases hi : m.obj i with
    | none => exact .inr ⟨by simp [step, hi], by simp [LoggerValues.step, view, hi]⟩
    | some o =>
      refine .inl ⟨put (free m o.own) i none, by simp only [step, hi], ⟨?_, ?_⟩, ?_⟩
      · intro k q hq
        by_cases hk : k = i
        · simp [put, hk] at hq
        · exact hb.own k q (by simpa [put, hk, free] using hq)
      · intro k q hq
        by_cases hk : k = i
        · simp [put, hk] at hq
        · exact hb.order k q (by simpa [put, hk, free] using hq)
      · have : view m i = some (o.order.map m.title) := by simp [view, hi]
        simp only [LoggerValues.step, this, Option.map_some, Option.some.injEq]
        funext k
        by_cases hk : k = i
        · simp [LoggerValues.set, view, put, hk]
        · simp [LoggerValues.set, view, put, hk, free]

/-- No map shares nodes with another, and the pointers of each logger lead into its own map unless `T` excepts it. -/
structure Own (T : ℕ → Bool) (m : Mem) : Prop where
  bnd : ∀ i o, m.obj i = some o → ∀ n ∈ o.own, n < m.next
  order : ∀ i o, T i = false → m.obj i = some o → ∀ n ∈ o.order, n ∈ o.own
  live : ∀ i o, m.obj i = some o → ∀ n ∈ o.own, m.freed n = false
  new : ∀ n, m.next ≤ n → m.freed n = false
  disj : ∀ i j o p, i ≠ j → m.obj i = some o → m.obj j = some p → ∀ n ∈ o.own, n ∉ p.own

theorem own_grow {T : ℕ → Bool} {m : Mem} (h : Own T m) {i : ℕ} {o : Obj} (hi : m.obj i = some o) {t : String} {l : List ℕ}
    (hl : T i = false → ∀ n ∈ l, n ∈ (emplace m o t).2.1.own) :
    Own T (put (emplace m o t).1 i (some { (emplace m o t).2.1 with order := l })) := by
  have E := emplace_facts m o t (h.bnd i o hi)
  have hfree : ∀ n ∈ (emplace m o t).2.1.own, m.freed n = false := by
    intro n hn
    rcases E.own n hn with h' | h'
    · exact h.live i o hi n h'
    · exact h.new n (le_of_eq h'.1.symm)
  have hother : ∀ k q, k ≠ i → m.obj k = some q → ∀ n ∈ (emplace m o t).2.1.own, n ∉ q.own := by
    intro k q hk hq n hn hnq
    rcases E.own n hn with h' | h'
    · exact h.disj i k o q (Ne.symm hk) hi hq n h' hnq
    · exact absurd (h.bnd k q hq n hnq) (by rw [h'.1]; exact Nat.lt_irrefl _)
  have hcase : ∀ k q, (put (emplace m o t).1 i (some { (emplace m o t).2.1 with order := l })).obj k = some q →
      (k = i ∧ q = { (emplace m o t).2.1 with order := l }) ∨ (k ≠ i ∧ m.obj k = some q) := by
    intro k q hq
    by_cases hk : k = i
    · exact .inl ⟨hk, by simpa [put, hk] using hq.symm⟩
    · exact .inr ⟨hk, by simpa [put, hk, E.obj] using hq⟩
  constructor
  · intro k q hq n hn
    rcases hcase k q hq with ⟨rfl, rfl⟩ | ⟨hk, hq'⟩
    · rcases E.own n hn with h' | h'
      · exact lt_of_lt_of_le (h.bnd _ o hi n h') E.le
      · exact h'.2
    · exact lt_of_lt_of_le (h.bnd k q hq' n hn) E.le
  · intro k q hT hq n hn
    rcases hcase k q hq with ⟨rfl, rfl⟩ | ⟨hk, hq'⟩
    · exact hl hT n hn
    · exact h.order k q hT hq' n hn
  · intro k q hq n hn
    show (emplace m o t).1.freed n = false
    rw [E.freed]
    rcases hcase k q hq with ⟨rfl, rfl⟩ | ⟨hk, hq'⟩
    · exact hfree n hn
    · exact h.live k q hq' n hn
  · intro n hn
    show (emplace m o t).1.freed n = false
    rw [E.freed]
    exact h.new n (le_trans E.le hn)
  · intro a b q r hab hq hr n hn hnr
    rcases hcase a q hq with ⟨rfl, rfl⟩ | ⟨ha, hq'⟩ <;> rcases hcase b r hr with ⟨rfl, rfl⟩ | ⟨hb, hr'⟩
    · exact hab rfl
    · exact hother b r hb hr' n hn hnr
    · exact hother a q ha hq' n hnr hn
    · exact h.disj a b q r hab hq' hr' n hn hnr

theorem own_emptied {T : ℕ → Bool} {m : Mem} (h : Own T m) (i : ℕ) : Own (LoggerValues.mark T i false) (put m i (some ⟨[], []⟩)) := by
  have hcase : ∀ k q, (put m i (some ⟨[], []⟩)).obj k = some q → q = ⟨[], []⟩ ∨ (k ≠ i ∧ m.obj k = some q) := by
    intro k q hq
    by_cases hk : k = i
    · exact .inl (by simpa [put, hk] using hq.symm)
    · exact .inr ⟨hk, by simpa [put, hk] using hq⟩
  constructor
  · intro k q hq n hn
    rcases hcase k q hq with rfl | ⟨hk, hq⟩
    · exact absurd hn List.not_mem_nil
    · exact h.bnd k q hq n hn
  · intro k q hT hq n hn
    rcases hcase k q hq with rfl | ⟨hk, hq⟩
    · exact absurd hn List.not_mem_nil
    · exact h.order k q (by simpa [LoggerValues.mark, hk] using hT) hq n hn
  · intro k q hq n hn
    rcases hcase k q hq with rfl | ⟨hk, hq⟩
    · exact absurd hn List.not_mem_nil
    · exact h.live k q hq n hn
  · exact h.new
  · intro a b q r hab hq hr n hn hnr
    rcases hcase a q hq with rfl | ⟨hk, hq⟩
    · exact absurd hn List.not_mem_nil
    rcases hcase b r hr with rfl | ⟨-, hr⟩
    · exact absurd hnr List.not_mem_nil
    · exact h.disj a b q r hab hq hr n hn hnr

theorem own_destroy {T : ℕ → Bool} {m : Mem} (h : Own T m) {i : ℕ} {o : Obj} (hi : m.obj i = some o) :
    Own (LoggerValues.mark T i false) (put (free m o.own) i none) := by
  have hcase : ∀ k q, (put (free m o.own) i none).obj k = some q → k ≠ i ∧ m.obj k = some q := by
    intro k q hq
    by_cases hk : k = i
    · simp [put, hk] at hq
    · exact ⟨hk, by simpa [put, hk, free] using hq⟩
  constructor
  · exact fun k q hq => h.bnd k q (hcase k q hq).2
  · exact fun k q hT hq => h.order k q (by simpa [LoggerValues.mark, (hcase k q hq).1] using hT) (hcase k q hq).2
  · intro k q hq n hn
    obtain ⟨hk, hq⟩ := hcase k q hq
    have h1 := h.live k q hq n hn
    have h2 := h.disj k i q o hk hq hi n hn
    show (m.freed n || o.own.contains n) = false
    simp [h1, h2]
  · intro n hn
    have h1 := h.new n hn
    have h2 : n ∉ o.own := fun hh => absurd (h.bnd i o hi n hh) (Nat.not_lt.2 hn)
    show (m.freed n || o.own.contains n) = false
    simp [h1, h2]
  · exact fun a b q r hab hq hr => h.disj a b q r hab (hcase a q hq).2 (hcase b r hr).2

/-- The nodes of `i` go to `j`, which has none. -/
theorem own_transfer {T : ℕ → Bool} {m : Mem} (h : Own T m) {i j : ℕ} {o : Obj} (hi : m.obj i = some o) (hj : m.obj j = none) :
    Own (LoggerValues.mark (LoggerValues.mark T j (T i)) i false) (put (put m j (some o)) i (some ⟨[], []⟩)) := by
  have hij : j ≠ i := fun e => by rw [e, hi] at hj; simp at hj
  have hcase : ∀ k q, (put (put m j (some o)) i (some ⟨[], []⟩)).obj k = some q →
      q = ⟨[], []⟩ ∨ (k = j ∧ q = o) ∨ (k ≠ i ∧ k ≠ j ∧ m.obj k = some q) := by
    intro k q hq
    by_cases hk : k = i
    · exact .inl (by simpa [put, hk] using hq.symm)
    · by_cases hkj : k = j
      · subst hkj
        exact .inr (.inl ⟨rfl, by simpa [put, hk] using hq.symm⟩)
      · exact .inr (.inr ⟨hk, hkj, by simpa [put, hk, hkj] using hq⟩)
  constructor
  · intro k q hq n hn
    rcases hcase k q hq with rfl | ⟨-, rfl⟩ | ⟨-, -, hq⟩
    · exact absurd hn List.not_mem_nil
    · exact h.bnd i _ hi n hn
    · exact h.bnd k q hq n hn
  · intro k q hT hq n hn
    rcases hcase k q hq with rfl | ⟨rfl, rfl⟩ | ⟨h1, h2, hq⟩
    · exact absurd hn List.not_mem_nil
    · exact h.order i _ (by simpa [LoggerValues.mark, hij] using hT) hi n hn
    · exact h.order k q (by simpa [LoggerValues.mark, h1, h2] using hT) hq n hn
  · intro k q hq n hn
    rcases hcase k q hq with rfl | ⟨-, rfl⟩ | ⟨-, -, hq⟩
    · exact absurd hn List.not_mem_nil
    · exact h.live i _ hi n hn
    · exact h.live k q hq n hn
  · exact h.new
  · intro a b q r hab hq hr n hn hnr
    rcases hcase a q hq with rfl | ⟨ha, rfl⟩ | ⟨ha, -, hq'⟩
    · exact absurd hn List.not_mem_nil
    · rcases hcase b r hr with rfl | ⟨hb, rfl⟩ | ⟨hb, -, hr⟩
      · exact absurd hnr List.not_mem_nil
      · exact hab (ha.trans hb.symm)
      · exact h.disj i b q r (Ne.symm hb) hi hr n hn hnr
    · rcases hcase b r hr with rfl | ⟨hb, rfl⟩ | ⟨hb, -, hr⟩
      · exact absurd hnr List.not_mem_nil
      · exact h.disj a i q r ha hq' hi n hn hnr
      · exact h.disj a b q r hab hq' hr n hn hnr

/-- A copied map has nodes of its own; the pointers of the copy do not lead there. -/
theorem own_copy {T : ℕ → Bool} {m : Mem} (h : Own T m) {i j : ℕ} {o : Obj} (l : List ℕ) (hi : m.obj i = some o)
    (hj : m.obj j = none) :
    Own (LoggerValues.mark T j true)
      (put (copyNodes m o.own) j (some ⟨(List.range o.own.length).map (m.next + ·), l⟩)) := by
  have hnew : ∀ n ∈ (List.range o.own.length).map (m.next + ·), m.next ≤ n ∧ n < m.next + o.own.length := by
    intro n hn
    obtain ⟨k, hk, rfl⟩ := List.mem_map.1 hn
    exact ⟨Nat.le_add_right _ _, Nat.add_lt_add_left (List.mem_range.1 hk) _⟩
  have hcase : ∀ k q, (put (copyNodes m o.own) j (some ⟨(List.range o.own.length).map (m.next + ·), l⟩)).obj k = some q →
      (k = j ∧ q = ⟨(List.range o.own.length).map (m.next + ·), l⟩) ∨ (k ≠ j ∧ m.obj k = some q) := by
    intro k q hq
    by_cases hk : k = j
    · exact .inl ⟨hk, by simpa [put, hk] using hq.symm⟩
    · exact .inr ⟨hk, by simpa [put, hk, copyNodes] using hq⟩
  constructor
  · intro k q hq n hn
    rcases hcase k q hq with ⟨-, rfl⟩ | ⟨-, hq'⟩
    · exact (hnew n hn).2
    · exact lt_of_lt_of_le (h.bnd k q hq' n hn) (Nat.le_add_right _ _)
  · intro k q hT hq n hn
    rcases hcase k q hq with ⟨rfl, rfl⟩ | ⟨hk, hq'⟩
    · simp [LoggerValues.mark] at hT
    · exact h.order k q (by simpa [LoggerValues.mark, hk] using hT) hq' n hn
  · intro k q hq n hn
    rcases hcase k q hq with ⟨-, rfl⟩ | ⟨-, hq'⟩
    · exact h.new n (hnew n hn).1
    · exact h.live k q hq' n hn
  · exact fun n hn => h.new n (le_trans (Nat.le_add_right _ _) hn)
  · intro a b q r hab hq hr n hn hnr
    rcases hcase a q hq with ⟨ha, rfl⟩ | ⟨ha, hq'⟩ <;> rcases hcase b r hr with ⟨hb, rfl⟩ | ⟨hb, hr'⟩
    · exact hab (ha.trans hb.symm)
    · exact absurd (h.bnd b r hr' n hnr) (Nat.not_lt.2 (hnew n hn).1)
    · exact absurd (h.bnd a q hq' n hn) (Nat.not_lt.2 (hnew n hnr).1)
    · exact h.disj a b q r hab hq' hr' n hn hnr

theorem put_put (m : Mem) (j : ℕ) (x y : Option Obj) : put (put m j x) j y = put m j y := by
  simp only [put, Mem.mk.injEq, true_and]
  funext k
  by_cases hk : k = j <;> simp [hk]

theorem step_own {T : ℕ → Bool} {m m' : Mem} (h : Own T m) {op : Op} (hs : step m op = .ok m') :
    Own (LoggerValues.copied T op) m' := by
  cases op with
  | new i =>
    cases hi : m.obj i <;> simp only [step, hi, Except.ok.injEq, reduceCtorEq] at hs
    subst hs; exact own_emptied h i
  | add i t pos =>
    cases hi : m.obj i with
    | none => simp [step, hi] at hs
    | some o =>
      by_cases hp : pos ≤ o.order.length
      · simp only [step, hi, hp, if_true, Except.ok.injEq] at hs
        subst hs
        have E := emplace_facts m o t (h.bnd i o hi)
        refine own_grow h hi fun hT n hn => ?_
        rcases (List.mem_insertIdx hp).1 hn with h' | h'
        · exact h' ▸ E.mem
        · exact E.sub n (h.order i o hT hi n h')
      · simp [step, hi, hp] at hs
  | touch i t =>
    cases hi : m.obj i with
    | none => simp [step, hi] at hs
    | some o =>
      simp only [step, hi, Except.ok.injEq] at hs
      subst hs
      have E := emplace_facts m o t (h.bnd i o hi)
      exact own_grow h hi (l := (emplace m o t).2.1.order) fun hT n hn => E.sub n (h.order i o hT hi n (E.order ▸ hn))
  | copy i j =>
    cases hi : m.obj i <;> cases hj : m.obj j <;> simp only [step, hi, hj, Except.ok.injEq, reduceCtorEq] at hs
    subst hs; exact own_copy h _ hi hj
  | move i j =>
    cases hi : m.obj i <;> cases hj : m.obj j <;> simp only [step, hi, hj, Except.ok.injEq, reduceCtorEq] at hs
    subst hs; exact own_transfer h hi hj
  | moveAssign i j =>
    cases hi : m.obj i <;> cases hj : m.obj j <;> simp only [step, hi, hj, reduceCtorEq] at hs
    rename_i o p
    by_cases hij : i = j
    · simp [hij] at hs
    · simp only [hij, if_false, Except.ok.injEq] at hs
      subst hs
      have h1 := own_destroy h hj
      have h2 := own_transfer h1 (i := i) (j := j) (o := o) (by simp [put, hij, free, hi]) (by simp [put])
      rw [put_put] at h2
      have hT : LoggerValues.mark (LoggerValues.mark (LoggerValues.mark T j false) j (LoggerValues.mark T j false i)) i false =
          LoggerValues.copied T (.moveAssign i j) := by
        funext k
        by_cases hk : k = i
        · simp [LoggerValues.mark, LoggerValues.copied, hk]
        · by_cases hkj : k = j <;> simp [LoggerValues.mark, LoggerValues.copied, hk, hkj, hij]
      exact hT ▸ h2
  | destroy i =>
    cases hi : m.obj i <;> simp only [step, hi, Except.ok.injEq, reduceCtorEq] at hs
    subst hs; exact own_destroy h hi

theorem step_none_freed {m m' : Mem} (h : ∀ n, m.freed n = false) {op : Op} (hop : LoggerValues.isEnd op = false)
    (hs : step m op = .ok m') : ∀ n, m'.freed n = false := by
  have he : ∀ o t, (emplace m o t).1.freed = m.freed := by
    intro o t; unfold emplace; split <;> rfl
  cases op with
  | new i =>
    cases hi : m.obj i <;> simp only [step, hi, Except.ok.injEq, reduceCtorEq] at hs
    subst hs; exact h
  | add i t pos =>
    cases hi : m.obj i with
    | none => simp [step, hi] at hs
    | some o =>
      by_cases hp : pos ≤ o.order.length
      · simp only [step, hi, hp, if_true, Except.ok.injEq] at hs
        subst hs
        intro n; show (emplace m o t).1.freed n = false
        rw [he]; exact h n
      · simp [step, hi, hp] at hs
  | touch i t =>
    cases hi : m.obj i with
    | none => simp [step, hi] at hs
    | some o =>
      simp only [step, hi, Except.ok.injEq] at hs
      subst hs
      intro n; show (emplace m o t).1.freed n = false
      rw [he]; exact h n
  | copy i j =>
    cases hi : m.obj i <;> cases hj : m.obj j <;> simp only [step, hi, hj, Except.ok.injEq, reduceCtorEq] at hs
    subst hs; exact h
  | move i j =>
    cases hi : m.obj i <;> cases hj : m.obj j <;> simp only [step, hi, hj, Except.ok.injEq, reduceCtorEq] at hs
    subst hs; exact h
  | moveAssign i j => simp [LoggerValues.isEnd] at hop
  | destroy i => simp [LoggerValues.isEnd] at hop

theorem run_sim (ops : List Op) : ∀ m, Bnd m →
    (∃ m', run m ops = .ok m' ∧ Bnd m' ∧ LoggerValues.run (view m) ops = some (view m')) ∨
      (run m ops = .error .undefined ∧ LoggerValues.run (view m) ops = none) := by
  induction ops with
  | nil => exact fun m hb => .inl ⟨m, rfl, hb, rfl⟩
  | cons op ops ih =>
    intro m hb
    rcases step_sim hb op with ⟨m', h1, h2, h3⟩ | ⟨h1, h2⟩
    · simpa only [run, LoggerValues.run, h1, h3, Option.bind_some] using ih m' h2
    · exact .inr ⟨by simp only [run, h1], by simp only [LoggerValues.run, h2, Option.bind_none]⟩

theorem run_inv {P : Mem → Prop} {q : Op → Bool}
    (hstep : ∀ m m' op, P m → q op = false → step m op = .ok m' → P m') :
    ∀ (ops : List Op) (m m' : Mem), P m → (∀ op ∈ ops, q op = false) → run m ops = .ok m' → P m' := by
  intro ops
  induction ops with
  | nil => intro m m' h _ hr; simp only [run, Except.ok.injEq] at hr; exact hr ▸ h
  | cons op ops ih =>
    intro m m' h hq hr
    cases hs : step m op with
    | error e => simp [run, hs] at hr
    | ok m1 =>
      simp only [run, hs] at hr
      exact ih m1 m' (hstep m m1 op h (hq op (List.mem_cons_self)) hs) (fun o ho => hq o (List.mem_cons_of_mem _ ho)) hr

theorem bnd_empty : Bnd empty := ⟨fun _ _ h => by simp [empty] at h, fun _ _ h => by simp [empty] at h⟩

theorem own_empty : Own (fun _ => false) empty :=
  ⟨fun _ _ h => by simp [empty] at h, fun _ _ _ h => by simp [empty] at h, fun _ _ h => by simp [empty] at h,
    fun _ _ => rfl, fun _ _ _ _ _ h => by simp [empty] at h⟩

theorem run_own : ∀ (ops : List Op) (T : ℕ → Bool) (m m' : Mem), Own T m → run m ops = .ok m' →
    Own (ops.foldl LoggerValues.copied T) m' := by
  intro ops
  induction ops with
  | nil => intro T m m' h hr; simp only [run, Except.ok.injEq] at hr; exact hr ▸ h
  | cons op ops ih =>
    intro T m m' h hr
    cases hs : step m op with
    | error e => simp [run, hs] at hr
    | ok m1 =>
      simp only [run, hs] at hr
      exact ih _ m1 m' (step_own h hs) hr

theorem copied_none (ops : List Op) (h : ∀ op ∈ ops, LoggerValues.isCopy op = false) :
    ops.foldl LoggerValues.copied (fun _ => false) = fun _ => false := by
  induction ops with
  | nil => rfl
  | cons op ops ih =>
    have h1 : LoggerValues.copied (fun _ => false) op = fun _ => false := by
      have := h op List.mem_cons_self
      cases op <;> first | (simp [LoggerValues.isCopy] at this; done) | (funext k; simp [LoggerValues.copied, LoggerValues.mark])
    rw [List.foldl_cons, h1]
    exact ih fun op ho => h op (List.mem_cons_of_mem _ ho)

/-- C114: for every program, with copies and destructions as well: a logger whose columns do not come from a copy shows its
list. -/
theorem C114_not_copied (ops : List Op) (v : LoggerValues.Vals) (hv : LoggerValues.run (fun _ => none) ops = some v) :
    ∃ m, run empty ops = .ok m ∧ ∀ i, ops.foldl LoggerValues.copied (fun _ => false) i = false →
      columns m i = match v i with | none => .error .undefined | some l => .ok l := by
  have hv0 : view empty = fun _ => none := rfl
  rcases run_sim ops empty bnd_empty with ⟨m, h1, -, h3⟩ | ⟨h1, h2⟩
  · rw [hv0, hv, Option.some.injEq] at h3
    refine ⟨m, h1, fun i hT => ?_⟩
    have hO := run_own ops _ empty m own_empty h1
    rw [h3]
    cases hi : m.obj i with
    | none => simp [columns, view, hi]
    | some o =>
      have : o.order.any m.freed = false := by
        rw [List.any_eq_false]
        exact fun n hn => by simp [hO.live i o hi n (hO.order i o hT hi n hn)]
      simp [columns, view, hi, this]
  · rw [hv0, hv] at h2; cases h2

/-- C114: for every program without copies, or in which no logger is destroyed or move-assigned to: it runs if and only if
the program on lists of titles does, and then every logger shows its list. -/
theorem C114_values (ops : List Op)
    (h : (∀ op ∈ ops, LoggerValues.isCopy op = false) ∨ (∀ op ∈ ops, LoggerValues.isEnd op = false)) :
    match LoggerValues.run (fun _ => none) ops with
    | none => run empty ops = .error .undefined
    | some v => ∃ m, run empty ops = .ok m ∧
        ∀ i, columns m i = match v i with | none => .error .undefined | some l => .ok l := by
  have hv : view empty = fun _ => none := rfl
  rcases run_sim ops empty bnd_empty with ⟨m, h1, -, h3⟩ | ⟨h1, h2⟩
  · rw [hv] at h3
    rw [h3]
    refine ⟨m, h1, fun i => ?_⟩
    have hl : ∀ o, m.obj i = some o → ∀ n ∈ o.order, m.freed n = false := by
      rcases h with h | h
      · have hO := run_own ops _ empty m own_empty h1
        exact fun o ho n hn => hO.live i o ho n (hO.order i o (by rw [copied_none ops h]) ho n hn)
      · have hO := run_inv (P := fun m => ∀ n, m.freed n = false) (q := LoggerValues.isEnd)
          (fun _ _ _ a b c => step_none_freed a b c) ops empty m (fun _ => rfl) h h1
        exact fun _ _ n _ => hO n
    cases hi : m.obj i with
    | none => simp [columns, view, hi]
    | some o =>
      have : o.order.any m.freed = false := by
        rw [List.any_eq_false]
        exact fun n hn => by simp [hl o hi n hn]
      simp [columns, view, hi, this]
  · rw [hv] at h2
    rw [h2]; exact h1

/-- C114: whatever happened before, a copy shows the columns of the original. -/
theorem C114_copy (ops : List Op) (i j : ℕ) {m m' : Mem} (hr : run empty ops = .ok m)
    (hc : step m (.copy i j) = .ok m') : columns m' j = columns m i ∧ columns m' i = columns m i := by
  have hb : Bnd m := by
    rcases run_sim ops empty bnd_empty with ⟨m1, h1, h2, -⟩ | ⟨h1, -⟩
    · rw [hr] at h1; simp only [Except.ok.injEq] at h1; exact h1 ▸ h2
    · rw [hr] at h1; simp at h1
  cases hi : m.obj i <;> cases hj : m.obj j <;> simp only [step, hi, hj, Except.ok.injEq, reduceCtorEq] at hc
  rename_i o
  subst hc
  have ht : ∀ n < m.next, (copyNodes m o.own).title n = m.title n := fun n hn =>
    if_neg fun h => absurd h.1 (Nat.not_le.2 hn)
  have e := map_title ht (hb.order i o hi)
  have hij : i ≠ j := fun h => by rw [h, hj] at hi; simp at hi
  have hput : ∀ x, (put (copyNodes m o.own) j x).freed = m.freed ∧
      (put (copyNodes m o.own) j x).title = (copyNodes m o.own).title := fun _ => ⟨rfl, rfl⟩
  constructor
  · simp only [columns, hi, (hput _).1, (hput _).2]
    simp only [put, if_true, e]
  · simp only [columns, hi, (hput _).1, (hput _).2]
    simp only [put, hij, if_false, copyNodes, hi]
    have e' : List.map (copyNodes m o.own).title o.order = List.map m.title o.order := e
    simp only [copyNodes] at e'
    rw [e']

/-- C114: a copy of a logger with a column cannot be printed once the original is destroyed. -/
theorem C114_copy_dangles (ops : List Op) (i j : ℕ) {m : Mem} {l : List String}
    (hT : ops.foldl LoggerValues.copied (fun _ => false) i = false) (hr : run empty ops = .ok m) (hl : columns m i = .ok l) (hne : l ≠ []) (hj : m.obj j = none) :
    ∃ m', run m [.copy i j, .destroy i] = .ok m' ∧ columns m' j = .error .undefined := by
  have hO := run_own ops _ empty m own_empty hr
  cases hi : m.obj i with
  | none => simp [columns, hi] at hl
  | some o =>
    have hij : i ≠ j := fun h => by rw [h, hj] at hi; simp at hi
    have hji : j ≠ i := Ne.symm hij
    have h1 : step m (.copy i j) =
        .ok (put (copyNodes m o.own) j (some ⟨(List.range o.own.length).map (m.next + ·), o.order⟩)) := by
      simp only [step, hi, hj]
    have h2 : (put (copyNodes m o.own) j (some ⟨(List.range o.own.length).map (m.next + ·), o.order⟩)).obj i = some o := by
      simp [put, hij, copyNodes, hi]
    set m1 := put (copyNodes m o.own) j (some ⟨(List.range o.own.length).map (m.next + ·), o.order⟩) with hm1
    have h3 : step m1 (.destroy i) = .ok (put (free m1 o.own) i none) := by simp only [step, h2]
    refine ⟨put (free m1 o.own) i none, by simp only [run, h1, h3], ?_⟩
    have hne' : o.order ≠ [] := by
      rintro h0
      simp [columns, hi, h0] at hl
      exact hne hl
    obtain ⟨n, hn⟩ := List.exists_mem_of_ne_nil _ hne'
    have hown := hO.order i o hT hi n hn
    simp only [hm1, columns, put, free, hji, if_false, if_true]
    rw [if_pos]
    rw [List.any_eq_true]
    exact ⟨n, hn, by simp [hown]⟩

/-! ## Cases -/

/-- A logger with two columns that is moved twice, the original destroyed, and one more column. -/
def movedOps : List Op :=
  [.new 0, .add 0 "cost" 0, .add 0 "iters" 0, .touch 0 "viol", .move 0 1, .destroy 0, .new 2, .add 2 "x" 0,
    .moveAssign 1 2, .add 2 "viol" 1, .destroy 1]

def colsOf (ops : List Op) (i : ℕ) : Option (List String) :=
  match run empty ops with
  | .ok m => (columns m i).toOption
  | .error _ => none

example : (∀ op ∈ movedOps, LoggerValues.isCopy op = false) ∧ colsOf movedOps 2 = some ["iters", "viol", "cost"] ∧
    colsOf movedOps 1 = none := by
  refine ⟨by decide +kernel, by decide +kernel, by decide +kernel⟩

/-- Copies while the original lives, and after. -/
example : colsOf [.new 0, .add 0 "cost" 0, .copy 0 1, .add 1 "viol" 1, .add 0 "iters" 0] 1 = some ["cost", "viol"] ∧
    colsOf [.new 0, .add 0 "cost" 0, .copy 0 1, .add 1 "viol" 1, .destroy 0] 1 = none := by
  refine ⟨by decide +kernel, by decide +kernel⟩

/-- A copy that is moved and destroyed, and one that outlives its original; the first logger is not affected. -/
def mixedOps : List Op :=
  [.new 0, .add 0 "cost" 0, .copy 0 1, .move 1 2, .new 3, .add 3 "viol" 0, .destroy 2, .copy 3 4, .add 0 "iters" 1, .destroy 3]

example : (List.range 5).map (mixedOps.foldl LoggerValues.copied (fun _ => false)) = [false, false, false, false, true] ∧
    (List.range 5).map (colsOf mixedOps) = [some ["cost", "iters"], some [], none, none, none] := by
  refine ⟨by decide +kernel, by decide +kernel⟩

end Altro.LoggerMove
