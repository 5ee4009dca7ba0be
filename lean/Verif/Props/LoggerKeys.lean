import Verif.Spec.LoggerKeys
import Verif.Props.LoggerMove

/-!
# C114: the entries of loggers that are copied and moved

The map of a logger has the entries that were added to it or to the logger it was copied or moved from, in every program;
and `entries_[*title]` in the printing functions finds an entry for every column.
-/

namespace Altro.LoggerMove
open Altro.Spec

/-- The keys of the map of a logger. -/
def keys (m : Mem) : LoggerValues.Vals := fun i => (m.obj i).map fun o => o.own.map m.title

theorem keys_put {m m' : Mem} {i : ℕ} {o : Obj} (hb : Bnd m) (hobj : m'.obj = m.obj)
    (ht : ∀ n < m.next, m'.title n = m.title n) :
    keys (put m' i (some o)) = LoggerValues.set (keys m) i (some (o.own.map m'.title)) := by
  funext k
  by_cases hk : k = i
  · simp [keys, put, LoggerValues.set, hk]
  · simp only [keys, put, LoggerValues.set, hk, if_false, hobj]
    cases h : m.obj k with
    | none => rfl
    | some q => simp [map_title ht (hb.own k q h)]

theorem emplace_keys {m : Mem} {o : Obj} {t : String} (hb : ∀ n ∈ o.own, n < m.next) :
    (emplace m o t).2.1.own.map (emplace m o t).1.title =
      if t ∈ o.own.map m.title then o.own.map m.title else o.own.map m.title ++ [t] := by
  unfold emplace
  cases hf : o.own.find? (fun n => m.title n = t) with
  | some n =>
    have h1 := List.mem_of_find?_eq_some hf
    have h2 := List.find?_some hf
    rw [if_pos (List.mem_map.2 ⟨n, h1, by simpa using h2⟩)]
  | none =>
    rw [List.find?_eq_none] at hf
    rw [if_neg]
    · simp only [List.map_append, List.map_cons, List.map_nil, if_true]
      congr 1
      exact List.map_congr_left fun n hn => if_neg (Nat.ne_of_lt (hb n hn))
    · intro h
      obtain ⟨n, hn, e⟩ := List.mem_map.1 h
      exact hf n hn (by simpa using e)

theorem copy_keys (m : Mem) (l : List ℕ) :
    ((List.range l.length).map (m.next + ·)).map (copyNodes m l).title = l.map m.title := by
  apply List.ext_getElem
  · simp
  · intro k h1 h2
    have hk : k < l.length := by simpa using h2
    simp [copyNodes, hk]

theorem step_keys {m m' : Mem} (hb : Bnd m) {op : Op} (hs : step m op = .ok m') :
    keys m' = LoggerKeys.step (keys m) op := by
  have hk : ∀ {i o}, m.obj i = some o → keys m i = some (o.own.map m.title) := fun h => by simp [keys, h]
  cases op with
  | new i =>
    cases hi : m.obj i <;> simp only [step, hi, Except.ok.injEq, reduceCtorEq] at hs
    subst hs
    rw [keys_put hb rfl fun _ _ => rfl]
    rfl
  | add i t pos =>
    cases hi : m.obj i with
    | none => simp [step, hi] at hs
    | some o =>
      by_cases hp : pos ≤ o.order.length
      · simp only [step, hi, hp, if_true, Except.ok.injEq] at hs
        subst hs
        have E := emplace_facts m o t (hb.own i o hi)
        rw [keys_put hb E.obj E.old]
        simp only [LoggerKeys.step, hk hi, Option.map_some]
        rw [emplace_keys (hb.own i o hi)]
      · simp [step, hi, hp] at hs
  | touch i t =>
    cases hi : m.obj i with
    | none => simp [step, hi] at hs
    | some o =>
      simp only [step, hi, Except.ok.injEq] at hs
      subst hs
      have E := emplace_facts m o t (hb.own i o hi)
      rw [keys_put hb E.obj E.old]
      simp only [LoggerKeys.step, hk hi, Option.map_some]
      rw [emplace_keys (hb.own i o hi)]
  | copy i j =>
    cases hi : m.obj i <;> cases hj : m.obj j <;> simp only [step, hi, hj, Except.ok.injEq, reduceCtorEq] at hs
    rename_i o
    subst hs
    have ht : ∀ n < m.next, (copyNodes m o.own).title n = m.title n := fun n hn =>
      if_neg fun h => absurd h.1 (Nat.not_le.2 hn)
    rw [keys_put (m' := copyNodes m o.own) hb rfl ht, copy_keys]
    simp only [LoggerKeys.step, hk hi]
  | move i j =>
    cases hi : m.obj i <;> cases hj : m.obj j <;> simp only [step, hi, hj, Except.ok.injEq, reduceCtorEq] at hs
    rename_i o
    subst hs
    have hb' : Bnd (put m j (some o)) := bnd_put hb rfl (le_refl _) (hb.own i o hi) (hb.order i o hi)
    rw [keys_put hb' rfl fun _ _ => rfl, keys_put hb rfl fun _ _ => rfl]
    simp only [LoggerKeys.step, hk hi, List.map_nil]
  | moveAssign i j =>
    cases hi : m.obj i <;> cases hj : m.obj j <;> simp only [step, hi, hj, reduceCtorEq] at hs
    rename_i o p
    by_cases hij : i = j
    · simp [hij] at hs
    · simp only [hij, if_false, Except.ok.injEq] at hs
      subst hs
      have hb' : Bnd (put (free m p.own) j (some o)) :=
        bnd_put (bnd_free hb p.own) rfl (le_refl _) (hb.own i o hi) (hb.order i o hi)
      rw [keys_put hb' rfl fun _ _ => rfl, keys_put (m' := free m p.own) hb rfl fun _ _ => rfl]
      simp only [LoggerKeys.step, hk hi, List.map_nil, free]
  | destroy i =>
    cases hi : m.obj i <;> simp only [step, hi, Except.ok.injEq, reduceCtorEq] at hs
    subst hs
    funext k
    by_cases hki : k = i
    · simp [LoggerKeys.step, LoggerValues.set, keys, put, hki]
    · simp [LoggerKeys.step, LoggerValues.set, keys, put, hki, free]

/-- The columns of a logger, in nodes that may be freed, are among its keys. -/
def Found (m : Mem) : Prop := ∀ i o, m.obj i = some o → ∀ n ∈ o.order, m.title n ∈ o.own.map m.title

theorem step_found {m m' : Mem} (hb : Bnd m) (hf : Found m) {op : Op} (hs : step m op = .ok m') : Found m' := by
  have hother : ∀ {M : Mem} {i : ℕ} {x : Obj}, M.obj = m.obj → (∀ n < m.next, M.title n = m.title n) →
      (∀ n ∈ x.order, M.title n ∈ x.own.map M.title) → Found (put M i (some x)) := by
    intro M i x hobj ht hx k q hq n hn
    by_cases hk : k = i
    · simp only [put, hk, if_true, Option.some.injEq] at hq
      subst hq; exact hx n hn
    · simp only [put, hk, if_false, hobj] at hq
      show M.title n ∈ q.own.map M.title
      rw [ht n (hb.order k q hq n hn), map_title ht (hb.own k q hq)]
      exact hf k q hq n hn
  have hgrow : ∀ {o t} {n : ℕ}, (∀ n ∈ o.own, n < m.next) → n < m.next → m.title n ∈ o.own.map m.title →
      (emplace m o t).1.title n ∈ (emplace m o t).2.1.own.map (emplace m o t).1.title := by
    intro o t n ho hn h
    rw [emplace_keys ho, (emplace_facts m o t ho).old n hn]
    split
    · exact h
    · exact List.mem_append_left _ h
  cases op with
  | new i =>
    cases hi : m.obj i <;> simp only [step, hi, Except.ok.injEq, reduceCtorEq] at hs
    subst hs
    exact hother rfl (fun _ _ => rfl) fun n hn => absurd hn List.not_mem_nil
  | add i t pos =>
    cases hi : m.obj i with
    | none => simp [step, hi] at hs
    | some o =>
      by_cases hp : pos ≤ o.order.length
      · simp only [step, hi, hp, if_true, Except.ok.injEq] at hs
        subst hs
        have E := emplace_facts m o t (hb.own i o hi)
        refine hother E.obj E.old fun n hn => ?_
        rcases (List.mem_insertIdx hp).1 hn with h | h
        · subst h; exact List.mem_map.2 ⟨_, E.mem, rfl⟩
        · exact hgrow (hb.own i o hi) (hb.order i o hi n h) (hf i o hi n h)
      · simp [step, hi, hp] at hs
  | touch i t =>
    cases hi : m.obj i with
    | none => simp [step, hi] at hs
    | some o =>
      simp only [step, hi, Except.ok.injEq] at hs
      subst hs
      have E := emplace_facts m o t (hb.own i o hi)
      refine hother E.obj E.old fun n hn => ?_
      have h : n ∈ o.order := E.order ▸ hn
      exact hgrow (hb.own i o hi) (hb.order i o hi n h) (hf i o hi n h)
  | copy i j =>
    cases hi : m.obj i <;> cases hj : m.obj j <;> simp only [step, hi, hj, Except.ok.injEq, reduceCtorEq] at hs
    rename_i o
    subst hs
    have ht : ∀ n < m.next, (copyNodes m o.own).title n = m.title n := fun n hn =>
      if_neg fun h => absurd h.1 (Nat.not_le.2 hn)
    refine hother (M := copyNodes m o.own) rfl ht fun n hn => ?_
    rw [copy_keys, ht n (hb.order i o hi n hn)]
    exact hf i o hi n hn
  | move i j =>
    cases hi : m.obj i <;> cases hj : m.obj j <;> simp only [step, hi, hj, Except.ok.injEq, reduceCtorEq] at hs
    subst hs
    intro k q hq n hn
    by_cases hk : k = i
    · simp only [put, hk, if_true, Option.some.injEq] at hq
      subst hq; exact absurd hn List.not_mem_nil
    · exact hother (M := m) rfl (fun _ _ => rfl) (hf i _ hi) k q (by simpa only [put, hk, if_false] using hq) n hn
  | moveAssign i j =>
    cases hi : m.obj i <;> cases hj : m.obj j <;> simp only [step, hi, hj, reduceCtorEq] at hs
    rename_i o p
    by_cases hij : i = j
    · simp [hij] at hs
    · simp only [hij, if_false, Except.ok.injEq] at hs
      subst hs
      intro k q hq n hn
      by_cases hk : k = i
      · simp only [put, hk, if_true, Option.some.injEq] at hq
        subst hq; exact absurd hn List.not_mem_nil
      · exact hother (M := free m p.own) rfl (fun _ _ => rfl) (hf i _ hi) k q
          (by simpa only [put, hk, if_false] using hq) n hn
  | destroy i =>
    cases hi : m.obj i <;> simp only [step, hi, Except.ok.injEq, reduceCtorEq] at hs
    subst hs
    intro k q hq n hn
    by_cases hk : k = i
    · simp [put, hk] at hq
    · exact hf k q (by simpa [put, hk, free] using hq) n hn

theorem run_keys : ∀ (ops : List Op) (m m' : Mem), Bnd m → Found m → run m ops = .ok m' →
    keys m' = ops.foldl LoggerKeys.step (keys m) ∧ Found m' := by
  intro ops
  induction ops with
  | nil => intro m m' _ hf hr; simp only [run, Except.ok.injEq] at hr; subst hr; exact ⟨rfl, hf⟩
  | cons op ops ih =>
    intro m m' hb hf hr
    rcases step_sim hb op with ⟨m1, h1, h2, -⟩ | ⟨h1, -⟩
    · simp only [run, h1] at hr
      have := ih m1 m' h2 (step_found hb hf h1) hr
      rw [step_keys hb h1] at this
      exact this
    · simp [run, h1] at hr

/-- C114: in every program the entries of a logger are those that were made in it or in the logger that it was copied or
moved from. -/
theorem C114_keys (ops : List Op) (m : Mem) (hr : run empty ops = .ok m) :
    keys m = ops.foldl LoggerKeys.step (fun _ => none) :=
  (run_keys ops empty m bnd_empty (fun _ _ h => by simp [empty] at h) hr).1

/-- C114: in every program a title that printing reads is that of an entry of the same logger, so printing makes none. -/
theorem C114_found (ops : List Op) (m : Mem) (i : ℕ) (l : List String) (hr : run empty ops = .ok m)
    (hl : columns m i = .ok l) : ∃ k, keys m i = some k ∧ ∀ t ∈ l, t ∈ k := by
  have hf := (run_keys ops empty m bnd_empty (fun _ _ h => by simp [empty] at h) hr).2
  cases hi : m.obj i with
  | none => simp [columns, hi] at hl
  | some o =>
    refine ⟨o.own.map m.title, by simp [keys, hi], ?_⟩
    simp only [columns, hi] at hl
    split at hl
    · cases hl
    · cases hl
      intro t ht
      obtain ⟨n, hn, rfl⟩ := List.mem_map.1 ht
      exact hf i o hi n hn

def keysOf (ops : List Op) (i : ℕ) : Option (List String) :=
  match run empty ops with
  | .ok m => keys m i
  | .error _ => none

example : (List.range 5).map (keysOf mixedOps) = [some ["cost", "iters"], some [], none, none, some ["viol"]] ∧
    keysOf movedOps 2 = some ["cost", "iters", "viol"] := by
  refine ⟨by decide +kernel, by decide +kernel⟩

end Altro.LoggerMove
