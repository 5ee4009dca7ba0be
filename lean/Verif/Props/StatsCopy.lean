import Verif.Model.StatsCopy
import Verif.Props.StatsMove

/-!
# C115: a copy of the statistics is a snapshot

Nothing that is done afterwards, through the original, the copy or any other object, changes the vectors read from the
copy.  What is logged through the copy goes to the original, and is undefined when the original is gone.
-/

namespace Altro.StatsMove

variable {F : Type} [Arith F]

theorem copy_ok {h h' : Heap F} {i j : ℕ} (hc : copy h i j = .ok h') :
    ∃ o, h i = .live o ∧ h j = .free ∧ i ≠ j ∧ h' = put h j o := by
  unfold copy at hc
  split at hc
  · rename_i o ho hj
    cases hc
    exact ⟨o, ho, hj, fun e => (by rw [← e, ho] at hj; cases hj), rfl⟩
  · cases hc

/-- C115: object `j` is made as a copy of object `i`, after any history and before any history in which `j` is neither
moved nor destroyed.  What is read from the vectors of `j` is what was read from `i` when the copy was made. -/
theorem C115_snapshot (pre post : List (Op F)) (i j : ℕ) (h0 h1 h : Heap F)
    (hpost : ∀ op ∈ post, (∀ k, op ≠ .move j k) ∧ op ≠ .destroy j) (hpre : run empty pre = .ok h0)
    (hc : copy h0 i j = .ok h1) (hh : run h1 post = .ok h) : read h j = read h0 i ∧ (read h0 i).isSome := by
  obtain ⟨o, ho, hj, hij, rfl⟩ := copy_ok hc
  have hd := no_dangling pre (h := empty) (by rintro p ⟨k, o, c, hk, _⟩; cases hk) hpre
  have hnt : ¬ Targets (put h0 j o) j := by
    rintro ⟨k, q, c, hk, hp⟩
    by_cases e : k = j
    · subst e
      rw [put_same] at hk
      cases hk
      exact hd k ⟨i, o, c, ho, hp⟩ hj
    · rw [put_other _ _ e] at hk
      exact hd j ⟨k, q, c, hk, hp⟩ hj
  have hl : put h0 j o j ≠ .free := by rw [put_same]; intro e; cases e
  rw [frozen post hnt hl hpost hh]
  unfold read
  rw [put_same, ho]
  exact ⟨rfl, rfl⟩

/-! ## Histories with any number of copies -/

theorem runC_cons {h h' : Heap F} {op : CopyOp F} {ops : List (CopyOp F)} (hh : runC h (op :: ops) = .ok h') :
    ∃ h1, stepC h op = .ok h1 ∧ runC h1 ops = .ok h' := by
  simp only [runC] at hh
  cases hs : stepC h op with
  | error e => rw [hs] at hh; cases hh
  | ok h1 => rw [hs] at hh; exact ⟨h1, rfl, hh⟩

theorem targets_copy {h : Heap F} {i j p : ℕ} {o : Obj F} (ho : h i = .live o) (ht : Targets (put h j o) p) :
    Targets h p := by
  obtain ⟨k, q, c, hk, hp⟩ := ht
  by_cases e : k = j
  · subst e
    rw [put_same] at hk
    cases hk
    exact ⟨i, o, c, ho, hp⟩
  · rw [put_other _ _ e] at hk
    exact ⟨k, q, c, hk, hp⟩

/-- No map leads to an identifier that is still free. -/
theorem no_dangling_copies {h h' : Heap F} (ops : List (CopyOp F)) (hi : ∀ p, Targets h p → h p ≠ .free)
    (hh : runC h ops = .ok h') : ∀ p, Targets h' p → h' p ≠ .free := by
  induction ops generalizing h with
  | nil => cases hh; exact hi
  | cons op ops ih =>
    obtain ⟨h1, hs, hr⟩ := runC_cons hh
    refine ih ?_ hr
    cases op with
    | call op =>
      have hs : step h op = .ok h1 := hs
      exact no_dangling [op] hi (by simp only [run, hs]; rfl)
    | copy i j =>
      obtain ⟨o, ho, hj, -, rfl⟩ := copy_ok hs
      intro p ht hf
      by_cases e : p = j
      · subst e; rw [put_same] at hf; cases hf
      · rw [put_other _ _ e] at hf
        exact hi p (targets_copy ho ht) hf

/-- The vectors of an object that no map leads to. -/
theorem frozen_copies {h h' : Heap F} {j : ℕ} (ops : List (CopyOp F)) (hj : ¬ Targets h j) (hlive : h j ≠ .free)
    (hm : ∀ op ∈ ops, (∀ k, op ≠ .call (.move j k)) ∧ op ≠ .call (.destroy j)) (hh : runC h ops = .ok h') :
    read h' j = read h j := by
  induction ops generalizing h with
  | nil => cases hh; rfl
  | cons op ops ih =>
    obtain ⟨h1, hs, hr⟩ := runC_cons hh
    have ho := hm op List.mem_cons_self
    have hrest := fun op' h' => hm op' (List.mem_cons_of_mem _ h')
    cases op with
    | call op =>
      have hs : step h op = .ok h1 := hs
      have h1j : ¬ Targets h1 j := by
        intro ht
        rcases targets_step hs ht with ht' | rfl
        · exact hj ht'
        · exact hlive (construct_ok hs).1
      rw [ih h1j (fun hf => hlive (free_step hs hf)) hrest hr]
      exact read_step hs hj hlive (fun k e => ho.1 k (by rw [e])) (fun e => ho.2 (by rw [e]))
    | copy i k =>
      obtain ⟨o, hoi, hk, -, rfl⟩ := copy_ok hs
      have hjk : j ≠ k := fun e => hlive (e ▸ hk)
      have hsame : put h k o j = h j := put_other _ _ hjk
      rw [ih (fun ht => hj (targets_copy hoi ht)) (by rw [hsame]; exact hlive) hrest hr]
      unfold read
      rw [hsame]

/-- C115, with any number of copies before and after. -/
theorem C115_snapshot_copies (pre post : List (CopyOp F)) (i j : ℕ) (h0 h1 h : Heap F)
    (hpost : ∀ op ∈ post, (∀ k, op ≠ .call (.move j k)) ∧ op ≠ .call (.destroy j)) (hpre : runC empty pre = .ok h0)
    (hc : copy h0 i j = .ok h1) (hh : runC h1 post = .ok h) : read h j = read h0 i ∧ (read h0 i).isSome := by
  obtain ⟨o, ho, hj, hij, rfl⟩ := copy_ok hc
  have hd := no_dangling_copies pre (h := empty) (by rintro p ⟨k, o, c, hk, _⟩; cases hk) hpre
  have hl : put h0 j o j ≠ .free := by rw [put_same]; intro e; cases e
  rw [frozen_copies post (fun ht => hd j (targets_copy ho ht) hj) hl hpost hh]
  unfold read
  rw [put_same, ho]
  exact ⟨rfl, rfl⟩

/-- C115: making the copy changes nothing that is read from other objects. -/
theorem C115_others (h h' : Heap F) (i j k : ℕ) (hc : copy h i j = .ok h') (hk : k ≠ j) : h' k = h k := by
  obtain ⟨o, -, -, -, rfl⟩ := copy_ok hc
  exact put_other _ _ hk

/-- C115: a value logged through the copy becomes the last entry of that column in the original, if the original leads to
its own vectors and has an iteration. -/
theorem C115_writes_original (h h1 : Heap F) (i j : ℕ) (o : Obj F) (c : Col) (x : F) (ho : h i = .live o)
    (hown : o.ptr c = some i) (hl : o.len ≠ 0) (hv : o.vec c ≠ []) (hc : copy h i j = .ok h1) :
    ∃ h2, log h1 j (some c) x = .ok h2 ∧ read h2 j = some o.vec ∧
      read h2 i = some fun c' => if c' = c then (o.vec c).dropLast ++ [x] else o.vec c' := by
  obtain ⟨o', ho', hj, hij, rfl⟩ := copy_ok hc
  rw [ho] at ho'
  cases ho'
  have hi : put h j o i = .live o := by rw [put_other _ _ hij, ho]
  refine ⟨put (put h j o) i { o with vec := fun c' => if c' = c then Stats.setBack (o.vec c) x else o.vec c' }, ?_, ?_, ?_⟩
  · unfold log
    rw [put_same]
    simp only [hl, if_false]
    unfold setData
    rw [put_same]
    simp only [hown, hi, hv, if_false]
  · unfold read
    rw [put_other _ _ (Ne.symm hij), put_same]
  · unfold read
    rw [put_same]
    have : Stats.setBack (o.vec c) x = (o.vec c).dropLast ++ [x] := by
      cases hvc : o.vec c with
      | nil => exact absurd hvc hv
      | cons a l => rfl
    simp only [this]

/-- C115: once the original is destroyed, logging a known column through the copy is undefined. -/
theorem C115_dangles (h h1 h2 : Heap F) (i j : ℕ) (o : Obj F) (c : Col) (x : F) (ho : h i = .live o)
    (hown : o.ptr c = some i) (hl : o.len ≠ 0) (hc : copy h i j = .ok h1) (hd : destroy h1 i = .ok h2) :
    log h2 j (some c) x = .error .undefined := by
  obtain ⟨o', ho', hj, hij, rfl⟩ := copy_ok hc
  rw [ho] at ho'
  cases ho'
  unfold destroy at hd
  rw [put_other _ _ hij, ho] at hd
  cases hd
  have h2j : (fun k => if k = i then Cell.dead else put h j o k) j = .live o := by
    show (if j = i then Cell.dead else put h j o j) = _
    rw [if_neg (Ne.symm hij), put_same]
  unfold log
  rw [h2j]
  simp only [hl, if_false]
  unfold setData
  rw [h2j]
  simp only [hown, if_true]

/-- Two iterations, a copy, and what follows. -/
def demoCopy (post : List (Op ℚ)) (k : ℕ) : Option (List ℚ) :=
  match (run empty [.construct 0, .log 0 (some .cost) 7, .newIteration 0]).bind fun h => copy h 0 1 with
  | .ok h => match run h post with
    | .ok h' => (read h' k).map fun v => v .cost
    | .error _ => none
  | .error _ => none

example : demoCopy [] 1 = some [7, 7] ∧ demoCopy [.log 0 (some .cost) 5, .reset 0] 1 = some [7, 7] ∧
    demoCopy [.log 1 (some .cost) 5] 1 = some [7, 7] ∧ demoCopy [.log 1 (some .cost) 5] 0 = some [7, 5] ∧
    demoCopy [.destroy 0] 1 = some [7, 7] ∧ demoCopy [.destroy 0, .log 1 (some .cost) 5] 1 = none := by decide +kernel

/-- A copy of a copy, while the original goes on. -/
def demoCopies (k : ℕ) : Option (List ℚ) :=
  match runC empty [.call (.construct 0), .call (.log 0 (some .cost) 7), .copy 0 1, .call (.newIteration 0),
      .call (.log 0 (some .cost) 5), .copy 1 2, .copy 0 3, .call (.reset 2)] with
  | .ok h => (read h k).map fun v => v .cost
  | .error _ => none

example : demoCopies 0 = some [] ∧ demoCopies 1 = some [7] ∧ demoCopies 2 = some [7] ∧ demoCopies 3 = some [7, 5] := by
  decide +kernel

end Altro.StatsMove
