import Verif.Model.StatsMove
import Verif.Props.Stats

/-!
# C61: a moved solver keeps recording its own statistics

The claim is false for every history: an object made by a move never records anything itself, because `floats_` still
holds the addresses of the vectors of the object that was constructed first.
-/

namespace Altro.StatsMove
open Altro.Spec Altro.Props
variable {F : Type} [Arith F]

/-- Some object's map leads to the vectors of object `p`. -/
def Targets (h : Heap F) (p : ℕ) : Prop := ∃ i o c, h i = .live o ∧ o.ptr c = some p

theorem put_same (h : Heap F) (i : ℕ) (o : Obj F) : put h i o i = .live o := by simp [put]

theorem put_other (h : Heap F) {i k : ℕ} (o : Obj F) (hk : k ≠ i) : put h i o k = h k := by simp [put, hk]

theorem targets_put {h : Heap F} {i p : ℕ} {o : Obj F} (ht : Targets (put h i o) p)
    (ho : ∀ c, o.ptr c = some p → Targets h p) : Targets h p := by
  obtain ⟨k, q, c, hk, hc⟩ := ht
  by_cases e : k = i
  · subst e
    rw [put_same] at hk
    cases hk
    exact ho c hc
  · rw [put_other _ _ e] at hk
    exact ⟨k, q, c, hk, hc⟩

/-- What `through` does to each object. -/
theorem through_ok {o : Obj F} {f : List F → List F} {h h' : Heap F} (hh : through o f h = .ok h') (k : ℕ) :
    (∀ q, h k = .live q → h' k = .live { q with vec := fun c => if o.ptr c = some k then f (q.vec c) else q.vec c }) ∧
    ((∀ q, h k ≠ .live q) → h' k = h k) := by
  unfold through at hh
  split at hh
  · cases hh
    constructor
    · intro q hq; simp only [hq]
    · intro hn
      cases hk : h k with
      | live q => exact absurd hk (hn q)
      | free => simp only [hk]
      | dead => simp only [hk]
  · cases hh

theorem targets_through {o : Obj F} {f : List F → List F} {h h' : Heap F} {p : ℕ} (hh : through o f h = .ok h')
    (ht : Targets h' p) : Targets h p := by
  obtain ⟨k, q, c, hk, hc⟩ := ht
  obtain ⟨h1, h2⟩ := through_ok hh k
  cases hq : h k with
  | live q' =>
    rw [h1 q' hq] at hk
    cases hk
    exact ⟨k, q', c, hq, hc⟩
  | free => rw [h2 (by rw [hq]; intro q' e; cases e), hq] at hk; cases hk
  | dead => rw [h2 (by rw [hq]; intro q' e; cases e), hq] at hk; cases hk

theorem free_through {o : Obj F} {f : List F → List F} {h h' : Heap F} {p : ℕ} (hh : through o f h = .ok h')
    (hp : h' p = .free) : h p = .free := by
  obtain ⟨h1, h2⟩ := through_ok hh p
  cases hq : h p with
  | live q' => rw [h1 q' hq] at hp; cases hp
  | free => rfl
  | dead => rw [h2 (by rw [hq]; intro q' e; cases e), hq] at hp; cases hp

theorem free_put {h : Heap F} {i p : ℕ} {o : Obj F} (hp : put h i o p = .free) : h p = .free := by
  by_cases e : p = i
  · subst e; rw [put_same] at hp; cases hp
  · rwa [put_other _ _ e] at hp

theorem setData_ok {h h' : Heap F} {i : ℕ} {t : Option Col} {x : F} (hh : setData h i t x = .ok h') :
    h' = h ∨ ∃ o c p q, h i = .live o ∧ t = some c ∧ o.ptr c = some p ∧ h p = .live q ∧ q.vec c ≠ [] ∧
      h' = put h p { q with vec := fun c' => if c' = c then Stats.setBack (q.vec c) x else q.vec c' } := by
  unfold setData at hh
  split at hh
  · cases hh; exact .inl rfl
  · rename_i o c ho
    split at hh
    · cases hh; exact .inl rfl
    · rename_i p hp
      split at hh
      · rename_i q hq
        split at hh
        · cases hh
        · rename_i hne
          cases hh
          exact .inr ⟨o, c, p, q, ho, rfl, hp, hq, hne, rfl⟩
      · cases hh
  · cases hh

theorem newIteration_ok {h h' : Heap F} {i : ℕ} (hh : newIteration h i = .ok h') : ∃ o, h i = .live o ∧
    through { o with len := o.len + 1 } (advance (o.len + 1)) (put h i { o with len := o.len + 1 }) = .ok h' := by
  unfold newIteration at hh
  split at hh
  · rename_i o ho; exact ⟨o, ho, hh⟩
  · cases hh

theorem log_ok {h h' : Heap F} {i : ℕ} {t : Option Col} {x : F} (hh : log h i t x = .ok h') :
    ∃ o h1, h i = .live o ∧ ((o.len = 0 ∧ newIteration h i = .ok h1) ∨ (o.len ≠ 0 ∧ h1 = h)) ∧
      setData h1 i t x = .ok h' := by
  unfold log at hh
  split at hh
  · rename_i o ho
    split at hh
    · rename_i hl
      cases hn : newIteration h i with
      | error e => rw [hn] at hh; cases hh
      | ok h1 =>
        rw [hn] at hh
        exact ⟨o, h1, ho, .inl ⟨hl, rfl⟩, hh⟩
    · rename_i hl
      exact ⟨o, h, ho, .inr ⟨hl, rfl⟩, hh⟩
  · cases hh

theorem targets_setData {h h' : Heap F} {i p : ℕ} {t : Option Col} {x : F} (hh : setData h i t x = .ok h')
    (ht : Targets h' p) : Targets h p := by
  rcases setData_ok hh with rfl | ⟨o, c, p', q, ho, _, hp, hq, _, rfl⟩
  · exact ht
  · exact targets_put ht fun c' hc' => ⟨p', q, c', hq, hc'⟩

theorem targets_newIteration {h h' : Heap F} {i p : ℕ} (hh : newIteration h i = .ok h')
    (ht : Targets h' p) : Targets h p := by
  obtain ⟨o, ho, hth⟩ := newIteration_ok hh
  exact targets_put (targets_through hth ht) fun c hc => ⟨i, o, c, ho, hc⟩

theorem construct_ok {h h' : Heap F} {i : ℕ} (hh : construct h i = .ok h') : h i = .free ∧ h' = put h i (fresh i) := by
  unfold construct at hh
  split at hh
  · rename_i hf; cases hh; exact ⟨hf, rfl⟩
  · cases hh

/-- Only the constructor makes pointers to an object. -/
theorem targets_step {h h' : Heap F} {op : Op F} {p : ℕ} (hh : step h op = .ok h') (ht : Targets h' p) :
    Targets h p ∨ op = .construct p := by
  cases op with
  | construct i =>
    simp only [step, construct] at hh
    split at hh
    · cases hh
      by_cases e : i = p
      · subst e; exact .inr rfl
      · left
        refine targets_put ht ?_
        intro c hc
        simp only [fresh, Option.some.injEq] at hc
        exact absurd hc e
    · cases hh
  | move i j =>
    left
    simp only [step, move] at hh
    split at hh
    · rename_i o ho hj
      cases hh
      have hk : Targets (put h i (movedFrom o)) p ∨ Targets h p := by
        obtain ⟨k, q, c, hk, hc⟩ := ht
        by_cases e : k = j
        · subst e
          rw [put_same] at hk
          cases hk
          exact .inr ⟨i, o, c, ho, hc⟩
        · rw [put_other _ _ e] at hk
          exact .inl ⟨k, q, c, hk, hc⟩
      rcases hk with hk | hk
      · refine targets_put hk ?_
        intro c hc
        simp [movedFrom] at hc
      · exact hk
    · cases hh
  | destroy i =>
    left
    simp only [step, destroy] at hh
    split at hh
    · cases hh
      obtain ⟨k, q, c, hk, hc⟩ := ht
      dsimp only at hk
      split at hk
      · cases hk
      · exact ⟨k, q, c, hk, hc⟩
    · cases hh
  | log i t x =>
    left
    obtain ⟨o, h1, ho, hcase, hs⟩ := log_ok hh
    have := targets_setData hs ht
    rcases hcase with ⟨_, hn⟩ | ⟨_, rfl⟩
    · exact targets_newIteration hn this
    · exact this
  | newIteration i => exact .inl (targets_newIteration hh ht)
  | reset i =>
    left
    simp only [step, reset] at hh
    split at hh
    · rename_i o ho
      exact targets_put (targets_through hh ht) fun c hc => ⟨i, o, c, ho, hc⟩
    · cases hh
  | count i ic a b d =>
    left
    simp only [step, count] at hh
    split at hh
    · rename_i o ho
      cases hh
      exact targets_put ht fun c hc => ⟨i, o, c, ho, hc⟩
    · cases hh

theorem free_setData {h h' : Heap F} {i p : ℕ} {t : Option Col} {x : F} (hh : setData h i t x = .ok h')
    (hp : h' p = .free) : h p = .free := by
  rcases setData_ok hh with rfl | ⟨o, c, p', q, ho, _, _, hq, _, rfl⟩
  · exact hp
  · exact free_put hp

theorem free_newIteration {h h' : Heap F} {i p : ℕ} (hh : newIteration h i = .ok h') (hp : h' p = .free) :
    h p = .free := by
  obtain ⟨o, ho, hth⟩ := newIteration_ok hh
  exact free_put (free_through hth hp)

/-- Identifiers are never given back. -/
theorem free_step {h h' : Heap F} {op : Op F} {p : ℕ} (hh : step h op = .ok h') (hp : h' p = .free) : h p = .free := by
  cases op with
  | construct i =>
    simp only [step, construct] at hh
    split at hh
    · cases hh; exact free_put hp
    · cases hh
  | move i j =>
    simp only [step, move] at hh
    split at hh
    · cases hh; exact free_put (free_put hp)
    · cases hh
  | destroy i =>
    simp only [step, destroy] at hh
    split at hh
    · cases hh
      dsimp only at hp
      split at hp
      · cases hp
      · exact hp
    · cases hh
  | log i t x =>
    obtain ⟨o, h1, ho, hcase, hs⟩ := log_ok hh
    have := free_setData hs hp
    rcases hcase with ⟨_, hn⟩ | ⟨_, rfl⟩
    · exact free_newIteration hn this
    · exact this
  | newIteration i => exact free_newIteration hh hp
  | reset i =>
    simp only [step, reset] at hh
    split at hh
    · exact free_put (free_through hh hp)
    · cases hh
  | count i ic a b d =>
    simp only [step, count] at hh
    split at hh
    · cases hh; exact free_put hp
    · cases hh

/-- The vectors of an object that no map leads to. -/
theorem read_setData {h h' : Heap F} {i j : ℕ} {t : Option Col} {x : F} (hh : setData h i t x = .ok h')
    (hj : ¬ Targets h j) : h' j = h j := by
  rcases setData_ok hh with rfl | ⟨o, c, p, q, ho, _, hp, hq, _, rfl⟩
  · rfl
  · apply put_other
    intro e
    exact hj ⟨i, o, c, ho, by rw [e]; exact hp⟩

theorem read_through {o : Obj F} {f : List F → List F} {h h' : Heap F} (hh : through o f h = .ok h') {j : ℕ}
    (hj : ∀ c, o.ptr c ≠ some j) : h' j = h j := by
  obtain ⟨h1, h2⟩ := through_ok hh j
  cases hq : h j with
  | live q' =>
    rw [h1 q' hq]
    simp only [hj, if_false]
  | free => rw [h2 (by rw [hq]; intro q' e; cases e), hq]
  | dead => rw [h2 (by rw [hq]; intro q' e; cases e), hq]

theorem read_put {h : Heap F} {i j : ℕ} {o o' : Obj F} (ho : h i = .live o) (hv : o'.vec = o.vec) :
    read (put h i o') j = read h j := by
  unfold read
  by_cases e : j = i
  · subst e; rw [put_same, ho]; simp only [hv]
  · rw [put_other _ _ e]

theorem read_newIteration {h h' : Heap F} {i j : ℕ} (hh : newIteration h i = .ok h') (hj : ¬ Targets h j) :
    read h' j = read h j := by
  obtain ⟨o, ho, hth⟩ := newIteration_ok hh
  have : h' j = put h i { o with len := o.len + 1 } j :=
    read_through hth fun c hc => hj ⟨i, o, c, ho, hc⟩
  have h2 := read_put (j := j) ho (o' := { o with len := o.len + 1 }) rfl
  rw [← h2]
  unfold read
  rw [this]

theorem read_step {h h' : Heap F} {op : Op F} {j : ℕ} (hh : step h op = .ok h') (hj : ¬ Targets h j)
    (hlive : h j ≠ .free) (hm : ∀ k, op ≠ .move j k) (hd : op ≠ .destroy j) : read h' j = read h j := by
  cases op with
  | construct i =>
    simp only [step, construct] at hh
    split at hh
    · rename_i hi
      cases hh
      have e : j ≠ i := by rintro rfl; exact hlive hi
      unfold read; rw [put_other _ _ e]
    · cases hh
  | move i k =>
    simp only [step, move] at hh
    split at hh
    · rename_i o ho hk
      cases hh
      have e : j ≠ k := by rintro rfl; exact hlive hk
      have e2 : j ≠ i := by rintro rfl; exact hm k rfl
      unfold read; rw [put_other _ _ e, put_other _ _ e2]
    · cases hh
  | destroy i =>
    simp only [step, destroy] at hh
    split at hh
    · cases hh
      have e : j ≠ i := by rintro rfl; exact hd rfl
      unfold read; simp only [e, if_false]
    · cases hh
  | log i t x =>
    obtain ⟨o, h1, ho, hcase, hs⟩ := log_ok hh
    rcases hcase with ⟨_, hn⟩ | ⟨_, rfl⟩
    · have hj1 : ¬ Targets h1 j := fun ht => hj (targets_newIteration hn ht)
      rw [← read_newIteration hn hj]
      unfold read; rw [read_setData hs hj1]
    · unfold read; rw [read_setData hs hj]
  | newIteration i => exact read_newIteration hh hj
  | reset i =>
    simp only [step, reset] at hh
    split at hh
    · rename_i o ho
      have h1 := read_through hh (j := j) fun c hc => hj ⟨i, o, c, ho, hc⟩
      have h2 := read_put (j := j) ho
        (o' := { o with initialCost := 0, inner := 0, outer := 0, total := 0, len := 0 }) rfl
      rw [← h2]
      unfold read; rw [h1]
    · cases hh
  | count i ic a b d =>
    simp only [step, count] at hh
    split at hh
    · rename_i o ho
      cases hh
      exact read_put ho rfl
    · cases hh

theorem run_append (h : Heap F) (a b : List (Op F)) : run h (a ++ b) = (run h a).bind fun h => run h b := by
  induction a generalizing h with
  | nil => rfl
  | cons op a ih =>
    simp only [List.cons_append, run]
    cases step h op with
    | error e => rfl
    | ok h1 => exact ih h1

/-- No map leads to an identifier that is still free. -/
theorem no_dangling {h h' : Heap F} (ops : List (Op F)) (hi : ∀ p, Targets h p → h p ≠ .free)
    (hh : run h ops = .ok h') : ∀ p, Targets h' p → h' p ≠ .free := by
  induction ops generalizing h with
  | nil => cases hh; exact hi
  | cons op ops ih =>
    simp only [run] at hh
    cases hs : step h op with
    | error e => rw [hs] at hh; cases hh
    | ok h1 =>
      rw [hs] at hh
      refine ih ?_ hh
      intro p ht hf
      rcases targets_step hs ht with ht' | rfl
      · exact hi p ht' (free_step hs hf)
      · simp only [step, construct] at hs
        split at hs
        · cases hs; rw [put_same] at hf; cases hf
        · cases hs

/-- A run after which nobody's map leads to `j`. -/
theorem frozen {h h' : Heap F} {j : ℕ} (ops : List (Op F)) (hj : ¬ Targets h j) (hlive : h j ≠ .free)
    (hm : ∀ op ∈ ops, (∀ k, op ≠ .move j k) ∧ op ≠ .destroy j) (hh : run h ops = .ok h') : read h' j = read h j := by
  induction ops generalizing h with
  | nil => cases hh; rfl
  | cons op ops ih =>
    simp only [run] at hh
    cases hs : step h op with
    | error e => rw [hs] at hh; cases hh
    | ok h1 =>
      rw [hs] at hh
      have ho := hm op List.mem_cons_self
      have h1j : ¬ Targets h1 j := by
        intro ht
        rcases targets_step hs ht with ht' | rfl
        · exact hj ht'
        · exact hlive (construct_ok hs).1
      rw [← read_step hs hj hlive ho.1 ho.2]
      exact ih h1j (fun hf => hlive (free_step hs hf)) (fun op' h' => hm op' (List.mem_cons_of_mem _ h')) hh

/-- **C61 is false, for every history.**  Object `j` is made by moving object `i`, after any history and before any
history in which `j` is neither moved nor destroyed.  Whatever is logged through `j` (or any other object), either the
behaviour is undefined or what is read from the vectors of `j` is what object `i` had when it was moved. -/
theorem C61_moved_counterexample (pre post : List (Op F)) (i j : ℕ) (h0 h : Heap F)
    (hpost : ∀ op ∈ post, (∀ k, op ≠ .move j k) ∧ op ≠ .destroy j) (h1 : run empty pre = .ok h0)
    (h2 : run empty (pre ++ .move i j :: post) = .ok h) : read h j = read h0 i ∧ (read h0 i).isSome := by
  rw [run_append, h1] at h2
  have h2 : run h0 (.move i j :: post) = .ok h := h2
  simp only [run] at h2
  cases hs : step h0 (.move i j) with
  | error e => rw [hs] at h2; cases h2
  | ok h3 =>
    rw [hs] at h2
    have h2 : run h3 post = .ok h := h2
    have hd := no_dangling pre (h := empty) (by rintro p ⟨k, o, c, hk, _⟩; cases hk) h1
    have hj3 : ¬ Targets h3 j := by
      intro ht
      rcases targets_step hs ht with ht' | he
      · have := hd j ht'
        simp only [step, move] at hs
        split at hs
        · rename_i o ho hjf; exact this hjf
        · cases hs
      · cases he
    simp only [step, move] at hs
    split at hs
    · rename_i o ho hjf
      cases hs
      have hl : put (put h0 i (movedFrom o)) j o j ≠ .free := by rw [put_same]; intro e; cases e
      rw [frozen post hj3 hl hpost h2]
      unfold read
      rw [put_same, ho]
      exact ⟨rfl, rfl⟩
    · cases hs

/-- In particular nothing is ever recorded by an object moved before its first use: `cost.back()` and the like in
`UpdateConvergenceStatistics` and `IsDone` (ilqr.hpp:573-577, 600-601) are applied to empty vectors, which is undefined. -/
theorem C61_unused_counterexample (post : List (Op F)) (i j : ℕ) (h : Heap F)
    (hpost : ∀ op ∈ post, (∀ k, op ≠ .move j k) ∧ op ≠ .destroy j)
    (h2 : run empty (.construct i :: .move i j :: post) = .ok h) : read h j = some fun _ => [] := by
  have h1 : run (empty : Heap F) [.construct i] = .ok (put empty i (fresh i)) := rfl
  have := (C61_moved_counterexample [.construct i] post i j _ h hpost h1 h2).1
  rw [this]
  unfold read
  rw [put_same]; rfl

/-- Logging through a moved object is even undefined if something was recorded before the move: it assigns to `back()`
of the empty vector left in the old object. -/
theorem C61_undefined_counterexample (h0 h1 : Heap F) (i j : ℕ) (o : Obj F) (c : Col) (x : F) (ho : h0 i = .live o)
    (hown : o.ptr c = some i) (hl : o.len ≠ 0) (hs : move h0 i j = .ok h1) : log h1 j (some c) x = .error .undefined := by
  unfold move at hs
  rw [ho] at hs
  split at hs
  · rename_i o' ho' hjf
    cases ho'
    cases hs
    have hij : i ≠ j := by rintro rfl; rw [ho] at hjf; cases hjf
    unfold log
    rw [put_same]
    simp only [hl, if_false]
    unfold setData
    rw [put_same]
    simp only [hown]
    rw [put_other _ _ hij, put_same]
    simp [movedFrom]
  · cases hs

/-- Move assignment is no better: an object that led to its own vectors gives its map away, and the target leads to the
source's vectors. -/
theorem C61_assign_counterexample (h0 h1 : Heap F) (i j : ℕ) (o : Obj F) (ho : h0 i = .live o)
    (hown : ∀ c, o.ptr c = some i) (hs : assign h0 i j = .ok h1) :
    ∃ o', h1 j = .live o' ∧ o'.vec = o.vec ∧ (∀ c, o'.ptr c ≠ some j) ∧ ∀ t x h2, log h1 j t x = .ok h2 →
      read h2 j = some o.vec := by
  unfold assign at hs
  rw [ho] at hs
  split at hs
  · rename_i o' q ho' hj
    cases ho'
    split at hs
    · cases hs
    · rename_i hij
      cases hs
      have hp : ∀ c, o.ptr c ≠ some j := by
        intro c hc; rw [hown c] at hc; exact hij (Option.some.inj hc)
      refine ⟨o, put_same _ _ _, rfl, hp, ?_⟩
      intro t x h2 hlog
      obtain ⟨o1, h3, ho1, hcase, hs⟩ := log_ok hlog
      rw [put_same] at ho1
      cases ho1
      have hset : ∀ h3 : Heap F, (∃ o3, h3 j = .live o3 ∧ o3.ptr = o.ptr ∧ o3.vec = o.vec) →
          setData h3 j t x = .ok h2 → read h2 j = some o.vec := by
        rintro h3 ⟨o3, h3j, h3p, h3v⟩ hs
        have : h2 j = h3 j := by
          rcases setData_ok hs with rfl | ⟨o4, c, p, q, ho4, _, hp4, hq, _, rfl⟩
          · rfl
          · apply put_other
            rintro rfl
            rw [h3j] at ho4
            cases ho4
            rw [h3p] at hp4
            exact hp c hp4
        unfold read
        rw [this, h3j]
        exact congrArg some h3v
      rcases hcase with ⟨_, hn⟩ | ⟨_, rfl⟩
      · refine hset h3 ?_ hs
        obtain ⟨o5, ho5, hth⟩ := newIteration_ok hn
        rw [put_same] at ho5
        cases ho5
        have := read_through hth (j := j) hp
        rw [put_same] at this
        exact ⟨_, this, rfl, rfl⟩
      · exact hset _ ⟨o, put_same _ _ _, rfl, rfl⟩ hs
  · cases hs

/-! ### Objects that are not moved -/

/-- The calls made on object `i`. -/
def callsOn (i : ℕ) : List (Op F) → List (StatsOp F)
  | [] => []
  | .log k t x :: l => if k = i then .log t x :: callsOn i l else callsOn i l
  | .newIteration k :: l => if k = i then .newIteration :: callsOn i l else callsOn i l
  | .reset k :: l => if k = i then .reset :: callsOn i l else callsOn i l
  | _ :: l => callsOn i l

/-- Only object `i` leads to the vectors of `i`, and it does for all titles. -/
structure Own (h : Heap F) (i : ℕ) (s : Stats F) : Prop where
  obj : ∃ o, h i = .live o ∧ (∀ c, o.ptr c = some i) ∧ o.vec = s.col ∧ o.len = s.len
  other : ∀ k o c, h k = .live o → o.ptr c = some i → k = i
  aligned : Aligned s

theorem Own.newIteration {h : Heap F} {i : ℕ} {s : Stats F} (hi : Own h i s) :
    ∃ h', StatsMove.newIteration h i = .ok h' ∧ Own h' i s.newIteration := by
  obtain ⟨o, ho, hp, hv, hl⟩ := hi.obj
  have hthr : ∃ h', through { o with len := o.len + 1 } (advance (o.len + 1))
      (put h i { o with len := o.len + 1 }) = .ok h' := by
    unfold through
    rw [if_pos]
    · exact ⟨_, rfl⟩
    · rw [List.all_eq_true]
      intro c _
      simp only [hp c, isLive, put_same]
  obtain ⟨h', hh⟩ := hthr
  have hn : StatsMove.newIteration h i = .ok h' := by
    unfold StatsMove.newIteration; rw [ho]; exact hh
  refine ⟨h', hn, ?_, ?_, aligned_newIteration _ hi.aligned⟩
  · refine ⟨_, (through_ok hh i).1 _ (put_same _ _ _), hp, ?_, ?_⟩
    · funext c
      simp only [hp c, if_true]
      rw [hv, hl]; rfl
    · simp only [hl]; rfl
  · intro k q c hk hc
    obtain ⟨a1, a2⟩ := through_ok hh k
    by_cases e : k = i
    · exact e
    · rw [put_other _ _ e] at a1 a2
      cases hq : h k with
      | live q' =>
        rw [a1 q' hq] at hk
        cases hk
        exact hi.other k q' c hq hc
      | free => rw [a2 (by rw [hq]; intro q' e; cases e), hq] at hk; cases hk
      | dead => rw [a2 (by rw [hq]; intro q' e; cases e), hq] at hk; cases hk

theorem Own.setData {h : Heap F} {i : ℕ} {s : Stats F} (hi : Own h i s) (hl0 : s.len ≠ 0) (t : Option Col) (x : F) :
    ∃ h', StatsMove.setData h i t x = .ok h' ∧ Own h' i (s.log t x) := by
  obtain ⟨o, ho, hp, hv, hl⟩ := hi.obj
  cases t with
  | none =>
    refine ⟨h, by unfold StatsMove.setData; rw [ho], ?_⟩
    have : s.log none x = s := by unfold Stats.log; simp [hl0]
    rw [this]; exact hi
  | some c =>
    have hne : o.vec c ≠ [] := by
      intro e
      rw [hv] at e
      have := hi.aligned c
      rw [e] at this
      exact hl0 this.symm
    refine ⟨put h i { o with vec := fun c' => if c' = c then Stats.setBack (o.vec c) x else o.vec c' }, ?_, ?_, ?_, ?_⟩
    · unfold StatsMove.setData
      rw [ho]
      simp only [hp c]
      rw [ho]
      simp only [hne, if_false]
    · refine ⟨_, put_same _ _ _, hp, ?_, ?_⟩
      · unfold Stats.log
        simp only [hl0, if_false]
        rw [hv]
      · unfold Stats.log
        simp only [hl0, if_false, hl]
    · intro k q c' hk hc
      by_cases e : k = i
      · exact e
      · rw [put_other _ _ e] at hk
        exact hi.other k q c' hk hc
    · exact aligned_log _ _ _ hi.aligned

/-- Calls on `i` never are undefined, and do what `Model.Stats` says. -/
theorem Own.call {h : Heap F} {i : ℕ} {s : Stats F} (hi : Own h i s) :
    (∀ t x, ∃ h', step h (.log i t x) = .ok h' ∧ Own h' i (s.log t x)) ∧
    (∃ h', step h (.newIteration i) = .ok h' ∧ Own h' i s.newIteration) ∧
    (∃ h', step h (.reset i) = .ok h' ∧ Own h' i s.reset) ∧
    (∀ ic a b d, ∃ h', step h (.count i ic a b d) = .ok h' ∧ Own h' i s) := by
  obtain ⟨o, ho, hp, hv, hl⟩ := hi.obj
  refine ⟨?_, hi.newIteration, ?_, ?_⟩
  · intro t x
    simp only [step, StatsMove.log, ho]
    by_cases h0 : o.len = 0
    · obtain ⟨h1, hn, hi1⟩ := hi.newIteration
      obtain ⟨h2, hs, hi2⟩ := hi1.setData (by simp [Stats.newIteration]) t x
      refine ⟨h2, ?_, ?_⟩
      · rw [if_pos h0, hn]; exact hs
      · rw [log_zero s t x (by rw [← hl]; exact h0)]; exact hi2
    · rw [if_neg h0]
      exact hi.setData (by rw [← hl]; exact h0) t x
  · simp only [step, StatsMove.reset, ho]
    have hthr : ∃ h', through { o with initialCost := 0, inner := 0, outer := 0, total := 0, len := 0 } (fun _ => [])
        (put h i { o with initialCost := 0, inner := 0, outer := 0, total := 0, len := 0 }) = .ok h' := by
      unfold through
      rw [if_pos]
      · exact ⟨_, rfl⟩
      · rw [List.all_eq_true]
        intro c _
        simp only [hp c, isLive, put_same]
    obtain ⟨h', hh⟩ := hthr
    refine ⟨h', hh, ?_, ?_, aligned_new⟩
    · refine ⟨_, (through_ok hh i).1 _ (put_same _ _ _), hp, ?_, rfl⟩
      funext c
      simp only [hp c, if_true]
      rfl
    · intro k q c hk hc
      obtain ⟨a1, a2⟩ := through_ok hh k
      by_cases e : k = i
      · exact e
      · rw [put_other _ _ e] at a1 a2
        cases hq : h k with
        | live q' =>
          rw [a1 q' hq] at hk
          cases hk
          exact hi.other k q' c hq hc
        | free => rw [a2 (by rw [hq]; intro q' e; cases e), hq] at hk; cases hk
        | dead => rw [a2 (by rw [hq]; intro q' e; cases e), hq] at hk; cases hk
  · intro ic a b d
    simp only [step, count, ho]
    refine ⟨_, rfl, ⟨_, put_same _ _ _, hp, hv, hl⟩, ?_, hi.aligned⟩
    intro k q c hk hc
    by_cases e : k = i
    · exact e
    · rw [put_other _ _ e] at hk
      exact hi.other k q c hk hc

/-- The object on which a call is made. -/
def Op.on : Op F → ℕ
  | .construct i | .move i _ | .destroy i | .log i _ _ | .newIteration i | .reset i | .count i _ _ _ _ => i

theorem setData_other {h h' : Heap F} {i k : ℕ} {t : Option Col} {x : F} (hh : StatsMove.setData h k t x = .ok h')
    (hk : ∀ o c, h k = .live o → o.ptr c ≠ some i) : h' i = h i := by
  rcases setData_ok hh with rfl | ⟨o, c, p, q, ho, _, hp, hq, _, rfl⟩
  · rfl
  · apply put_other
    rintro rfl
    exact hk o c ho hp

theorem newIteration_other {h h' : Heap F} {i k : ℕ} (hki : k ≠ i) (hh : StatsMove.newIteration h k = .ok h')
    (hk : ∀ o c, h k = .live o → o.ptr c ≠ some i) : h' i = h i := by
  obtain ⟨o, ho, hth⟩ := newIteration_ok hh
  rw [read_through hth (j := i) (fun c hc => hk o c ho hc), put_other _ _ (Ne.symm hki)]

/-- Calls on other objects do not touch object `i`. -/
theorem Own.other_call {h h' : Heap F} {i : ℕ} {s : Stats F} (hi : Own h i s) {op : Op F} (hop : op.on ≠ i)
    (hh : step h op = .ok h') : Own h' i s := by
  obtain ⟨o, ho, hp, hv, hl⟩ := hi.obj
  have hnt : ∀ o c, h op.on = .live o → o.ptr c ≠ some i := fun o c h1 h2 => hop (hi.other _ o c h1 h2)
  -- no map of another object leads to `i` afterwards
  have hoth : ∀ k q c, h' k = .live q → q.ptr c = some i → k = i := by
    intro k q c hk hc
    by_contra hki
    -- every map of another live object was the map of an object before
    cases op with
    | construct k' =>
      simp only [step, construct] at hh
      split at hh
      · cases hh
        by_cases e : k = k'
        · subst e
          rw [put_same] at hk
          cases hk
          simp only [fresh, Option.some.injEq] at hc
          exact hki hc
        · rw [put_other _ _ e] at hk
          exact hki (hi.other k q c hk hc)
      · cases hh
    | move k1 k2 =>
      simp only [step, move] at hh
      split at hh
      · rename_i o1 ho1 hk2
        cases hh
        by_cases e : k = k2
        · subst e
          rw [put_same] at hk
          cases hk
          exact hnt _ c ho1 hc
        · rw [put_other _ _ e] at hk
          by_cases e1 : k = k1
          · subst e1
            rw [put_same] at hk
            cases hk
            simp [movedFrom] at hc
          · rw [put_other _ _ e1] at hk
            exact hki (hi.other k q c hk hc)
      · cases hh
    | destroy k' =>
      simp only [step, destroy] at hh
      split at hh
      · cases hh
        dsimp only at hk
        split at hk
        · cases hk
        · exact hki (hi.other k q c hk hc)
      · cases hh
    | log k' t x =>
      obtain ⟨o1, h1, ho1, hcase, hs⟩ := log_ok hh
      have hn1 : ∀ k q, h1 k = .live q → ∃ q', h k = .live q' ∧ q'.ptr = q.ptr := by
        intro k q hk
        rcases hcase with ⟨_, hn⟩ | ⟨_, rfl⟩
        · obtain ⟨o2, ho2, hth⟩ := newIteration_ok hn
          obtain ⟨a1, a2⟩ := through_ok hth k
          by_cases e : k = k'
          · subst e
            rw [a1 _ (put_same _ _ _)] at hk
            cases hk
            exact ⟨_, ho2, rfl⟩
          · rw [put_other _ _ e] at a1 a2
            cases hq : h k with
            | live q' => rw [a1 q' hq] at hk; cases hk; exact ⟨_, rfl, rfl⟩
            | free => rw [a2 (by rw [hq]; intro q' e; cases e), hq] at hk; cases hk
            | dead => rw [a2 (by rw [hq]; intro q' e; cases e), hq] at hk; cases hk
        · exact ⟨q, hk, rfl⟩
      have : ∃ q', h1 k = .live q' ∧ q'.ptr = q.ptr := by
        rcases setData_ok hs with rfl | ⟨o2, c2, p2, q2, ho2, _, hp2, hq2, _, rfl⟩
        · exact ⟨q, hk, rfl⟩
        · by_cases e : k = p2
          · subst e
            rw [put_same] at hk
            cases hk
            exact ⟨q2, hq2, rfl⟩
          · rw [put_other _ _ e] at hk
            exact ⟨q, hk, rfl⟩
      obtain ⟨q1, hq1, e1⟩ := this
      obtain ⟨q2, hq2, e2⟩ := hn1 k q1 hq1
      exact hki (hi.other k q2 c hq2 (by rw [e2, e1]; exact hc))
    | newIteration k' =>
      obtain ⟨o2, ho2, hth⟩ := newIteration_ok hh
      obtain ⟨a1, a2⟩ := through_ok hth k
      by_cases e : k = k'
      · subst e
        rw [a1 _ (put_same _ _ _)] at hk
        cases hk
        exact hki (hi.other k o2 c ho2 hc)
      · rw [put_other _ _ e] at a1 a2
        cases hq : h k with
        | live q' => rw [a1 q' hq] at hk; cases hk; exact hki (hi.other k q' c hq hc)
        | free => rw [a2 (by rw [hq]; intro q' e; cases e), hq] at hk; cases hk
        | dead => rw [a2 (by rw [hq]; intro q' e; cases e), hq] at hk; cases hk
    | reset k' =>
      simp only [step, StatsMove.reset] at hh
      split at hh
      · rename_i o2 ho2
        obtain ⟨a1, a2⟩ := through_ok hh k
        by_cases e : k = k'
        · subst e
          rw [a1 _ (put_same _ _ _)] at hk
          cases hk
          exact hki (hi.other k o2 c ho2 hc)
        · rw [put_other _ _ e] at a1 a2
          cases hq : h k with
          | live q' => rw [a1 q' hq] at hk; cases hk; exact hki (hi.other k q' c hq hc)
          | free => rw [a2 (by rw [hq]; intro q' e; cases e), hq] at hk; cases hk
          | dead => rw [a2 (by rw [hq]; intro q' e; cases e), hq] at hk; cases hk
      · cases hh
    | count k' ic a b d =>
      simp only [step, count] at hh
      split at hh
      · rename_i o2 ho2
        cases hh
        by_cases e : k = k'
        · subst e
          rw [put_same] at hk
          cases hk
          exact hki (hi.other k o2 c ho2 hc)
        · rw [put_other _ _ e] at hk
          exact hki (hi.other k q c hk hc)
      · cases hh
  have hsame : h' i = h i := by
    cases op with
    | construct k' =>
      simp only [step, construct] at hh
      split at hh
      · cases hh; exact put_other _ _ (Ne.symm hop)
      · cases hh
    | move k1 k2 =>
      simp only [step, move] at hh
      split at hh
      · rename_i o1 ho1 hk2
        cases hh
        have : i ≠ k2 := by rintro rfl; rw [ho] at hk2; cases hk2
        rw [put_other _ _ this, put_other _ _ (show i ≠ k1 from Ne.symm hop)]
      · cases hh
    | destroy k' =>
      simp only [step, destroy] at hh
      split at hh
      · cases hh
        exact if_neg (Ne.symm hop)
      · cases hh
    | log k' t x =>
      obtain ⟨o1, h1, ho1, hcase, hs⟩ := log_ok hh
      rcases hcase with ⟨_, hn⟩ | ⟨_, rfl⟩
      · rw [← newIteration_other hop hn hnt]
        refine setData_other hs ?_
        intro o2 c ho2
        obtain ⟨o3, ho3, hth⟩ := newIteration_ok hn
        rw [(through_ok hth k').1 _ (put_same _ _ _)] at ho2
        cases ho2
        exact hnt o3 c ho3
      · exact setData_other hs hnt
    | newIteration k' => exact newIteration_other hop hh hnt
    | reset k' =>
      simp only [step, StatsMove.reset] at hh
      split at hh
      · rename_i o2 ho2
        rw [read_through hh (j := i) (fun c hc => hnt o2 c ho2 hc), put_other _ _ (show i ≠ k' from Ne.symm hop)]
      · cases hh
    | count k' ic a b d =>
      simp only [step, count] at hh
      split at hh
      · cases hh; exact put_other _ _ (Ne.symm hop)
      · cases hh
  exact ⟨⟨o, by rw [hsame]; exact ho, hp, hv, hl⟩, hoth, hi.aligned⟩

theorem own_run {h h' : Heap F} {i : ℕ} {s : Stats F} (ops : List (Op F)) (hi : Own h i s)
    (hm : ∀ op ∈ ops, (∀ k, op ≠ .move i k) ∧ op ≠ .destroy i) (hh : run h ops = .ok h') :
    Own h' i ((callsOn i ops).foldl stepStats s) := by
  induction ops generalizing h s with
  | nil => cases hh; exact hi
  | cons op ops ih =>
    simp only [run] at hh
    cases hs : step h op with
    | error e => rw [hs] at hh; cases hh
    | ok h1 =>
      rw [hs] at hh
      have hh : run h1 ops = .ok h' := hh
      have hm' := fun op' h' => hm op' (List.mem_cons_of_mem op h')
      by_cases hop : op.on = i
      · obtain ⟨c1, c2, c3, c4⟩ := hi.call
        cases op with
        | construct k =>
          obtain ⟨o, ho, _⟩ := hi.obj
          simp only [Op.on] at hop
          subst hop
          simp only [step, construct, ho] at hs
          cases hs
        | move k k' =>
          simp only [Op.on] at hop
          subst hop
          exact absurd rfl ((hm _ List.mem_cons_self).1 k')
        | destroy k =>
          simp only [Op.on] at hop
          subst hop
          exact absurd rfl (hm _ List.mem_cons_self).2
        | log k t x =>
          simp only [Op.on] at hop
          subst hop
          obtain ⟨h2, e, hi2⟩ := c1 t x
          rw [hs] at e
          cases e
          simp only [callsOn, if_true, List.foldl_cons]
          exact ih hi2 hm' hh
        | newIteration k =>
          simp only [Op.on] at hop
          subst hop
          obtain ⟨h2, e, hi2⟩ := c2
          rw [hs] at e
          cases e
          simp only [callsOn, if_true, List.foldl_cons]
          exact ih hi2 hm' hh
        | reset k =>
          simp only [Op.on] at hop
          subst hop
          obtain ⟨h2, e, hi2⟩ := c3
          rw [hs] at e
          cases e
          simp only [callsOn, if_true, List.foldl_cons]
          exact ih hi2 hm' hh
        | count k ic a b d =>
          simp only [Op.on] at hop
          subst hop
          obtain ⟨h2, e, hi2⟩ := c4 ic a b d
          rw [hs] at e
          cases e
          simp only [callsOn]
          exact ih hi2 hm' hh
      · have := hi.other_call hop hs
        have he : callsOn i (op :: ops) = callsOn i ops := by
          cases op <;> simp only [Op.on] at hop <;> simp [callsOn, hop]
        rw [he]
        exact ih this hm' hh

/-- **C61** (partial: only objects that are not moved).  Whatever happens to other objects, an object that is neither
moved nor destroyed records exactly the calls made on it, as in C54, and no call on it is undefined. -/
theorem C61_unmoved_partial (pre post : List (Op F)) (i : ℕ) (h : Heap F)
    (hm : ∀ op ∈ post, (∀ k, op ≠ .move i k) ∧ op ≠ .destroy i)
    (hh : run empty (pre ++ .construct i :: post) = .ok h) :
    read h i = some (runStats (callsOn i post)).col ∧ (∀ t x, (log h i t x).isOk) ∧ (newIteration h i).isOk ∧
      (reset h i).isOk := by
  rw [run_append] at hh
  cases h1 : run (empty : Heap F) pre with
  | error e => rw [h1] at hh; cases hh
  | ok h0 =>
    rw [h1] at hh
    have hh : run h0 (.construct i :: post) = .ok h := hh
    simp only [run] at hh
    cases hs : step h0 (.construct i) with
    | error e => rw [hs] at hh; cases hh
    | ok h2 =>
      rw [hs] at hh
      have hh : run h2 post = .ok h := hh
      have hd := no_dangling pre (h := empty) (by rintro p ⟨k, o, c, hk, _⟩; cases hk) h1
      simp only [step, construct] at hs
      split at hs
      · rename_i hf
        cases hs
        have h0i : Own (put h0 i (fresh i)) i (Stats.new : Stats F) := by
          refine ⟨⟨fresh i, put_same _ _ _, fun _ => rfl, rfl, rfl⟩, ?_, aligned_new⟩
          intro k q c hk hc
          by_contra e
          rw [put_other _ _ e] at hk
          exact hd i ⟨k, q, c, hk, hc⟩ hf
        have := own_run post h0i hm hh
        obtain ⟨c1, ⟨_, c2, _⟩, ⟨_, c3, _⟩, _⟩ := this.call
        obtain ⟨o, ho, _, hv, _⟩ := this.obj
        refine ⟨?_, ?_, ?_, ?_⟩
        · unfold read; rw [ho]; exact congrArg some hv
        · intro t x
          obtain ⟨h', e, _⟩ := c1 t x
          simp only [step] at e
          rw [e]; rfl
        · simp only [step] at c2
          rw [c2]; rfl
        · simp only [step] at c3
          rw [c3]; rfl
      · cases hs

/-- **C61** (partial: only the counters).  The counters are members, so a move takes them along and later assignments
through the new object change the new object. -/
theorem C61_counters_partial (h0 h1 : Heap F) (i j : ℕ) (o : Obj F) (ho : h0 i = .live o) (hs : move h0 i j = .ok h1) :
    (∃ o', h1 j = .live o' ∧ o'.initialCost = o.initialCost ∧ o'.inner = o.inner ∧ o'.outer = o.outer ∧
      o'.total = o.total ∧ o'.len = o.len) ∧
    ∀ ic a b d, ∃ h2 o', count h1 j ic a b d = .ok h2 ∧ h2 j = .live o' ∧ o'.initialCost = ic ∧ o'.inner = a ∧
      o'.outer = b ∧ o'.total = d := by
  unfold move at hs
  rw [ho] at hs
  split at hs
  · rename_i o' ho' hjf
    cases ho'
    cases hs
    refine ⟨⟨o, put_same _ _ _, rfl, rfl, rfl, rfl, rfl⟩, ?_⟩
    intro ic a b d
    refine ⟨put (put (put h0 i (movedFrom o)) j o) j { o with initialCost := ic, inner := a, outer := b, total := d },
      { o with initialCost := ic, inner := a, outer := b, total := d }, ?_, put_same _ _ _, rfl, rfl, rfl, rfl⟩
    unfold count
    rw [put_same]
  · cases hs

/-- Initial cost and the three counters. -/
structure Numbers (F : Type) where
  initialCost : F
  inner : ℕ
  outer : ℕ
  total : ℕ

def Obj.numbers (o : Obj F) : Numbers F := ⟨o.initialCost, o.inner, o.outer, o.total⟩

/-- What each object should count: zeros from construction and `Reset`, what was assigned last, and what a move brought. -/
def counts (c : ℕ → Numbers F) : List (Op F) → ℕ → Numbers F
  | [] => c
  | .construct i :: l => counts (fun k => if k = i then ⟨0, 0, 0, 0⟩ else c k) l
  | .reset i :: l => counts (fun k => if k = i then ⟨0, 0, 0, 0⟩ else c k) l
  | .count i ic a b d :: l => counts (fun k => if k = i then ⟨ic, a, b, d⟩ else c k) l
  | .move i j :: l => counts (fun k => if k = j then c i else c k) l
  | _ :: l => counts c l

/-- The live objects of `h` count `c`. -/
def CountsAre (h : Heap F) (c : ℕ → Numbers F) : Prop := ∀ i o, h i = .live o → o.numbers = c i

theorem CountsAre.put {h : Heap F} {c : ℕ → Numbers F} (hc : CountsAre h c) (i : ℕ) (o : Obj F) :
    CountsAre (put h i o) fun k => if k = i then o.numbers else c k := by
  intro k q hk
  by_cases e : k = i
  · subst e
    rw [put_same] at hk
    cases hk
    exact (if_pos rfl).symm
  · rw [put_other _ _ e] at hk
    exact (hc k q hk).trans (if_neg e).symm

theorem CountsAre.through {h h' : Heap F} {c : ℕ → Numbers F} {o : Obj F} {f : List F → List F} (hc : CountsAre h c)
    (hh : through o f h = .ok h') : CountsAre h' c := by
  intro k q hk
  unfold StatsMove.through at hh
  split at hh
  · cases hh
    simp only at hk
    split at hk
    · rename_i q' hq'
      cases hk
      exact hc k q' hq'
    · rename_i hn
      exact absurd hk (hn q)
  · cases hh

theorem CountsAre.newIteration {h h' : Heap F} {c : ℕ → Numbers F} {i : ℕ} (hc : CountsAre h c)
    (hh : StatsMove.newIteration h i = .ok h') : CountsAre h' c := by
  obtain ⟨o, ho, ht⟩ := newIteration_ok hh
  refine CountsAre.through ?_ ht
  have := hc.put i { o with len := o.len + 1 }
  have e : (fun k => if k = i then ({ o with len := o.len + 1 } : Obj F).numbers else c k) = c := by
    funext k
    split
    · rename_i e; subst e; exact hc _ o ho
    · rfl
  rwa [e] at this

theorem CountsAre.setData {h h' : Heap F} {c : ℕ → Numbers F} {i : ℕ} {t : Option Col} {x : F} (hc : CountsAre h c)
    (hh : StatsMove.setData h i t x = .ok h') : CountsAre h' c := by
  unfold StatsMove.setData at hh
  split at hh
  · cases hh; exact hc
  · split at hh
    · cases hh; exact hc
    · rename_i p _
      split at hh
      · rename_i q hq
        split at hh
        · cases hh
        · cases hh
          intro k q' hk
          by_cases e : k = p
          · subst e
            rw [put_same] at hk
            cases hk
            exact hc _ q hq
          · rw [put_other _ _ e] at hk
            exact hc k q' hk
      · cases hh
  · cases hh

/-- **C61**, the counters.  In every history without undefined behaviour each object counts what was assigned through it since its
construction or `Reset`, or what it was moved from counted: moves carry the numbers along, unlike the vectors. -/
theorem C61_counters (ops : List (Op F)) (c : ℕ → Numbers F) (h : Heap F) (hh : run empty ops = .ok h) :
    ∀ i o, h i = .live o → o.numbers = counts c ops i := by
  have key : ∀ (ops : List (Op F)) (h0 : Heap F) (c : ℕ → Numbers F), CountsAre h0 c → run h0 ops = .ok h →
      CountsAre h (counts c ops) := by
    intro ops
    induction ops with
    | nil => intro h0 c hc hh; cases hh; exact hc
    | cons op ops ih =>
      intro h0 c hc hh
      simp only [run] at hh
      cases hs : step h0 op with
      | error e => rw [hs] at hh; cases hh
      | ok h1 =>
        rw [hs] at hh
        have hh : run h1 ops = .ok h := hh
        cases op with
        | construct i =>
          obtain ⟨_, rfl⟩ := construct_ok hs
          exact ih _ _ (hc.put i (fresh i)) hh
        | move i j =>
          simp only [step, move] at hs
          split at hs
          · rename_i o ho _
            cases hs
            refine ih _ _ ?_ hh
            have := (hc.put i (movedFrom o)).put j o
            have e : (fun k => if k = j then o.numbers else if k = i then (movedFrom o).numbers else c k)
                = fun k => if k = j then c i else c k := by
              funext k
              split
              · exact hc i o ho
              · split
                · rename_i e; subst e; exact hc _ o ho
                · rfl
            rwa [e] at this
          · cases hs
        | destroy i =>
          simp only [step, destroy] at hs
          split at hs
          · cases hs
            refine ih _ _ (fun k q hk => ?_) hh
            by_cases e : k = i
            · simp only [e, if_true] at hk; cases hk
            · simp only [e, if_false] at hk; exact hc k q hk
          · cases hs
        | log i t x =>
          obtain ⟨o1, h2, ho1, hcase, hsd⟩ := log_ok hs
          rcases hcase with ⟨_, hn⟩ | ⟨_, rfl⟩
          · exact ih _ _ ((hc.newIteration hn).setData hsd) hh
          · exact ih _ _ (hc.setData hsd) hh
        | newIteration i => exact ih _ _ (hc.newIteration hs) hh
        | reset i =>
          simp only [step, StatsMove.reset] at hs
          split at hs
          · exact ih _ _ ((hc.put i _).through hs) hh
          · cases hs
        | count i ic a b d =>
          simp only [step, count] at hs
          split at hs
          · cases hs
            exact ih _ _ (hc.put i _) hh
          · cases hs
  exact key ops empty c (fun i o hi => nomatch hi) hh

/-- Object 1 gets the counters of object 0, which starts again from zero after `Reset`. -/
example : counts (fun _ => ⟨9, 9, 9, 9⟩) [.construct 0, .count 0 (5 : ℚ) 1 2 3, .move 0 1, .reset 0] 1 = ⟨5, 1, 2, 3⟩ ∧
    counts (fun _ => ⟨9, 9, 9, 9⟩) [.construct 0, .count 0 (5 : ℚ) 1 2 3, .move 0 1, .reset 0] 0 = ⟨0, 0, 0, 0⟩ ∧
    (run empty [.construct 0, .count 0 (5 : ℚ) 1 2 3, .move 0 1, .reset 0]).isOk = true := by
  refine ⟨rfl, rfl, by decide +kernel⟩

/-! A concrete run: construct object 0, move it to object 1, log through object 1: the value is in object 0.  Moved after
the value 7 was recorded, object 1 keeps the 7 whatever is logged; a `NewIteration` before makes the log defined, and a
`Reset` through the new object clears the old one only. -/

def demoRead (ops : List (Op ℚ)) (i : ℕ) : Option (List ℚ) :=
  match run empty ops with
  | .ok h => (read h i).map fun v => v .cost
  | .error _ => none

def demoMove : List (Op ℚ) := [.construct 0, .move 0 1, .log 1 (some .cost) 5]

def demoMoveLate : List (Op ℚ) :=
  [.construct 0, .log 0 (some .cost) 7, .move 0 1, .newIteration 1, .log 1 (some .cost) 5]

example : demoRead demoMove 0 = some [5] ∧ demoRead demoMove 1 = some [] := by decide +kernel

example : demoRead demoMoveLate 0 = some [0, 5] ∧ demoRead demoMoveLate 1 = some [7] ∧
    demoRead (demoMoveLate ++ [.reset 1]) 0 = some [] ∧ demoRead (demoMoveLate ++ [.reset 1]) 1 = some [7] ∧
    demoRead (demoMoveLate ++ [.destroy 0]) 1 = some [7] ∧
    demoRead (demoMoveLate ++ [.destroy 0, .log 1 (some .cost) 6]) 1 = none := by decide +kernel

example : demoRead [.construct 0, .construct 1, .log 1 (some .cost) 3, .move 0 2, .log 2 (some .cost) 4,
    .newIteration 1] 1 = some [3, 3] := by decide +kernel

/-- A map with a pointer into an object that is not there any more (or not yet): counting an iteration and clearing are undefined. -/
theorem C61_dangling_counterexample (h : Heap F) (i p : ℕ) (o : Obj F) (c : Col) (ho : h i = .live o) (hp : o.ptr c = some p)
    (hd : ∀ q, h p ≠ .live q) : newIteration h i = .error .undefined ∧ reset h i = .error .undefined := by
  have hne : p ≠ i := by rintro rfl; exact hd o ho
  have key : ∀ (o' : Obj F) (f : List F → List F), o'.ptr c = some p → through o' f (put h i o') = .error .undefined := by
    intro o' f hp'
    unfold through
    rw [if_neg]
    intro hall
    have := List.all_eq_true.mp hall c (by cases c <;> simp [cols])
    rw [hp'] at this
    simp only [isLive, put, if_neg hne] at this
    cases this
  constructor
  · unfold newIteration; rw [ho]; exact key { o with len := o.len + 1 } _ hp
  · unfold reset; rw [ho]; exact key _ _ hp

/-- So after a move whose source is destroyed, as when a function returns a local object without eliding the move. -/
example : (run (empty : Heap ℚ) [.construct 0, .move 0 1, .destroy 0, .newIteration 1]).isOk = false ∧
    (run (empty : Heap ℚ) [.construct 0, .move 0 1, .destroy 0, .reset 1]).isOk = false ∧
    (run (empty : Heap ℚ) [.construct 0, .move 0 1, .destroy 0]).isOk = true := by
  refine ⟨by decide +kernel, by decide +kernel, by decide +kernel⟩

end Altro.StatsMove
