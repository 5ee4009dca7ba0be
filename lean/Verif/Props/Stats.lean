import Verif.Spec.Stats
import Verif.Tactics

/-!
# C54: statistics columns stay aligned
-/

namespace Altro.Props
open Altro.Spec
variable {F : Type} [Arith F]

/-- The model's effect of one call. -/
def stepStats (s : Stats F) : StatsOp F → Stats F
  | .log t x => s.log t x
  | .newIteration => s.newIteration
  | .reset => s.reset

/-- A history of calls on a fresh object. -/
def runStats (ops : List (StatsOp F)) : Stats F := ops.foldl stepStats Stats.new

theorem runStats_snoc (ops : List (StatsOp F)) (op : StatsOp F) :
    runStats (ops ++ [op]) = stepStats (runStats ops) op := by
  unfold runStats; rw [List.foldl_append]; rfl

/-- Columns have the same length as the number of iterations. -/
def Aligned (s : Stats F) : Prop := ∀ c, (s.col c).length = s.len

theorem setBack_length (l : List F) (x : F) (h : l ≠ []) : (Stats.setBack l x).length = l.length := by
  unfold Stats.setBack
  have := List.length_pos_iff.mpr h
  simp; omega

theorem resize_of_length (l : List F) (k : ℕ) (h : l.length = k) : Stats.resize (k + 1) l = l ++ [0] := by
  unfold Stats.resize
  subst h; simp

theorem newIteration_col (s : Stats F) (h : Aligned s) (c : Col) :
    s.newIteration.col c = s.col c ++ [if s.len = 0 then 0 else Stats.back (s.col c)] := by
  unfold Stats.newIteration
  simp only
  rw [resize_of_length _ _ (h c)]
  unfold Stats.setBack Stats.back2
  simp
  by_cases hl : s.len = 0
  · simp [hl]
  · simp [hl]

theorem aligned_newIteration (s : Stats F) (h : Aligned s) : Aligned s.newIteration := by
  intro c
  rw [newIteration_col s h]
  simp [h c, Stats.newIteration]

theorem log_col (s : Stats F) (t : Option Col) (x : F) (hl : s.len ≠ 0) :
    (s.log t x).len = s.len ∧
    ∀ c, (s.log t x).col c = if t = some c then Stats.setBack (s.col c) x else s.col c := by
  unfold Stats.log
  cases t with
  | none => simp [hl]
  | some c' =>
    simp only [hl, if_false, true_and]
    intro c
    by_cases h : c = c'
    · subst h; simp
    · simp [h, Ne.symm h]

theorem log_zero (s : Stats F) (t : Option Col) (x : F) (hl : s.len = 0) :
    s.log t x = s.newIteration.log t x := by
  have : s.newIteration.len ≠ 0 := by simp [Stats.newIteration]
  unfold Stats.log
  simp [hl, this]

theorem aligned_log (s : Stats F) (t : Option Col) (x : F) (h : Aligned s) : Aligned (s.log t x) := by
  have key : ∀ s : Stats F, Aligned s → s.len ≠ 0 → Aligned (s.log t x) := by
    intro s h hl c
    obtain ⟨h1, h2⟩ := log_col s t x hl
    rw [h1, h2]
    split
    · rw [setBack_length, h c]
      intro he; have := h c; rw [he] at this; exact hl this.symm
    · exact h c
  by_cases hl : s.len = 0
  · rw [log_zero s t x hl]
    exact key _ (aligned_newIteration s h) (by simp [Stats.newIteration])
  · exact key s h hl

theorem aligned_new : Aligned (Stats.new : Stats F) := fun _ => rfl

theorem aligned_step (s : Stats F) (op : StatsOp F) (h : Aligned s) : Aligned (stepStats s op) := by
  cases op with
  | log t x => exact aligned_log s t x h
  | newIteration => exact aligned_newIteration s h
  | reset => exact aligned_new

theorem aligned_run (ops : List (StatsOp F)) : Aligned (runStats ops) := by
  induction ops using List.reverseRecOn with
  | nil => exact aligned_new
  | append_singleton ops op ih => rw [runStats_snoc]; exact aligned_step _ _ ih

theorem sinceReset_snoc (ops : List (StatsOp F)) (op : StatsOp F) :
    sinceReset (ops ++ [op]) = match op with | .reset => [] | _ => sinceReset ops ++ [op] := by
  unfold sinceReset; rw [List.foldl_append]; cases op <;> rfl

theorem iterationsOpened_snoc_log (ops : List (StatsOp F)) (t : Option Col) (x : F) :
    iterationsOpened (ops ++ [.log t x]) = if ops = [] then 1 else iterationsOpened ops := by
  cases ops with
  | nil => rfl
  | cons a ops => cases a <;> simp [iterationsOpened]

theorem iterationsOpened_snoc_new (ops : List (StatsOp F)) :
    iterationsOpened (ops ++ [.newIteration]) = iterationsOpened ops + 1 := by
  cases ops with
  | nil => rfl
  | cons a ops => cases a <;> simp [iterationsOpened] <;> omega

theorem sinceReset_noreset (ops : List (StatsOp F)) : ∀ op ∈ sinceReset ops, op ≠ .reset := by
  induction ops using List.reverseRecOn with
  | nil => intro op h; simp [sinceReset] at h
  | append_singleton ops op ih =>
    rw [sinceReset_snoc]
    cases op with
    | reset => simp
    | log t x =>
      intro op' h
      rcases List.mem_append.mp h with h | h
      · exact ih _ h
      · rw [List.mem_singleton.mp h]; exact fun h => by cases h
    | newIteration =>
      intro op' h
      rcases List.mem_append.mp h with h | h
      · exact ih _ h
      · rw [List.mem_singleton.mp h]; exact fun h => by cases h

theorem iterationsOpened_pos (ops : List (StatsOp F)) (h : ops ≠ []) (hr : ∀ op ∈ ops, op ≠ .reset) :
    iterationsOpened ops ≠ 0 := by
  cases ops with
  | nil => exact absurd rfl h
  | cons a ops =>
    cases a with
    | log t x => simp [iterationsOpened]
    | newIteration => simp [iterationsOpened]
    | reset => exact absurd rfl (hr _ List.mem_cons_self)

/-- **C54.**  The number of recorded iterations is the number opened since the last reset. -/
theorem C54_length (ops : List (StatsOp F)) :
    (runStats ops).len = iterationsOpened (sinceReset ops) ∧
    ∀ c, ((runStats ops).col c).length = iterationsOpened (sinceReset ops) := by
  suffices h : (runStats ops).len = iterationsOpened (sinceReset ops) from
    ⟨h, fun c => by rw [aligned_run, h]⟩
  induction ops using List.reverseRecOn with
  | nil => rfl
  | append_singleton ops op ih =>
    rw [runStats_snoc, sinceReset_snoc]
    cases op with
    | reset => rfl
    | newIteration =>
      simp only [iterationsOpened_snoc_new, stepStats]
      show (runStats ops).len + 1 = _
      rw [ih]
    | log t x =>
      simp only [iterationsOpened_snoc_log, stepStats]
      by_cases hl : (runStats ops).len = 0
      · rw [log_zero _ _ _ hl, (log_col _ _ _ (by simp [Stats.newIteration])).1]
        have : sinceReset ops = [] := by
          by_contra hne
          exact iterationsOpened_pos _ hne (sinceReset_noreset ops) (ih ▸ hl)
        simp [this, Stats.newIteration, hl]
      · rw [(log_col _ _ _ hl).1, ih]
        have : sinceReset ops ≠ [] := by
          intro he; rw [ih, he] at hl; exact hl rfl
        simp [this]

theorem lastLogged_snoc (c : Col) (ops : List (StatsOp F)) (op : StatsOp F) :
    lastLogged c (ops ++ [op]) =
      match op with | .log (some c') x => if c' = c then x else lastLogged c ops | _ => lastLogged c ops := by
  unfold lastLogged; rw [List.foldl_append]; rfl

theorem back_setBack (l : List F) (x : F) : Stats.back (Stats.setBack l x) = x := by
  simp [Stats.back, Stats.setBack]

theorem back_newIteration (s : Stats F) (h : Aligned s) (c : Col) :
    Stats.back (s.newIteration.col c) = if s.len = 0 then 0 else Stats.back (s.col c) := by
  rw [newIteration_col s h]; simp [Stats.back]

/-- **C54.**  The current entry of a column is the last value logged since the reset (zero if none). -/
theorem C54_last_entry (ops : List (StatsOp F)) (c : Col) (hl : (runStats ops).len ≠ 0) :
    Stats.back ((runStats ops).col c) = lastLogged c (sinceReset ops) := by
  induction ops using List.reverseRecOn with
  | nil => exact absurd rfl hl
  | append_singleton ops op ih =>
    rw [runStats_snoc] at hl ⊢
    rw [sinceReset_snoc]
    cases op with
    | reset => exact absurd rfl hl
    | newIteration =>
      simp only [lastLogged_snoc, stepStats]
      rw [back_newIteration _ (aligned_run ops)]
      split
      · rename_i h0
        have := (C54_length ops).1
        rw [h0] at this
        by_cases hs : sinceReset ops = []
        · rw [hs]; rfl
        · exact absurd this.symm (iterationsOpened_pos _ hs (sinceReset_noreset ops))
      · rename_i h0; exact ih h0
    | log t x =>
      simp only [lastLogged_snoc, stepStats]
      have key : Stats.back (((runStats ops).log t x).col c)
          = if t = some c then x else lastLogged c (sinceReset ops) := by
        by_cases h0 : (runStats ops).len = 0
        · rw [log_zero _ _ _ h0, (log_col _ _ _ (by simp [Stats.newIteration])).2]
          split
          · exact back_setBack ..
          · rw [back_newIteration _ (aligned_run ops), if_pos h0]
            have := (C54_length ops).1
            rw [h0] at this
            by_cases hs : sinceReset ops = []
            · rw [hs]; rfl
            · exact absurd this.symm (iterationsOpened_pos _ hs (sinceReset_noreset ops))
        · rw [(log_col _ _ _ h0).2]
          split
          · exact back_setBack ..
          · exact ih h0
      rw [key]
      cases t with
      | none => simp
      | some c' => simp [eq_comm]

theorem step_keeps_old (s : Stats F) (hs : Aligned s) (op : StatsOp F) (hop : op ≠ .reset) (c : Col) (i : ℕ)
    (hi : i + 1 < s.len) : ((stepStats s op).col c)[i]? = (s.col c)[i]? := by
  have hlen := hs c
  cases op with
  | reset => exact absurd rfl hop
  | newIteration =>
    show (s.newIteration.col c)[i]? = _
    rw [newIteration_col s hs, List.getElem?_append_left (by omega)]
  | log t x =>
    show ((s.log t x).col c)[i]? = _
    rw [(log_col _ _ _ (by omega)).2]
    split
    · unfold Stats.setBack
      rw [List.getElem?_append_left (by simp; omega), List.getElem?_dropLast, if_pos (by omega)]
    · rfl

/-- **C54.**  Entry `i` of a column is the last value logged (since the reset) up to the end of iteration `i`: if
the calls `p` end in iteration `i`, the next call opens a new iteration (or there is none), and no reset follows,
then the entry is the last value logged by `p`. -/
theorem C54_entry (p q : List (StatsOp F)) (c : Col) (i : ℕ)
    (hi : iterationsOpened (sinceReset p) = i + 1)
    (hq : q = [] ∨ ∃ q', q = .newIteration :: q' ∧ ∀ op ∈ q', op ≠ .reset) :
    ((runStats (p ++ q)).col c)[i]? = some (lastLogged c (sinceReset p)) := by
  have hlen : (runStats p).len = i + 1 := by rw [(C54_length p).1, hi]
  have hp : ((runStats p).col c)[i]? = some (lastLogged c (sinceReset p)) := by
    rw [← C54_last_entry p c (by omega)]
    have h := aligned_run p c
    unfold Stats.back
    have hne : (runStats p).col c ≠ [] := by intro he; rw [he] at h; simp at h; omega
    rw [List.getLastD_eq_getLast?, List.getLast?_eq_getElem?, h, hlen]
    simp only [Nat.add_sub_cancel]
    rw [List.getElem?_eq_getElem (by omega)]; rfl
  rcases hq with rfl | ⟨q', rfl, hq'⟩
  · simpa using hp
  · have key : ∀ (q' : List (StatsOp F)), (∀ op ∈ q', op ≠ .reset) → ∀ s : Stats F, Aligned s → i + 1 < s.len →
        ((q'.foldl stepStats s).col c)[i]? = (s.col c)[i]? := by
      intro q'
      induction q' with
      | nil => intro _ s _ _; rfl
      | cons op q' ih =>
        intro hr s hs hl
        simp only [List.foldl_cons]
        have hop := hr op List.mem_cons_self
        rw [ih (fun op' h => hr op' (List.mem_cons_of_mem _ h)) _ (aligned_step s op hs)]
        · exact step_keeps_old s hs op hop c i hl
        · cases op with
          | reset => exact absurd rfl hop
          | newIteration => show i + 1 < s.len + 1; omega
          | log t x => show i + 1 < (s.log t x).len; rw [(log_col _ _ _ (by omega)).1]; exact hl
    unfold runStats
    rw [List.foldl_append, List.foldl_cons]
    have := key q' hq' (stepStats (runStats p) .newIteration) (aligned_step _ _ (aligned_run p))
      (by show i + 1 < (runStats p).len + 1; omega)
    unfold runStats at this
    rw [this]
    show ((runStats p).newIteration.col c)[i]? = _
    rw [newIteration_col _ (aligned_run p), List.getElem?_append_left (by rw [aligned_run p c]; omega)]
    exact hp

/-- A concrete history: the second iteration inherits the cost of the first, and the reset clears everything. -/
def demoOpsStats : List (StatsOp ℚ) :=
  [.log (some .cost) 9, .reset, .log (some .cost) 5, .log none 1, .newIteration, .log (some .reg) 2, .newIteration]

example : iterationsOpened (sinceReset demoOpsStats) = 3 ∧ (runStats demoOpsStats).col .cost = [5, 5, 5] ∧
    (runStats demoOpsStats).col .reg = [0, 2, 2] ∧ lastLogged .cost (sinceReset demoOpsStats) = 5 := by
  decide +kernel

example : ((runStats ([StatsOp.log (some .cost) 5] ++ [.newIteration, .log (some .cost) 7] : List (StatsOp ℚ))).col
    .cost)[0]? = some 5 :=
  C54_entry _ _ .cost 0 rfl (.inr ⟨_, rfl, by simp⟩)

end Altro.Props
