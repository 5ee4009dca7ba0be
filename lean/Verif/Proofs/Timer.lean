import Verif.Spec.Timer
import Verif.Tactics
import Mathlib.Data.List.Basic
import Mathlib.Data.List.Lex
import Mathlib.Data.Char

/-!
# Lemmas about the profiler
-/

namespace Altro.Proofs.Timer
open Altro.Timer Altro.Spec.Timer

theorem toMicros_eq (ns : ℤ) : toMicros ns = micros ns := by
  unfold toMicros micros
  split
  · rename_i h; rw [Int.tdiv_eq_ediv_of_nonneg h]
  · rename_i h
    have : ns = -(-ns) := by ring
    conv_lhs => rw [this]
    rw [Int.neg_tdiv, Int.tdiv_eq_ediv_of_nonneg (by omega)]

/-! ## The map -/

theorem add_keys (m : Times) (k : Str) (d : ℤ) : ∀ x, x ∈ (m.add k d).map Prod.fst ↔ x = k ∨ x ∈ m.map Prod.fst := by
  intro x
  induction m with
  | nil => simp [Times.add]
  | cons p m ih =>
    obtain ⟨k', t⟩ := p
    unfold Times.add
    split
    · simp only [List.map_cons, List.mem_cons, ih]; tauto
    · split
      · rename_i h; subst h; simp
      · simp

theorem sorted_add {m : Times} (h : Sorted m) (k : Str) (d : ℤ) : Sorted (m.add k d) := by
  unfold Sorted at *
  induction m with
  | nil => simp [Times.add]
  | cons p m ih =>
    obtain ⟨k', t⟩ := p
    rw [List.map_cons, List.pairwise_cons] at h
    unfold Times.add
    split
    · rename_i hlt
      rw [List.map_cons, List.pairwise_cons]
      refine ⟨?_, ih h.2⟩
      intro x hx
      rcases (add_keys m k d x).mp hx with rfl | hx
      · exact hlt
      · exact h.1 x hx
    · rename_i hge
      split
      · rename_i he; subst he
        rw [List.map_cons, List.pairwise_cons]; exact h
      · rename_i hne
        have hlt : k < k' := lt_of_le_of_ne (not_lt.mp hge) hne
        rw [List.map_cons, List.pairwise_cons]
        refine ⟨?_, by rw [List.map_cons, List.pairwise_cons]; exact h⟩
        intro x hx
        simp only [List.map_cons, List.mem_cons] at hx
        rcases hx with rfl | hx
        · exact hlt
        · exact hlt.trans (h.1 x hx)

theorem lookup_cons' (p : Str × ℤ) (m : Times) (u : Str) :
    List.lookup u (p :: m) = if u = p.1 then some p.2 else List.lookup u m := by
  obtain ⟨a, b⟩ := p
  rw [List.lookup_cons]
  by_cases h : u = a
  · subst h; simp
  · have h' : (u == a) = false := by simpa using h
    rw [h', if_neg h]

theorem lookup_none {m : Times} {t : Str} : m.lookup t = none ↔ t ∉ m.map Prod.fst := by
  induction m with
  | nil => simp
  | cons p m ih =>
    rw [lookup_cons']
    by_cases h : t = p.1
    · simp [h]
    · rw [if_neg h, ih]; simp [h]

theorem recorded_add {m : Times} (h : Sorted m) (k : Str) (d : ℤ) (x : Str) :
    recorded (m.add k d) x = if x = k then some ((recorded m k).getD 0 + d) else recorded m x := by
  unfold recorded
  induction m with
  | nil =>
    simp only [Times.add]
    rw [lookup_cons']
    simp
  | cons p m ih =>
    obtain ⟨k', t⟩ := p
    unfold Sorted at h
    rw [List.map_cons, List.pairwise_cons] at h
    unfold Times.add
    split
    · rename_i hlt
      rw [lookup_cons', ih h.2, lookup_cons', lookup_cons']
      have hne : k ≠ k' := fun e => absurd hlt (by rw [e]; exact lt_irrefl _)
      by_cases hx : x = k'
      · subst hx
        rw [if_pos rfl, if_neg (fun e => hne e.symm), if_pos rfl]
      · simp only [hx, if_false, hne]
    · rename_i hge
      split
      · rename_i he; subst he
        rw [lookup_cons', lookup_cons', lookup_cons']
        by_cases hx : x = k
        · simp [hx]
        · simp [hx]
      · rename_i hne
        have hlt : k < k' := lt_of_le_of_ne (not_lt.mp hge) hne
        have hnone : List.lookup k ((k', t) :: m) = none := by
          rw [lookup_none]
          intro hmem
          simp only [List.map_cons, List.mem_cons] at hmem
          rcases hmem with rfl | hmem
          · exact lt_irrefl _ hlt
          · exact lt_irrefl _ (hlt.trans (h.1 _ hmem))
        rw [hnone, lookup_cons']
        simp

/-! ## Running programs -/

/-- Record a list of executions below a path. -/
def recordAll (env : List Str) (es : List (List Str × ℤ)) (m : Times) : Times :=
  es.foldl (fun m e => m.add (fullname (env ++ e.1)) (micros e.2)) m

theorem recordAll_append (env : List Str) (a b : List (List Str × ℤ)) (m : Times) :
    recordAll env (a ++ b) m = recordAll env b (recordAll env a m) := by
  unfold recordAll; rw [List.foldl_append]

theorem recordAll_map (env : List Str) (n : Str) (a : List (List Str × ℤ)) (m : Times) :
    recordAll env (a.map fun e => (n :: e.1, e.2)) m = recordAll (env ++ [n]) a m := by
  unfold recordAll
  rw [List.foldl_map]
  simp

theorem exec_eq (p : Prog) : ∀ s : State, exec p s = .ok
    { stack := s.stack, times := recordAll s.stack (executions s.active p) s.times,
      active := onAfter s.active p, clock := s.clock + elapsed p } := by
  induction p with
  | skip => intro s; simp [exec, recordAll, executions, onAfter, elapsed]
  | seq p q ihp ihq =>
    intro s
    simp only [exec, ihp, bind, Except.bind, ihq, executions, onAfter, elapsed, recordAll_append]
    congr 2; ring
  | tick d => intro s; simp [exec, recordAll, executions, onAfter, elapsed]
  | activate => intro s; simp [exec, recordAll, executions, onAfter, elapsed]
  | deactivate => intro s; simp [exec, recordAll, executions, onAfter, elapsed]
  | scope name body ih =>
    intro s
    simp only [exec, start]
    by_cases ha : s.active
    · simp only [ha, if_true, ih, bind, Except.bind, stop, executions, recordAll_append, recordAll_map, onAfter,
        elapsed]
      rw [if_neg (by simp)]
      simp only [List.dropLast_concat, Except.ok.injEq, State.mk.injEq, true_and, and_true]
      unfold recordAll
      simp only [List.foldl_cons, List.foldl_nil, toMicros_eq]
      congr 1
      congr 1
      ring
    · have ha' : s.active = false := by simpa using ha
      simp [ha', ih, bind, Except.bind, stop, executions, onAfter, elapsed]

theorem sorted_recordAll (env : List Str) (es : List (List Str × ℤ)) : ∀ m : Times, Sorted m →
    Sorted (recordAll env es m) := by
  induction es with
  | nil => intro m h; exact h
  | cons e es ih => intro m h; exact ih _ (sorted_add h _ _)

theorem keys_recordAll (env : List Str) (es : List (List Str × ℤ)) (x : Str) : ∀ m : Times,
    x ∈ (recordAll env es m).map Prod.fst ↔ x ∈ m.map Prod.fst ∨ ∃ e ∈ es, fullname (env ++ e.1) = x := by
  induction es with
  | nil => intro m; simp [recordAll]
  | cons e es ih =>
    intro m
    have : recordAll env (e :: es) m = recordAll env es (m.add (fullname (env ++ e.1)) (micros e.2)) := rfl
    rw [this, ih, add_keys]
    simp only [List.mem_cons, exists_eq_or_imp]
    tauto

theorem recorded_recordAll (env : List Str) (es : List (List Str × ℤ)) (x : Str) : ∀ m : Times, Sorted m →
    (recorded (recordAll env es m) x).getD 0 = (recorded m x).getD 0 +
      (es.map fun e => if fullname (env ++ e.1) = x then micros e.2 else 0).sum := by
  induction es with
  | nil => intro m _; simp [recordAll]
  | cons e es ih =>
    intro m h
    have : recordAll env (e :: es) m = recordAll env es (m.add (fullname (env ++ e.1)) (micros e.2)) := rfl
    rw [this, ih _ (sorted_add h _ _), recorded_add h]
    simp only [List.map_cons, List.sum_cons]
    by_cases hx : x = fullname (env ++ e.1)
    · subst hx; simp; ring
    · rw [if_neg hx, if_neg (fun h => hx h.symm)]; ring

/-! ## Paths and names -/

theorem fullname_cons2 (a b : Str) (rest : List Str) : fullname (a :: b :: rest) = a ++ '/' :: fullname (b :: rest) := by
  have key : ∀ (l : List Str) (x y : Str), l.foldl (fun acc s => acc ++ ('/' :: s)) (x ++ y)
      = x ++ l.foldl (fun acc s => acc ++ ('/' :: s)) y := by
    intro l
    induction l with
    | nil => intro x y; rfl
    | cons c l ih => intro x y; simp only [List.foldl_cons, List.append_assoc, ih]
  simp only [fullname, List.foldl_cons]
  have h := key rest (a ++ ['/']) b
  simp only [List.append_assoc, List.singleton_append] at h
  exact h

theorem fullname_eq (l : List Str) : fullname l = pathName l := by
  induction l with
  | nil => rfl
  | cons a l ih =>
    cases l with
    | nil => rfl
    | cons b l => rw [fullname_cons2, ih]; rfl

theorem splitGo_slash (acc a rest : Str) (h : SlashFree a) :
    splitGo acc (a ++ '/' :: rest) = (acc ++ a) :: splitGo [] rest := by
  induction a generalizing acc with
  | nil => simp [splitGo]
  | cons c a ih =>
    unfold SlashFree at h
    simp only [List.mem_cons, not_or] at h
    simp only [List.cons_append, splitGo]
    rw [if_neg (fun e => h.1 e.symm), ih _ h.2]
    simp

theorem splitGo_last (acc a : Str) (h : SlashFree a) : splitGo acc a = [acc ++ a] := by
  induction a generalizing acc with
  | nil => simp [splitGo]
  | cons c a ih =>
    unfold SlashFree at h
    simp only [List.mem_cons, not_or] at h
    simp only [splitGo]
    rw [if_neg (fun e => h.1 e.symm), ih _ h.2]
    simp

theorem split_pathName (l : List Str) (hl : l ≠ []) (h : ∀ s ∈ l, SlashFree s) : split (pathName l) = l := by
  induction l with
  | nil => exact absurd rfl hl
  | cons a l ih =>
    have ha := h a List.mem_cons_self
    cases l with
    | nil => show splitGo [] a = _; rw [splitGo_last _ _ ha]; rfl
    | cons b l =>
      show splitGo [] (a ++ '/' :: pathName (b :: l)) = _
      rw [splitGo_slash _ _ _ ha]
      have := ih (by simp) (fun s hs => h s (List.mem_cons_of_mem _ hs))
      unfold split at this
      rw [this]; rfl

theorem splitGo_spec (s : Str) : ∀ acc, SlashFree acc →
    (∀ x ∈ splitGo acc s, SlashFree x) ∧ splitGo acc s ≠ [] ∧ pathName (splitGo acc s) = acc ++ s := by
  induction s with
  | nil => intro acc h; simp [splitGo, pathName, h]
  | cons c s ih =>
    intro acc h
    simp only [splitGo]
    split
    · rename_i hc
      obtain ⟨h1, h2, h3⟩ := ih [] (by simp [SlashFree])
      refine ⟨?_, by simp, ?_⟩
      · intro x hx
        rcases List.mem_cons.mp hx with rfl | hx
        · exact h
        · exact h1 x hx
      · cases hs : splitGo [] s with
        | nil => exact absurd hs h2
        | cons b l =>
          show acc ++ '/' :: pathName (b :: l) = _
          rw [← hs, h3, hc]; rfl
    · rename_i hc
      obtain ⟨h1, h2, h3⟩ := ih (acc ++ [c]) (by
        unfold SlashFree at *
        simp only [List.mem_append, List.mem_singleton, not_or]
        exact ⟨h, fun e => hc e.symm⟩)
      exact ⟨h1, h2, by rw [h3]; simp⟩

theorem split_spec (s : Str) : (∀ x ∈ split s, SlashFree x) ∧ split s ≠ [] ∧ pathName (split s) = s := by
  obtain ⟨h1, h2, h3⟩ := splitGo_spec s [] (by simp [SlashFree])
  exact ⟨h1, h2, h3⟩

theorem pathName_snoc (l : List Str) (a : Str) (hl : l ≠ []) : pathName (l ++ [a]) = pathName l ++ '/' :: a := by
  induction l with
  | nil => exact absurd rfl hl
  | cons b l ih =>
    cases l with
    | nil => rfl
    | cons c l =>
      show b ++ '/' :: pathName ((c :: l) ++ [a]) = (b ++ '/' :: pathName (c :: l)) ++ '/' :: a
      rw [ih (by simp)]; simp

theorem splitGo_len_append (a b : Str) (acc : Str) :
    (splitGo acc (a ++ '/' :: b)).length = (splitGo acc a).length + (splitGo [] b).length := by
  induction a generalizing acc with
  | nil => simp [splitGo]; omega
  | cons c a ih =>
    simp only [List.cons_append, splitGo]
    split
    · simp only [List.length_cons, ih]; omega
    · exact ih _

/-- With characters that sort after `/`, everything between a path and one of its extensions extends it. -/
theorem between (p c m : Str) (hm : ∀ x ∈ m, '/' ≤ x) (h1 : p < m) (h2 : m < p ++ '/' :: c) :
    ∃ r, m = p ++ '/' :: r := by
  induction p generalizing m with
  | nil =>
    cases m with
    | nil => exact absurd h1 (lt_irrefl _)
    | cons a r =>
      have ha := hm a List.mem_cons_self
      rw [List.nil_append, List.cons_lt_cons_iff] at h2
      rcases h2 with h2 | ⟨h2, _⟩
      · exact absurd h2 (not_lt.mpr ha)
      · exact ⟨r, by rw [h2]; rfl⟩
  | cons x p ih =>
    cases m with
    | nil => exact absurd h1 (by simp)
    | cons y m =>
      rw [List.cons_lt_cons_iff] at h1
      rw [List.cons_append, List.cons_lt_cons_iff] at h2
      rcases h1 with h1 | ⟨rfl, h1⟩
      · rcases h2 with h2 | ⟨h2, _⟩
        · exact absurd (h1.trans h2) (lt_irrefl _)
        · rw [h2] at h1; exact absurd h1 (lt_irrefl _)
      · rcases h2 with h2 | ⟨_, h2⟩
        · exact absurd h2 (lt_irrefl _)
        · obtain ⟨r, hr⟩ := ih m (fun z hz => hm z (List.mem_cons_of_mem _ hz)) h1 h2
          exact ⟨r, by rw [hr]; rfl⟩

/-! ## Building the tree -/

/-- Number of components of a key. -/
def level (kv : Str × ℤ) : ℕ := (split kv.1).length

theorem level_pos (kv : Str × ℤ) : 0 < level kv := List.length_pos_iff.mpr (split_spec kv.1).2.1

/-- `o` is the position (in the vector of entries, where the total comes first) of the last key of level `L`. -/
def IsLast (pre : Times) (L : ℕ) : Option ℕ → Prop
  | none => L ≠ 0 ∧ ∀ kv ∈ pre, level kv ≠ L
  | some 0 => L = 0
  | some (i + 1) => L ≠ 0 ∧ ∃ kv, pre[i]? = some kv ∧ level kv = L ∧ ∀ j kv', i < j → pre[j]? = some kv' → level kv' ≠ L

/-- Sum of the top-level times. -/
def topTotal (pre : Times) : ℤ := (pre.map fun kv => if level kv = 1 then kv.2 else 0).sum

structure InvBuild (pre : Times) (b : Build) : Prop where
  len : b.entries.length = pre.length + 1
  top : ∃ e, b.entries[0]? = some e ∧ e.time = topTotal pre ∧ e.parent = none
  entry : ∀ i kv, pre[i]? = some kv → ∃ e, b.entries[i + 1]? = some e ∧ e.name = split kv.1 ∧ e.time = kv.2 ∧
    IsLast (pre.take i) (level kv - 1) e.parent
  parents : ∀ L, IsLast pre L (b.parents[L]?).join
  plen : 0 < b.parents.length

theorem inv_init : InvBuild [] Build.init where
  len := rfl
  top := ⟨_, rfl, rfl, rfl⟩
  entry i kv h := by simp at h
  parents L := by
    cases L with
    | zero => rfl
    | succ L => simp [Build.init, IsLast]
  plen := by simp [Build.init]

theorem addTotal_get (t : ℤ) (es : List PEntry) (i : ℕ) :
    (addTotal t es)[i]? = if i = 0 then es[0]?.map (fun e => { e with time := e.time + t }) else es[i]? := by
  cases es with
  | nil => simp [addTotal]
  | cons e es => cases i <;> simp [addTotal]

theorem addTotal_length (t : ℤ) (es : List PEntry) : (addTotal t es).length = es.length := by
  cases es <;> rfl

theorem inv_step {pre : Times} {b : Build} (h : InvBuild pre b) (kv : Str × ℤ) :
    InvBuild (pre ++ [kv]) (b.step kv) := by
  have hl := level_pos kv
  -- the vector of parents after the resize
  obtain ⟨p1, hp1⟩ : ∃ p1, p1 = (if level kv ≥ b.parents.length then
      b.parents ++ List.replicate (level kv + 1 - b.parents.length) none else b.parents) := ⟨_, rfl⟩
  have hp1len : level kv < p1.length ∧ b.parents.length ≤ p1.length := by
    rw [hp1]; split
    · simp; omega
    · omega
  have hp1get : ∀ L : ℕ, (p1[L]?).join = (b.parents[L]?).join := by
    intro L
    rw [hp1]; split
    · by_cases hL : L < b.parents.length
      · rw [List.getElem?_append_left hL]
      · rw [List.getElem?_append_right (by omega), List.getElem?_eq_none (l := b.parents) (by omega)]
        rw [List.getElem?_replicate]
        split <;> rfl
    · rfl
  have hstep : b.step kv = Build.mk
      (if level kv = 1 then addTotal kv.2 (b.entries ++
          [PEntry.mk (split kv.1) kv.2 ((p1.set (level kv) (some b.entries.length))[level kv - 1]?).join])
        else (b.entries ++
          [PEntry.mk (split kv.1) kv.2 ((p1.set (level kv) (some b.entries.length))[level kv - 1]?).join]))
      (p1.set (level kv) (some b.entries.length)) := by
    rw [hp1]; rfl
  have hpar : ((p1.set (level kv) (some b.entries.length))[level kv - 1]?).join = (b.parents[level kv - 1]?).join := by
    rw [List.getElem?_set_ne (by omega), hp1get]
  rw [hpar] at hstep
  obtain ⟨e0, he0, ht0, hn0⟩ := h.top
  have hget : ∀ i, i ≠ 0 → (b.step kv).entries[i]? =
      (b.entries ++ [⟨split kv.1, kv.2, (b.parents[level kv - 1]?).join⟩])[i]? := by
    intro i hi
    rw [hstep]
    dsimp only
    split
    · rw [addTotal_get, if_neg hi]
    · rfl
  constructor
  · rw [hstep]
    dsimp only
    split
    · rw [addTotal_length]; simp [h.len]
    · simp [h.len]
  · rw [hstep]
    dsimp only
    have hz : (b.entries ++ [(⟨split kv.1, kv.2, (b.parents[level kv - 1]?).join⟩ : PEntry)])[0]? = some e0 := by
      rw [List.getElem?_append_left (by rw [h.len]; omega), he0]
    split
    · rename_i h1
      refine ⟨{ e0 with time := e0.time + kv.2 }, by rw [addTotal_get, if_pos rfl, hz]; rfl, ?_, hn0⟩
      simp [topTotal, h1, ht0]
    · rename_i h1
      exact ⟨e0, hz, by simp [topTotal, h1, ht0], hn0⟩
  · intro i kv' hi
    rw [hget (i + 1) (by omega)]
    by_cases hlt : i < pre.length
    · rw [List.getElem?_append_left hlt] at hi
      obtain ⟨e, h1, h2, h3, h4⟩ := h.entry i kv' hi
      refine ⟨e, ?_, h2, h3, ?_⟩
      · rw [List.getElem?_append_left (by rw [h.len]; omega), h1]
      · rw [List.take_append_of_le_length (by omega)]; exact h4
    · have hi' : i = pre.length := by
        by_contra hne
        rw [List.getElem?_eq_none (by simp; omega)] at hi
        cases hi
      subst hi'
      rw [List.getElem?_concat_length] at hi
      cases hi
      refine ⟨⟨split kv.1, kv.2, (b.parents[level kv - 1]?).join⟩, ?_, rfl, rfl, ?_⟩
      · rw [← h.len, List.getElem?_concat_length]
      · rw [List.take_append_of_le_length (Nat.le_refl _), List.take_length]
        exact h.parents _
  · intro L
    rw [hstep]
    dsimp only
    by_cases hL : L = level kv
    · subst hL
      rw [List.getElem?_set_self hp1len.1, h.len]
      refine ⟨by omega, kv, by simp, rfl, ?_⟩
      intro j kv' hj hkv'
      rw [List.getElem?_eq_none (by simp; omega)] at hkv'
      cases hkv'
    · rw [List.getElem?_set_ne (fun e => hL e.symm), hp1get]
      have := h.parents L
      revert this
      cases (b.parents[L]?).join with
      | none =>
        rintro ⟨h1, h2⟩
        refine ⟨h1, ?_⟩
        intro kv' hm
        rcases List.mem_append.mp hm with hm | hm
        · exact h2 kv' hm
        · rw [List.mem_singleton.mp hm]; exact fun e => hL e.symm
      | some i =>
        cases i with
        | zero => exact id
        | succ i =>
          rintro ⟨h0, kv', h1, h2, h3⟩
          have hi : i < pre.length := by
            by_contra hge
            rw [List.getElem?_eq_none (by omega)] at h1; cases h1
          refine ⟨h0, kv', by rw [List.getElem?_append_left hi, h1], h2, ?_⟩
          intro j kv'' hj hk
          by_cases hjl : j < pre.length
          · rw [List.getElem?_append_left hjl] at hk; exact h3 j kv'' hj hk
          · rw [List.getElem?_append_right (by omega)] at hk
            cases hjj : j - pre.length with
            | zero => rw [hjj] at hk; cases hk; exact fun e => hL e.symm
            | succ n => rw [hjj] at hk; simp at hk
  · rw [hstep]; simp; omega

theorem inv_build (times : Times) : InvBuild times (times.foldl Build.step Build.init) := by
  induction times using List.reverseRecOn with
  | nil => exact inv_init
  | append_singleton pre kv ih => rw [List.foldl_append]; exact inv_step ih kv

end Altro.Proofs.Timer
