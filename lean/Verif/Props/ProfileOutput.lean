import Verif.Spec.ProfileOutput
import Mathlib.Data.List.Count
import Mathlib.Tactic.Linarith
import Mathlib.Data.Nat.Digits.Defs
import Mathlib.Tactic.Zify

/-!
# C89: the profiler closes the files it opened and only those; C90: the profile summary is printed once, in aligned columns
-/

namespace Altro.Props
open Altro.Profile Altro.Spec.Profile

/-- What the settings so far say about the state. -/
structure OutInv (l : List Bool) (s : Out) : Prop where
  count : s.files.countP (fun e => decide (e.1 = Owner.timer)) = l.count true
  opened : ∀ e ∈ s.files, e.1 = .timer → e.2 = true
  using_ : s.usingFile = decide (true ∈ l)
  named : l.getLast? = some true → s.files[s.io]? = some (.timer, true)
  given : l.getLast? ≠ some true → ∃ b, s.files[s.io]? = some (.user, b)

theorem outInv_start : OutInv [] {} :=
  ⟨by decide, by decide, by decide, by decide, fun _ => ⟨true, rfl⟩⟩

theorem getElem?_append_some {α : Type*} {l : List α} {i : ℕ} {a b : α} (h : l[i]? = some a) : (l ++ [b])[i]? = some a := by
  have hi : i < l.length := (List.getElem?_eq_some_iff.mp h).1
  rw [List.getElem?_append_left hi, h]

theorem outInv_step {l : List Bool} {s s' : Out} (o : Op) (h : OutInv l s) (e : step s o = .ok s') : OutInv (l ++ settings [o]) s' := by
  cases o with
  | userOpen =>
    cases e
    refine ⟨by simpa [settings] using h.count, ?_, by simpa [settings] using h.using_, ?_, ?_⟩
    · intro e he ht
      rcases List.mem_append.mp he with he | he
      · exact h.opened e he ht
      · rw [List.mem_singleton] at he; subst he; rfl
    · intro hl
      exact getElem?_append_some (h.named (by simpa [settings] using hl))
    · intro hl
      obtain ⟨b, hb⟩ := h.given (by simpa [settings] using hl)
      exact ⟨b, getElem?_append_some hb⟩
  | userClose k =>
    simp only [step] at e
    split at e
    · rename_i hk
      cases e
      have hlt : k < s.files.length := (List.getElem?_eq_some_iff.mp hk).1
      have hg : s.files[k] = (.user, true) := (List.getElem?_eq_some_iff.mp hk).2
      refine ⟨?_, ?_, by simpa [settings] using h.using_, ?_, ?_⟩
      · show (s.files.set k (.user, false)).countP _ = _
        rw [List.countP_set hlt, hg]
        simpa [settings] using h.count
      · intro e he ht
        rcases List.mem_or_eq_of_mem_set he with he | he
        · exact h.opened e he ht
        · rw [he] at ht; cases ht
      · intro hl
        have hn := h.named (by simpa [settings] using hl)
        show (s.files.set k (.user, false))[s.io]? = _
        rw [List.getElem?_set]
        split
        · rename_i hki; rw [hki, hn] at hk; cases hk
        · exact hn
      · intro hl
        obtain ⟨b, hb⟩ := h.given (by simpa [settings] using hl)
        show ∃ b, (s.files.set k (.user, false))[s.io]? = _
        rw [List.getElem?_set]
        split
        · exact ⟨false, rfl⟩
        · exact ⟨b, hb⟩
    · cases e
  | setFile k =>
    simp only [step] at e
    split at e
    · rename_i hk
      cases e
      refine ⟨by simpa [settings, setFile] using h.count, h.opened, by simpa [settings, setFile] using h.using_, ?_, fun _ => ⟨true, hk⟩⟩
      intro hl
      simp [settings] at hl
    · cases e
  | setName ok =>
    cases ok with
    | false => cases e
    | true =>
      cases e
      refine ⟨?_, ?_, by simp [settings], ?_, ?_⟩
      · have := h.count
        simp only [settings, List.count_append, ← this]
        show (s.files ++ [(Owner.timer, true)]).countP _ = _
        rw [List.countP_append]
        rfl
      · intro e he ht
        rcases List.mem_append.mp he with he | he
        · exact h.opened e he ht
        · rw [List.mem_singleton] at he; subst he; rfl
      · intro _
        show (s.files ++ [(Owner.timer, true)])[s.files.length]? = _
        simp
      · intro hl
        simp [settings] at hl
  | print =>
    have e : Profile.print s = .ok s' := e
    unfold Profile.print at e
    split at e
    · cases e
      exact ⟨by simpa [settings] using h.count, h.opened, by simpa [settings] using h.using_,
        fun hl => h.named (by simpa [settings] using hl), fun hl => h.given (by simpa [settings] using hl)⟩
    · cases e
  | activate =>
    cases e
    exact ⟨by simpa [settings] using h.count, h.opened, by simpa [settings] using h.using_,
      fun hl => h.named (by simpa [settings] using hl), fun hl => h.given (by simpa [settings] using hl)⟩
  | deactivate =>
    cases e
    exact ⟨by simpa [settings] using h.count, h.opened, by simpa [settings] using h.using_,
      fun hl => h.named (by simpa [settings] using hl), fun hl => h.given (by simpa [settings] using hl)⟩

theorem settings_cons (o : Op) (os : List Op) : settings (o :: os) = settings [o] ++ settings os := by
  cases o with
  | setName ok => cases ok <;> rfl
  | _ => rfl

theorem settings_thrown {s : Out} {o : Op} (e : step s o = .error .thrown) : settings [o] = [] := by
  cases o with
  | setFile k => simp only [step] at e; split at e <;> cases e
  | setName ok => cases ok with
    | false => rfl
    | true => cases e
  | _ => rfl

theorem outInv_run : ∀ (os : List Op) {l : List Bool} {s s' : Out}, OutInv l s → run os s = .ok s' → OutInv (l ++ settings os) s'
  | [], l, s, s', h, e => by cases e; simpa [settings] using h
  | o :: os, l, s, s', h, e => by
    unfold run at e
    rw [settings_cons, ← List.append_assoc]
    split at e
    · rename_i s1 h1
      exact outInv_run os (outInv_step o h h1) e
    · rename_i h1
      rw [settings_thrown h1, List.append_nil]
      exact outInv_run os h e
    · cases e

theorem print_files {s s' : Out} (e : Profile.print s = .ok s') : s'.files = s.files ∧ s'.io = s.io ∧ s'.usingFile = s.usingFile := by
  unfold Profile.print at e
  split at e
  · cases e; exact ⟨rfl, rfl, rfl⟩
  · cases e

theorem destroy_files {s s' : Out} (e : destroy s = .ok s') :
    (s.usingFile = false ∧ s'.files = s.files) ∨
    (s.usingFile = true ∧ ∃ o, s.files[s.io]? = some (o, true) ∧ s'.files = s.files.set s.io (o, false)) := by
  unfold destroy at e
  have key : ∀ s1 : Out, s1.files = s.files → s1.io = s.io → s1.usingFile = s.usingFile →
      (if s1.usingFile then (do let files ← close s1.files s1.io; .ok { s1 with files := files }) else .ok s1 : Except Err Out) = .ok s' →
      (s.usingFile = false ∧ s'.files = s.files) ∨
      (s.usingFile = true ∧ ∃ o, s.files[s.io]? = some (o, true) ∧ s'.files = s.files.set s.io (o, false)) := by
    intro s1 h1 h2 h3 h4
    split at h4
    · rename_i hu
      rw [h3] at hu
      refine .inr ⟨hu, ?_⟩
      unfold close at h4
      rw [h1, h2] at h4
      split at h4
      · rename_i o ho
        cases h4
        exact ⟨o, ho, rfl⟩
      · cases h4
    · rename_i hu
      cases h4
      rw [h3] at hu
      exact .inl ⟨by simpa using hu, h1⟩
  by_cases hp : (!s.printed && s.active) = true
  · rw [if_pos hp] at e
    match e1 : Profile.print s with
    | .ok s1 =>
      rw [e1] at e
      obtain ⟨h1, h2, h3⟩ := print_files e1
      exact key s1 h1 h2 h3 e
    | .error _ => rw [e1] at e; cases e
  · rw [if_neg hp] at e
    exact key s rfl rfl rfl e

theorem destroy_ok {s : Out} {o : Owner} (h : s.files[s.io]? = some (o, true)) : ∃ s', destroy s = .ok s' ∧
    s'.files = (if s.usingFile then s.files.set s.io (o, false) else s.files) ∧
    s'.log = if !s.printed && s.active then s.io :: s.log else s.log := by
  obtain ⟨files, io, us, pr, ac, log⟩ := s
  have h : files[io]? = some (o, true) := h
  cases us <;> cases pr <;> cases ac <;> simp [destroy, Profile.print, close, h, bind, Except.bind]

/-- Exactly when the files end up right: the timer opened no file, or it opened one and that was the last change of the output. -/
theorem C89_right_iff (os : List Op) {s s' : Out} (h : run os {} = .ok s) (hd : destroy s = .ok s') :
    Right s.files s'.files ↔ (settings os).count true = 0 ∨ ((settings os).count true = 1 ∧ (settings os).getLast? = some true) := by
  have I : OutInv (settings os) s := by simpa using outInv_run os outInv_start h
  rcases destroy_files hd with ⟨hu, hf⟩ | ⟨hu, o, ho, hf⟩
  · have hn : true ∉ settings os := by rw [I.using_] at hu; simpa using hu
    have h0 : (settings os).count true = 0 := List.count_eq_zero.mpr hn
    refine ⟨fun _ => .inl h0, fun _ => ⟨fun k b hk => ?_, fun k hk => by rw [hf]; exact hk⟩⟩
    rw [hf] at hk
    have hc := I.count
    rw [h0, List.countP_eq_zero] at hc
    exact absurd (decide_eq_true rfl) (hc _ (List.mem_of_getElem? hk))
  · have hm : true ∈ settings os := by rw [I.using_] at hu; simpa using hu
    have h1 : 0 < (settings os).count true := List.count_pos_iff.mpr hm
    have hlt : s.io < s.files.length := (List.getElem?_eq_some_iff.mp ho).1
    have hg : s.files[s.io] = (o, true) := (List.getElem?_eq_some_iff.mp ho).2
    by_cases hl : (settings os).getLast? = some true
    · have hn := I.named hl
      rw [ho] at hn
      cases hn
      have hcnt : (s'.files.countP fun e => decide (e.1 = Owner.timer ∧ e.2 = true)) = (settings os).count true - 1 := by
        have : (s.files.countP fun e => decide (e.1 = Owner.timer ∧ e.2 = true)) = (settings os).count true := by
          rw [← I.count]
          refine List.countP_congr fun e he => ?_
          simp only [decide_eq_true_eq]
          exact ⟨And.left, fun h => ⟨h, I.opened e he h⟩⟩
        rw [hf, List.countP_set hlt, hg, this]
        simp
      constructor
      · intro hR
        refine .inr ⟨?_, hl⟩
        have h0 : (s'.files.countP fun e => decide (e.1 = Owner.timer ∧ e.2 = true)) = 0 := by
          rw [List.countP_eq_zero]
          intro e he
          obtain ⟨k, hk⟩ := List.mem_iff_getElem?.mp he
          intro hc
          obtain ⟨c1, c2⟩ : e.1 = Owner.timer ∧ e.2 = true := by simpa using hc
          have := hR.own k e.2 (by rw [hk, ← c1])
          rw [c2] at this; cases this
        rw [hcnt] at h0
        exact le_antisymm (Nat.sub_eq_zero_iff_le.mp h0) h1
      · intro hR
        have hone : (settings os).count true = 1 := hR.elim (fun h => by rw [h] at h1; exact absurd h1 (lt_irrefl 0)) And.left
        rw [hone] at hcnt
        rw [Nat.sub_self, List.countP_eq_zero] at hcnt
        refine ⟨fun k b hk => ?_, fun k hk => ?_⟩
        · have := hcnt _ (List.mem_of_getElem? hk)
          cases b
          · rfl
          · simp at this
        · rw [hf, List.getElem?_set]
          split
          · rename_i e; rw [← e, ho] at hk; cases hk
          · exact hk
    · obtain ⟨b, hb⟩ := I.given hl
      rw [ho] at hb
      cases hb
      constructor
      · intro hR
        have := hR.others s.io ho
        rw [hf, List.getElem?_set_self hlt] at this
        cases this
      · rintro (h | ⟨_, h⟩)
        · rw [h] at h1; exact absurd h1 (lt_irrefl 0)
        · exact absurd h hl

/-- Used as intended (one file, given by name, and nothing after it): the destructor closes that file and the program's files stay open. -/
theorem C89_once_partial (os : List Op) {s s' : Out} (h : run (os ++ [.setName true]) {} = .ok s) (h1 : (settings os).count true = 0)
    (hd : destroy s = .ok s') : Right s.files s'.files := by
  have happ : ∀ a b : List Op, settings (a ++ b) = settings a ++ settings b := by
    intro a b
    induction a with
    | nil => rfl
    | cons o a ih => rw [List.cons_append, settings_cons, ih, ← List.append_assoc, ← settings_cons]
  refine (C89_right_iff _ h hd).mpr (.inr ?_)
  rw [happ]
  simp [settings, List.count_append, h1]

/-- With a file and then the standard output, the destructor closes the standard output and the file stays open. -/
theorem C89_stdout_counterexample : ∃ s s', run [.setName true, .setFile 0] {} = .ok s ∧ destroy s = .ok s' ∧ s'.files[0]? = some (.user, false) ∧
    s'.files[1]? = some (.timer, true) := ⟨_, _, rfl, rfl, rfl, rfl⟩

example : ∃ s s', run [.userOpen, .activate, .setFile 1, .setName false, .setName true] {} = .ok s ∧ destroy s = .ok s' ∧
    Right s.files s'.files ∧ s'.log = [2] :=
  ⟨_, _, rfl, rfl, C89_once_partial [.userOpen, .activate, .setFile 1, .setName false] rfl rfl rfl, rfl⟩

/-! ## One solver, several solves -/

theorem solveOutput_file {limit : ℕ} {s : Out} {e : Bool} (h : (s.files.filter (·.2)).length < limit) :
    solveOutput limit s e true =
      .ok { s with active := e, files := s.files ++ [(.timer, true)], io := s.files.length, usingFile := true } := by
  simp [solveOutput, outputToFile, setName, h, setFile]

theorem solves_file (limit : ℕ) (e : Bool) : ∀ (k j : ℕ) (s : Out), s.files = (.user, true) :: List.replicate j (.timer, true) → j + k < limit →
    ∃ s', solves limit (List.replicate k (e, true)) s = .ok s' ∧ s'.files = (.user, true) :: List.replicate (j + k) (.timer, true) ∧
      s'.log = s.log ∧ s'.printed = s.printed ∧ (k ≠ 0 → s'.io = j + k ∧ s'.usingFile = true ∧ s'.active = e)
  | 0, j, s, hs, _ => ⟨s, rfl, hs, rfl, rfl, fun h => absurd rfl h⟩
  | k + 1, j, s, hs, hl => by
    have h1 : (s.files.filter (·.2)).length < limit := by
      rw [hs]; simp; omega
    have h2 : s.files ++ [(Owner.timer, true)] = (.user, true) :: List.replicate (j + 1) (.timer, true) := by
      rw [hs, List.cons_append, ← List.replicate_succ']
    obtain ⟨s', c1, c2, c3, c4, c5⟩ := solves_file limit e k (j + 1)
      { s with active := e, files := s.files ++ [(.timer, true)], io := s.files.length, usingFile := true } h2 (by omega)
    refine ⟨s', ?_, by rw [c2]; congr 2; omega, c3, c4, fun _ => ?_⟩
    · rw [List.replicate_succ, solves, solveOutput_file h1]
      exact c1
    · by_cases hk : k = 0
      · subst hk
        cases c1
        exact ⟨by show s.files.length = _; rw [hs]; simp, rfl, rfl⟩
      · obtain ⟨d1, d2, d3⟩ := c5 hk
        exact ⟨by omega, d2, d3⟩

/-- Every solve with output to a file opens the file again: after `k + 1` solves, and the end of the timer, `k` files are still open. -/
theorem C89_leak_counterexample (limit k : ℕ) (e : Bool) (hk : k + 1 < limit) :
    ∃ s s', solves limit (List.replicate (k + 1) (e, true)) {} = .ok s ∧ destroy s = .ok s' ∧
      s'.files = (.user, true) :: (List.replicate k (.timer, true) ++ [(.timer, false)]) := by
  obtain ⟨s, c1, c2, c3, c4, c5⟩ := solves_file limit e (k + 1) 0 {} rfl (by omega)
  obtain ⟨d1, d2, d3⟩ := c5 (by omega)
  have hg : s.files[s.io]? = some (.timer, true) := by
    rw [c2, d1, Nat.zero_add, List.getElem?_cons_succ, List.getElem?_replicate, if_pos (Nat.lt_succ_self k)]
  have hset : s.files.set s.io (.timer, false) = (.user, true) :: (List.replicate k (.timer, true) ++ [(.timer, false)]) := by
    rw [c2, d1, Nat.zero_add, List.set_cons_succ, List.replicate_succ', List.set_append_right _ _ (by simp)]
    simp
  obtain ⟨s', e1, e2, -⟩ := destroy_ok hg
  exact ⟨s, s', c1, e1, by rw [e2, if_pos d2, hset]⟩

/-- So the solves exhaust the files a process may have open, and `Solve` throws. -/
theorem C89_exhaust_counterexample (limit : ℕ) (e : Bool) (hl : limit ≠ 0) :
    solves limit (List.replicate limit (e, true)) {} = .error .thrown := by
  obtain ⟨k, rfl⟩ := Nat.exists_eq_succ_of_ne_zero hl
  have happ : ∀ (a b : List (Bool × Bool)) (s : Out), solves (k + 1) (a ++ b) s = (solves (k + 1) a s).bind (solves (k + 1) b) := by
    intro a
    induction a with
    | nil => intro b s; rfl
    | cons x a ih =>
      intro b s
      obtain ⟨x1, x2⟩ := x
      rw [List.cons_append, solves, solves]
      cases solveOutput (k + 1) s x1 x2 with
      | ok s1 => exact ih b s1
      | error _ => rfl
  obtain ⟨s, c1, c2, -⟩ := solves_file (k + 1) e k 0 {} rfl (by omega)
  rw [List.replicate_succ', happ, c1]
  have hlen : (s.files.filter (·.2)).length = k + 1 := by rw [c2]; simp
  have h0 : solveOutput (k + 1) s e true = .error .thrown := by
    simp [solveOutput, outputToFile, setName, hlen]
  show solves (k + 1) [(e, true)] s = _
  rw [solves, h0]
  rfl

/-- The program that a list of solves amounts to. -/
def solveOps : List (Bool × Bool) → List Op
  | [] => []
  | (e, f) :: l => (if e then .activate else .deactivate) :: (if f then .setName true else .setFile 0) :: solveOps l

theorem solves_run (limit : ℕ) : ∀ (l : List (Bool × Bool)) {s s' : Out}, s.files[0]? = some (.user, true) → solves limit l s = .ok s' →
    run (solveOps l) s = .ok s'
  | [], s, s', _, h => h
  | (e, f) :: l, s, s', h0, h => by
    rw [solves] at h
    match h1 : solveOutput limit s e f with
    | .error _ => rw [h1] at h; cases h
    | .ok s1 =>
      rw [h1] at h
      have hs1 : s1.files[0]? = some (.user, true) ∧ run (solveOps ((e, f) :: l)) s = run (solveOps l) s1 := by
        cases f
        · simp only [solveOutput, outputToFile] at h1
          cases h1
          refine ⟨h0, ?_⟩
          cases e <;> simp [solveOps, run, step, h0, setFile]
        · simp only [solveOutput, outputToFile, if_true, setName] at h1
          split at h1
          · cases h1
            refine ⟨getElem?_append_some h0, ?_⟩
            cases e <;> simp [solveOps, run, step, setName, setFile]
          · cases h1
      rw [hs1.2]
      exact solves_run limit l hs1.1 h

theorem solveOps_settings : ∀ l : List (Bool × Bool), settings (solveOps l) = l.map (·.2)
  | [] => rfl
  | (e, f) :: l => by
    cases e <;> cases f <;> simp [solveOps, settings, solveOps_settings l]

/-- The solves that keep the files right are those with output to a file in no solve, or only in the last. -/
theorem C89_solver (limit : ℕ) (l : List (Bool × Bool)) {s s' : Out} (h : solves limit l {} = .ok s) (hd : destroy s = .ok s') :
    Right s.files s'.files ↔ (l.map (·.2)).count true = 0 ∨ ((l.map (·.2)).count true = 1 ∧ (l.map (·.2)).getLast? = some true) := by
  rw [← solveOps_settings]
  exact C89_right_iff _ (solves_run limit l rfl h) hd

example : ∃ s s', solves 8 [(true, false), (true, true)] {} = .ok s ∧ destroy s = .ok s' ∧ Right s.files s'.files :=
  ⟨_, _, rfl, rfl, (C89_solver 8 [(true, false), (true, true)] rfl rfl).mpr (by decide)⟩

/-! ## C90: how often the summary is printed -/

/-- What a program says about the printing so far. -/
structure PrintInv (p : ℕ) (on : Bool) (s : Out) : Prop where
  log : s.log.length = p
  printed : s.printed = decide (p ≠ 0)
  active : s.active = on

theorem printInv_step {p : ℕ} {on : Bool} {s s' : Out} (o : Op) (h : PrintInv p on s) (e : step s o = .ok s') :
    PrintInv (p + prints [o]) (activeAfter on [o]) s' := by
  cases o with
  | userOpen => cases e; exact ⟨h.log, h.printed, h.active⟩
  | userClose k =>
    simp only [step] at e
    split at e
    · cases e; exact ⟨h.log, h.printed, h.active⟩
    · cases e
  | setFile k =>
    simp only [step] at e
    split at e
    · cases e; exact ⟨h.log, h.printed, h.active⟩
    · cases e
  | setName ok =>
    cases ok with
    | false => cases e
    | true => cases e; exact ⟨h.log, h.printed, h.active⟩
  | print =>
    have e : Profile.print s = .ok s' := e
    unfold Profile.print at e
    split at e
    · cases e
      exact ⟨congrArg (· + 1) h.log, by simp [prints], h.active⟩
    · cases e
  | activate => cases e; exact ⟨h.log, h.printed, rfl⟩
  | deactivate => cases e; exact ⟨h.log, h.printed, rfl⟩

theorem prints_cons (o : Op) (os : List Op) : prints (o :: os) = prints [o] + prints os := by
  cases o with
  | print => show prints os + 1 = 1 + prints os; omega
  | _ => show prints os = 0 + prints os; omega

theorem activeAfter_cons (on : Bool) (o : Op) (os : List Op) : activeAfter on (o :: os) = activeAfter (activeAfter on [o]) os := by
  cases o <;> rfl

theorem print_thrown {s : Out} {o : Op} (on : Bool) (e : step s o = .error .thrown) : prints [o] = 0 ∧ activeAfter on [o] = on := by
  cases o with
  | setName ok => exact ⟨rfl, rfl⟩
  | setFile k => exact ⟨rfl, rfl⟩
  | userClose k => exact ⟨rfl, rfl⟩
  | userOpen => exact ⟨rfl, rfl⟩
  | print =>
    have e : Profile.print s = .error .thrown := e
    unfold Profile.print at e
    split at e <;> cases e
  | activate => cases e
  | deactivate => cases e

theorem printInv_run : ∀ (os : List Op) {p : ℕ} {on : Bool} {s s' : Out}, PrintInv p on s → run os s = .ok s' →
    PrintInv (p + prints os) (activeAfter on os) s'
  | [], p, on, s, s', h, e => by cases e; exact h
  | o :: os, p, on, s, s', h, e => by
    unfold run at e
    rw [prints_cons, activeAfter_cons, ← Nat.add_assoc]
    split at e
    · rename_i s1 h1
      exact printInv_run os (printInv_step o h h1) e
    · rename_i h1
      obtain ⟨h2, h3⟩ := print_thrown on h1
      rw [h2, h3]
      exact printInv_run os h e
    · cases e

theorem destroy_log {s s' : Out} (e : destroy s = .ok s') : s'.log = if !s.printed && s.active then s.io :: s.log else s.log := by
  obtain ⟨files, io, us, pr, ac, log⟩ := s
  have hc : (∃ o, files[io]? = some (o, true)) ∨ ¬∃ o, files[io]? = some (o, true) := em _
  rcases hc with ⟨o, ho⟩ | hc
  · obtain ⟨s1, h1, -, h2⟩ := destroy_ok (s := ⟨files, io, us, pr, ac, log⟩) ho
    rw [h1] at e
    cases e
    exact h2
  · have hp : ∀ s : Out, s.files = files → s.io = io → Profile.print s = .error .undefined := by
      intro s h1 h2
      unfold Profile.print
      rw [h1, h2]
      split
      · rename_i o ho; exact absurd ⟨o, ho⟩ hc
      · rfl
    have hcl : close files io = .error .undefined := by
      unfold close
      split
      · rename_i o ho; exact absurd ⟨o, ho⟩ hc
      · rfl
    cases us <;> cases pr <;> cases ac <;> simp [destroy, hp, hcl, bind, Except.bind] at e <;> subst e <;> rfl

/-- The number of summaries: the explicit ones, or one by the destructor if there was none and the timer is active then. -/
theorem C90_count (os : List Op) {s s' : Out} (h : run os {} = .ok s) (hd : destroy s = .ok s') :
    s'.log.length = if prints os = 0 ∧ activeAfter false os = true then 1 else prints os := by
  have I := printInv_run os (p := 0) (on := false) (s := {}) ⟨rfl, rfl, rfl⟩ h
  rw [Nat.zero_add] at I
  rw [destroy_log hd, I.printed, I.active]
  by_cases h0 : prints os = 0
  · cases h1 : activeAfter false os
    · simp [h0, I.log]
    · simp [h0, I.log]
  · simp [h0, I.log]

/-- A summary that was not printed before is printed when the timer is destroyed, if it is still active. -/
theorem C90_printed_partial (os : List Op) {s s' : Out} (h : run os {} = .ok s) (hd : destroy s = .ok s') (ha : activeAfter false os = true) :
    1 ≤ s'.log.length := by
  rw [C90_count os h hd]
  split
  · exact le_rfl
  · rename_i hn
    exact Nat.one_le_iff_ne_zero.mpr fun h0 => hn ⟨h0, ha⟩

/-- If it was deactivated it is never printed, although there may be times recorded while it was active. -/
theorem C90_inactive_counterexample : ∃ s s', run [.activate, .deactivate] {} = .ok s ∧ destroy s = .ok s' ∧ s'.log = [] := ⟨_, _, rfl, rfl, rfl⟩

theorem solveOps_prints : ∀ (l : List (Bool × Bool)) (on : Bool), prints (solveOps l) = 0 ∧ activeAfter on (solveOps l) = (l.map (·.1)).getLast?.getD on
  | [], on => ⟨rfl, rfl⟩
  | (e, f) :: l, on => by
    obtain ⟨h1, h2⟩ := solveOps_prints l e
    have h3 : ((e :: l.map (·.1)).getLast?).getD on = (l.map (·.1)).getLast?.getD e := by
      rw [List.getLast?_cons]; rfl
    cases e <;> cases f <;> exact ⟨h1, h2.trans h3.symm⟩

/-- A solver prints one summary at its end if the profiler is enabled in the last solve, else none. -/
theorem C90_solver (limit : ℕ) (l : List (Bool × Bool)) {s s' : Out} (h : solves limit l {} = .ok s) (hd : destroy s = .ok s') :
    s'.log.length = if (l.map (·.1)).getLast? = some true then 1 else 0 := by
  obtain ⟨h1, h2⟩ := solveOps_prints l false
  rw [C90_count _ (solves_run limit l rfl h) hd, h1, h2]
  cases (l.map (·.1)).getLast? with
  | none => rfl
  | some b => cases b <;> rfl

example : ∃ s s', solves 8 [(true, false), (false, true), (true, false)] {} = .ok s ∧ destroy s = .ok s' ∧ s'.log = [0] := ⟨_, _, rfl, rfl, rfl⟩

/-! ## C90: the text -/

theorem padRight_length {w : ℕ} {s : Timer.Str} (h : s.length ≤ w) : (padRight w s).length = w := by
  simp [padRight]; omega

theorem padLeft_length {w : ℕ} {s : Timer.Str} (h : s.length ≤ w) : (padLeft w s).length = w := by
  simp [padLeft]; omega

theorem padLeft_le (w : ℕ) (s : Timer.Str) : w ≤ (padLeft w s).length ∧ s.length ≤ (padLeft w s).length := by
  simp [padLeft]; omega

theorem dec_length {x : ℤ} {k : ℕ} (hk : 0 < k) (h0 : 0 ≤ x) (h : x < 10 ^ k) : (dec x).length ≤ k := by
  unfold dec
  rw [if_neg (by omega), List.nil_append]
  refine Nat.toDigits_length 10 _ _ hk ?_
  zify
  rw [abs_of_nonneg h0]
  exact h

theorem dec_percent {x : ℤ} (h0 : -1 ≤ x) (h : x ≤ 100) : (dec x).length ≤ 7 := by
  rcases lt_or_ge x 0 with hx | hx
  · obtain rfl : x = -1 := by omega
    decide
  · exact dec_length (by norm_num) hx (lt_of_le_of_lt h (by norm_num))

theorem nameWidth_split {name : List Timer.Str} (h : name ≠ []) : nameWidth name = indent name + (name.getLastD []).length := by
  unfold indent nameWidth
  conv_lhs => rw [← List.dropLast_append_getLast h]
  rw [List.map_append, List.sum_append, List.getLastD_eq_getLast?, List.getLast?_eq_some_getLast h]
  simp

/-- The description of a row: the name, indented by the length of the names above it, then at least `w` minus its width blanks. -/
theorem C90_description (w : ℕ) (r : Timer.Row) (hn : r.name ≠ []) (hw : nameWidth r.name ≤ w) :
    (rowText w r).take w = List.replicate (indent r.name) ' ' ++ r.name.getLastD [] ++ List.replicate (w - nameWidth r.name) ' ' := by
  have hl : (List.replicate (indent r.name) ' ' ++ r.name.getLastD []).length = nameWidth r.name := by
    rw [nameWidth_split hn]; simp
  unfold rowText line
  simp only [List.append_assoc]
  rw [List.take_append_of_le_length (by rw [padRight_length (by rw [hl]; exact hw)])]
  rw [List.take_of_length_le (by rw [padRight_length (by rw [hl]; exact hw)])]
  rw [padRight, hl, List.append_assoc]

/-- A name begins in the column where the name of its parent ends. -/
theorem C90_indent (p : List Timer.Str) (hp : p ≠ []) (a : Timer.Str) : indent (p ++ [a]) = indent p + (p.getLastD []).length := by
  rw [← nameWidth_split hp, indent, List.dropLast_concat]

theorem le_foldl_natMax : ∀ (l : List ℕ) (b : ℕ), b ≤ l.foldl max b ∧ ∀ a ∈ l, a ≤ l.foldl max b
  | [], b => ⟨le_rfl, by simp⟩
  | x :: l, b => by
    obtain ⟨h1, h2⟩ := le_foldl_natMax l (max b x)
    refine ⟨(le_max_left _ _).trans h1, fun a ha => ?_⟩
    rcases List.mem_cons.mp ha with rfl | ha
    · exact (le_max_right _ _).trans h1
    · exact h2 a ha

theorem width_le {rows : List Timer.Row} {r : Timer.Row} (h : r ∈ rows) : nameWidth r.name + 2 ≤ maxWidth rows :=
  Nat.add_le_add_right ((le_foldl_natMax (rows.map fun q : Timer.Row => nameWidth q.name) 0).2 (nameWidth r.name) (List.mem_map.mpr ⟨r, h, rfl⟩)) 2

/-- The rows of the table have the same length, and so do their columns, as long as times have at most eight digits. -/
theorem C90_aligned_partial (rows : List Timer.Row) (r : Timer.Row) (hr : r ∈ rows) (hn : r.name ≠ []) (h0 : 0 ≤ r.time) (h1 : r.time < 10 ^ 8)
    (h2 : -1 ≤ r.percentTotal ∧ r.percentTotal ≤ 100) (h3 : -1 ≤ r.percentParent ∧ r.percentParent ≤ 100) :
    (rowText (maxWidth rows) r).length = maxWidth rows + 28 := by
  have hl : (List.replicate (indent r.name) ' ' ++ r.name.getLastD []).length = nameWidth r.name := by
    rw [nameWidth_split hn]; simp
  have e1 := padRight_length (w := maxWidth rows) (s := List.replicate (indent r.name) ' ' ++ r.name.getLastD [])
    (by rw [hl]; have := width_le hr; omega)
  have e2 := padLeft_length (dec_length (x := r.time) (k := 8) (by norm_num) h0 h1)
  have e3 := padLeft_length (dec_percent h2.1 h2.2)
  have e4 := padLeft_length (dec_percent h3.1 h3.2)
  simp only [rowText, line, List.length_append, e1, e2, e3, e4, List.length_cons, List.length_nil]

/-- What a decimal number is: the sign and the digits. -/
example : dec 0 = "0".toList ∧ dec (-1) = "-1".toList ∧ dec 2050 = "2050".toList := by decide +kernel

/-- In the same circumstances: after the description and two blanks, eight columns end with the time, seven with the part of the total and
seven with the part of the parent, each filled up with blanks on the left. -/
theorem C90_numbers_partial (w : ℕ) (r : Timer.Row) (hn : r.name ≠ []) (hw : nameWidth r.name ≤ w) (h0 : 0 ≤ r.time) (h1 : r.time < 10 ^ 8)
    (h2 : -1 ≤ r.percentTotal ∧ r.percentTotal ≤ 100) (h3 : -1 ≤ r.percentParent ∧ r.percentParent ≤ 100) :
    ((rowText w r).drop (w + 2)).take 8 = List.replicate (8 - (dec r.time).length) ' ' ++ dec r.time ∧
    ((rowText w r).drop (w + 12)).take 7 = List.replicate (7 - (dec r.percentTotal).length) ' ' ++ dec r.percentTotal ∧
    (rowText w r).drop (w + 21) = List.replicate (7 - (dec r.percentParent).length) ' ' ++ dec r.percentParent := by
  have hl : (List.replicate (indent r.name) ' ' ++ r.name.getLastD []).length = nameWidth r.name := by
    rw [nameWidth_split hn]; simp
  have e1 := padRight_length (w := w) (s := List.replicate (indent r.name) ' ' ++ r.name.getLastD []) (by rw [hl]; exact hw)
  have e2 := padLeft_length (dec_length (x := r.time) (k := 8) (by norm_num) h0 h1)
  have e3 := padLeft_length (dec_percent h2.1 h2.2)
  unfold rowText line
  have d1 : ∀ (a b : Timer.Str) (n k : ℕ), a.length = n → (a ++ b).drop (n + k) = b.drop k := by
    intro a b n k h; rw [← h, List.drop_append, List.drop_eq_nil_of_le (by omega)]; simp
  have t1 : ∀ (a b : Timer.Str) (n : ℕ), a.length = n → (a ++ b).take n = a := by
    intro a b n h; rw [← h, List.take_append]; simp
  simp only [List.append_assoc]
  refine ⟨?_, ?_, ?_⟩
  · rw [d1 _ _ w 2 e1, show (2 : ℕ) = 2 + 0 from rfl, d1 [' ', ' '] _ 2 0 rfl, List.drop_zero, t1 _ _ 8 e2]; rfl
  · rw [d1 _ _ w 12 e1, show (12 : ℕ) = 2 + (8 + (2 + 0)) from rfl, d1 [' ', ' '] _ 2 _ rfl, d1 _ _ 8 _ e2, d1 [' ', ' '] _ 2 0 rfl,
      List.drop_zero, t1 _ _ 7 e3]; rfl
  · rw [d1 _ _ w 21 e1, show (21 : ℕ) = 2 + (8 + (2 + (7 + (2 + 0)))) from rfl, d1 [' ', ' '] _ 2 _ rfl, d1 _ _ 8 _ e2,
      d1 [' ', ' '] _ 2 _ rfl, d1 _ _ 7 _ e3, d1 [' ', ' '] _ 2 0 rfl, List.drop_zero]; rfl

/-- The header does not line up with them: its second title is nine characters wide, in a column of eight. -/
theorem C90_header_counterexample (w : ℕ) : w + 29 ≤ (headerText w).length ∧ 40 ≤ (headerText w).length := by
  have h1 : w ≤ (padRight w "Description".toList).length ∧ 11 ≤ (padRight w "Description".toList).length := by
    simp [padRight]; omega
  have h2 : (padLeft 8 "Time (us)".toList).length = 9 := by decide
  have h3 : (padLeft 7 "%Total".toList).length = 7 := by decide
  have h4 : (padLeft 7 "%Parent".toList).length = 7 := by decide
  simp only [headerText, line, List.length_append, h2, h3, h4, List.length_cons, List.length_nil]
  omega

/-- The text is the header, a rule of the same length and one line for each row. -/
theorem C90_text (times : Timer.Times) {rows : List Timer.Row} (h : Timer.printSummary times = .ok rows) : summaryText times = .ok
    (headerText (maxWidth rows) :: List.replicate (headerText (maxWidth rows)).length '-' :: rows.map (rowText (maxWidth rows))) := by
  unfold summaryText
  rw [h]
  rfl

example : summaryText [("al".toList, 200), ("al/ilqr".toList, 50)] = .ok
    ["Description  Time (us)   %Total  %Parent".toList,
     "----------------------------------------".toList,
     "al             200      100      100".toList,
     "  ilqr          50       25       25".toList] := by decide +kernel

/-- The two percentages differ further down. -/
example : summaryText [("al".toList, 200), ("al/ilqr".toList, 50), ("al/ilqr/cost".toList, 10)] = .ok
    ["Description   Time (us)   %Total  %Parent".toList,
     "-----------------------------------------".toList,
     "al                 200      100      100".toList,
     "  ilqr              50       25       25".toList,
     "      cost          10        5       20".toList] := by decide +kernel

end Altro.Props
