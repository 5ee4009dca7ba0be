import Verif.Model.Report
import Verif.Props.ConInfo

/-!
# C10: the printed constraint report can be read back
-/

namespace Altro.Props
open Altro.Report
open Altro.Profile (padLeft dec)

/-- What we need to know about the printing of numbers: no blanks, brackets or newlines, and not empty. -/
structure PlainNumbers {K : Type*} (num : K → List Char) : Prop where
  nonempty : ∀ a, num a ≠ []
  blank : ∀ a, ' ' ∉ num a
  bracket : ∀ a, '[' ∉ num a
  newline : ∀ a, '\n' ∉ num a

theorem dec_chars (x : ℤ) (c : Char) (h : c ∈ dec x) : c = '-' ∨ c.isDigit := by
  unfold dec at h
  rcases List.mem_append.mp h with h | h
  · split at h
    · left; simpa using h
    · simp at h
  · exact Or.inr (Nat.isDigit_of_mem_toDigits (by norm_num) (by norm_num) h)

theorem dec_injective {x y : ℤ} (h : dec x = dec y) : x = y := by
  have key : ∀ a b : ℕ, Nat.toDigits 10 a = Nat.toDigits 10 b → a = b := by
    intro a b hab
    rw [← Nat.ofDigitChars_toDigits (b := 10) (n := a) (by norm_num) (by norm_num), hab,
      Nat.ofDigitChars_toDigits (by norm_num) (by norm_num)]
  have hd : ∀ n, '-' ∉ Nat.toDigits 10 n := fun n hn =>
    absurd (Nat.isDigit_of_mem_toDigits (by norm_num) (by norm_num) hn) (by decide)
  unfold dec at h
  by_cases hx : x < 0 <;> by_cases hy : y < 0
  · simp only [hx, hy, if_true, List.singleton_append, List.cons.injEq, true_and] at h
    have := key _ _ h; omega
  · simp only [hx, hy, if_true, if_false, List.singleton_append, List.nil_append] at h
    exact absurd (h ▸ List.mem_cons_self) (hd y.natAbs)
  · simp only [hx, hy, if_true, if_false, List.singleton_append, List.nil_append] at h
    exact absurd (h ▸ List.mem_cons_self) (hd x.natAbs)
  · simp only [hx, hy, if_false, List.nil_append] at h
    have := key _ _ h; omega

/-- The word collected so far, if there is one. -/
def emit (w : List Char) : List (List Char) := if w = [] then [] else [w]

/-- Read words: `w` is the beginning of the current one. -/
def wordsFrom (w : List Char) : List Char → List (List Char)
  | [] => emit w
  | c :: s => if c = ' ' then emit w ++ wordsFrom [] s else wordsFrom (w ++ [c]) s

/-- The words of a text: the longest pieces without blanks. -/
def wordsOf (s : List Char) : List (List Char) := wordsFrom [] s

theorem wordsFrom_append (w a s : List Char) (ha : ' ' ∉ a) : wordsFrom w (a ++ s) = wordsFrom (w ++ a) s := by
  induction a generalizing w with
  | nil => simp
  | cons c a ih =>
    have h1 : c ≠ ' ' := fun e => ha (by simp [e])
    have h2 : ' ' ∉ a := fun h => ha (by simp [h])
    simp [wordsFrom, h1, ih _ h2]

theorem wordsFrom_blanks (k : ℕ) (s : List Char) : wordsFrom [] (List.replicate k ' ' ++ s) = wordsFrom [] s := by
  induction k with
  | zero => simp
  | succ k ih => simp [List.replicate_succ, wordsFrom, emit, ih]

theorem words_join (ws : List (List Char)) (w : ℕ) (h : ∀ a ∈ ws, a ≠ [] ∧ ' ' ∉ a) :
    wordsOf ([' '].intercalate (ws.map fun a => padLeft w a)) = ws := by
  have single : ∀ a s, ' ' ∉ a → wordsFrom [] (padLeft w a ++ s) = wordsFrom a s := by
    intro a s ha
    unfold padLeft
    rw [List.append_assoc, wordsFrom_blanks, wordsFrom_append _ _ _ ha, List.nil_append]
  unfold wordsOf
  induction ws with
  | nil => simp [List.intercalate, wordsFrom, emit]
  | cons a ws ih =>
    have ha := h a (by simp)
    have ih := ih fun b hb => h b (by simp [hb])
    cases ws with
    | nil =>
      have := single a [] ha.2
      simp only [List.append_nil] at this
      simp [List.intercalate, this, wordsFrom, emit, ha.1]
    | cons b ws =>
      have e : [' '].intercalate ((a :: b :: ws).map fun a => padLeft w a) =
          padLeft w a ++ ' ' :: [' '].intercalate ((b :: ws).map fun a => padLeft w a) := by
        simp [List.intercalate, List.intersperse]
      rw [e, single a _ ha.2]
      simp only [wordsFrom, if_true, emit, ha.1, if_false]
      rw [ih]
      rfl

section
variable {K : Type} (num : K → List Char)

theorem mem_join {c : Char} (ws : List (List Char)) (h : c ∈ [' '].intercalate ws) : c = ' ' ∨ ∃ w ∈ ws, c ∈ w := by
  induction ws with
  | nil => simp [List.intercalate] at h
  | cons a ws ih =>
    cases ws with
    | nil =>
      right
      exact ⟨a, by simp, by simpa [List.intercalate] using h⟩
    | cons b ws =>
      have e : [' '].intercalate (a :: b :: ws) = a ++ ' ' :: [' '].intercalate (b :: ws) := by
        simp [List.intercalate, List.intersperse]
      rw [e] at h
      rcases List.mem_append.mp h with h | h
      · exact Or.inr ⟨a, by simp, h⟩
      · rcases List.mem_cons.mp h with h | h
        · exact Or.inl h
        · rcases ih h with h | ⟨w, hw, hc⟩
          · exact Or.inl h
          · exact Or.inr ⟨w, List.mem_cons_of_mem _ hw, hc⟩

theorem body_free (v : List K) (w : ℕ) (c : Char) (hc : c ≠ ' ') (hn : ∀ a, c ∉ num a) :
    c ∉ [' '].intercalate (v.map fun a => padLeft w (num a)) := by
  intro hm
  rcases mem_join _ hm with h | ⟨l, hl, hcl⟩
  · exact hc h
  · obtain ⟨a, -, rfl⟩ := List.mem_map.mp hl
    unfold padLeft at hcl
    rcases List.mem_append.mp hcl with h2 | h2
    · exact hc (List.eq_of_mem_replicate h2)
    · exact hn a h2

/-- What a line of the report should show: label, knot point and the numbers as printed. -/
def shown (c : ConInfo K) : String × ℤ × List (List Char) := (c.label, c.index, c.violation.map num)

/-- The text of the vector without the brackets. -/
def vectorBody (v : List K) : List Char :=
  [' '].intercalate (v.map fun a => padLeft ((v.map fun a => (num a).length).foldl max 0) (num a))

/-- **C10, the numbers in a line.**  The words between the brackets are the printed numbers, in order. -/
theorem C10_vector (h : PlainNumbers num) (v : List K) :
    ∃ body, vectorText num v = ['['] ++ body ++ [']'] ∧ wordsOf body = v.map num ∧ '[' ∉ body ∧ '\n' ∉ body := by
  refine ⟨vectorBody num v, rfl, ?_, body_free num v _ '[' (by decide) h.bracket,
    body_free num v _ '\n' (by decide) h.newline⟩
  have := words_join (v.map num) ((v.map fun a => (num a).length).foldl max 0) (fun a ha => by
    obtain ⟨b, -, rfl⟩ := List.mem_map.mp ha
    exact ⟨h.nonempty b, h.blank b⟩)
  rw [List.map_map] at this
  exact this

theorem vectorText_inj (h : PlainNumbers num) {v v' : List K} (e : vectorText num v = vectorText num v') :
    v.map num = v'.map num := by
  obtain ⟨b, h1, h2, -⟩ := C10_vector num h v
  obtain ⟨b', h1', h2', -⟩ := C10_vector num h v'
  rw [h1, h1'] at e
  have : b = b' := by simpa using e
  rw [← h2, ← h2', this]

theorem vectorText_congr {v v' : List K} (e : v.map num = v'.map num) : vectorText num v = vectorText num v' := by
  have : ∀ v : List K, vectorText num v =
      ['['] ++ [' '].intercalate ((v.map num).map fun a => padLeft (((v.map num).map List.length).foldl max 0) a) ++ [']'] := by
    intro v
    simp only [vectorText, List.map_map]
    rfl
  rw [this, this, e]

/-- Two texts that begin with a piece without `c` before the first `c`. -/
theorem first_split {a a' b b' : List Char} {c : Char} (h : c ∉ a) (h' : c ∉ a') (e : a ++ c :: b = a' ++ c :: b') :
    a = a' ∧ b = b' := by
  induction a generalizing a' with
  | nil =>
    cases a' with
    | nil => simpa using e
    | cons x a' => simp at e; exact absurd (by simp [e.1]) h'
  | cons x a ih =>
    cases a' with
    | nil => simp at e; exact absurd (by simp [e.1]) h
    | cons x' a' =>
      simp only [List.cons_append, List.cons.injEq] at e
      obtain ⟨h1, h2⟩ := ih (fun hx => h (by simp [hx])) (fun hx => h' (by simp [hx])) e.2
      exact ⟨by rw [e.1, h1], h2⟩

/-- Two texts that end in a piece without `c` after the last `c`. -/
theorem last_split {a a' b b' : List Char} {c : Char} (h : c ∉ b) (h' : c ∉ b') (e : a ++ c :: b = a' ++ c :: b') :
    a = a' ∧ b = b' := by
  have e' := congrArg List.reverse e
  simp only [List.reverse_append, List.reverse_cons, List.append_assoc, List.singleton_append] at e'
  have := first_split (by simpa using h) (by simpa using h') e'
  exact ⟨by simpa using this.2, by simpa using this.1⟩

/-- **C10, one line.**  Two records are printed alike exactly if label, knot point and printed numbers are the same, whatever
characters the labels have. -/
theorem C10_line (h : PlainNumbers num) (c c' : ConInfo K) :
    infoText num c = infoText num c' ↔ shown num c = shown num c' := by
  constructor
  · intro e
    obtain ⟨b, h1, -, h3, -⟩ := C10_vector num h c.violation
    obtain ⟨b', h1', -, h3', -⟩ := C10_vector num h c'.violation
    have e1 := e
    unfold infoText at e1
    rw [h1, h1'] at e1
    have form : ∀ (p : List Char) (b : List Char), p ++ (['['] ++ b ++ [']']) = p ++ '[' :: (b ++ [']']) := by simp
    rw [form, form] at e1
    obtain ⟨e2, e3⟩ := last_split (c := '[') (by simp [h3]) (by simp [h3']) e1
    have e4 : c.label.toList ++ " at index".toList ++ ' ' :: dec c.index = c'.label.toList ++ " at index".toList ++ ' ' :: dec c'.index := by
      have : " at index ".toList = " at index".toList ++ [' '] := by decide
      rw [this] at e2
      have := List.append_cancel_right e2
      simpa using this
    have nodec : ∀ x, ' ' ∉ dec x := fun x hx => by
      rcases dec_chars x _ hx with h | h <;> revert h <;> decide
    obtain ⟨e5, e6⟩ := last_split (nodec _) (nodec _) e4
    have e7 : c.label.toList = c'.label.toList := List.append_cancel_right e5
    have e8 : c.violation.map num = c'.violation.map num := by
      refine vectorText_inj num h ?_
      rw [h1, h1']
      have : b = b' := List.append_cancel_right e3
      rw [this]
    unfold shown
    rw [e8, dec_injective e6, String.toList_inj.mp e7]
  · intro e
    simp only [shown, Prod.mk.injEq] at e
    unfold infoText
    rw [e.1, e.2.1, vectorText_congr num e.2.2]

theorem lines_inj {l l' : List (List Char)} (h : ∀ t ∈ l, '\n' ∉ t) (h' : ∀ t ∈ l', '\n' ∉ t)
    (e : (l.flatMap fun t => t ++ ['\n']) = l'.flatMap fun t => t ++ ['\n']) : l = l' := by
  induction l generalizing l' with
  | nil =>
    cases l' with
    | nil => rfl
    | cons a l' => simp at e
  | cons a l ih =>
    cases l' with
    | nil => simp at e
    | cons a' l' =>
      simp only [List.flatMap_cons, List.append_assoc, List.singleton_append] at e
      obtain ⟨h1, h2⟩ := first_split (h a (by simp)) (h' a' (by simp)) e
      rw [h1, ih (fun t ht => h t (by simp [ht])) (fun t ht => h' t (by simp [ht])) h2]

theorem line_no_newline (h : PlainNumbers num) (c : ConInfo K) (hl : '\n' ∉ c.label.toList) : '\n' ∉ infoText num c := by
  obtain ⟨b, h1, -, -, h4⟩ := C10_vector num h c.violation
  have nodec : '\n' ∉ dec c.index := fun hx => by
    rcases dec_chars _ _ hx with h | h <;> revert h <;> decide
  unfold infoText
  rw [h1]
  simp [hl, h4, nodec]

/-- **C10, the whole report.**  If no label has a newline, two reports are the same text exactly if they list the same labels,
knot points and printed numbers in the same order.  The first line says how many there are, and there is one line for each. -/
theorem C10_printed (h : PlainNumbers num) (l l' : List (ConInfo K)) (hl : ∀ c ∈ l, '\n' ∉ c.label.toList)
    (hl' : ∀ c ∈ l', '\n' ∉ c.label.toList) :
    (reportText num l = reportText num l' ↔ l.map (shown num) = l'.map (shown num)) ∧
    reportText num l = (("Got ".toList ++ dec l.length ++ " constraints".toList) :: l.map (infoText num)).flatMap
      (fun t => t ++ ['\n']) ∧
    (reportText num l).count '\n' = l.length + 1 := by
  have form : ∀ l : List (ConInfo K), reportText num l =
      (("Got ".toList ++ dec l.length ++ " constraints".toList) :: l.map (infoText num)).flatMap fun t => t ++ ['\n'] := by
    intro l
    simp [reportText, newline, List.flatMap_map]
  have nodec : ∀ x : ℤ, '\n' ∉ dec x := fun x hx => by
    rcases dec_chars _ _ hx with h | h <;> revert h <;> decide
  have noline : ∀ l : List (ConInfo K), (∀ c ∈ l, '\n' ∉ c.label.toList) →
      ∀ t ∈ (("Got ".toList ++ dec l.length ++ " constraints".toList) :: l.map (infoText num)), '\n' ∉ t := by
    intro l hl t ht
    rcases List.mem_cons.mp ht with rfl | ht
    · simp [nodec]
    · obtain ⟨c, hc, rfl⟩ := List.mem_map.mp ht
      exact line_no_newline num h c (hl c hc)
  refine ⟨⟨fun e => ?_, fun e => ?_⟩, form l, ?_⟩
  · rw [form, form] at e
    have e1 := lines_inj (noline l hl) (noline l' hl') e
    simp only [List.cons.injEq] at e1
    have e2 := e1.2
    clear e1 e
    induction l generalizing l' with
    | nil => cases l' with
      | nil => rfl
      | cons a l' => simp at e2
    | cons c l ih =>
      cases l' with
      | nil => simp at e2
      | cons c' l' =>
        simp only [List.map_cons, List.cons.injEq] at e2 ⊢
        exact ⟨(C10_line num h c c').mp e2.1,
          ih l' (fun c hc => hl c (by simp [hc])) (fun c hc => hl' c (by simp [hc])) e2.2⟩
  · rw [form, form]
    have hlen : l.length = l'.length := by simpa using congrArg List.length e
    rw [hlen]
    congr 2
    clear hlen
    induction l generalizing l' with
    | nil => cases l' with
      | nil => rfl
      | cons a l' => simp at e
    | cons c l ih =>
      cases l' with
      | nil => simp at e
      | cons c' l' =>
        simp only [List.map_cons, List.cons.injEq] at e ⊢
        exact ⟨(C10_line num h c c').mpr e.1,
          ih l' (fun c hc => hl c (by simp [hc])) (fun c hc => hl' c (by simp [hc])) e.2⟩
  · rw [form]
    have hn := noline l hl
    have cnt : ∀ ts : List (List Char), (∀ t ∈ ts, '\n' ∉ t) →
        (ts.flatMap fun t => t ++ ['\n']).count '\n' = ts.length := by
      intro ts
      induction ts with
      | nil => intro _; rfl
      | cons t ts ih =>
        intro ht
        simp only [List.flatMap_cons, List.count_append, ih fun t' h' => ht t' (by simp [h']),
          List.count_eq_zero_of_not_mem (ht t (by simp)), List.length_cons]
        simp [Nat.add_comm]
    rw [cnt _ hn]
    simp

end

/-- With one decimal the numbers are plain. -/
private def tenths (a : ℕ) : List Char := Nat.toDigits 10 (a / 10) ++ ['.'] ++ Nat.toDigits 10 (a % 10)

private theorem tenths_plain : PlainNumbers tenths := by
  have hd : ∀ c : Char, c.isDigit = false → c ≠ '.' → ∀ a, c ∉ tenths a := by
    intro c hc hp a ha
    simp only [tenths, List.mem_append, List.mem_singleton] at ha
    rcases ha with (ha | ha) | ha
    · rw [Nat.isDigit_of_mem_toDigits (by norm_num) (by norm_num) ha] at hc; simp at hc
    · exact hp ha
    · rw [Nat.isDigit_of_mem_toDigits (by norm_num) (by norm_num) ha] at hc; simp at hc
  exact ⟨fun a => by simp [tenths], hd _ (by decide) (by decide), hd _ (by decide) (by decide), hd _ (by decide) (by decide)⟩

example : String.ofList (reportText tenths [⟨"Goal Constraint", 10, [15, 220], "Equality Constraint"⟩,
      ⟨"Control Bound", 0, [0], "Inequality Constraint"⟩]) =
    "Got 2 constraints\nGoal Constraint at index 10: [ 1.5 22.0]\nControl Bound at index 0: [0.0]\n" := by
  decide +kernel

end Altro.Props
