import Verif.Proofs.Timer

/-!
# C58-C60: the profiler
-/

namespace Altro.Props
open Altro.Timer Altro.Spec.Timer Altro.Proofs.Timer

/-! ## C58 -/

/-- **C58.**  Every program of nested scopes, with the profiler switched on and off anywhere, runs without undefined
behaviour and leaves the nesting stack as before.  The time recorded under a key grows by the durations (each in whole
microseconds) of the timed executions whose path has that name; a key exists if it did before or there was such an
execution. -/
theorem C58_totals (p : Prog) (s : State) (hs : Sorted s.times) :
    ∃ s', exec p s = .ok s' ∧ s'.stack = s.stack ∧ s'.active = onAfter s.active p ∧ Sorted s'.times ∧
      (∀ k, (recorded s'.times k).getD 0 = (recorded s.times k).getD 0 +
        ((executions s.active p).map fun e => if pathName (s.stack ++ e.1) = k then micros e.2 else 0).sum) ∧
      (∀ k, k ∈ s'.times.map Prod.fst ↔ k ∈ s.times.map Prod.fst ∨
        ∃ e ∈ executions s.active p, pathName (s.stack ++ e.1) = k) := by
  refine ⟨_, exec_eq p s, rfl, rfl, sorted_recordAll _ _ _ hs, ?_, ?_⟩
  · intro k
    rw [recorded_recordAll _ _ _ _ hs]
    simp only [fullname_eq]
  · intro k
    rw [keys_recordAll]
    simp only [fullname_eq]

theorem executions_names {P : Str → Prop} {p : Prog} (h : Names P p) :
    ∀ on, ∀ e ∈ executions on p, e.1 ≠ [] ∧ ∀ s ∈ e.1, P s := by
  induction p with
  | skip => intro on e he; cases he
  | tick d => intro on e he; cases he
  | activate => intro on e he; cases he
  | deactivate => intro on e he; cases he
  | seq p q ihp ihq =>
    intro on e he
    simp only [executions, List.mem_append] at he
    rcases he with he | he
    · exact ihp h.1 _ e he
    · exact ihq h.2 _ e he
  | scope name body ih =>
    intro on e he
    simp only [executions] at he
    split at he
    · simp only [List.mem_append, List.mem_map, List.mem_singleton] at he
      rcases he with ⟨e', he', rfl⟩ | rfl
      · refine ⟨by simp, ?_⟩
        intro s hs
        rcases List.mem_cons.mp hs with rfl | hs
        · exact h.1
        · exact (ih h.2 _ e' he').2 s hs
      · exact ⟨by simp, by intro s hs; rw [List.mem_singleton.mp hs]; exact h.1⟩
    · exact ih h.2 _ e he

theorem pathName_inj {a b : List Str} (ha : a ≠ []) (hb : b ≠ []) (h1 : ∀ s ∈ a, SlashFree s)
    (h2 : ∀ s ∈ b, SlashFree s) (h : pathName a = pathName b) : a = b := by
  rw [← split_pathName a ha h1, h, split_pathName b hb h2]

/-- **C58** (partial: no name contains `/`).  What is recorded for a path, starting with nothing recorded, is the sum
of the durations of the timed executions of exactly that nested path. -/
theorem C58_paths_partial (p : Prog) (s : State) (hs : s.times = []) (hn : Names SlashFree p)
    (hst : ∀ x ∈ s.stack, SlashFree x) :
    ∃ s', exec p s = .ok s' ∧ s'.stack = s.stack ∧ ∀ path, path ≠ [] → (∀ x ∈ path, SlashFree x) →
      recorded s'.times (pathName (s.stack ++ path)) =
        if ∃ e ∈ executions s.active p, e.1 = path then some (total (executions s.active p) path) else none := by
  obtain ⟨s', h1, h2, _, _, h4, h5⟩ := C58_totals p s (by rw [hs]; exact List.Pairwise.nil)
  refine ⟨s', h1, h2, ?_⟩
  intro path hp hpf
  have hname : ∀ e ∈ executions s.active p, (pathName (s.stack ++ e.1) = pathName (s.stack ++ path) ↔ e.1 = path) := by
    intro e he
    obtain ⟨hne, hsf⟩ := executions_names hn _ e he
    constructor
    · intro h
      have := pathName_inj (by simp [hne]) (by simp [hp])
        (fun x hx => (List.mem_append.mp hx).elim (hst x) (hsf x))
        (fun x hx => (List.mem_append.mp hx).elim (hst x) (hpf x)) h
      exact List.append_cancel_left this
    · intro h; rw [h]
  have hk := h5 (pathName (s.stack ++ path))
  have hv := h4 (pathName (s.stack ++ path))
  rw [hs] at hk hv
  have hex : (∃ e ∈ executions s.active p, pathName (s.stack ++ e.1) = pathName (s.stack ++ path)) ↔
      ∃ e ∈ executions s.active p, e.1 = path :=
    ⟨fun ⟨e, he, h⟩ => ⟨e, he, (hname e he).mp h⟩, fun ⟨e, he, h⟩ => ⟨e, he, (hname e he).mpr h⟩⟩
  simp only [List.map_nil, List.not_mem_nil, false_or, hex] at hk
  have hsum : ((executions s.active p).map fun e =>
      if pathName (s.stack ++ e.1) = pathName (s.stack ++ path) then micros e.2 else 0).sum
      = total (executions s.active p) path := by
    unfold total
    congr 1
    apply List.map_congr_left
    intro e he
    by_cases h : e.1 = path
    · rw [if_pos h, if_pos ((hname e he).mpr h)]
    · rw [if_neg h, if_neg (fun h' => h ((hname e he).mp h'))]
  rw [hsum] at hv
  split
  · rename_i h
    have hmem := hk.mpr h
    cases hr : recorded s'.times (pathName (s.stack ++ path)) with
    | none => exact absurd hmem (lookup_none.mp hr)
    | some x =>
      rw [hr] at hv
      simp [recorded] at hv
      rw [hv]
  · rename_i h
    exact lookup_none.mpr (fun hm => h (hk.mp hm))

/-- A concrete program: "a" runs twice; the profiler is switched off inside the second "a". -/
def demoProg : Prog :=
  .seq .activate <| .seq (.scope ['a'] (.seq (.tick 1500) (.scope ['b'] (.tick 2000)))) <|
    .scope ['a'] (.seq .deactivate (.scope ['b'] (.tick 7000)))

example : (exec demoProg {}).toOption.map (fun s => (s.stack, s.times)) =
      some ([], [(['a'], 10), (['a', '/', 'b'], 2)]) ∧
    executions false demoProg = [([['a'], ['b']], 2000), ([['a']], 3500), ([['a']], 7000)] ∧
    total (executions false demoProg) [['a']] = 10 := by
  refine ⟨by decide +kernel, by decide +kernel, by decide +kernel⟩

example : Names SlashFree demoProg := by simp [demoProg, Names, SlashFree]

/-- **C58 is false** if a name contains `/`: a scope called "a/b" is added to the time of "b" inside "a". -/
theorem C58_slash_counterexample :
    let p := Prog.seq (.scope ['a'] (.scope ['b'] (.tick 1000))) (.scope ['a', '/', 'b'] (.tick 5000))
    (exec p { active := true }).toOption.map (fun s => recorded s.times ['a', '/', 'b']) = some (some 6) ∧
    total (executions true p) [['a'], ['b']] = 1 := by
  decide +kernel

/-! ## C59 -/

/-- Every character of every key sorts after (or is) the separator. -/
def CharsOk (m : Times) : Prop := ∀ kv ∈ m, ∀ c ∈ kv.1, '/' ≤ c

theorem sorted_get {m : Times} (h : Sorted m) {i j : ℕ} {a b : Str × ℤ} (hi : m[i]? = some a) (hj : m[j]? = some b)
    (hlt : a.1 < b.1) : i < j := by
  unfold Sorted at h
  rw [List.pairwise_iff_getElem] at h
  obtain ⟨hi', rfl⟩ := List.getElem?_eq_some_iff.mp hi
  obtain ⟨hj', rfl⟩ := List.getElem?_eq_some_iff.mp hj
  rcases lt_trichotomy i j with h1 | h1 | h1
  · exact h1
  · subst h1; exact absurd hlt (lt_irrefl _)
  · have := h j i (by simpa using hj') (by simpa using hi') h1
    simp only [List.getElem_map] at this
    exact absurd (hlt.trans this) (lt_irrefl _)

theorem sorted_get' {m : Times} (h : Sorted m) {i j : ℕ} {a b : Str × ℤ} (hi : m[i]? = some a) (hj : m[j]? = some b)
    (hlt : i < j) : a.1 < b.1 := by
  unfold Sorted at h
  rw [List.pairwise_iff_getElem] at h
  obtain ⟨hi', rfl⟩ := List.getElem?_eq_some_iff.mp hi
  obtain ⟨hj', rfl⟩ := List.getElem?_eq_some_iff.mp hj
  have := h i j (by simpa using hi') (by simpa using hj') hlt
  simpa only [List.getElem_map] using this

theorem lookup_of_get {m : Times} (h : Sorted m) {i : ℕ} {a : Str × ℤ} (hi : m[i]? = some a) :
    recorded m a.1 = some a.2 := by
  induction m generalizing i with
  | nil => simp at hi
  | cons p m ih =>
    unfold recorded
    rw [lookup_cons']
    unfold Sorted at h
    rw [List.map_cons, List.pairwise_cons] at h
    cases i with
    | zero => simp at hi; subst hi; simp
    | succ i =>
      simp only [List.getElem?_cons_succ] at hi
      have hm : a.1 ∈ m.map Prod.fst := List.mem_map.mpr ⟨a, List.mem_of_getElem? hi, rfl⟩
      have hne : a.1 ≠ p.1 := fun e => absurd (h.1 _ hm) (by rw [e]; exact lt_irrefl _)
      rw [if_neg hne]
      exact ih h.2 hi

theorem lt_append_slash (p c : Str) : p < p ++ '/' :: c := by
  induction p with
  | nil => simp
  | cons x p ih => rw [List.cons_append, List.cons_lt_cons_iff]; exact .inr ⟨rfl, ih⟩

/-- A nested key and its parent's key in the sorted list. -/
theorem parent_before {m : Times} (hs : Sorted m) (hc : ParentClosed m) {i : ℕ} {kv : Str × ℤ} (hi : m[i]? = some kv)
    (hl : 2 ≤ level kv) :
    ∃ (i' : ℕ) (kp : Str × ℤ) (a : Str), m[i']? = some kp ∧ i' < i ∧ split kv.1 = split kp.1 ++ [a] ∧
      kv.1 = kp.1 ++ '/' :: a ∧ level kp = level kv - 1 := by
  obtain ⟨h1, h2, h3⟩ := split_spec kv.1
  have hsp : split kv.1 = (split kv.1).dropLast ++ [(split kv.1).getLast h2] := (List.dropLast_append_getLast h2).symm
  have hne : (split kv.1).dropLast ≠ [] := by
    intro h
    have := congrArg List.length h
    unfold level at hl
    simp at this; omega
  obtain ⟨a, ha⟩ : ∃ a, a = (split kv.1).getLast h2 := ⟨_, rfl⟩
  obtain ⟨path, hpath⟩ : ∃ p, p = (split kv.1).dropLast := ⟨_, rfl⟩
  rw [← ha, ← hpath] at hsp
  rw [← hpath] at hne
  have hkey : pathName (path ++ [a]) = kv.1 := by rw [← hsp, h3]
  have hfree : ∀ s ∈ path ++ [a], SlashFree s := by rw [← hsp]; exact h1
  have hmem := hc path a hne hfree (by rw [hkey]; exact List.mem_map.mpr ⟨kv, List.mem_of_getElem? hi, rfl⟩)
  obtain ⟨kp, hkp, hkpe⟩ := List.mem_map.mp hmem
  obtain ⟨i', hi'⟩ := List.getElem?_of_mem hkp
  have hsplit : split kp.1 = path := by
    rw [hkpe, split_pathName path hne (fun s hs => hfree s (List.mem_append.mpr (.inl hs)))]
  have hcat : kv.1 = kp.1 ++ '/' :: a := by rw [hkpe, ← pathName_snoc path a hne, hkey]
  refine ⟨i', kp, a, hi', ?_, by rw [hsplit]; exact hsp, hcat, ?_⟩
  · exact sorted_get hs hi' hi (by rw [hcat]; exact lt_append_slash _ _)
  · unfold level
    rw [hsplit, hsp]; simp

theorem parent_right {m : Times} (hs : Sorted m) (hc : ParentClosed m) (hch : CharsOk m) {i : ℕ} {kv : Str × ℤ}
    (hi : m[i]? = some kv) (hl : 2 ≤ level kv) {o : Option ℕ} (ho : IsLast (m.take i) (level kv - 1) o) :
    ∃ (i' : ℕ) (kp : Str × ℤ) (a : Str), o = some (i' + 1) ∧ m[i']? = some kp ∧ i' < i ∧
      split kv.1 = split kp.1 ++ [a] := by
  obtain ⟨i', kp, a, hi', hlt, hsp, hcat, hlev⟩ := parent_before hs hc hi hl
  have htake : (m.take i)[i']? = some kp := by rw [List.getElem?_take, if_pos hlt, hi']
  cases o with
  | none => exact absurd hlev (ho.2 kp (List.mem_of_getElem? htake))
  | some j =>
    cases j with
    | zero => exact absurd (show level kv - 1 = 0 from ho) (by omega)
    | succ j =>
      obtain ⟨_, kj, hj, hjl, hlast⟩ := ho
      have hjlt : j < i := by
        by_contra hge
        rw [List.getElem?_eq_none (by simp; omega)] at hj
        cases hj
      rw [List.getElem?_take, if_pos hjlt] at hj
      rcases lt_trichotomy j i' with h | h | h
      · exact absurd hlev (hlast i' kp h htake)
      · subst h; exact ⟨j, kp, a, rfl, hi', hlt, hsp⟩
      · exfalso
        have h1 := sorted_get' hs hi' hj h
        have h2 := sorted_get' hs hj hi hjlt
        rw [hcat] at h2
        obtain ⟨r, hr⟩ := between kp.1 a kj.1 (hch kj (List.mem_of_getElem? hj)) h1 h2
        have : level kj = level kp + (splitGo [] r).length := by
          unfold level split; rw [hr]; exact splitGo_len_append _ _ _
        have hpos : 0 < (splitGo [] r).length := List.length_pos_iff.mpr (split_spec r).2.1
        omega

/-- **C59** (partial: every character of the names sorts after `/`, like letters, digits and `_`).  In a set of
recorded paths closed under taking parents, the parent assigned to the entry of a nested path is the entry of the path
without its last component. -/
theorem C59_partial (m : Times) (hs : Sorted m) (hc : ParentClosed m) (hch : CharsOk m) (i : ℕ) (t : ℤ)
    (path : List Str) (a : Str) (hp : path ≠ []) (hf : ∀ s ∈ path ++ [a], SlashFree s)
    (hi : m[i]? = some (pathName (path ++ [a]), t)) :
    ∃ e j pe, (build m)[i + 1]? = some e ∧ e.name = path ++ [a] ∧ e.time = t ∧ e.parent = some j ∧
      (build m)[j]? = some pe ∧ pe.name = path ∧ recorded m (pathName path) = some pe.time := by
  have inv := inv_build m
  obtain ⟨e, he, hn, ht, hpar⟩ := inv.entry i _ hi
  have hsplit : split (pathName (path ++ [a])) = path ++ [a] := split_pathName _ (by simp) hf
  have hl : 2 ≤ level (pathName (path ++ [a]), t) := by
    unfold level; rw [hsplit]
    have := List.length_pos_iff.mpr hp
    simp; omega
  obtain ⟨i', kp, b, ho, hi', _, hsp⟩ := parent_right hs hc hch hi hl hpar
  obtain ⟨pe, hpe, hpn, hpt, _⟩ := inv.entry i' _ hi'
  rw [hsplit] at hsp
  have hpath : split kp.1 = path := (List.append_inj' hsp rfl).1.symm
  refine ⟨e, i' + 1, pe, he, by rw [hn, hsplit], ht, ho, hpe, by rw [hpn, hpath], ?_⟩
  have hk : kp.1 = pathName path := by rw [← hpath, (split_spec kp.1).2.2]
  rw [← hk, hpt]
  exact lookup_of_get hs hi'

/-- A way to check `ParentClosed`. -/
theorem parentClosed_of {m : Times}
    (h : ∀ kv ∈ m, 2 ≤ (split kv.1).length → pathName (split kv.1).dropLast ∈ m.map Prod.fst) : ParentClosed m := by
  intro path a hp hf hk
  obtain ⟨kv, hkv, he⟩ := List.mem_map.mp hk
  have hs : split kv.1 = path ++ [a] := by rw [he, split_pathName _ (by simp) hf]
  have := h kv hkv (by rw [hs]; have := List.length_pos_iff.mpr hp; simp; omega)
  rwa [hs, List.dropLast_concat] at this

/-- A concrete case with three levels, and the table printed. -/
def demoTimes : Times :=
  [("al".toList, 1000), ("al/ilqr".toList, 600), ("al/ilqr/cost".toList, 100), ("al/stats".toList, 50),
   ("init".toList, 250)]

example : Sorted demoTimes ∧ CharsOk demoTimes ∧ ParentClosed demoTimes ∧
    (printSummary demoTimes).toOption.map (fun rs => rs.map fun r => (r.percentTotal, r.percentParent)) =
      some [(80, 80), (48, 60), (8, 16), (4, 5), (20, 20)] := by
  refine ⟨by unfold Sorted; decide +kernel, by unfold CharsOk; decide +kernel,
    parentClosed_of (by decide +kernel), by decide +kernel⟩

/-- **C59 is false** for names with characters that sort before `/`: "a/c" is attributed to "a-b" (its time is 25% of
"a", but 50% is printed). -/
theorem C59_counterexample :
    let m : Times := [("a".toList, 1000), ("a-b".toList, 500), ("a/c".toList, 250)]
    Sorted m ∧ ParentClosed m ∧ (build m)[3]? = some ⟨["a".toList, "c".toList], 250, some 2⟩ ∧
    (build m)[2]?.map PEntry.name = some ["a-b".toList] ∧
    (printSummary m).toOption.map (fun rs => rs.map Row.percentParent) = some [66, 33, 50] := by
  refine ⟨by unfold Sorted; decide +kernel, parentClosed_of (by decide +kernel), by decide +kernel, by decide +kernel,
    by decide +kernel⟩

/-! ## C60 -/

theorem timeAt_of {es : List PEntry} {i : ℕ} {e : PEntry} (h : es[i]? = some e) : timeAt es i = e.time := by
  simp [timeAt, h]

theorem topTotal_eq (m : Times) : topTotal m = totalTime m := by
  unfold topTotal totalTime
  congr 1
  apply List.map_congr_left
  intro kv _
  obtain ⟨h1, h2, h3⟩ := split_spec kv.1
  by_cases h : '/' ∈ kv.1
  · rw [if_pos h, if_neg]
    intro hl
    obtain ⟨a, ha⟩ := List.length_eq_one_iff.mp hl
    rw [ha] at h1 h3
    have : SlashFree a := h1 a List.mem_cons_self
    rw [show a = kv.1 from h3] at this
    exact this h
  · rw [if_neg h, if_pos]
    show (splitGo [] kv.1).length = 1
    rw [splitGo_last _ _ h]; rfl

theorem root_zero {m : Times} (hs : Sorted m) (hc : ParentClosed m) : ∀ (n i : ℕ), i ≤ n → i ≤ m.length →
    rootGo (build m) n i = 0 := by
  have inv := inv_build m
  intro n
  induction n with
  | zero => intro i hi _; exact Nat.le_zero.mp hi
  | succ n ih =>
    intro i hi hm
    unfold rootGo
    cases i with
    | zero =>
      obtain ⟨e, he, _, hn⟩ := inv.top
      have he : (build m)[0]? = some e := he
      rw [he]
      simp only [hn]
    | succ i =>
      obtain ⟨kv, hkv⟩ : ∃ kv, m[i]? = some kv := ⟨m[i], List.getElem?_eq_getElem (by omega)⟩
      obtain ⟨e, he, _, _, hpar⟩ := inv.entry i kv hkv
      have he : (build m)[i + 1]? = some e := he
      rw [he]
      simp only
      cases hp : e.parent with
      | none =>
        exfalso
        rw [hp] at hpar
        obtain ⟨h0, hno⟩ := hpar
        obtain ⟨i', kp, a, hi', hlt, _, _, hlev⟩ := parent_before hs hc hkv (by omega)
        exact hno kp (List.mem_of_getElem? (by rw [List.getElem?_take, if_pos hlt, hi'])) hlev
      | some j =>
        simp only
        rw [hp] at hpar
        apply ih
        · cases j with
          | zero => omega
          | succ j =>
            obtain ⟨_, kj, hj, _⟩ := hpar
            have : j < i := by
              by_contra hge
              rw [List.getElem?_eq_none (by simp; omega)] at hj; cases hj
            omega
        · cases j with
          | zero => omega
          | succ j =>
            obtain ⟨_, kj, hj, _⟩ := hpar
            have : j < i := by
              by_contra hge
              rw [List.getElem?_eq_none (by simp; omega)] at hj; cases hj
            omega

theorem toInt_eq {x : ℤ} (h1 : -2 ^ 31 ≤ x) (h2 : x < 2 ^ 31) : toInt x = x := by
  unfold toInt; rw [Int.bmod_eq_of_le] <;> omega

/-- The two percentages, when nothing overflows. -/
theorem calcStats_eq {es : List PEntry} {i : ℕ} {e : PEntry} {tot par : ℤ} (h0 : 0 ≤ e.time)
    (htot : timeAt es (root es i) = tot)
    (hpar : parentTimeOf es e = par) (ht : 0 ≤ tot) (hp : 0 ≤ par)
    (hle : e.time ≤ tot) (hlp : e.time ≤ par) (hb : 100 * e.time < 2 ^ 31) (hb2 : tot < 2 ^ 31) :
    calcStats es i e = .ok (percent e.time tot, percent e.time par) := by
  unfold calcStats
  simp only [htot, hpar]
  have et : toInt e.time = e.time := toInt_eq (by omega) (by omega)
  have ett : toInt tot = tot := toInt_eq (by omega) (by omega)
  rw [et, ett]
  have q : ∀ base, 0 < base → e.time ≤ base → 0 ≤ 100 * e.time / base ∧ 100 * e.time / base ≤ 100 ∧
      (100 * e.time).tdiv base = 100 * e.time / base := by
    intro base h1 h2
    refine ⟨Int.ediv_nonneg (by omega) (by omega), ?_, Int.tdiv_eq_ediv_of_nonneg (by omega)⟩
    have := Int.ediv_le_ediv h1 (show 100 * e.time ≤ 100 * base by omega)
    rwa [Int.mul_ediv_cancel _ (by omega)] at this
  have f1 : fits 32 (100 * e.time) = .ok (100 * e.time) := by unfold fits; rw [if_pos (by norm_num; omega)]
  have f2 : fits 64 (100 * e.time) = .ok (100 * e.time) := by unfold fits; rw [if_pos (by norm_num; omega)]
  have A : (if tot = 0 then (.ok (-1) : Except Err ℤ) else do
      let a ← fits 32 (100 * e.time)
      fits 32 (a.tdiv tot)) = .ok (percent e.time tot) := by
    unfold percent
    by_cases h : tot = 0
    · simp [h]
    · obtain ⟨q1, q2, q3⟩ := q tot (by omega) hle
      rw [if_neg h, if_neg h, f1]
      show fits 32 ((100 * e.time).tdiv tot) = _
      rw [q3]; unfold fits; rw [if_pos (by norm_num; omega)]
  have B : (if par = 0 then (.ok (-1) : Except Err ℤ) else do
      let a ← fits 64 (100 * e.time)
      let q ← fits 64 (a.tdiv par)
      pure (toInt q)) = .ok (percent e.time par) := by
    unfold percent
    by_cases h : par = 0
    · simp [h]
    · obtain ⟨q1, q2, q3⟩ := q par (by omega) hlp
      rw [if_neg h, if_neg h, f2]
      show (fits 64 ((100 * e.time).tdiv par) >>= fun q => pure (toInt q)) = _
      rw [q3]
      have : fits 64 (100 * e.time / par) = .ok (100 * e.time / par) := by
        unfold fits; rw [if_pos (by norm_num; omega)]
      rw [this]
      show Except.ok (toInt (100 * e.time / par)) = _
      rw [toInt_eq (by omega) (by omega)]
  rw [A, B]; rfl

theorem percent_range {t base : ℤ} (h0 : 0 ≤ t) (h1 : t ≤ base) (hb : base ≠ 0) :
    0 ≤ percent t base ∧ percent t base ≤ 100 ∧ percent t base * base ≤ 100 * t ∧
    100 * t < (percent t base + 1) * base := by
  unfold percent
  rw [if_neg hb]
  have hpos : 0 < base := by omega
  refine ⟨Int.ediv_nonneg (by omega) (by omega), ?_, Int.ediv_mul_le _ hb, Int.lt_ediv_add_one_mul_self _ hpos⟩
  have := Int.ediv_le_ediv hpos (show 100 * t ≤ 100 * base by omega)
  rwa [Int.mul_ediv_cancel _ (by omega)] at this

theorem mapM_all {α β : Type} {f : α → Except Err β} {g : α → β} : ∀ {l : List α}, (∀ a ∈ l, f a = .ok (g a)) →
    l.mapM f = .ok (l.map g) := by
  intro l
  induction l with
  | nil => intro _; rfl
  | cons a l ih =>
    intro h
    rw [List.mapM_cons, h a List.mem_cons_self, ih (fun b hb => h b (List.mem_cons_of_mem _ hb))]; rfl

/-- Time of the parent of a key: the total for a top-level key. -/
def parentTime (m : Times) (k : Str) : ℤ :=
  if '/' ∈ k then (recorded m (pathName (split k).dropLast)).getD 0 else totalTime m

/-- The entry made for a recorded time, the time of its root and that of its parent. -/
theorem entry_times (m : Times) (hs : Sorted m) (hc : ParentClosed m) (hch : CharsOk m) {i : ℕ} {kv : Str × ℤ} (hi : m[i]? = some kv) :
    ∃ e, (build m)[i + 1]? = some e ∧ e.name = split kv.1 ∧ e.time = kv.2 ∧
      timeAt (build m) (root (build m) (i + 1)) = totalTime m ∧ parentTimeOf (build m) e = parentTime m kv.1 := by
  have inv := inv_build m
  have hmem := List.mem_of_getElem? hi
  have hilt : i < m.length := (List.getElem?_eq_some_iff.mp hi).1
  obtain ⟨e, he, hn, ht, hpar⟩ := inv.entry i kv hi
  obtain ⟨e0, he0, ht0, _⟩ := inv.top
  have hroot : timeAt (build m) (root (build m) (i + 1)) = totalTime m := by
    unfold root
    rw [root_zero hs hc (i + 1) (i + 1) (Nat.le_refl _) (by omega), ← topTotal_eq, ← ht0]
    exact timeAt_of he0
  have hpt : parentTimeOf (build m) e = parentTime m kv.1 := by
    unfold parentTimeOf
    by_cases hl : 2 ≤ level kv
    · obtain ⟨i', kp, a, ho, hi', _, hsp⟩ := parent_right hs hc hch hi hl hpar
      obtain ⟨pe, hpe, hpn, hpt, _⟩ := inv.entry i' kp hi'
      rw [ho]
      simp only
      rw [timeAt_of (es := build m) hpe, hpt]
      have hsl : '/' ∈ kv.1 := by
        by_contra hno
        have : level kv = 1 := by
          show (splitGo [] kv.1).length = 1
          rw [splitGo_last _ _ hno]; rfl
        omega
      unfold parentTime
      rw [if_pos hsl, hsp, List.dropLast_concat, (split_spec kp.1).2.2, lookup_of_get hs hi']; rfl
    · have hl1 : level kv = 1 := by have := level_pos kv; omega
      have hsl : ¬ '/' ∈ kv.1 := by
        intro hsl
        obtain ⟨g1, g2, g3⟩ := split_spec kv.1
        obtain ⟨a, ha⟩ := List.length_eq_one_iff.mp hl1
        rw [ha] at g1 g3
        have : SlashFree a := g1 a List.mem_cons_self
        rw [show a = kv.1 from g3] at this
        exact this hsl
      have hz : e.parent = some 0 := by
        rw [hl1] at hpar
        cases hp : e.parent with
        | none => rw [hp] at hpar; exact absurd rfl hpar.1
        | some j =>
          rw [hp] at hpar
          cases j with
          | zero => rfl
          | succ j => exact absurd rfl hpar.1
      rw [hz]
      unfold parentTime
      rw [if_neg hsl, ← topTotal_eq, ← ht0]
      exact timeAt_of he0
  exact ⟨e, he, hn, ht, hroot, hpt⟩

theorem summary_rows (m : Times) (hs : Sorted m) (hc : ParentClosed m) (hch : CharsOk m)
    (h0 : ∀ kv ∈ m, 0 ≤ kv.2) (h1 : ∀ kv ∈ m, kv.2 ≤ totalTime m) (h2 : ∀ kv ∈ m, kv.2 ≤ parentTime m kv.1)
    (hb : ∀ kv ∈ m, 100 * kv.2 < 2 ^ 31) (hb2 : totalTime m < 2 ^ 31) (hnn : 0 ≤ totalTime m) :
    printSummary m = .ok (m.map fun kv =>
      ⟨split kv.1, kv.2, percent kv.2 (totalTime m), percent kv.2 (parentTime m kv.1)⟩) ∧
    ∀ kv ∈ m, ∀ base, (base = totalTime m ∨ base = parentTime m kv.1) → base ≠ 0 →
      0 ≤ percent kv.2 base ∧ percent kv.2 base ≤ 100 ∧ percent kv.2 base * base ≤ 100 * kv.2 ∧
      100 * kv.2 < (percent kv.2 base + 1) * base := by
  have inv := inv_build m
  refine ⟨?_, ?_⟩
  · unfold printSummary
    simp only
    -- what each entry contributes
    have key : ∀ i kv, m[i]? = some kv → ∃ e, (build m)[i + 1]? = some e ∧ e.name = split kv.1 ∧ e.time = kv.2 ∧
        calcStats (build m) (i + 1) e = .ok (percent kv.2 (totalTime m), percent kv.2 (parentTime m kv.1)) := by
      intro i kv hi
      have hmem := List.mem_of_getElem? hi
      obtain ⟨e, he, hn, ht, hroot, hpt⟩ := entry_times m hs hc hch hi
      refine ⟨e, he, hn, ht, ?_⟩
      rw [← ht]
      have g0 := h0 kv hmem
      have g1 := h1 kv hmem
      have g2 := h2 kv hmem
      exact calcStats_eq (by rw [ht]; exact g0) hroot hpt hnn (by omega) (by rw [ht]; exact g1) (by rw [ht]; exact g2)
        (by rw [ht]; exact hb kv hmem) hb2
    obtain ⟨e0, rest, hes⟩ : ∃ e0 rest, build m = e0 :: rest := by
      have hlen : (build m).length = m.length + 1 := inv.len
      cases hb : build m with
      | nil => rw [hb] at hlen; simp at hlen
      | cons a b => exact ⟨a, b, rfl⟩
    have hrl : rest.length = m.length := by
      have hlen : (build m).length = m.length + 1 := inv.len
      rw [hes] at hlen; simpa using hlen
    have hidx : (build m).zipIdx.drop 1 = rest.zipIdx 1 := by rw [hes]; rfl
    rw [hidx]
    have hrow : ∀ (ms : Times) (rs : List PEntry) (n : ℕ), ms.length = rs.length →
        (∀ i kv, ms[i]? = some kv → ∃ e, rs[i]? = some e ∧ e.name = split kv.1 ∧ e.time = kv.2 ∧
          calcStats (build m) (i + n) e = .ok (percent kv.2 (totalTime m), percent kv.2 (parentTime m kv.1))) →
        (rs.zipIdx n).mapM (fun ei => do
          let (pt, pp) ← calcStats (build m) ei.2 ei.1
          return (⟨ei.1.name, ei.1.time, pt, pp⟩ : Row)) = .ok (ms.map fun kv =>
            (⟨split kv.1, kv.2, percent kv.2 (totalTime m), percent kv.2 (parentTime m kv.1)⟩ : Row)) := by
      intro ms
      induction ms with
      | nil =>
        intro rs n hl _
        cases rs with
        | nil => rfl
        | cons _ _ => simp at hl
      | cons kv ms ih =>
        intro rs n hl h
        cases rs with
        | nil => simp at hl
        | cons r rs =>
          obtain ⟨e, he, a1, a2, a3⟩ := h 0 kv rfl
          simp only [List.getElem?_cons_zero, Option.some.injEq] at he
          subst he
          rw [Nat.zero_add] at a3
          rw [List.zipIdx_cons, List.mapM_cons, a3]
          have := ih rs (n + 1) (by simpa using hl) (by
            intro i kv' hi
            obtain ⟨e, he, b1, b2, b3⟩ := h (i + 1) kv' (by simpa using hi)
            refine ⟨e, by simpa using he, b1, b2, ?_⟩
            rwa [show i + (n + 1) = i + 1 + n by omega])
          simp only [bind, Except.bind, pure, Except.pure] at this ⊢
          rw [this]
          simp [a1, a2]
    refine hrow m rest 1 hrl.symm ?_
    intro i kv hi
    obtain ⟨e, he, a1, a2, a3⟩ := key i kv hi
    rw [hes] at he
    exact ⟨e, by simpa using he, a1, a2, a3⟩
  · rintro kv hkv base (rfl | rfl) hne
    · exact percent_range (h0 kv hkv) (h1 kv hkv) hne
    · exact percent_range (h0 kv hkv) (h2 kv hkv) hne

/-- **C60** (partial: less than about 21 seconds in total, and no division by zero, for which `-1` is printed).  If the
times are those of nested paths (nonnegative, a nested time is at most its parent's and at most the total), the summary
is printed, and each row shows the integer parts of `100 * time / total` and `100 * time / parent`. -/
theorem C60_partial (m : Times) (hs : Sorted m) (hc : ParentClosed m) (hch : CharsOk m)
    (h0 : ∀ kv ∈ m, 0 ≤ kv.2) (h1 : ∀ kv ∈ m, kv.2 ≤ totalTime m) (h2 : ∀ kv ∈ m, kv.2 ≤ parentTime m kv.1)
    (hb : 100 * totalTime m < 2 ^ 31) (hnn : 0 ≤ totalTime m) :
    printSummary m = .ok (m.map fun kv =>
      ⟨split kv.1, kv.2, percent kv.2 (totalTime m), percent kv.2 (parentTime m kv.1)⟩) ∧
    ∀ kv ∈ m, ∀ base, (base = totalTime m ∨ base = parentTime m kv.1) → base ≠ 0 →
      0 ≤ percent kv.2 base ∧ percent kv.2 base ≤ 100 ∧ percent kv.2 base * base ≤ 100 * kv.2 ∧
      100 * kv.2 < (percent kv.2 base + 1) * base := by
  refine summary_rows m hs hc hch h0 h1 h2 (fun kv hkv => ?_) (by omega) hnn
  have := h1 kv hkv
  omega

theorem calcStats_undefined {es : List PEntry} {i : ℕ} {e : PEntry} (h : timeAt es (root es i) < 2 ^ 31)
    (ht : e.time ≤ timeAt es (root es i)) (hb : 2 ^ 31 ≤ 100 * e.time) : calcStats es i e = .error .undefined := by
  unfold calcStats
  have et : toInt e.time = e.time := toInt_eq (by omega) (by omega)
  have ett : toInt (timeAt es (root es i)) = timeAt es (root es i) := toInt_eq (by omega) (by omega)
  simp only [et, ett]
  rw [if_neg (by omega)]
  have : fits 32 (100 * e.time) = .error .undefined := by unfold fits; rw [if_neg (by norm_num; omega)]
  rw [this]; rfl

theorem mapM_error {α β : Type} {f : α → Except Err β} : ∀ {l : List α} {a : α}, a ∈ l → (∀ b, f a ≠ .ok b) → ∀ bs, l.mapM f ≠ .ok bs
  | [], _, h, _, _ => absurd h List.not_mem_nil
  | x :: l, a, h, hf, bs => by
    rw [List.mapM_cons]
    intro hk
    cases hx : f x with
    | error e => rw [hx] at hk; cases hk
    | ok y =>
      rw [hx] at hk
      rcases List.mem_cons.mp h with rfl | h
      · exact hf _ hx
      · cases hl : l.mapM f with
        | error e => rw [hl] at hk; cases hk
        | ok ys => exact mapM_error h hf ys hl

/-- **C60**, where it ends: with a total that fits in `int`, the summary is defined exactly if a hundred times every recorded time
fits, and then its rows are as in `C60_partial`. -/
theorem C60_defined_iff (m : Times) (hs : Sorted m) (hc : ParentClosed m) (hch : CharsOk m)
    (h0 : ∀ kv ∈ m, 0 ≤ kv.2) (h1 : ∀ kv ∈ m, kv.2 ≤ totalTime m) (h2 : ∀ kv ∈ m, kv.2 ≤ parentTime m kv.1)
    (hb : totalTime m < 2 ^ 31) (hnn : 0 ≤ totalTime m) :
    (∃ rows, printSummary m = .ok rows) ↔ ∀ kv ∈ m, 100 * kv.2 < 2 ^ 31 := by
  refine ⟨fun ⟨rows, hr⟩ kv hkv => ?_, fun h => ⟨_, (summary_rows m hs hc hch h0 h1 h2 h hb hnn).1⟩⟩
  by_contra hge
  obtain ⟨i, hi⟩ := List.getElem?_of_mem hkv
  obtain ⟨e, he, _, ht, hroot, _⟩ := entry_times m hs hc hch hi
  have hu : calcStats (build m) (i + 1) e = .error .undefined :=
    calcStats_undefined (by rw [hroot]; exact hb) (by rw [hroot, ht]; exact h1 kv hkv) (by rw [ht]; omega)
  refine mapM_error (a := (e, i + 1)) (List.mem_iff_getElem?.mpr ⟨i, ?_⟩) (fun b hb => ?_) rows hr
  · rw [List.getElem?_drop, Nat.add_comm 1 i, List.getElem?_zipIdx, he]; simp
  · simp only [hu] at hb; cases hb

/-- One microsecond decides. -/
example : (∃ rows, printSummary [("al".toList, 21474836)] = .ok rows) ∧ ¬ ∃ rows, printSummary [("al".toList, 21474837)] = .ok rows := by
  refine ⟨⟨[⟨["al".toList], 21474836, 100, 100⟩], by decide +kernel⟩, ?_⟩
  have : printSummary [("al".toList, 21474837)] = .error .undefined := by decide +kernel
  rw [this]
  rintro ⟨_, h⟩
  cases h

/-! The recorded times of a program satisfy the hypotheses of `C60_partial`. -/

theorem micros_nonneg {x : ℤ} (h : 0 ≤ x) : 0 ≤ micros x := by
  unfold micros; rw [if_pos h]; exact Int.ediv_nonneg h (by norm_num)

theorem micros_add {x y : ℤ} (hx : 0 ≤ x) (hy : 0 ≤ y) : micros x + micros y ≤ micros (x + y) := by
  unfold micros; rw [if_pos hx, if_pos hy, if_pos (by omega)]; omega

theorem elapsed_nonneg {p : Prog} (h : Spec.Timer.Monotone p) : 0 ≤ elapsed p := by
  induction p with
  | skip => exact le_refl _
  | tick d => exact h
  | activate => exact le_refl _
  | deactivate => exact le_refl _
  | seq p q ihp ihq => exact add_nonneg (ihp h.1) (ihq h.2)
  | scope n b ih => exact ih h

theorem total_append (a b : List (List Str × ℤ)) (path : List Str) :
    total (a ++ b) path = total a path + total b path := by
  unfold total; rw [List.map_append, List.sum_append]

theorem total_map_cons (n x : Str) (rest : List Str) (a : List (List Str × ℤ)) :
    total (a.map fun e => (n :: e.1, e.2)) (x :: rest) = if n = x then total a rest else 0 := by
  unfold total
  rw [List.map_map]
  by_cases h : n = x
  · subst h
    rw [if_pos rfl]
    congr 1
    apply List.map_congr_left
    intro e _
    simp
  · rw [if_neg h]
    have : (a.map ((fun e : List Str × ℤ => if e.1 = x :: rest then micros e.2 else 0) ∘ fun e => (n :: e.1, e.2)))
        = a.map fun _ => 0 := by
      apply List.map_congr_left
      intro e _
      simp [h]
    rw [this]; simp

theorem executions_nonneg {p : Prog} (h : Spec.Timer.Monotone p) : ∀ on, ∀ e ∈ executions on p, 0 ≤ e.2 := by
  induction p with
  | skip => intro on e he; cases he
  | tick d => intro on e he; cases he
  | activate => intro on e he; cases he
  | deactivate => intro on e he; cases he
  | seq p q ihp ihq =>
    intro on e he
    simp only [executions, List.mem_append] at he
    rcases he with he | he
    · exact ihp h.1 _ e he
    · exact ihq h.2 _ e he
  | scope name body ih =>
    intro on e he
    simp only [executions] at he
    split at he
    · simp only [List.mem_append, List.mem_map, List.mem_singleton] at he
      rcases he with ⟨e', he', rfl⟩ | rfl
      · exact ih h _ e' he'
      · exact elapsed_nonneg (p := body) h
    · exact ih h _ e he

theorem total_nonneg {p : Prog} (h : Spec.Timer.Monotone p) (on : Bool) (path : List Str) :
    0 ≤ total (executions on p) path := by
  unfold total
  apply List.sum_nonneg
  intro x hx
  obtain ⟨e, he, rfl⟩ := List.mem_map.mp hx
  split
  · exact micros_nonneg (executions_nonneg h on e he)
  · exact le_refl _

theorem total_nil (on : Bool) (p : Prog) : total (executions on p) [] = 0 := by
  have hn : ∀ p, Names (fun _ => True) p := by
    intro p
    induction p with
    | seq p q h1 h2 => exact ⟨h1, h2⟩
    | scope n b h => exact ⟨trivial, h⟩
    | _ => trivial
  unfold total
  apply List.sum_eq_zero
  intro x hx
  obtain ⟨e, he, rfl⟩ := List.mem_map.mp hx
  rw [if_neg (executions_names (hn p) on e he).1]

/-- The executions of one top-level name last no longer than the program. -/
theorem total_le_elapsed {p : Prog} (h : Spec.Timer.Monotone p) : ∀ on x, total (executions on p) [x] ≤ micros (elapsed p) := by
  induction p with
  | skip => intro on x; exact le_refl _
  | tick d => intro on x; exact micros_nonneg h
  | activate => intro on x; exact le_refl _
  | deactivate => intro on x; exact le_refl _
  | seq p q ihp ihq =>
    intro on x
    simp only [executions, total_append, elapsed]
    have := micros_add (elapsed_nonneg h.1) (elapsed_nonneg h.2)
    have := ihp h.1 on x
    have := ihq h.2 (onAfter on p) x
    omega
  | scope n b ih =>
    intro on x
    simp only [executions, elapsed]
    split
    · rw [total_append, total_map_cons, total_nil]
      have h0 := micros_nonneg (elapsed_nonneg (p := b) h)
      simp only [total, List.map_cons, List.map_nil, List.sum_cons, List.sum_nil, ite_self]
      split <;> omega
    · exact ih h on x

/-- A nested path takes no longer than the path around it. -/
theorem total_child {p : Prog} (h : Spec.Timer.Monotone p) : ∀ on (n : Str) (rest : List Str) (x : Str),
    total (executions on p) ((n :: rest) ++ [x]) ≤ total (executions on p) (n :: rest) := by
  induction p with
  | skip => intro on n rest x; exact le_refl _
  | tick d => intro on n rest x; exact le_refl _
  | activate => intro on n rest x; exact le_refl _
  | deactivate => intro on n rest x; exact le_refl _
  | seq p q ihp ihq =>
    intro on n rest x
    simp only [executions, total_append]
    exact add_le_add (ihp h.1 _ _ _ _) (ihq h.2 _ _ _ _)
  | scope n' b ih =>
    intro on n rest x
    simp only [executions]
    split
    · rw [total_append, total_append, List.cons_append, total_map_cons, total_map_cons]
      have hz : total [([n'], elapsed b)] (n :: (rest ++ [x])) = 0 := by simp [total]
      rw [hz]
      by_cases hn : n' = n
      · subst hn
        rw [if_pos rfl, if_pos rfl]
        cases rest with
        | nil =>
          rw [total_nil]
          have := total_le_elapsed (p := b) h on x
          simpa [total] using this
        | cons r rest =>
          have hz2 : total [([n'], elapsed b)] (n' :: r :: rest) = 0 := by simp [total]
          rw [hz2]
          have := ih h on r rest x
          simpa using this
      · rw [if_neg hn, if_neg hn]
        have : total [([n'], elapsed b)] (n :: rest) = 0 := by simp [total, hn]
        rw [this]
    · exact ih h on n rest x

theorem total_le_first {p : Prog} (h : Spec.Timer.Monotone p) (on : Bool) (n : Str) (rest : List Str) :
    total (executions on p) (n :: rest) ≤ total (executions on p) [n] := by
  induction rest using List.reverseRecOn with
  | nil => exact le_refl _
  | append_singleton rest x ih => exact (total_child h on n rest x).trans ih

theorem executions_parent {p : Prog} : ∀ on, ∀ e ∈ executions on p, ∀ path a, path ≠ [] → e.1 = path ++ [a] →
    ∃ e' ∈ executions on p, e'.1 = path := by
  induction p with
  | skip => intro on e he; cases he
  | tick d => intro on e he; cases he
  | activate => intro on e he; cases he
  | deactivate => intro on e he; cases he
  | seq p q ihp ihq =>
    intro on e he path a hp hpa
    simp only [executions, List.mem_append] at he ⊢
    rcases he with he | he
    · obtain ⟨e', h1, h2⟩ := ihp _ e he path a hp hpa; exact ⟨e', .inl h1, h2⟩
    · obtain ⟨e', h1, h2⟩ := ihq _ e he path a hp hpa; exact ⟨e', .inr h1, h2⟩
  | scope name body ih =>
    intro on e he path a hp hpa
    simp only [executions] at he ⊢
    split at he
    · rename_i hon
      rw [if_pos hon]
      simp only [List.mem_append, List.mem_map, List.mem_singleton] at he ⊢
      cases path with
      | nil => exact absurd rfl hp
      | cons x path =>
        rcases he with ⟨e', he', rfl⟩ | rfl
        · simp only [List.cons_append, List.cons.injEq] at hpa
          cases path with
          | nil => exact ⟨_, .inr rfl, by rw [hpa.1]⟩
          | cons y path =>
            obtain ⟨e'', h1, h2⟩ := ih _ e' he' (y :: path) a (by simp) hpa.2
            exact ⟨_, .inl ⟨e'', h1, rfl⟩, by simp [h2, hpa.1]⟩
        · have := congrArg List.length hpa
          simp at this
    · rename_i hon
      rw [if_neg hon]
      exact ih _ e he path a hp hpa

/-- A name whose characters sort after `/`. -/
def NameOk (s : Str) : Prop := ∀ c ∈ s, '/' < c

theorem NameOk.slashFree {s : Str} (h : NameOk s) : SlashFree s := fun hm => lt_irrefl _ (h _ hm)

theorem pathName_chars {l : List Str} (h : ∀ s ∈ l, NameOk s) : ∀ c ∈ pathName l, '/' ≤ c := by
  induction l with
  | nil => intro c hc; cases hc
  | cons a l ih =>
    cases l with
    | nil => intro c hc; exact le_of_lt (h a List.mem_cons_self c hc)
    | cons b l =>
      intro c hc
      have hc : c ∈ a ++ '/' :: pathName (b :: l) := hc
      rcases List.mem_append.mp hc with hc | hc
      · exact le_of_lt (h a List.mem_cons_self c hc)
      · rcases List.mem_cons.mp hc with rfl | hc
        · exact le_refl _
        · exact ih (fun s hs => h s (List.mem_cons_of_mem _ hs)) c hc

theorem recorded_mem {m : Times} {k : Str} {t : ℤ} (h : recorded m k = some t) : (k, t) ∈ m := by
  induction m with
  | nil => cases h
  | cons p m ih =>
    unfold recorded at h
    rw [lookup_cons'] at h
    by_cases hk : k = p.1
    · rw [if_pos hk] at h
      cases h; rw [hk]; exact List.mem_cons_self
    · rw [if_neg hk] at h
      exact List.mem_cons_of_mem _ (ih h)

/-- **C58, C59, C60 together** (partial: names of letters, digits and the like; less than about 21 seconds).  Run any
program of nested scopes on a new timer, with any activation pattern and a clock that does not go back.  Then the
summary has one row for each path executed while timed, with the total time of its executions and the integer parts of
the percentages of the total and of the time of the path without its last component; they are between 0 and 100. -/
theorem C60_program_partial (p : Prog) (on : Bool) (hn : Names NameOk p) (hm : Spec.Timer.Monotone p) :
    ∃ s, exec p { active := on } = .ok s ∧ (100 * totalTime s.times < 2 ^ 31 → ∃ rows, printSummary s.times = .ok rows ∧
      (∀ r ∈ rows, ∃ e ∈ executions on p, r.name = e.1) ∧
      (∀ e ∈ executions on p, ∃ r ∈ rows, r.name = e.1 ∧ r.time = total (executions on p) e.1 ∧
        r.percentTotal = percent r.time (totalTime s.times) ∧
        (totalTime s.times ≠ 0 → 0 ≤ r.percentTotal ∧ r.percentTotal ≤ 100) ∧
        ∀ path a, path ≠ [] → e.1 = path ++ [a] →
          r.percentParent = percent r.time (total (executions on p) path) ∧
          (total (executions on p) path ≠ 0 → 0 ≤ r.percentParent ∧ r.percentParent ≤ 100))) := by
  have hsf : Names SlashFree p := by
    clear hm
    induction p with
    | seq p q h1 h2 => exact ⟨h1 hn.1, h2 hn.2⟩
    | scope n b h => exact ⟨hn.1.slashFree, h hn.2⟩
    | _ => trivial
  obtain ⟨s, hex, hst, _, hs, _, hkeys⟩ := C58_totals p { active := on } List.Pairwise.nil
  obtain ⟨s', hex', _, hrec⟩ := C58_paths_partial p { active := on } rfl hsf (by intro x hx; cases hx)
  rw [hex] at hex'
  cases hex'
  refine ⟨s, hex, ?_⟩
  intro hb
  simp only [List.nil_append] at hrec hkeys
  -- keys are the names of executed paths
  have hk : ∀ k t, (k, t) ∈ s.times → ∃ e ∈ executions on p, pathName e.1 = k ∧ split k = e.1 ∧
      t = total (executions on p) e.1 := by
    intro k t hmem
    have := (hkeys k).mp (List.mem_map.mpr ⟨_, hmem, rfl⟩)
    simp only [List.map_nil, List.not_mem_nil, false_or] at this
    obtain ⟨e, he, hek⟩ := this
    obtain ⟨h1, h2⟩ := executions_names hsf on e he
    have hr := hrec e.1 h1 h2
    rw [if_pos ⟨e, he, rfl⟩] at hr
    obtain ⟨i, hi⟩ := List.getElem?_of_mem hmem
    have hl := lookup_of_get hs hi
    rw [← hek] at hl
    rw [hr] at hl
    cases hl
    exact ⟨e, he, hek, by rw [← hek, split_pathName _ h1 h2], rfl⟩
  have hin : ∀ e ∈ executions on p, (pathName e.1, total (executions on p) e.1) ∈ s.times := by
    intro e he
    obtain ⟨h1, h2⟩ := executions_names hsf on e he
    have hr := hrec e.1 h1 h2
    rw [if_pos ⟨e, he, rfl⟩] at hr
    exact recorded_mem hr
  have hc : ParentClosed s.times := by
    apply parentClosed_of
    intro kv hkv hl
    obtain ⟨e, he, _, hsp, _⟩ := hk kv.1 kv.2 hkv
    rw [hsp] at hl ⊢
    have hne : e.1 ≠ [] := (executions_names hsf on e he).1
    have hd : e.1.dropLast ≠ [] := by
      intro h
      have := congrArg List.length h
      simp at this; omega
    obtain ⟨e', he', h'⟩ := executions_parent on e he e.1.dropLast (e.1.getLast hne) hd
      (List.dropLast_append_getLast hne).symm
    rw [← h']
    exact List.mem_map.mpr ⟨_, hin e' he', rfl⟩
  have hch : CharsOk s.times := by
    intro kv hkv c hcc
    obtain ⟨e, he, hek, _⟩ := hk kv.1 kv.2 hkv
    exact pathName_chars (executions_names hn on e he).2 c (by rw [hek]; exact hcc)
  have h0 : ∀ kv ∈ s.times, 0 ≤ kv.2 := by
    intro kv hkv
    obtain ⟨e, _, _, _, ht⟩ := hk kv.1 kv.2 hkv
    rw [ht]; exact total_nonneg hm on _
  have htop : ∀ kv ∈ s.times, '/' ∉ kv.1 → kv.2 ≤ totalTime s.times := by
    intro kv hkv hsl
    unfold totalTime
    have : kv.2 = (fun kv : Str × ℤ => if '/' ∈ kv.1 then 0 else kv.2) kv := by simp [hsl]
    rw [this]
    apply List.single_le_sum
    · intro x hx
      obtain ⟨kv', hkv', rfl⟩ := List.mem_map.mp hx
      split
      · exact le_refl _
      · exact h0 kv' hkv'
    · exact List.mem_map.mpr ⟨kv, hkv, rfl⟩
  have h1 : ∀ kv ∈ s.times, kv.2 ≤ totalTime s.times := by
    intro kv hkv
    obtain ⟨e, he, hek, _, ht⟩ := hk kv.1 kv.2 hkv
    have hne := (executions_names hsf on e he).1
    obtain ⟨n, rest, hnr⟩ : ∃ n rest, e.1 = n :: rest := by
      cases h : e.1 with
      | nil => exact absurd h hne
      | cons a b => exact ⟨a, b, rfl⟩
    -- the first component is recorded too
    have hfirst : ∀ rest : List Str, (∃ e ∈ executions on p, e.1 = n :: rest) → ∃ e ∈ executions on p, e.1 = [n] := by
      intro rest
      induction rest using List.reverseRecOn with
      | nil => exact id
      | append_singleton rest x ih =>
        rintro ⟨e, he, h⟩
        exact ih (executions_parent on e he (n :: rest) x (by simp) h)
    obtain ⟨e1, he1, h1e⟩ := hfirst rest ⟨e, he, hnr⟩
    have hmem := hin e1 he1
    rw [h1e] at hmem
    have hnf : '/' ∉ n := (executions_names hsf on e he).2 n (by rw [hnr]; exact List.mem_cons_self)
    have := htop _ hmem hnf
    rw [ht, hnr]
    exact (total_le_first hm on n rest).trans this
  have hpar : ∀ e ∈ executions on p, ∀ path a, path ≠ [] → e.1 = path ++ [a] →
      parentTime s.times (pathName e.1) = total (executions on p) path := by
    intro e he path a hp hpa
    obtain ⟨g1, g2⟩ := executions_names hsf on e he
    obtain ⟨e', he', h'⟩ := executions_parent on e he path a hp hpa
    have hr := hrec e'.1 (by rw [h']; exact hp) (executions_names hsf on e' he').2
    rw [if_pos ⟨e', he', rfl⟩, h'] at hr
    have hsl : '/' ∈ pathName e.1 := by
      rw [hpa, pathName_snoc _ _ hp]; simp
    unfold parentTime
    rw [if_pos hsl, split_pathName _ g1 g2, hpa, List.dropLast_concat, hr]; rfl
  have htopname : ∀ e ∈ executions on p, e.1.length ≤ 1 → '/' ∉ pathName e.1 := by
    intro e he hl
    obtain ⟨g1, g2⟩ := executions_names hsf on e he
    obtain ⟨x, hx⟩ := List.length_eq_one_iff.mp (show e.1.length = 1 by have := List.length_pos_iff.mpr g1; omega)
    rw [hx] at g2 ⊢
    exact g2 x List.mem_cons_self
  have hsplitpath : ∀ e ∈ executions on p, e.1.length ≤ 1 ∨ ∃ path a, path ≠ [] ∧ e.1 = path ++ [a] := by
    intro e he
    by_cases hl : e.1.length ≤ 1
    · exact .inl hl
    · right
      have hne := (executions_names hsf on e he).1
      refine ⟨e.1.dropLast, e.1.getLast hne, ?_, (List.dropLast_append_getLast hne).symm⟩
      intro h
      have := congrArg List.length h
      simp at this; omega
  have h2 : ∀ kv ∈ s.times, kv.2 ≤ parentTime s.times kv.1 := by
    intro kv hkv
    obtain ⟨e, he, hek, _, ht⟩ := hk kv.1 kv.2 hkv
    rcases hsplitpath e he with hl | ⟨path, a, hp, hpa⟩
    · have hsl := htopname e he hl
      rw [hek] at hsl
      unfold parentTime
      rw [if_neg hsl]; exact h1 kv hkv
    · rw [← hek, hpar e he path a hp hpa, ht, hpa]
      cases path with
      | nil => exact absurd rfl hp
      | cons n rest => exact total_child hm on n rest a
  have hnn : 0 ≤ totalTime s.times := by
    unfold totalTime
    apply List.sum_nonneg
    intro x hx
    obtain ⟨kv', hkv', rfl⟩ := List.mem_map.mp hx
    split
    · exact le_refl _
    · exact h0 kv' hkv'
  obtain ⟨hps, hrange⟩ := C60_partial s.times hs hc hch h0 h1 h2 hb hnn
  refine ⟨_, hps, ?_, ?_⟩
  · intro r hr
    obtain ⟨kv, hkv, rfl⟩ := List.mem_map.mp hr
    obtain ⟨e, he, _, hsp, _⟩ := hk kv.1 kv.2 hkv
    exact ⟨e, he, hsp⟩
  · intro e he
    obtain ⟨g1, g2⟩ := executions_names hsf on e he
    refine ⟨_, List.mem_map.mpr ⟨_, hin e he, rfl⟩, split_pathName _ g1 g2, rfl, rfl, ?_, ?_⟩
    · intro hz
      have := hrange _ (hin e he) _ (.inl rfl) hz
      exact ⟨this.1, this.2.1⟩
    · intro path a hp hpa
      have hpt := hpar e he path a hp hpa
      refine ⟨by simp only [hpt], ?_⟩
      intro hz
      have := hrange _ (hin e he) _ (.inr rfl) (by simp only; rw [hpt]; exact hz)
      exact ⟨this.1, this.2.1⟩

example : Names NameOk demoProg ∧ Spec.Timer.Monotone demoProg ∧
    (exec demoProg {}).toOption.map (fun s => (printSummary s.times).toOption.map fun rs =>
      rs.map fun r => (r.time, r.percentTotal, r.percentParent)) = some (some [(10, 100, 100), (2, 20, 20)]) := by
  refine ⟨?_, ?_, by decide +kernel⟩
  · simp only [demoProg, Names, NameOk]; decide
  · simp [demoProg, Spec.Timer.Monotone]

/-- **C60 is false** for 22 seconds: `100 * time` overflows an `int`. -/
theorem C60_overflow_counterexample :
    printSummary [("a".toList, 22000000)] = .error .undefined := by
  decide +kernel

/-- **C60 is false** for times near `2^32` microseconds (about 72 minutes), where the conversion to `int` wraps around:
`-1` is printed though the total is not zero, or `-100` and `200`. -/
theorem C60_wrap_counterexample :
    (printSummary [("a".toList, 4294967296)]).toOption.map (fun rs => rs.map Row.percentTotal) = some [-1] ∧
    (printSummary [("a".toList, 4294967297), ("b".toList, 4294967295)]).toOption.map
      (fun rs => rs.map Row.percentTotal) = some [-1, -1] ∧
    (printSummary [("a".toList, 100), ("b".toList, 4294967096)]).toOption.map
      (fun rs => rs.map Row.percentTotal) = some [-100, 200] := by
  refine ⟨by decide +kernel, by decide +kernel, by decide +kernel⟩

/-- **C60 is false** for a total below one microsecond: `-1` is printed. -/
theorem C60_zero_counterexample :
    (printSummary [("a".toList, 0)]).toOption.map (fun rs => rs.map fun r => (r.percentTotal, r.percentParent))
      = some [(-1, -1)] := by
  decide +kernel

/-- `C60`, where the summary is defined, for all times: a hundred times every recorded time, taken modulo `2^32` into `int`, must
fit in `int`, unless the total is a multiple of `2^32`. -/
theorem C60_defined (m : Times) (hs : Sorted m) (hc : ParentClosed m) (hch : CharsOk m)
    (hb : ∀ kv ∈ m, |100 * kv.2| < 2 ^ 63) :
    (∃ rows, printSummary m = .ok rows) ↔ ∀ kv ∈ m, Int.bmod (totalTime m) (2 ^ 32) = 0 ∨
      |100 * Int.bmod kv.2 (2 ^ 32)| ≤ 2 ^ 31 := by
  have hcalc : ∀ i kv, m[i]? = some kv → ∃ e, (build m)[i + 1]? = some e ∧ ((∃ r, calcStats (build m) (i + 1) e = .ok r) ↔
      (Int.bmod (totalTime m) (2 ^ 32) = 0 ∨ |100 * Int.bmod kv.2 (2 ^ 32)| ≤ 2 ^ 31)) := by
    intro i kv hi
    obtain ⟨e, he, -, ht, hroot, hpt⟩ := entry_times m hs hc hch hi
    refine ⟨e, he, ?_⟩
    have hk := abs_lt.mp (hb kv (List.mem_of_getElem? hi))
    rw [← ht] at hk ⊢
    have hpp : ∀ par : ℤ, ∃ v, (if par = 0 then (.ok (-1) : Except Err ℤ) else do
        let a ← fits 64 (100 * e.time)
        let q ← fits 64 (a.tdiv par)
        pure (toInt q)) = .ok v := by
      intro par
      by_cases h0 : par = 0
      · exact ⟨_, if_pos h0⟩
      · have f2 : fits 64 (100 * e.time) = .ok (100 * e.time) := by unfold fits; rw [if_pos (by norm_num; omega)]
        have hq : |(100 * e.time).tdiv par| ≤ |100 * e.time| := by
          rw [Int.abs_eq_natAbs, Int.abs_eq_natAbs, Int.natAbs_tdiv]
          exact_mod_cast Nat.div_le_self _ _
        have hq' : |(100 * e.time).tdiv par| < 2 ^ 63 := lt_of_le_of_lt hq (abs_lt.mpr hk)
        have hq'' := abs_lt.mp hq'
        have f3 : fits 64 ((100 * e.time).tdiv par) = .ok ((100 * e.time).tdiv par) := by
          unfold fits; rw [if_pos (by norm_num; norm_num at hq''; omega)]
        rw [if_neg h0, f2]
        refine ⟨toInt ((100 * e.time).tdiv par), ?_⟩
        show (do let q ← fits 64 ((100 * e.time).tdiv par); pure (toInt q)) = _
        rw [f3]; rfl
    unfold calcStats
    simp only [hroot]
    obtain ⟨v, hv⟩ := hpp (parentTimeOf (build m) e)
    rw [hv]
    change _ ↔ (toInt (totalTime m) = 0 ∨ |100 * toInt e.time| ≤ 2 ^ 31)
    generalize toInt (totalTime m) = tot
    generalize toInt e.time = x
    by_cases h0 : tot = 0
    · simp only [h0, if_true, true_or, iff_true]; exact ⟨_, rfl⟩
    · simp only [h0, if_false, false_or]
      by_cases hx : |100 * x| ≤ 2 ^ 31
      · simp only [hx, iff_true]
        have hx2 := abs_le.mp hx
        norm_num at hx2
        have f1 : fits 32 (100 * x) = .ok (100 * x) := by unfold fits; rw [if_pos (by norm_num; omega)]
        have hq : |(100 * x).tdiv tot| ≤ |100 * x| := by
          rw [Int.abs_eq_natAbs, Int.abs_eq_natAbs, Int.natAbs_tdiv]
          exact_mod_cast Nat.div_le_self _ _
        have hl : |100 * x| < 2 ^ 31 := by rw [abs_lt]; norm_num; omega
        have hq2 := abs_lt.mp (lt_of_le_of_lt hq hl)
        norm_num at hq2
        have f3 : fits 32 ((100 * x).tdiv tot) = .ok ((100 * x).tdiv tot) := by
          unfold fits; rw [if_pos (by norm_num; omega)]
        rw [f1]
        refine ⟨((100 * x).tdiv tot, v), ?_⟩
        show (do let pt ← fits 32 ((100 * x).tdiv tot); let pp ← (.ok v : Except Err ℤ); pure (pt, pp)) = _
        rw [f3]; rfl
      · simp only [hx, iff_false]
        have hx2 : ¬ (-2 ^ 31 ≤ 100 * x ∧ 100 * x ≤ 2 ^ 31) := fun h => hx (abs_le.mpr h)
        norm_num at hx2
        have f1 : fits 32 (100 * x) = .error .undefined := by unfold fits; rw [if_neg (by norm_num; omega)]
        rw [f1]
        rintro ⟨r, hr⟩
        cases hr
  have hlen : (build m).length = m.length + 1 := (inv_build m).len
  constructor
  · rintro ⟨rows, hr⟩ kv hkv
    by_contra hno
    obtain ⟨i, hi⟩ := List.getElem?_of_mem hkv
    obtain ⟨e, he, hiff⟩ := hcalc i kv hi
    have hbad := mt hiff.mp hno
    refine mapM_error (a := (e, i + 1)) (List.mem_iff_getElem?.mpr ⟨i, ?_⟩) (fun b hb => ?_) rows hr
    · rw [List.getElem?_drop, Nat.add_comm 1 i, List.getElem?_zipIdx, he]; simp
    · cases hcs : calcStats (build m) (i + 1) e with
      | ok r => exact hbad ⟨r, hcs⟩
      | error x => simp only [hcs] at hb; cases hb
  · intro h
    have hall : ∀ ei ∈ (build m).zipIdx.drop 1, ∃ r, calcStats (build m) ei.2 ei.1 = .ok r := by
      rintro ⟨e, k⟩ hei
      obtain ⟨i, hi⟩ := List.getElem?_of_mem hei
      rw [List.getElem?_drop, Nat.add_comm 1 i, List.getElem?_zipIdx] at hi
      have hlt : i < m.length := by
        by_contra hge
        rw [List.getElem?_eq_none (by omega)] at hi
        cases hi
      obtain ⟨e', he', hiff⟩ := hcalc i m[i] (List.getElem?_eq_getElem hlt)
      rw [he'] at hi
      simp at hi
      obtain ⟨rfl, rfl⟩ := hi
      exact hiff.mpr (h _ (List.getElem_mem hlt))
    have hm : ∀ (l : List (PEntry × ℕ)), (∀ ei ∈ l, ∃ r, calcStats (build m) ei.2 ei.1 = .ok r) →
        ∃ rows, l.mapM (fun ei => do
          let (pt, pp) ← calcStats (build m) ei.2 ei.1
          return (⟨ei.1.name, ei.1.time, pt, pp⟩ : Row)) = .ok rows := by
      intro l
      induction l with
      | nil => intro _; exact ⟨[], rfl⟩
      | cons a l ih =>
        intro hl
        obtain ⟨r, hr⟩ := hl a List.mem_cons_self
        obtain ⟨rows, hrows⟩ := ih fun ei he => hl ei (List.mem_cons_of_mem _ he)
        rw [List.mapM_cons, hr, hrows]
        exact ⟨_, rfl⟩
    exact hm _ hall

/-- Fifty minutes, negative as an `int`, and four seconds less than seventy-two minutes, a small negative `int`. -/
example : printSummary [("a".toList, 3000000000)] = .error .undefined ∧
    (printSummary [("a".toList, 4290967296)]).isOk = true := by
  constructor <;> decide +kernel

end Altro.Props
