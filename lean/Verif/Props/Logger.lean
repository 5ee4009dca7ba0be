import Verif.Spec.Logger
import Verif.Tactics
import Mathlib.Data.List.Perm.Basic
import Mathlib.Data.List.Nodup

/-!
# C55-C57: the console logger
-/

namespace Altro.Props
open Altro.Logger Altro.Spec.Logger SolverLogger

/-! ## Maps -/

theorem lookup_cons' (p : String × Entry) (m : Map) (u : String) :
    List.lookup u (p :: m) = if u = p.1 then some p.2 else List.lookup u m := by
  obtain ⟨a, b⟩ := p
  rw [List.lookup_cons]
  by_cases h : u = a
  · subst h; simp
  · have h' : (u == a) = false := by simpa using h
    rw [h', if_neg h]

theorem lookup_none {m : Map} {t : String} : m.lookup t = none ↔ t ∉ m.map Prod.fst := by
  induction m with
  | nil => simp
  | cons p m ih =>
    rw [lookup_cons']
    by_cases h : t = p.1
    · simp [h]
    · rw [if_neg h, ih]; simp [h]

theorem keys_put (m : Map) (t : String) (e : Entry) : (m.put t e).map Prod.fst = m.map Prod.fst := by
  unfold Map.put
  rw [List.map_map]
  apply List.map_congr_left
  intro p _
  simp only [Function.comp]
  split
  · rename_i h; exact h.symm
  · rfl

theorem lookup_put (m : Map) (t u : String) (e : Entry) :
    (m.put t e).lookup u = if u = t then (m.lookup t).map (fun _ => e) else m.lookup u := by
  induction m with
  | nil => simp [Map.put]
  | cons p m ih =>
    have : Map.put (p :: m) t e = (if p.1 = t then (t, e) else p) :: Map.put m t e := rfl
    rw [this, lookup_cons', lookup_cons', lookup_cons', ih]
    by_cases hp : p.1 = t
    · simp only [hp, if_true]
      by_cases hu : u = t
      · simp [hu]
      · simp [hu]
    · have hp' : ¬ t = p.1 := fun h => hp h.symm
      simp only [hp, hp', if_false]
      by_cases hu : u = p.1
      · have : ¬ u = t := by rw [hu]; exact hp
        simp [hu, hp]
      · simp [hu]

theorem get_put (m : Map) (t u : String) (e : Entry) (h : t ∈ m.map Prod.fst) :
    (m.put t e).get u = if u = t then e else m.get u := by
  unfold Map.get
  rw [lookup_put]
  cases hl : m.lookup t with
  | none => exact absurd h (lookup_none.mp hl)
  | some x => split <;> simp

theorem emplace_of_mem {m : Map} {t : String} (e : Entry) (h : t ∈ m.map Prod.fst) : m.emplace t e = m := by
  unfold Map.emplace
  cases hl : m.lookup t with
  | none => exact absurd h (lookup_none.mp hl)
  | some _ => rfl

theorem emplace_of_not_mem {m : Map} {t : String} (e : Entry) (h : t ∉ m.map Prod.fst) :
    m.emplace t e = m ++ [(t, e)] := by
  unfold Map.emplace
  rw [lookup_none.mpr h]

theorem get_append (m : Map) (t u : String) (e : Entry) (h : t ∉ m.map Prod.fst) :
    Map.get (m ++ [(t, e)]) u = if u = t then e else m.get u := by
  unfold Map.get
  rw [List.lookup_append]
  by_cases hu : u = t
  · subst hu
    rw [lookup_none.mpr h]; simp
  · have h' : (u == t) = false := by simpa using hu
    simp [List.lookup_cons, h', hu]

theorem get_clear (m : Map) (t : String) : Map.get (m.map fun p => (p.1, p.2.clear)) t = (m.get t).clear := by
  unfold Map.get
  induction m with
  | nil => rfl
  | cons p m ih =>
    simp only [List.map_cons]
    rw [lookup_cons', lookup_cons']
    by_cases h : t = p.1
    · simp [h]
    · simp only [h, if_false]; exact ih

/-! ## C55 -/

/-- The table and the map agree. -/
structure Good (l : SolverLogger) : Prop where
  nodup : l.order.Nodup
  keys : (l.entries.map Prod.fst).Perm l.order
  title : ∀ t ∈ l.order, (l.entries.get t).title = t

theorem Good.length {l : SolverLogger} (g : Good l) : l.entries.length = l.order.length := by
  simpa using g.keys.length_eq

theorem good_new : Good {} := ⟨List.nodup_nil, .refl _, by intro t h; cases h⟩

theorem insertIdx_nonneg (t : String) (cols : List String) (k : ℕ) (h : k ≤ cols.length) :
    cols.insertIdx k t = cols.take k ++ t :: cols.drop k := by
  induction k generalizing cols with
  | zero => rfl
  | succ k ih =>
    cases cols with
    | nil => simp at h
    | cons a cols => simp at h; simp [ih cols h]

theorem insertCol_eq (col : ℤ) (t : String) (cols : List String)
    (h1 : col ≤ cols.length) (h2 : -(cols.length : ℤ) - 1 ≤ col) :
    insertCol col t cols = cols.insertIdx (if col < 0 then (cols.length : ℤ) + col + 1 else col).toNat t := by
  unfold insertCol
  by_cases hc : 0 ≤ col
  · rw [if_pos hc, if_neg (by omega), insertIdx_nonneg _ _ _ (by omega)]
  · rw [if_neg hc, if_pos (by omega), insertIdx_nonneg _ _ _ (by omega)]
    have e : cols.length - (-col - 1).toNat = ((cols.length : ℤ) + col + 1).toNat := by omega
    simp only [List.reverse_append, List.reverse_cons, List.take_reverse, List.drop_reverse, List.reverse_reverse]
    rw [e]; simp

theorem addEntry_ok {l : SolverLogger} (g : Good l) (col : ℤ) (t f : String) (ty : EntryType) :
    l.addEntry col t f ty =
      if col ≤ l.order.length ∧ -(l.order.length : ℤ) - 1 ≤ col then
        .ok { l with entries := l.entries.emplace t (Entry.make t f ty), order := insertCol col t l.order }
      else .error .assertion := by
  unfold addEntry
  rw [g.length]
  by_cases h1 : col ≤ l.order.length
  · by_cases h2 : -(l.order.length : ℤ) - 1 ≤ col
    · have hp : 0 ≤ (if col < 0 then (l.order.length : ℤ) + col + 1 else col) ∧
          (if col < 0 then (l.order.length : ℤ) + col + 1 else col) ≤ l.order.length := by split <;> omega
      rw [if_neg (by omega), if_neg (by omega), insertCol_eq _ _ _ h1 h2]
      simp only [h1, h2, hp, and_self, if_true]
    · rw [if_neg (by omega), if_pos (by omega), if_neg (by omega)]
  · rw [if_pos (by omega), if_neg (by omega)]

theorem addEntry_eq {l l' : SolverLogger} {col : ℤ} {t f : String} {ty : EntryType} (g : Good l)
    (h : l.addEntry col t f ty = .ok l') :
    (col ≤ l.order.length ∧ -(l.order.length : ℤ) - 1 ≤ col) ∧
    l' = { l with entries := l.entries.emplace t (Entry.make t f ty), order := insertCol col t l.order } := by
  rw [addEntry_ok g] at h
  by_cases hc : col ≤ l.order.length ∧ -(l.order.length : ℤ) - 1 ≤ col
  · rw [if_pos hc] at h; cases h; exact ⟨hc, rfl⟩
  · rw [if_neg hc] at h; cases h

theorem insertCol_perm (col : ℤ) (t : String) (cols : List String) : (insertCol col t cols).Perm (t :: cols) := by
  have key : ∀ (k : ℕ) (l : List String), (l.take k ++ t :: l.drop k).Perm (t :: l) := by
    intro k l
    refine List.perm_middle.trans ?_
    rw [List.take_append_drop]
  unfold insertCol
  split
  · exact key _ _
  · refine (List.reverse_perm _).trans ((key _ _).trans ?_)
    exact (List.reverse_perm _).cons _

theorem good_add {l : SolverLogger} (g : Good l) {col : ℤ} {t f : String} {ty : EntryType} (ht : t ∉ l.order) :
    Good { l with entries := l.entries.emplace t (Entry.make t f ty), order := insertCol col t l.order } ∧
    ∀ u ∈ l.order, Map.get (l.entries.emplace t (Entry.make t f ty)) u = l.entries.get u := by
  have hk : t ∉ l.entries.map Prod.fst := fun h => ht (g.keys.mem_iff.mp h)
  have hg : ∀ u, Map.get (l.entries.emplace t (Entry.make t f ty)) u
      = if u = t then Entry.make t f ty else l.entries.get u := by
    intro u; rw [emplace_of_not_mem _ hk, get_append _ _ _ _ hk]
  refine ⟨⟨?_, ?_, ?_⟩, ?_⟩
  · exact (insertCol_perm col t l.order).nodup_iff.mpr (List.nodup_cons.mpr ⟨ht, g.nodup⟩)
  · simp only [emplace_of_not_mem _ hk, List.map_append, List.map_cons, List.map_nil]
    refine (List.perm_append_singleton t _).trans ?_
    exact (g.keys.cons t).trans (insertCol_perm col t l.order).symm
  · intro u hu
    have hu := (insertCol_perm col t l.order).mem_iff.mp hu
    simp only [hg]
    by_cases hut : u = t
    · rw [if_pos hut, hut]; rfl
    · rw [if_neg hut]
      exact g.title u ((List.mem_cons.mp hu).resolve_left hut)
  · intro u hu
    rw [hg, if_neg (fun h : u = t => ht (h ▸ hu))]

theorem set_title {e e' : Entry} {s : Entry.Setter} (h : e.set s = .ok e') :
    e'.title = e.title ∧ e'.level = (match s with | .level l => l | _ => e.level) := by
  cases s with
  | lower lb c =>
    simp only [Entry.set, Entry.setLowerBound] at h
    split at h <;> cases h
    exact ⟨rfl, rfl⟩
  | upper lb c =>
    simp only [Entry.set, Entry.setUpperBound] at h
    split at h <;> cases h
    exact ⟨rfl, rfl⟩
  | width w => cases h; exact ⟨rfl, rfl⟩
  | level w => cases h; exact ⟨rfl, rfl⟩
  | name w => cases h; exact ⟨rfl, rfl⟩
  | type w => cases h; exact ⟨rfl, rfl⟩

theorem bind_ok {α β : Type} {x : Except Err α} {f : α → Except Err β} {b : β} (h : (x >>= f) = .ok b) :
    ∃ a, x = .ok a ∧ f a = .ok b := by
  cases x with
  | error e => cases h
  | ok a => exact ⟨a, rfl, h⟩

theorem log_title {φ : Fmt} {e e' : Entry} {v : Val} (h : e.log φ v = .ok e') :
    e'.title = e.title ∧ e'.level = e.level := by
  obtain ⟨d, _, h2⟩ := bind_ok h
  cases h2; exact ⟨rfl, rfl⟩

theorem good_put {l : SolverLogger} (g : Good l) {t : String} {e : Entry} (ht : t ∈ l.order)
    (he : e.title = (l.entries.get t).title) :
    Good { l with entries := l.entries.put t e } ∧
    ∀ u, Map.get (l.entries.put t e) u = if u = t then e else l.entries.get u := by
  have hk : t ∈ l.entries.map Prod.fst := g.keys.mem_iff.mpr ht
  refine ⟨⟨g.nodup, by simpa only [keys_put] using g.keys, ?_⟩, fun u => get_put _ _ _ _ hk⟩
  intro u hu
  simp only [get_put _ _ _ _ hk]
  split
  · rename_i h; rw [he, h]; exact g.title t ht
  · exact g.title u hu

theorem set_step {l l' : SolverLogger} (g : Good l) {t : String} {s : Entry.Setter} (ht : t ∈ l.order)
    (h : l.setEntry t s = .ok l') :
    Good l' ∧ l'.order = l.order ∧ l'.level = l.level ∧
    ∃ e, (l.entries.get t).set s = .ok e ∧ ∀ u, l'.entries.get u = if u = t then e else l.entries.get u := by
  have hk : t ∈ l.entries.map Prod.fst := g.keys.mem_iff.mpr ht
  unfold setEntry at h
  simp only [Map.touch, emplace_of_mem _ hk] at h
  obtain ⟨e, h1, h2⟩ := bind_ok h
  cases h2
  have := good_put g ht (set_title h1).1
  exact ⟨this.1, rfl, rfl, e, h1, this.2⟩

theorem log_step {φ : Fmt} {l l' : SolverLogger} (g : Good l) {t : String} {v : Val} (ht : t ∈ l.order)
    (h : l.log φ t v = .ok l') :
    Good l' ∧ l'.order = l.order ∧ l'.level = l.level ∧
    (if l.level > 0 ∧ (l.entries.get t).level ≤ l.level then
      ∃ e, (l.entries.get t).log φ v = .ok e ∧ ∀ u, l'.entries.get u = if u = t then e else l.entries.get u
    else l' = l) := by
  have hk : t ∈ l.entries.map Prod.fst := g.keys.mem_iff.mpr ht
  unfold SolverLogger.log at h
  simp only [Map.touch, emplace_of_mem _ hk] at h
  by_cases hl : l.level > 0
  · rw [if_pos hl] at h
    by_cases ha : (l.entries.get t).level ≤ l.level
    · rw [if_pos (by simpa [Entry.isActive] using ha)] at h
      obtain ⟨e, h1, h2⟩ := bind_ok h
      cases h2
      have := good_put g ht (log_title h1).1
      rw [if_pos ⟨hl, ha⟩]
      exact ⟨this.1, rfl, rfl, e, h1, this.2⟩
    · rw [if_neg (by simpa [Entry.isActive] using ha)] at h
      cases h
      rw [if_neg (fun h => ha h.2)]
      exact ⟨g, rfl, rfl, rfl⟩
  · rw [if_neg hl] at h
    cases h
    rw [if_neg (fun h => hl h.1)]
    exact ⟨g, rfl, rfl, rfl⟩

theorem print_state {l l' : SolverLogger} {o : List Line} (h : l.print = .ok (l', o)) :
    ∃ c, l' = { l with count := c } := by
  unfold SolverLogger.print at h
  split at h
  · cases h
  · split at h
    · obtain ⟨a, _, h⟩ := bind_ok h
      obtain ⟨b, _, h⟩ := bind_ok h
      cases h; exact ⟨_, rfl⟩
    · obtain ⟨a, _, h⟩ := bind_ok h
      cases h; exact ⟨_, rfl⟩

/-- What the setters of one entry add up to. -/
def foldFrom {γ : Type} (upd : Entry.Setter → γ → γ) (t : String) (x : γ) : List Op → γ
  | [] => x
  | .set t' s :: ops => foldFrom upd t (if t' = t then upd s x else x) ops
  | _ :: ops => foldFrom upd t x ops

/-- A property of an entry kept up to date by the setters and untouched by logging and clearing. -/
structure Tracks (φ : Fmt) {γ : Type} (R : Entry → γ → Prop) (x0 : γ) (upd : Entry.Setter → γ → γ) : Prop where
  make : ∀ t f ty, R (Entry.make t f ty) x0
  set : ∀ e e' s x, R e x → e.set s = .ok e' → R e' (upd s x)
  log : ∀ e e' v x, R e x → e.log φ v = .ok e' → R e' x
  clear : ∀ e x, R e x → R e.clear x

/-- The main induction. -/
theorem tidy_run {φ : Fmt} {γ : Type} {R : Entry → γ → Prop} {x0 : γ} {upd : Entry.Setter → γ → γ}
    (tr : Tracks φ R x0 upd) {ops : List Op} : ∀ {l l' : SolverLogger} {out : List Line} {known : List String}
    {lv : String → γ}, Good l → (∀ t, t ∈ known ↔ t ∈ l.order) →
    (∀ t ∈ l.order, R (l.entries.get t) (lv t)) → (∀ t, t ∉ l.order → lv t = x0) →
    Tidy known ops → l.run φ ops = .ok (l', out) →
    Good l' ∧ l'.order = columnsFrom l.order ops ∧ l'.level = verbosityFrom l.level ops ∧
    ∀ t ∈ l'.order, R (l'.entries.get t) (foldFrom upd t (lv t) ops) := by
  induction ops with
  | nil =>
    intro l l' out known lv g _ hlv _ _ h
    cases h
    exact ⟨g, rfl, rfl, hlv⟩
  | cons op ops ih =>
    intro l l' out known lv g hk hlv hd ht h
    obtain ⟨⟨l1, o1⟩, h1, hx⟩ := bind_ok h
    obtain ⟨⟨l2, o2⟩, h2, h3⟩ := bind_ok hx
    clear h hx
    cases h3
    cases op with
    | add col t f ty =>
      obtain ⟨l1', ha, hb⟩ := bind_ok h1
      cases hb
      obtain ⟨_, rfl⟩ := addEntry_eq g ha
      have hnew : t ∉ l.order := fun hm => ht.1 ((hk t).mpr hm)
      obtain ⟨g1, hget⟩ := good_add g (col := col) (f := f) (ty := ty) hnew
      have hmem : ∀ u, u ∈ insertCol col t l.order ↔ u = t ∨ u ∈ l.order := by
        intro u; rw [(insertCol_perm col t l.order).mem_iff]; simp
      have := ih (lv := lv) g1 (known := t :: known) (by intro u; simp [hmem, hk])
        (by
          intro u hu
          rcases (hmem u).mp hu with rfl | hu
          · have hkk : u ∉ l.entries.map Prod.fst := fun h => hnew (g.keys.mem_iff.mp h)
            simp only [emplace_of_not_mem _ hkk, get_append _ _ _ _ hkk, if_pos]
            rw [hd u hnew]; exact tr.make ..
          · simp only [hget u hu]; exact hlv u hu)
        (by intro u hu; exact hd u (fun h => hu ((hmem u).mpr (.inr h))))
        ht.2 h2
      exact this
    | set t s =>
      obtain ⟨l1', ha, hb⟩ := bind_ok h1
      cases hb
      obtain ⟨g1, ho, hl, e, he, hget⟩ := set_step g ((hk t).mp ht.1) ha
      have := ih (lv := fun u => if t = u then upd s (lv u) else lv u) g1 (known := known) (by simpa [ho] using hk)
        (by
          intro u hu
          rw [hget]
          by_cases hut : u = t
          · subst hut
            simp only [if_true]
            exact tr.set _ _ _ _ (hlv u (ho ▸ hu)) he
          · have hut' : ¬ t = u := fun h => hut h.symm
            simp only [hut, hut', if_false]; exact hlv u (ho ▸ hu))
        (by
          intro u hu
          have : ¬ t = u := by
            rintro rfl
            exact hu (ho ▸ (hk t).mp ht.1)
          simp only [this, if_false]
          exact hd u (ho ▸ hu))
        ht.2 h2
      rw [ho, hl] at this
      exact this
    | log t v =>
      obtain ⟨l1', ha, hb⟩ := bind_ok h1
      cases hb
      obtain ⟨g1, ho, hl, hx⟩ := log_step g ((hk t).mp ht.1) ha
      have := ih (lv := lv) g1 (known := known) (by simpa [ho] using hk)
        (by
          intro u hu
          split at hx
          · obtain ⟨e, he, hget⟩ := hx
            rw [hget]
            by_cases hut : u = t
            · subst hut
              rw [if_pos rfl]; exact tr.log _ _ _ _ (hlv u (ho ▸ hu)) he
            · rw [if_neg hut]; exact hlv u (ho ▸ hu)
          · rw [hx]; exact hlv u (ho ▸ hu))
        (by intro u hu; exact hd u (ho ▸ hu)) ht.2 h2
      rw [ho, hl] at this
      exact this
    | level lv' =>
      cases h1
      exact ih (l := l.setLevel lv') ⟨g.nodup, g.keys, g.title⟩ hk hlv hd ht h2
    | frequency f =>
      obtain ⟨l1', ha, hb⟩ := bind_ok h1
      cases hb
      unfold setFrequency at ha
      split at ha <;> cases ha
      exact ih (l := { l with frequency := f }) ⟨g.nodup, g.keys, g.title⟩ hk hlv hd ht h2
    | headerColor c =>
      cases h1
      exact ih (l := { l with headerColor := c }) ⟨g.nodup, g.keys, g.title⟩ hk hlv hd ht h2
    | printHeader =>
      obtain ⟨a, _, hb⟩ := bind_ok h1
      cases hb
      exact ih g hk hlv hd ht h2
    | printData =>
      obtain ⟨a, _, hb⟩ := bind_ok h1
      cases hb
      exact ih g hk hlv hd ht h2
    | print =>
      obtain ⟨c, rfl⟩ := print_state h1
      exact ih (l := { l with count := c }) ⟨g.nodup, g.keys, g.title⟩ hk hlv hd ht h2
    | clear =>
      cases h1
      refine ih (l := l.clear) ⟨g.nodup, ?_, ?_⟩ hk ?_ hd ht h2
      · have : (l.clear.entries.map Prod.fst) = l.entries.map Prod.fst := by
          simp [SolverLogger.clear, Function.comp_def]
        rw [this]; exact g.keys
      · intro t ht'
        show (Map.get (l.entries.map fun p => (p.1, p.2.clear)) t).title = t
        rw [get_clear]; exact g.title t ht'
      · intro t ht'
        show R (Map.get (l.entries.map fun p => (p.1, p.2.clear)) t) _
        rw [get_clear]; exact tr.clear _ _ (hlv t ht')

theorem tidy_new {φ : Fmt} {γ : Type} {R : Entry → γ → Prop} {x0 : γ} {upd : Entry.Setter → γ → γ}
    (tr : Tracks φ R x0 upd) {ops : List Op} {l : SolverLogger} {out : List Line} (ht : Tidy [] ops)
    (h : SolverLogger.run φ {} ops = .ok (l, out)) :
    Good l ∧ l.order = columns ops ∧ l.level = verbosityFrom 0 ops ∧
    ∀ t ∈ l.order, R (l.entries.get t) (foldFrom upd t x0 ops) :=
  tidy_run tr (lv := fun _ => x0) good_new (by simp) (by intro t h; cases h) (by simp) ht h

/-- The effect of a setter on the level. -/
def updLevel : Entry.Setter → Level → Level
  | .level l, _ => l
  | _, x => x

theorem tracks_level (φ : Fmt) : Tracks φ (fun e x => e.level = x) kInner updLevel where
  make _ _ _ := rfl
  set e e' s x h hs := by
    rw [(set_title hs).2]
    cases s <;> simp [updLevel, h]
  log e e' v x h hl := by rw [(log_title hl).2, h]
  clear e x h := h

theorem foldFrom_level (t : String) (ops : List Op) : ∀ x, foldFrom updLevel t x ops = levelFrom t x ops := by
  induction ops with
  | nil => intro x; rfl
  | cons op ops ih =>
    intro x
    cases op with
    | set t' s => cases s <;> simp [foldFrom, levelFrom, ih, updLevel]
    | _ => simp only [foldFrom, levelFrom]; exact ih _

theorem tidy_levels {φ : Fmt} {ops : List Op} {l : SolverLogger} {out : List Line} (ht : Tidy [] ops)
    (h : SolverLogger.run φ {} ops = .ok (l, out)) :
    Good l ∧ l.order = columns ops ∧ l.level = verbosityFrom 0 ops ∧
    ∀ t ∈ l.order, (l.entries.get t).level = levelOf t ops := by
  obtain ⟨g, ho, hl, hlv⟩ := tidy_new (tracks_level φ) ht h
  exact ⟨g, ho, hl, fun t h' => by rw [hlv t h', foldFrom_level]; rfl⟩

/-- **C55** (partial: titles are added once and before they are used; see the counterexamples).  The columns are those
inserted, each exactly once. -/
theorem C55_columns_partial {φ : Fmt} {ops : List Op} {l : SolverLogger} {out : List Line} (ht : Tidy [] ops)
    (h : SolverLogger.run φ {} ops = .ok (l, out)) : l.order = columns ops ∧ (columns ops).Nodup := by
  obtain ⟨g, ho, _⟩ := tidy_levels ht h
  exact ⟨ho, by rw [← show l.order = columns ops from ho]; exact g.nodup⟩

/-- **C55** (partial, as above).  A new title is accepted exactly at the positions `-(n+1), ..., n` of a table of `n`
columns.  It becomes column number `col` counted from the left if `col ≥ 0` and number `-col - 1` counted from the
right if `col < 0`, and removing it gives back the table. -/
theorem C55_add_partial {φ : Fmt} {ops : List Op} {l : SolverLogger} {out : List Line} (ht : Tidy [] ops)
    (h : SolverLogger.run φ {} ops = .ok (l, out)) (col : ℤ) (t f : String) (ty : EntryType) :
    (¬ (-(l.order.length : ℤ) - 1 ≤ col ∧ col ≤ l.order.length) → l.addEntry col t f ty = .error .assertion) ∧
    (-(l.order.length : ℤ) - 1 ≤ col ∧ col ≤ l.order.length → ∃ l', l.addEntry col t f ty = .ok l' ∧
      (0 ≤ col → l'.order[col.toNat]? = some t ∧ l'.order.eraseIdx col.toNat = l.order) ∧
      (col < 0 → l'.order.reverse[(-col - 1).toNat]? = some t ∧
        (l'.order.reverse.eraseIdx (-col - 1).toNat).reverse = l.order)) := by
  obtain ⟨g, -⟩ := tidy_levels ht h
  rw [addEntry_ok g]
  have key : ∀ (cols : List String) (k : ℕ), k ≤ cols.length →
      (cols.take k ++ t :: cols.drop k)[k]? = some t ∧ (cols.take k ++ t :: cols.drop k).eraseIdx k = cols := by
    intro cols k hk
    have hl : (cols.take k).length = k := by simp [hk]
    constructor
    · rw [List.getElem?_append_right (by omega), hl]; simp
    · rw [List.eraseIdx_append_of_length_le (by omega), hl]; simp
  constructor
  · intro hn; rw [if_neg (by omega)]
  · intro hp
    rw [if_pos ⟨hp.2, hp.1⟩]
    refine ⟨_, rfl, ?_, ?_⟩
    · intro hc
      simp only [insertCol, hc, if_true]
      exact key _ _ (by omega)
    · intro hc
      have hc' : ¬ 0 ≤ col := by omega
      simp only [insertCol, hc', if_false, List.reverse_reverse]
      have := key l.order.reverse (-col - 1).toNat (by simp; omega)
      rw [this.1, this.2]
      exact ⟨rfl, List.reverse_reverse _⟩

theorem mapM_ok {α β γ : Type} {f : α → Except Err β} {g : β → γ} {k : α → γ}
    (hf : ∀ a b, f a = .ok b → g b = k a) : ∀ {l : List α} {bs : List β}, l.mapM f = .ok bs → bs.map g = l.map k := by
  intro l
  induction l with
  | nil => intro bs h; cases h; rfl
  | cons a l ih =>
    intro bs h
    rw [List.mapM_cons] at h
    obtain ⟨b, h1, h⟩ := bind_ok h
    obtain ⟨bs', h2, h⟩ := bind_ok h
    cases h
    simp [hf a b h1, ih h2]

theorem cell_ok {x : String} {w : ℤ} {c : Color} {d : Cell} (h : Entry.cell x w c = .ok d) : d = ⟨x, w, c⟩ := by
  unfold Entry.cell at h
  split at h
  · cases h; rfl
  · cases h

theorem activeEntries_eq (l : SolverLogger) {lv : String → Level}
    (hlv : ∀ t ∈ l.order, (l.entries.get t).level = lv t) :
    l.activeEntries = (l.order.filter fun t => decide (lv t ≤ l.level)).map l.entries.get := by
  unfold activeEntries
  rw [List.filter_map]
  congr 1
  apply List.filter_congr
  intro t ht
  simp [Entry.isActive, hlv t ht]

/-- **C55** (partial, as above, and the verbosity is not silent).  The header shows the titles of exactly the columns
enabled at the current verbosity, in order; so does a row, with the text last stored for each of them.  Nothing is
printed if no column is enabled. -/
theorem C55_print_partial {φ : Fmt} {ops : List Op} {l : SolverLogger} {out : List Line} (ht : Tidy [] ops)
    (h : SolverLogger.run φ {} ops = .ok (l, out)) (hv : verbosityFrom 0 ops ≠ 0) :
    let shown := (columns ops).filter fun t => decide (levelOf t ops ≤ verbosityFrom 0 ops)
    (∀ ls, l.printHeader = .ok ls → (ls.map texts) = if shown = [] then [] else [shown]) ∧
    (∀ ls, l.printData = .ok ls →
      (ls.map texts) = if shown = [] then [] else [shown.map fun t => (l.entries.get t).data]) := by
  obtain ⟨g, ho, hl, hlv⟩ := tidy_levels ht h
  intro shown
  have hact : l.activeEntries = shown.map l.entries.get := by
    rw [activeEntries_eq l hlv, hl, ho]
  have hv' : l.level ≠ 0 := by rw [hl]; exact hv
  have hsub : ∀ t ∈ shown, (l.entries.get t).title = t := by
    intro t h'
    exact g.title t (ho ▸ (List.mem_filter.mp h').1)
  constructor
  · intro ls hp
    unfold SolverLogger.printHeader at hp
    rw [if_neg hv', hact] at hp
    obtain ⟨cells, h1, h2⟩ := bind_ok hp
    have htx : cells.map Cell.text = shown := by
      rw [mapM_ok (g := Cell.text) (k := fun e => e.title) (fun a b hb => by rw [cell_ok hb]) h1, List.map_map]
      conv_rhs => rw [← List.map_id shown]
      exact List.map_congr_left fun t h' => hsub t h'
    split at h2
    · rename_i hc
      cases h2
      rw [hc] at htx
      rw [if_pos (by rw [← htx]; rfl)]; rfl
    · rename_i hc
      cases h2
      have : shown ≠ [] := by
        intro hs; rw [hs] at htx
        exact hc (List.map_eq_nil_iff.mp htx)
      rw [if_neg this]
      simp [texts, htx]
  · intro ls hp
    unfold SolverLogger.printData at hp
    rw [if_neg hv', hact] at hp
    obtain ⟨cells, h1, h2⟩ := bind_ok hp
    have htx : cells.map Cell.text = shown.map fun t => (l.entries.get t).data := by
      rw [mapM_ok (g := Cell.text) (k := fun e => e.data) (fun a b hb => by rw [cell_ok hb]) h1, List.map_map]
      rfl
    split at h2
    · rename_i hc
      cases h2
      rw [hc] at htx
      rw [if_pos (List.map_eq_nil_iff.mp (by rw [← htx]; rfl))]; rfl
    · rename_i hc
      cases h2
      have : shown ≠ [] := by
        intro hs; rw [hs] at htx
        exact hc (List.map_eq_nil_iff.mp htx)
      rw [if_neg this]
      simp [texts, htx]

theorem lineLength_ge (cells : List Cell) : (cells.map fun c => c.width + 1).sum ≤ lineLength cells ∧
    ((cells.map fun c => c.width + 1).sum = lineLength cells ↔ ∀ c ∈ cells, (c.text.length : ℤ) ≤ c.width) := by
  induction cells with
  | nil => simp [lineLength]
  | cons c l ih =>
    obtain ⟨h1, h2⟩ := ih
    unfold lineLength at h1 h2 ⊢
    have h3 : c.width ≤ Spec.Logger.Cell.printed c := le_max_left _ _
    have h4 : c.width = Spec.Logger.Cell.printed c ↔ (c.text.length : ℤ) ≤ c.width := by
      unfold Spec.Logger.Cell.printed; omega
    simp only [List.map_cons, List.sum_cons, List.forall_mem_cons, ← h2, ← h4]
    omega

/-- **C55, layout.**  A header is followed by a rule of the width of the columns: never longer than the header line, and
exactly as long if and only if every title fits into its column. A row of data uses the same column widths as the header,
in the same order. -/
theorem C55_layout (l : SolverLogger) (hs ds : List Line) (hh : l.printHeader = .ok hs) (hd : l.printData = .ok ds) :
    (∀ cells r c, .header cells r c ∈ hs → c = l.headerColor ∧ r ≤ lineLength cells ∧
      (r = lineLength cells ↔ ∀ d ∈ cells, (d.text.length : ℤ) ≤ d.width)) ∧
    (∀ cells r c cells', .header cells r c ∈ hs → .data cells' ∈ ds → cells'.map Cell.width = cells.map Cell.width) := by
  have H : ∀ cells r c, .header cells r c ∈ hs → c = l.headerColor ∧ r = (l.activeEntries.map fun e => e.width + 1).sum ∧
      cells.map Cell.width = l.activeEntries.map Entry.width := by
    intro cells r c hm
    unfold SolverLogger.printHeader at hh
    split at hh
    · cases hh; cases hm
    · obtain ⟨cs, h1, h2⟩ := bind_ok hh
      have hw : cs.map Cell.width = l.activeEntries.map Entry.width :=
        mapM_ok (fun a b hb => by rw [cell_ok hb]) h1
      split at h2
      · cases h2; cases hm
      · cases h2
        rw [List.mem_singleton, Line.header.injEq] at hm
        obtain ⟨rfl, rfl, rfl⟩ := hm
        exact ⟨rfl, rfl, hw⟩
  refine ⟨fun cells r c hm => ?_, fun cells r c cells' hm hm' => ?_⟩
  · obtain ⟨h1, h2, h3⟩ := H cells r c hm
    have h4 : r = (cells.map fun c => c.width + 1).sum := by
      rw [h2]
      have e1 : (l.activeEntries.map fun e => e.width + 1) = (l.activeEntries.map Entry.width).map (· + 1) := by
        rw [List.map_map]; rfl
      have e2 : (cells.map fun c => c.width + 1) = (cells.map Cell.width).map (· + 1) := by
        rw [List.map_map]; rfl
      rw [e1, e2, h3]
    exact ⟨h1, h4 ▸ lineLength_ge cells⟩
  · rw [(H cells r c hm).2.2]
    unfold SolverLogger.printData at hd
    split at hd
    · cases hd; cases hm'
    · obtain ⟨cs, h1, h2⟩ := bind_ok hd
      have hw : cs.map Cell.width = l.activeEntries.map Entry.width :=
        mapM_ok (fun a b hb => by rw [cell_ok hb]) h1
      split at h2
      · cases h2; cases hm'
      · cases h2
        rw [List.mem_singleton, Line.data.injEq] at hm'
        rw [hm', hw]

/-- **C55, `Clear`.**  Until something is logged again, the columns are empty (log_entry.hpp:186-190), and the next `Print` starts with the header. -/
theorem C55_cleared (l l' : SolverLogger) (lines : List Line) (h : l.clear.print = .ok (l', lines)) :
    (∀ cells, .data cells ∈ lines → ∀ c ∈ cells, c.text = "") ∧
    (l.level ≠ 0 → l.activeEntries ≠ [] → ∃ cells r c, lines.head? = some (.header cells r c) ∧ cells.length = l.activeEntries.length) := by
  have hact : l.clear.activeEntries = l.activeEntries.map Entry.clear := by
    unfold SolverLogger.activeEntries
    have e : l.clear.order.map l.clear.entries.get = (l.order.map l.entries.get).map Entry.clear := by
      rw [List.map_map]
      exact List.map_congr_left fun t _ => get_clear l.entries t
    rw [e, List.filter_map]
    rfl
  have hdata : ∀ ds, l.clear.printData = .ok ds → ∀ cells, .data cells ∈ ds → ∀ c ∈ cells, c.text = "" := by
    intro ds hd cells hm c hc
    unfold SolverLogger.printData at hd
    split at hd
    · cases hd; cases hm
    · obtain ⟨cs, h1, h2⟩ := bind_ok hd
      have hw : cs.map Cell.text = l.clear.activeEntries.map Entry.data := mapM_ok (fun a b hb => by rw [cell_ok hb]) h1
      split at h2
      · cases h2; cases hm
      · cases h2
        rw [List.mem_singleton, Line.data.injEq] at hm
        subst hm
        have : c.text ∈ l.clear.activeEntries.map Entry.data := by rw [← hw]; exact List.mem_map_of_mem hc
        rw [hact, List.map_map] at this
        obtain ⟨e, -, he⟩ := List.mem_map.mp this
        exact he.symm
  have hhead : ∀ hs, l.clear.printHeader = .ok hs → (∀ cells, Line.data cells ∉ hs) ∧
      (l.level ≠ 0 → l.activeEntries ≠ [] → ∃ cells r c, hs.head? = some (.header cells r c) ∧ cells.length = l.activeEntries.length) := by
    intro hs hh
    unfold SolverLogger.printHeader at hh
    split at hh
    · rename_i h0
      cases hh
      exact ⟨fun _ hm => (by cases hm), fun h1 => absurd h0 h1⟩
    · obtain ⟨cs, h1, h2⟩ := bind_ok hh
      have hw : cs.map Cell.width = l.clear.activeEntries.map Entry.width := mapM_ok (fun a b hb => by rw [cell_ok hb]) h1
      have hl : cs.length = l.activeEntries.length := by
        have := congrArg List.length hw
        rwa [List.length_map, List.length_map, hact, List.length_map] at this
      split at h2
      · rename_i h3
        cases h2
        refine ⟨fun _ hm => (by cases hm), fun _ h4 => absurd (List.eq_nil_of_length_eq_zero ?_) h4⟩
        rw [← hl, h3]; rfl
      · cases h2
        exact ⟨fun _ hm => (by cases List.mem_singleton.mp hm), fun _ _ => ⟨_, _, _, rfl, hl⟩⟩
  unfold SolverLogger.print at h
  split at h
  · cases h
  · rw [if_pos (show Int.tmod l.clear.count _ = 0 from Int.zero_tmod _)] at h
    obtain ⟨hs, h1, h2⟩ := bind_ok h
    obtain ⟨ds, h3, h4⟩ := bind_ok h2
    cases h4
    obtain ⟨g1, g2⟩ := hhead hs h1
    refine ⟨fun cells hm => ?_, fun a1 a2 => ?_⟩
    · rcases List.mem_append.mp hm with hm | hm
      · exact absurd hm (g1 cells)
      · exact hdata ds h3 cells hm
    · obtain ⟨cells, r, c, e1, e2⟩ := g2 a1 a2
      refine ⟨cells, r, c, ?_, e2⟩
      cases hs with
      | nil => cases e1
      | cons x hs => exact e1

/-- A formatter for the examples: it shows the format string. -/
def demoFmt : Fmt := fun f v => match v with
  | .int i => .ok (f ++ toString i)
  | .dbl _ => .ok f

/-- The solver's own table: ten columns, seven of them at level `kInner`. -/
example : Tidy [] defaultOps ∧
    columns defaultOps = ["iters", "iter_al", "cost", "viol", "dJ", "grad", "alpha", "reg", "z", "pen"] ∧
    (SolverLogger.run demoFmt {} (defaultOps ++ [.level 3, .log "iters" (.int 7), .print])).toOption.map
      (fun r => r.2.map texts) =
      some [["iters", "iter_al", "cost", "viol", "dJ", "grad", "alpha"], ["{:>4}7", "", "", "", "", "", ""]] := by
  refine ⟨?_, by decide +kernel, by decide +kernel⟩
  simp [Tidy, defaultOps]

/-- A value is logged, the log is cleared, and printed. -/
example : (SolverLogger.run demoFmt {} [.add 0 "a" "" .kInt, .level 3, .log "a" (.int 1), .print, .clear, .print]).toOption.map (fun r => r.2.map texts) =
    some [["a"], ["1"], ["a"], [""]] := by
  decide +kernel

/-- **C55** for the table of the solver: the level from which each column is shown. -/
theorem C55_solver_levels : (columns defaultOps).map (fun t => (t, levelOf t defaultOps)) =
    [("iters", 2), ("iter_al", 1), ("cost", 3), ("viol", 3), ("dJ", 3), ("grad", 2), ("alpha", 3), ("reg", 4), ("z", 4), ("pen", 5)] := by
  decide +kernel

/-- **C55** for the table of the solver, column by column. -/
theorem C55_solver_table : (SolverLogger.run demoFmt {} defaultOps).toOption.map (fun r => (r.1.headerColor, r.1.entries.length,
      r.1.order.map fun t => r.1.entries.lookup t)) =
    some (yellow, 10,
     [some { title := "iters", name := "iterations", format := "{:>4}", width := 6, type := some .kInt, level := 2 },
      some { title := "iter_al", name := "iterations_outer", format := "{:>4}", width := 8, type := some .kInt, level := 1 },
      some { title := "cost", name := "cost", format := "{:>.4g}", width := 10, type := some .kFloat, level := 3 },
      some { title := "viol", name := "constraint_violation", format := "{:>.3e}", width := 10, type := some .kFloat, level := 3 },
      some { title := "dJ", name := "cost_improvement", format := "{:>.2e}", width := 10, type := some .kFloat, level := 3 },
      some { title := "grad", name := "gradient", format := "{:>.2e}", width := 10, type := some .kFloat, level := 2 },
      some { title := "alpha", name := "line_search_step_length", format := "{:>.2f}", width := 6, type := some .kFloat, level := 3 },
      some { title := "reg", name := "regularization", format := "{:>.1e}", width := 7, type := some .kFloat, level := 4 },
      some { title := "z", name := "cost_improvement_ratio", format := "{:>.3f}", width := 5, type := some .kFloat, level := 4 },
      some { title := "pen", name := "max_penalty", format := "{:>.1e}", width := 7, type := some .kFloat, level := 5 }]) := by
  decide +kernel

/-- The rule of the solver's table, and one that is too short: the title "long" in a column of width 2. -/
example : ((SolverLogger.run demoFmt {} (defaultOps ++ [.level 3, .print])).toOption.map fun r => r.2.map fun
      | .header cells rule _ => (rule, lineLength cells)
      | .data _ => (0, 0)) = some [(67, 67), (0, 0)] ∧
    ((SolverLogger.run demoFmt {} [.add 0 "long" "" .kInt, .set "long" (.width 2), .level 3, .print]).toOption.map
      fun r => r.2.map fun
      | .header cells rule _ => (rule, lineLength cells)
      | .data _ => (0, 0)) = some [(3, 5), (0, 0)] := by
  constructor <;> decide +kernel

/-- **C55 is false** for a title added twice: the column appears twice in the table. -/
theorem C55_duplicate_counterexample :
    (SolverLogger.run demoFmt {} [.add 0 "a" "" .kInt, .add 1 "a" "" .kInt, .level 3, .print]).toOption.map
      (fun r => (r.1.order, r.2.map texts)) = some (["a", "a"], [["a", "a"], ["", ""]]) := by
  decide +kernel

/-- **C55 is false** after logging (or asking for) an unknown title, which the repository's own test does: the entry
created counts as a column, so a position beyond the end of the table is accepted, which is undefined behaviour. -/
theorem C55_phantom_counterexample :
    (SolverLogger.run demoFmt {} [.add 0 "a" "" .kInt, .level 3, .log "b" (.int 1)]).toOption.isSome = true ∧
    ((SolverLogger.run demoFmt {} [.add 0 "a" "" .kInt, .level 3, .log "b" (.int 1), .add 2 "c" "" .kInt]).map
      fun r => r.2) = .error .undefined := by
  constructor <;> decide +kernel

/-- ... and adding that title later shows a column without a title. -/
theorem C55_blank_counterexample :
    (SolverLogger.run demoFmt {} [.level 3, .log "b" (.int 1), .add 0 "b" "" .kInt, .print]).toOption.map
      (fun r => (r.1.order, (r.2.map texts).head?)) = some (["b"], some [""]) := by
  decide +kernel

/-- **C55 is false** for the silent level: a column enabled at level 0 is not printed at level 0. -/
theorem C55_silent_counterexample :
    (SolverLogger.run demoFmt {} [.add 0 "a" "" .kInt, .set "a" (.level 0), .print]).toOption.map
      (fun r => r.2.map texts) = some [] ∧
    levelOf "a" [.add 0 "a" "" .kInt, .set "a" (.level 0), .print] = 0 := by
  decide +kernel

/-! ## C56 -/

/-- Number of `Print` calls. -/
def numPrints : List Op → ℕ
  | [] => 0
  | .print :: ops => numPrints ops + 1
  | _ :: ops => numPrints ops

/-- Calls other than `Clear` and `SetFrequency`. -/
def KeepsCount : Op → Prop
  | .clear => False
  | .frequency _ => False
  | _ => True

theorem addEntry_keeps {l l' : SolverLogger} {col : ℤ} {t f : String} {ty : EntryType}
    (h : l.addEntry col t f ty = .ok l') : l'.count = l.count ∧ l'.frequency = l.frequency := by
  unfold addEntry at h
  by_cases h1 : ¬ col ≤ l.entries.length
  · rw [if_pos h1] at h; cases h
  · rw [if_neg h1] at h
    by_cases h2 : ¬ col ≥ -(l.entries.length : ℤ) - 1
    · rw [if_pos h2] at h; cases h
    · rw [if_neg h2] at h
      dsimp only at h
      by_cases h3 : 0 ≤ (if col < 0 then (l.order.length : ℤ) + col + 1 else col) ∧
          (if col < 0 then (l.order.length : ℤ) + col + 1 else col) ≤ l.order.length
      · rw [if_pos h3] at h; cases h; exact ⟨rfl, rfl⟩
      · rw [if_neg h3] at h; cases h

theorem log_keeps {φ : Fmt} {l l' : SolverLogger} {t : String} {v : Val}
    (h : l.log φ t v = .ok l') : l'.count = l.count ∧ l'.frequency = l.frequency := by
  unfold SolverLogger.log at h
  split at h
  · dsimp only at h
    split at h
    · obtain ⟨e, _, h⟩ := bind_ok h
      cases h; exact ⟨rfl, rfl⟩
    · cases h; exact ⟨rfl, rfl⟩
  · cases h; exact ⟨rfl, rfl⟩

theorem step_keeps {φ : Fmt} {l l' : SolverLogger} {o : List Line} {op : Op} (hk : KeepsCount op)
    (hp : op ≠ .print) (h : l.step φ op = .ok (l', o)) : l'.count = l.count ∧ l'.frequency = l.frequency := by
  cases op with
  | add col t f ty =>
    obtain ⟨l1', ha, hb⟩ := bind_ok h
    cases hb; exact addEntry_keeps ha
  | set t s =>
    obtain ⟨l1', ha, hb⟩ := bind_ok h
    cases hb
    obtain ⟨e, _, hb⟩ := bind_ok ha
    cases hb; exact ⟨rfl, rfl⟩
  | log t v =>
    obtain ⟨l1', ha, hb⟩ := bind_ok h
    cases hb; exact log_keeps ha
  | level lv' => cases h; exact ⟨rfl, rfl⟩
  | frequency f => exact hk.elim
  | headerColor c => cases h; exact ⟨rfl, rfl⟩
  | printHeader =>
    obtain ⟨a, _, hb⟩ := bind_ok h
    cases hb; exact ⟨rfl, rfl⟩
  | printData =>
    obtain ⟨a, _, hb⟩ := bind_ok h
    cases hb; exact ⟨rfl, rfl⟩
  | print => exact absurd rfl hp
  | clear => exact hk.elim

/-- The counter after `i` calls of `Print` with header frequency `f`. -/
def CountAt (l : SolverLogger) (f : ℕ) (i : ℕ) : Prop :=
  l.frequency = f ∧ ∃ c : ℕ, l.count = c ∧ c ≤ f ∧ c % f = i % f

theorem print_eq {l : SolverLogger} {f i : ℕ} (hf : 0 < f) (hc : CountAt l f i) :
    ∃ c, CountAt { l with count := c } f (i + 1) ∧
    l.print = if f ∣ i then (do
        let h ← l.printHeader
        let d ← l.printData
        pure ({ l with count := c }, h ++ d))
      else (do
        let d ← l.printData
        pure ({ l with count := c }, d)) := by
  obtain ⟨hfr, c, hcc, hle, hmod⟩ := hc
  have ht : Int.tmod l.count l.frequency = 0 ↔ f ∣ i := by
    rw [hfr, hcc, Int.tmod_eq_emod_of_nonneg (by omega), Nat.dvd_iff_mod_eq_zero, ← hmod]
    omega
  by_cases hd : f ∣ i
  · refine ⟨0 + 1, ⟨hfr, 1, by simp, by omega, ?_⟩, ?_⟩
    · have := Nat.dvd_iff_mod_eq_zero.mp hd
      rw [Nat.add_mod, this]; simp
    · unfold SolverLogger.print
      rw [if_neg (by omega), if_pos (ht.mpr hd), if_pos hd]
  · refine ⟨l.count + 1, ⟨hfr, c + 1, by simp [hcc], ?_, ?_⟩, ?_⟩
    · by_contra hgt
      have : c = f := by omega
      subst this
      rw [Nat.mod_self] at hmod
      exact hd (Nat.dvd_of_mod_eq_zero hmod.symm)
    · rw [Nat.add_mod, hmod, ← Nat.add_mod]
    · unfold SolverLogger.print
      rw [if_neg (by omega), if_neg (fun h => hd (ht.mp h)), if_neg hd]

theorem run_count {φ : Fmt} {f : ℕ} (hf : 0 < f) {ops : List Op} : ∀ {l l' : SolverLogger} {o : List Line} {i : ℕ},
    CountAt l f i → (∀ op ∈ ops, KeepsCount op) → l.run φ ops = .ok (l', o) → CountAt l' f (i + numPrints ops) := by
  induction ops with
  | nil => intro l l' o i h _ hr; cases hr; exact h
  | cons op ops ih =>
    intro l l' o i hc hk h
    obtain ⟨⟨l1, o1⟩, h1, hx⟩ := bind_ok h
    obtain ⟨⟨l2, o2⟩, h2, h3⟩ := bind_ok hx
    clear h hx
    cases h3
    have hk2 : ∀ op ∈ ops, KeepsCount op := fun op h => hk op (List.mem_cons_of_mem _ h)
    by_cases hp : op = .print
    · subst hp
      obtain ⟨c, hcount, he⟩ := print_eq hf hc
      have h1 : l.print = .ok (l1, o1) := h1
      have : l1 = { l with count := c } := by
        rw [he] at h1
        split at h1
        · obtain ⟨a, _, h⟩ := bind_ok h1
          obtain ⟨b, _, h⟩ := bind_ok h
          cases h; rfl
        · obtain ⟨a, _, h⟩ := bind_ok h1
          cases h; rfl
      subst this
      have := ih hcount hk2 h2
      rw [show i + numPrints (.print :: ops) = i + 1 + numPrints ops by simp only [numPrints]; omega]
      exact this
    · obtain ⟨e1, e2⟩ := step_keeps (hk op List.mem_cons_self) hp h1
      have := ih (l := l1) (i := i) ⟨by rw [e2]; exact hc.1, by rw [e1]; exact hc.2⟩ hk2 h2
      have hn : numPrints (op :: ops) = numPrints ops := by cases op <;> first | rfl | exact absurd rfl hp
      rw [hn]; exact this

/-- **C56** (partial: positive frequency, and calls are counted instead of printed lines).  After `Clear`, with header
frequency `f` and any further calls except `Clear` and `SetFrequency`, the `i`-th call of `Print` prints the header
first exactly if `i` is a multiple of `f`.  The counter stays between `0` and `f`, so it does not overflow. -/
theorem C56_calls_partial {φ : Fmt} {l0 l : SolverLogger} {f : ℕ} {ops : List Op} {o : List Line} (hf : 0 < f)
    (hl : l0.frequency = f) (hk : ∀ op ∈ ops, KeepsCount op) (hr : l0.clear.run φ ops = .ok (l, o)) :
    (l.print.map Prod.snd = if f ∣ numPrints ops then
        (do return (← l.printHeader) ++ (← l.printData)) else l.printData) ∧
    0 ≤ l.count ∧ l.count ≤ f := by
  have h0 : CountAt l0.clear f 0 := ⟨hl, 0, rfl, by omega, rfl⟩
  have hc := run_count hf h0 hk hr
  rw [Nat.zero_add] at hc
  constructor
  · obtain ⟨c, _, he⟩ := print_eq hf hc
    rw [he]
    split
    · cases l.printHeader with
      | error e => rfl
      | ok a => cases l.printData <;> rfl
    · cases l.printData <;> rfl
  · obtain ⟨_, c, h1, h2, _⟩ := hc
    rw [h1]; omega

theorem printHeader_one {l : SolverLogger} {ls : List Line} (hl : l.level ≠ 0) (ha : l.activeEntries ≠ [])
    (h : l.printHeader = .ok ls) : ∃ cells r c, ls = [.header cells r c] := by
  unfold SolverLogger.printHeader at h
  rw [if_neg hl] at h
  obtain ⟨cells, h1, h2⟩ := bind_ok h
  split at h2
  · rename_i hc
    have := mapM_ok (g := fun _ => ()) (k := fun _ => ()) (fun _ _ _ => rfl) h1
    rw [hc] at this
    exact absurd (List.map_eq_nil_iff.mp this.symm) ha
  · cases h2; exact ⟨_, _, _, rfl⟩

theorem printData_one {l : SolverLogger} {ls : List Line} (hl : l.level ≠ 0) (ha : l.activeEntries ≠ [])
    (h : l.printData = .ok ls) : ∃ cells, ls = [.data cells] := by
  unfold SolverLogger.printData at h
  rw [if_neg hl] at h
  obtain ⟨cells, h1, h2⟩ := bind_ok h
  split at h2
  · rename_i hc
    have := mapM_ok (g := fun _ => ()) (k := fun _ => ()) (fun _ _ _ => rfl) h1
    rw [hc] at this
    exact absurd (List.map_eq_nil_iff.mp this.symm) ha
  · cases h2; exact ⟨_, rfl⟩

/-- Every call of `Print` happens at a verbosity at which some column is enabled. -/
def Visible (φ : Fmt) (l : SolverLogger) (ops : List Op) : Prop :=
  ∀ p q, ops = p ++ .print :: q → ∀ l1 o, l.run φ p = .ok (l1, o) → l1.level ≠ 0 ∧ l1.activeEntries ≠ []

theorem headed_append_data (b : Bool) (ls : List Line) (c : List Cell) (ms : List Line) :
    headed b (ls ++ .data c :: ms) = headed b (ls ++ [.data c]) ++ headed false ms := by
  induction ls generalizing b with
  | nil => rfl
  | cons x ls ih => cases x <;> simp [headed, ih]

/-- **C56** (partial: positive frequency, every `Print` shows something, and the header is not printed by hand).  After
`Clear`, with header frequency `f`, the `i`-th row of the output has a header just before it exactly if `i` is a
multiple of `f`. -/
theorem C56_lines_partial {φ : Fmt} {l0 l : SolverLogger} {f : ℕ} {ops : List Op} {o : List Line} (hf : 0 < f)
    (hl : l0.frequency = f) (hk : ∀ op ∈ ops, KeepsCount op ∧ op ≠ .printHeader ∧ op ≠ .printData)
    (hv : Visible φ l0.clear ops) (hr : l0.clear.run φ ops = .ok (l, o)) :
    headed false o = (List.range (numPrints ops)).map fun i => decide (f ∣ i) := by
  have key : ∀ (ops : List Op) (l l' : SolverLogger) (o : List Line) (i : ℕ), CountAt l f i →
      (∀ op ∈ ops, KeepsCount op ∧ op ≠ .printHeader ∧ op ≠ .printData) → Visible φ l ops →
      l.run φ ops = .ok (l', o) →
      headed false o = (List.range' i (numPrints ops)).map fun i => decide (f ∣ i) := by
    intro ops
    induction ops with
    | nil => intro l l' o i _ _ _ h; cases h; rfl
    | cons op ops ih =>
      intro l l' o i hc hk hv h
      obtain ⟨⟨l1, o1⟩, h1, hx⟩ := bind_ok h
      obtain ⟨⟨l2, o2⟩, h2, h3⟩ := bind_ok hx
      clear h hx
      cases h3
      have hk2 : ∀ op ∈ ops, KeepsCount op ∧ op ≠ .printHeader ∧ op ≠ .printData :=
        fun op h => hk op (List.mem_cons_of_mem _ h)
      have hv2 : Visible φ l1 ops := by
        intro p q hpq l3 o3 h3
        refine hv (op :: p) q (by rw [hpq]; rfl) l3 (o1 ++ o3) ?_
        simp only [SolverLogger.run, h1, h3, bind, Except.bind, pure, Except.pure]
      by_cases hp : op = .print
      · subst hp
        obtain ⟨hlev, hact⟩ := hv [] ops rfl l [] rfl
        obtain ⟨c, hcount, he⟩ := print_eq hf hc
        have h1 : l.print = .ok (l1, o1) := h1
        rw [he] at h1
        simp only [numPrints, List.range'_succ, List.map_cons]
        split at h1
        · rename_i hdvd
          obtain ⟨a, ha, h⟩ := bind_ok h1
          obtain ⟨b, hb, h⟩ := bind_ok h
          cases h
          obtain ⟨cells, r, c', rfl⟩ := printHeader_one hlev hact ha
          obtain ⟨cells', rfl⟩ := printData_one hlev hact hb
          rw [show decide (f ∣ i) = true by simpa using hdvd]
          show true :: headed false o2 = _
          rw [ih _ _ _ _ hcount hk2 hv2 h2]
        · rename_i hdvd
          obtain ⟨b, hb, h⟩ := bind_ok h1
          cases h
          obtain ⟨cells', rfl⟩ := printData_one hlev hact hb
          rw [show decide (f ∣ i) = false by simpa using hdvd]
          show false :: headed false o2 = _
          rw [ih _ _ _ _ hcount hk2 hv2 h2]
      · obtain ⟨hk1, hh, hd⟩ := hk op List.mem_cons_self
        obtain ⟨e1, e2⟩ := step_keeps hk1 hp h1
        have := ih l1 l' o2 i ⟨by rw [e2]; exact hc.1, by rw [e1]; exact hc.2⟩ hk2 hv2 h2
        have hn : numPrints (op :: ops) = numPrints ops := by cases op <;> first | rfl | exact absurd rfl hp
        have ho : o1 = [] := by
          cases op with
          | add col t f ty => obtain ⟨_, _, hb⟩ := bind_ok h1; cases hb; rfl
          | set t s => obtain ⟨_, _, hb⟩ := bind_ok h1; cases hb; rfl
          | log t s => obtain ⟨_, _, hb⟩ := bind_ok h1; cases hb; rfl
          | level => cases h1; rfl
          | frequency => exact hk1.elim
          | headerColor => cases h1; rfl
          | printHeader => exact absurd rfl hh
          | printData => exact absurd rfl hd
          | print => exact absurd rfl hp
          | clear => exact hk1.elim
        rw [hn, ho]; exact this
  have h0 : CountAt l0.clear f 0 := ⟨hl, 0, rfl, by omega, rfl⟩
  rw [key ops _ _ _ 0 h0 hk hv hr, List.range_eq_range']

/-- A concrete case: five rows with frequency 2. -/
example : (SolverLogger.run demoFmt {} [.add 0 "a" "" .kInt, .level 3, .frequency 2, .clear, .print,
    .log "a" (.int 5), .print, .print, .print, .print]).toOption.map (fun r => headed false r.2)
    = some [true, false, true, false, true] := by
  decide +kernel

/-- **C56 is false** for the accepted frequency 0: the first `Print` divides by zero. -/
theorem C56_zero_counterexample (φ : Fmt) (l : SolverLogger) :
    ∃ l', l.setFrequency 0 = .ok l' ∧ l'.print = .error .undefined :=
  ⟨{ l with frequency := 0 }, rfl, rfl⟩

/-- **C56** for the solver: after `SolverStats::Reset` the header is repeated every `header_frequency` rows at levels below `kInner`; from
`kInner` on it is printed once only (for less than 2^31 rows). -/
theorem C56_reset_partial {φ : Fmt} {l0 l : SolverLogger} {v : Level} {h : ℕ} {ops : List Op} {o : List Line} (hh : 0 < h)
    (hk : ∀ op ∈ ops, KeepsCount op ∧ op ≠ .printHeader ∧ op ≠ .printData)
    (hv : ∀ l1 o1, l0.run φ (resetOps v h) = .ok (l1, o1) → Visible φ l1 ops)
    (hr : l0.run φ (resetOps v h ++ ops) = .ok (l, o)) :
    (v < 3 → headed false o = (List.range (numPrints ops)).map fun i => decide (h ∣ i)) ∧
    (3 ≤ v → numPrints ops ≤ 2147483647 → headed false o = (List.range (numPrints ops)).map fun i => decide (i = 0)) := by
  have key : ∀ f : ℕ, 0 < f → (if v < kInner then (h : ℤ) else 2147483647) = f →
      headed false o = (List.range (numPrints ops)).map fun i => decide (f ∣ i) := by
    intro f hf ef
    have e1 : l0.run φ (resetOps v h) = .ok (({ l0 with level := v, frequency := f } : SolverLogger).clear, []) := by
      have : (if v < kInner then (h : ℤ) else 2147483647) ≥ 0 := by rw [ef]; exact Int.natCast_nonneg f
      simp only [resetOps, SolverLogger.run, SolverLogger.step, SolverLogger.setFrequency, bind, Except.bind, pure, Except.pure, ef]
      simp [SolverLogger.clear, SolverLogger.setLevel]
    have e2 : l0.run φ (resetOps v h ++ ops) = (({ l0 with level := v, frequency := f } : SolverLogger).clear).run φ ops := by
      have hf' : ((f : ℕ) : ℤ) ≥ 0 := Int.natCast_nonneg f
      simp only [resetOps, List.cons_append, List.nil_append, SolverLogger.run, SolverLogger.step, SolverLogger.setFrequency, bind, Except.bind,
        pure, Except.pure, ef, if_pos hf']
      cases h2 : (({ l0 with level := v, frequency := f } : SolverLogger).clear).run φ ops with
      | error e =>
        have : SolverLogger.run φ { l0.clear.setLevel v with frequency := f } ops = .error e := h2
        rw [this]
      | ok r =>
        have : SolverLogger.run φ { l0.clear.setLevel v with frequency := f } ops = .ok r := h2
        rw [this]
    rw [e2] at hr
    exact C56_lines_partial hf rfl hk (hv _ _ e1) hr
  constructor
  · intro h3
    exact key h hh (if_pos h3)
  · intro h3 hn
    rw [key 2147483647 (by norm_num) (if_neg (not_lt.mpr h3))]
    refine List.map_congr_left fun i hi => ?_
    have := List.mem_range.mp hi
    refine decide_eq_decide.mpr ⟨fun hd => Nat.eq_zero_of_dvd_of_lt hd (by omega), fun e => e ▸ dvd_zero _⟩

/-- Three rows at `kOuterDebug` (2) with `header_frequency` 2, and at `kInner` (3). -/
example : [2, 3].map (fun v => (SolverLogger.run demoFmt {} (defaultOps ++ resetOps v 2 ++ [.print, .print, .print])).toOption.map
      fun r => headed false r.2) = [some [true, false, true], some [true, false, false]] := by
  decide +kernel

/-- **C56 is false** if the verbosity was silent for a while: calls of `Print` that print nothing are counted, so the
first row printed has no header. -/
theorem C56_silent_counterexample :
    (SolverLogger.run demoFmt {} [.add 0 "a" "" .kInt, .frequency 2, .clear, .print, .level 3, .print]).toOption.map
      (fun r => r.2.map texts) = some [[""]] := by
  decide +kernel

/-! ## C57 -/

theorem lt_iff_below (a b : Dbl) : a.lt b = true ↔ Below a b := by
  cases a <;> cases b <;> simp [Dbl.lt, Below]

theorem not_both {v lo hi : Dbl} (h : lo.le hi = true) : ¬ (Below v lo ∧ Below hi v) := by
  cases v <;> cases lo <;> cases hi <;> simp [Dbl.le, Below] at *
  intro h1; linarith

/-- What is always true of the bounds of an entry. -/
structure BoundsOk (e : Entry) (b : Dbl × Color × Dbl × Color) : Prop where
  eq : (e.lower, e.colorLower, e.upper, e.colorUpper) = b
  le : e.lower.le e.upper = true
  default : e.colorDefault = white
  free : e.bounded = false → e.lower = .ninf ∧ e.upper = .pinf

/-- The effect of a setter on the bounds. -/
def updBounds (s : Entry.Setter) (b : Dbl × Color × Dbl × Color) : Dbl × Color × Dbl × Color := bounds b [s]

theorem tracks_bounds (φ : Fmt) : Tracks φ BoundsOk noBounds updBounds where
  make _ _ _ := ⟨rfl, rfl, rfl, fun _ => ⟨rfl, rfl⟩⟩
  set e e' s x h hs := by
    have := h.eq
    subst this
    cases s with
    | lower lb c =>
      simp only [Entry.set, Entry.setLowerBound] at hs
      split at hs
      · rename_i hle; cases hs; exact ⟨rfl, hle, h.default, fun h => by cases h⟩
      · cases hs
    | upper ub c =>
      simp only [Entry.set, Entry.setUpperBound] at hs
      split at hs
      · rename_i hle; cases hs; exact ⟨rfl, hle, h.default, fun h => by cases h⟩
      · cases hs
    | width w => cases hs; exact ⟨rfl, h.le, h.default, h.free⟩
    | level w => cases hs; exact ⟨rfl, h.le, h.default, h.free⟩
    | name w => cases hs; exact ⟨rfl, h.le, h.default, h.free⟩
    | type w => cases hs; exact ⟨rfl, h.le, h.default, h.free⟩
  log e e' v x h hl := by
    obtain ⟨d, _, h2⟩ := bind_ok hl
    cases h2; exact ⟨h.eq, h.le, h.default, h.free⟩
  clear e x h := ⟨h.eq, h.le, h.default, h.free⟩

theorem getColor_spec {e : Entry} {b : Dbl × Color × Dbl × Color} (h : BoundsOk e b) (v : Val) :
    e.getColor v = if Below v.toDbl b.1 then b.2.1 else if Below b.2.2.1 v.toDbl then b.2.2.2 else white := by
  have := h.eq
  subst this
  unfold Entry.getColor
  by_cases hb : e.bounded
  · simp only [hb, if_true, lt_iff_below, h.default]
  · have hb' : e.bounded = false := by simpa using hb
    obtain ⟨h1, h2⟩ := h.free hb'
    have n1 : ¬ Below v.toDbl .ninf := by cases v.toDbl <;> simp [Below]
    have n2 : ¬ Below .pinf v.toDbl := by cases v.toDbl <;> simp [Below]
    simp [hb', h1, h2, n1, n2, h.default]

/-- The calls that concern one entry. -/
inductive EntryOp
  | set (s : Entry.Setter)
  | log (v : Val)
  | clear

/-- Their effect. -/
def runEntry (φ : Fmt) (e : Entry) : List EntryOp → Except Err Entry
  | [] => .ok e
  | .set s :: ops => do runEntry φ (← e.set s) ops
  | .log v :: ops => do runEntry φ (← e.log φ v) ops
  | .clear :: ops => runEntry φ e.clear ops

/-- The setters among them. -/
def setters : List EntryOp → List Entry.Setter
  | [] => []
  | .set s :: ops => s :: setters ops
  | _ :: ops => setters ops

theorem bounds_cons (b : Dbl × Color × Dbl × Color) (s : Entry.Setter) (ss : List Entry.Setter) :
    bounds b (s :: ss) = bounds (updBounds s b) ss := by cases s <;> rfl

theorem runEntry_bounds {φ : Fmt} {ops : List EntryOp} : ∀ {e e' : Entry} {b : Dbl × Color × Dbl × Color},
    BoundsOk e b → runEntry φ e ops = .ok e' → BoundsOk e' (bounds b (setters ops)) := by
  induction ops with
  | nil => intro e e' b h hr; cases hr; exact h
  | cons op ops ih =>
    intro e e' b h hr
    cases op with
    | set s =>
      obtain ⟨e1, h1, h2⟩ := bind_ok hr
      rw [setters, bounds_cons]
      exact ih ((tracks_bounds φ).set _ _ _ _ h h1) h2
    | log v =>
      obtain ⟨e1, h1, h2⟩ := bind_ok hr
      exact ih ((tracks_bounds φ).log _ _ _ _ h h1) h2
    | clear => exact ih ((tracks_bounds φ).clear _ _ h) hr

/-- **C57.**  After any accepted sequence of calls on an entry, the bounds are the last ones set, and the lower bound
does not exceed the upper bound (nor is either not-a-number). -/
theorem C57_bounds {φ : Fmt} {t f : String} {ty : EntryType} {ops : List EntryOp} {e : Entry}
    (h : runEntry φ (Entry.make t f ty) ops = .ok e) :
    (e.lower, e.colorLower, e.upper, e.colorUpper) = bounds noBounds (setters ops) ∧
    ¬ Below e.upper e.lower ∧ e.lower ≠ .nan ∧ e.upper ≠ .nan := by
  have hb := runEntry_bounds ((tracks_bounds φ).make t f ty) h
  refine ⟨hb.eq, ?_, ?_, ?_⟩
  · have := hb.le
    revert this
    cases e.lower <;> cases e.upper <;> simp [Dbl.le, Below]
  · intro hn; have := hb.le; rw [hn] at this; simp [Dbl.le] at this
  · intro hn; have := hb.le; rw [hn] at this; revert this; cases e.lower <;> simp [Dbl.le]

/-- **C57.**  A bound is accepted exactly if it keeps the lower bound at most the upper bound. -/
theorem C57_accepts {φ : Fmt} {t f : String} {ty : EntryType} {ops : List EntryOp} {e : Entry}
    (h : runEntry φ (Entry.make t f ty) ops = .ok e) (b : Dbl) (c : Color) :
    ((∃ e', e.setLowerBound b c = .ok e') ↔ b ≠ .nan ∧ ¬ Below e.upper b) ∧
    ((∃ e', e.setUpperBound b c = .ok e') ↔ b ≠ .nan ∧ ¬ Below b e.lower) := by
  obtain ⟨_, _, h1, h2⟩ := C57_bounds h
  have key : ∀ x y : Dbl, y ≠ .nan → (x.le y = true ↔ x ≠ .nan ∧ ¬ Below y x) := by
    intro x y; cases x <;> cases y <;> simp [Dbl.le, Below]
  have key2 : ∀ x y : Dbl, x ≠ .nan → (x.le y = true ↔ y ≠ .nan ∧ ¬ Below y x) := by
    intro x y; cases x <;> cases y <;> simp [Dbl.le, Below]
  constructor
  · rw [← key b e.upper h2]
    unfold Entry.setLowerBound
    split
    · rename_i hc; simp [hc]
    · rename_i hc; simp [hc]
  · rw [← key2 e.lower b h1]
    unfold Entry.setUpperBound
    split
    · rename_i hc; simp [hc]
    · rename_i hc; simp [hc]

theorem runEntry_nolog {φ : Fmt} {ops : List EntryOp} : ∀ {e e' : Entry}, (∀ v, EntryOp.log v ∉ ops) →
    runEntry φ e ops = .ok e' → e'.color = e.color ∧ (EntryOp.clear ∉ ops → e'.data = e.data) := by
  induction ops with
  | nil => intro e e' _ h; cases h; exact ⟨rfl, fun _ => rfl⟩
  | cons op ops ih =>
    intro e e' hn hr
    have hn2 : ∀ v, EntryOp.log v ∉ ops := fun v h => hn v (List.mem_cons_of_mem _ h)
    cases op with
    | set s =>
      obtain ⟨e1, h1, h2⟩ := bind_ok hr
      obtain ⟨i1, i2⟩ := ih hn2 h2
      have : e1.color = e.color ∧ e1.data = e.data := by
        cases s with
        | lower lb c =>
          simp only [Entry.set, Entry.setLowerBound] at h1
          split at h1 <;> cases h1
          exact ⟨rfl, rfl⟩
        | upper lb c =>
          simp only [Entry.set, Entry.setUpperBound] at h1
          split at h1 <;> cases h1
          exact ⟨rfl, rfl⟩
        | width w => cases h1; exact ⟨rfl, rfl⟩
        | level w => cases h1; exact ⟨rfl, rfl⟩
        | name w => cases h1; exact ⟨rfl, rfl⟩
        | type w => cases h1; exact ⟨rfl, rfl⟩
      rw [this.1] at i1
      exact ⟨i1, fun hc => by rw [i2 (fun h => hc (List.mem_cons_of_mem _ h)), this.2]⟩
    | log v => exact absurd List.mem_cons_self (hn v)
    | clear =>
      obtain ⟨i1, i2⟩ := ih (e := e.clear) hn2 hr
      exact ⟨i1, fun hc => absurd List.mem_cons_self hc⟩

/-- **C57.**  A logged value is shown (until the next one is logged) in the lower colour if it was below the lower
bound when it was logged, in the upper colour if it was above the upper bound, and in white otherwise; the first two
exclude each other. -/
theorem C57_colour {φ : Fmt} {t f : String} {ty : EntryType} {pre post : List EntryOp} {v : Val} {e : Entry} {c : Cell}
    (h : runEntry φ (Entry.make t f ty) (pre ++ .log v :: post) = .ok e) (hp : ∀ v, EntryOp.log v ∉ post)
    (hc : e.printCell = .ok c) :
    let b := bounds noBounds (setters pre)
    (Below v.toDbl b.1 → c.color = b.2.1) ∧
    (Below b.2.2.1 v.toDbl → c.color = b.2.2.2) ∧
    (¬ Below v.toDbl b.1 → ¬ Below b.2.2.1 v.toDbl → c.color = white) ∧
    ¬ (Below v.toDbl b.1 ∧ Below b.2.2.1 v.toDbl) := by
  have happ : ∀ (pre : List EntryOp) (q : List EntryOp) (e0 : Entry), runEntry φ e0 (pre ++ q)
      = (runEntry φ e0 pre >>= fun e1 => runEntry φ e1 q) := by
    intro pre
    induction pre with
    | nil => intro q e0; rfl
    | cons op pre ih =>
      intro q e0
      cases op with
      | set s => simp only [List.cons_append, runEntry, ih, bind_assoc]
      | log v => simp only [List.cons_append, runEntry, ih, bind_assoc]
      | clear => simp only [List.cons_append, runEntry, ih]
  rw [happ] at h
  obtain ⟨e1, h1, h2⟩ := bind_ok h
  obtain ⟨e2, h3, h4⟩ := bind_ok h2
  have hb := runEntry_bounds ((tracks_bounds φ).make t f ty) h1
  have hcol : c.color = e1.getColor v := by
    rw [cell_ok hc]
    show e.color = _
    rw [(runEntry_nolog hp h4).1]
    obtain ⟨d, _, h5⟩ := bind_ok h3
    cases h5; rfl
  have hexcl : ¬ (Below v.toDbl (bounds noBounds (setters pre)).1 ∧
      Below (bounds noBounds (setters pre)).2.2.1 v.toDbl) := by
    rw [← hb.eq]; exact not_both hb.le
  rw [getColor_spec hb] at hcol
  refine ⟨fun h => ?_, fun h => ?_, fun h1 h2 => ?_, hexcl⟩
  · rw [hcol, if_pos h]
  · rw [hcol, if_neg (fun h' => hexcl ⟨h', h⟩), if_pos h]
  · rw [hcol, if_neg h1, if_neg h2]

/-- **C57**, "exactly": if the three colours are different, the colour shown tells where the value was. -/
theorem C57_exactly {φ : Fmt} {t f : String} {ty : EntryType} {pre post : List EntryOp} {v : Val} {e : Entry}
    {c : Cell} (h : runEntry φ (Entry.make t f ty) (pre ++ .log v :: post) = .ok e)
    (hp : ∀ v, EntryOp.log v ∉ post) (hc : e.printCell = .ok c) (b : Dbl × Color × Dbl × Color)
    (hb : b = bounds noBounds (setters pre)) (d1 : b.2.1 ≠ white) (d2 : b.2.2.2 ≠ white) (d3 : b.2.1 ≠ b.2.2.2) :
    (c.color = b.2.1 ↔ Below v.toDbl b.1) ∧ (c.color = b.2.2.2 ↔ Below b.2.2.1 v.toDbl) ∧
    (c.color = white ↔ ¬ Below v.toDbl b.1 ∧ ¬ Below b.2.2.1 v.toDbl) := by
  obtain ⟨k1, k2, k3, k4⟩ := C57_colour h hp hc
  simp only [← hb] at k1 k2 k3 k4
  by_cases x : Below v.toDbl b.1
  · have y : ¬ Below b.2.2.1 v.toDbl := fun y => k4 ⟨x, y⟩
    simp [k1 x, x, y, d1, d3]
  · by_cases y : Below b.2.2.1 v.toDbl
    · simp [k2 y, x, y, d2, d3.symm]
    · simp [k3 x y, x, y, d1.symm, d2.symm]

theorem foldFrom_bounds (t : String) (ops : List Op) :
    ∀ b, foldFrom updBounds t b ops = bounds b (settersOf t ops) := by
  induction ops with
  | nil => intro b; rfl
  | cons op ops ih =>
    intro b
    cases op with
    | set t' s =>
      simp only [foldFrom, settersOf, ih]
      split
      · rw [bounds_cons]
      · rfl
    | _ => simp only [foldFrom, settersOf]; exact ih _

/-- **C57**, in the table: in a tidy history, a value logged for an enabled column is shown in that column of the next
row, with its formatted text and the colour given by the bounds set so far. -/
theorem C57_table {φ : Fmt} {ops : List Op} {l l' : SolverLogger} {out : List Line} {t : String} {v : Val}
    (ht : Tidy [] ops) (h : SolverLogger.run φ {} ops = .ok (l, out)) (hm : t ∈ columns ops)
    (hv : verbosityFrom 0 ops ≠ 0) (ha : levelOf t ops ≤ verbosityFrom 0 ops) (hl : l.log φ t v = .ok l') :
    ∃ d, φ (l.entries.get t).format v = .ok d ∧ ∀ ls, l'.printData = .ok ls → ∃ cells w, ls = [.data cells] ∧
      ∀ k : ℕ, ((columns ops).filter fun t => decide (levelOf t ops ≤ verbosityFrom 0 ops))[k]? = some t →
        cells[k]? = some ⟨d, w, colourOf (bounds noBounds (settersOf t ops)) v.toDbl⟩ := by
  obtain ⟨g, ho, hlev, hlv⟩ := tidy_levels ht h
  obtain ⟨_, _, _, hbo⟩ := tidy_new (tracks_bounds φ) ht h
  have hm' : t ∈ l.order := ho ▸ hm
  obtain ⟨g', ho', hlev', hx⟩ := log_step g hm' hl
  have hpos : 0 < l.level := by rw [hlev]; exact Nat.pos_of_ne_zero hv
  rw [if_pos ⟨hpos, by rw [hlv t hm', hlev]; exact ha⟩] at hx
  obtain ⟨e, he, hget⟩ := hx
  obtain ⟨d, hd, he'⟩ := bind_ok he
  refine ⟨d, hd, ?_⟩
  intro ls hp
  cases he'
  have hget_t := hget t
  rw [if_pos rfl] at hget_t
  have hact : l'.activeEntries
      = ((columns ops).filter fun t => decide (levelOf t ops ≤ verbosityFrom 0 ops)).map l'.entries.get := by
    rw [activeEntries_eq l' (lv := fun t => levelOf t ops), hlev', hlev, ho', ho]
    intro u hu
    rw [hget]
    split
    · rename_i hut; rw [hut]; exact hlv t hm'
    · exact hlv u (ho' ▸ hu)
  have hin : t ∈ (columns ops).filter fun t => decide (levelOf t ops ≤ verbosityFrom 0 ops) :=
    List.mem_filter.mpr ⟨hm, by simpa using ha⟩
  have hl0 : l'.level ≠ 0 := by rw [hlev', hlev]; exact hv
  unfold SolverLogger.printData at hp
  rw [if_neg hl0] at hp
  obtain ⟨cells, h1, h2⟩ := bind_ok hp
  have hcells : cells = l'.activeEntries.map fun e => (⟨e.data, e.width, e.color⟩ : Cell) := by
    have := mapM_ok (g := id) (k := fun e : Entry => (⟨e.data, e.width, e.color⟩ : Cell))
      (fun a b hb => cell_ok hb) h1
    simpa using this
  split at h2
  · rename_i hc
    rw [hc] at hcells
    have := List.map_eq_nil_iff.mp hcells.symm
    rw [hact] at this
    rw [List.map_eq_nil_iff.mp this] at hin
    cases hin
  · cases h2
    refine ⟨cells, (l.entries.get t).width, rfl, ?_⟩
    intro k hk
    rw [hcells, hact, List.map_map, List.getElem?_map, hk]
    simp only [Option.map_some, Function.comp, hget_t, getColor_spec (hbo t hm'), foldFrom_bounds, colourOf]

/-- A concrete history: bounds 1 and 2; 0 is green, 3 is red, 2 and not-a-number are white. -/
example : ([Val.int 0, .dbl (.val 3), .int 2, .dbl .nan, .dbl .pinf].map fun v =>
    ((runEntry demoFmt (Entry.make "dJ" "" .kFloat) [.set (.lower (.val 1) green), .set (.upper (.val 2) red),
      .log (.int 5), .log v, .set (.width 4)]).toOption.bind fun e => e.printCell.toOption).map Cell.color)
    = [some green, some red, some white, some white, some red] := by
  decide +kernel

example : ((runEntry demoFmt (Entry.make "dJ" "" .kFloat)
    [.set (.lower (.val 3) green), .set (.upper (.val 2) red)]).map Entry.title) = .error .assertion := by
  decide +kernel

/-- The titles whose bounds are set. -/
def boundTitles : List Op → List String
  | [] => []
  | .set t (.lower _ _) :: ops => t :: boundTitles ops
  | .set t (.upper _ _) :: ops => t :: boundTitles ops
  | _ :: ops => boundTitles ops

theorem bounds_other (t : String) (ops : List Op) (b : Dbl × Color × Dbl × Color) (h : t ∉ boundTitles ops) :
    bounds b (settersOf t ops) = b := by
  induction ops with
  | nil => rfl
  | cons op ops ih =>
    cases op with
    | set t' s =>
      cases s with
      | lower lb c =>
        obtain ⟨h1, h2⟩ := not_or.mp (fun h3 => h (List.mem_cons.mpr h3))
        rw [settersOf, if_neg (fun h => h1 h.symm)]; exact ih h2
      | upper lb c =>
        obtain ⟨h1, h2⟩ := not_or.mp (fun h3 => h (List.mem_cons.mpr h3))
        rw [settersOf, if_neg (fun h => h1 h.symm)]; exact ih h2
      | _ => rw [settersOf]; split <;> exact ih h
    | _ => exact ih h

/-- **C57**, the solver: after `SetTolerances` the last change of cost, violation and gradient are green exactly below their tolerance,
everything else is white. -/
theorem C57_tolerances (cost viol grad x : Dbl) (t : String) :
    colourOf (bounds noBounds (settersOf t (defaultOps ++ toleranceOps cost viol grad))) x =
      if t = "dJ" ∧ Below x cost ∨ t = "viol" ∧ Below x viol ∨ t = "grad" ∧ Below x grad then green else white := by
  have n1 : ¬ Below x .ninf := by cases x <;> simp [Below]
  have n2 : ¬ Below .pinf x := by cases x <;> simp [Below]
  by_cases h1 : t = "dJ"
  · subst h1
    simp [defaultOps, toleranceOps, settersOf, bounds, colourOf, noBounds, n2]
  · by_cases h2 : t = "viol"
    · subst h2
      simp [defaultOps, toleranceOps, settersOf, bounds, colourOf, noBounds, n2]
    · by_cases h3 : t = "grad"
      · subst h3
        simp [defaultOps, toleranceOps, settersOf, bounds, colourOf, noBounds, n2]
      · have h : bounds noBounds (settersOf t (defaultOps ++ toleranceOps cost viol grad)) = noBounds := by
          refine bounds_other t _ _ ?_
          show t ∉ ["dJ", "viol", "grad"]
          simp [h1, h2, h3]
        rw [h]
        simp [colourOf, noBounds, n1, n2, h1, h2, h3]

/-- They are accepted unless one is not-a-number. -/
example : (SolverLogger.run demoFmt {} (defaultOps ++ toleranceOps (.val 1) (.val 2) (.val 3))).isOk = true ∧
    (SolverLogger.run demoFmt {} (defaultOps ++ toleranceOps (.val 1) .nan (.val 3))).isOk = false := by
  decide +kernel

/-- The last of some settings. -/
def lastSet {α : Type} (f : Entry.Setter → Option α) (a : α) : List EntryOp → α
  | [] => a
  | .set s :: ops => lastSet f ((f s).getD a) ops
  | _ :: ops => lastSet f a ops

/-- **C57.**  The other attributes of an entry: the title and the format are those of the constructor; name, type, width and level are
the last ones set (the title, the type of the constructor, 10 and `kInner` by default). -/
theorem C57_attributes {φ : Fmt} {t f : String} {ty : EntryType} {ops : List EntryOp} {e : Entry}
    (h : runEntry φ (Entry.make t f ty) ops = .ok e) :
    e.title = t ∧ e.format = f ∧
    e.name = lastSet (fun | .name s => some s | _ => none) t ops ∧
    e.type = some (lastSet (fun | .type s => some s | _ => none) ty ops) ∧
    e.width = lastSet (fun | .width s => some s | _ => none) 10 ops ∧
    e.level = lastSet (fun | .level s => some s | _ => none) kInner ops := by
  have H : ∀ (ops : List EntryOp) (e0 e : Entry) (n : String) (ty : EntryType) (w : ℤ) (lv : Level),
      e0.title = t → e0.format = f → e0.name = n → e0.type = some ty → e0.width = w → e0.level = lv →
      runEntry φ e0 ops = .ok e → e.title = t ∧ e.format = f ∧
        e.name = lastSet (fun | .name s => some s | _ => none) n ops ∧
        e.type = some (lastSet (fun | .type s => some s | _ => none) ty ops) ∧
        e.width = lastSet (fun | .width s => some s | _ => none) w ops ∧
        e.level = lastSet (fun | .level s => some s | _ => none) lv ops := by
    intro ops
    induction ops with
    | nil =>
      intro e0 e n ty w lv h1 h2 h3 h4 h5 h6 hr
      cases hr
      exact ⟨h1, h2, h3, h4, h5, h6⟩
    | cons op ops ih =>
      intro e0 e n ty w lv h1 h2 h3 h4 h5 h6 hr
      cases op with
      | set s =>
        obtain ⟨e1, g1, g2⟩ := bind_ok hr
        cases s with
        | lower lb c =>
          simp only [Entry.set, Entry.setLowerBound] at g1
          split at g1 <;> cases g1
          exact ih _ _ _ _ _ _ (by exact h1) (by exact h2) (by exact h3) (by exact h4) (by exact h5) (by exact h6) g2
        | upper lb c =>
          simp only [Entry.set, Entry.setUpperBound] at g1
          split at g1 <;> cases g1
          exact ih _ _ _ _ _ _ (by exact h1) (by exact h2) (by exact h3) (by exact h4) (by exact h5) (by exact h6) g2
        | width w' => cases g1; exact ih _ _ _ _ _ _ (by exact h1) (by exact h2) (by exact h3) (by exact h4) (by rfl) (by exact h6) g2
        | level w' => cases g1; exact ih _ _ _ _ _ _ (by exact h1) (by exact h2) (by exact h3) (by exact h4) (by exact h5) (by rfl) g2
        | name w' => cases g1; exact ih _ _ _ _ _ _ (by exact h1) (by exact h2) (by rfl) (by exact h4) (by exact h5) (by exact h6) g2
        | type w' => cases g1; exact ih _ _ _ _ _ _ (by exact h1) (by exact h2) (by exact h3) (by rfl) (by exact h5) (by exact h6) g2
      | log v =>
        obtain ⟨e1, g1, g2⟩ := bind_ok hr
        obtain ⟨d, _, g3⟩ := bind_ok g1
        cases g3
        exact ih _ _ _ _ _ _ (by exact h1) (by exact h2) (by exact h3) (by exact h4) (by exact h5) (by exact h6) g2
      | clear => exact ih e0.clear _ _ _ _ _ h1 h2 h3 h4 h5 h6 hr
  exact H ops _ e t ty 10 kInner rfl rfl rfl rfl rfl rfl h

example : ((runEntry demoFmt (Entry.make "dJ" "f" .kFloat)
    [.set (.name "a"), .log (.int 3), .set (.type .kInt), .set (.name "b"), .set (.width 0)]).toOption.map fun e =>
      (e.title, e.name, e.type, e.width, e.level)) = some ("dJ", "b", some .kInt, 0, 3) := by
  decide +kernel

theorem mapM_defined {α β : Type} {f : α → Except Err β} : ∀ {l : List α}, (∃ bs, l.mapM f = .ok bs) ↔ ∀ a ∈ l, ∃ b, f a = .ok b
  | [] => Iff.intro (fun _ _ h => absurd h List.not_mem_nil) (fun _ => ⟨[], rfl⟩)
  | a :: l => by
    rw [List.mapM_cons, List.forall_mem_cons, ← mapM_defined]
    constructor
    · rintro ⟨bs, h⟩
      obtain ⟨b, h1, h⟩ := bind_ok h
      obtain ⟨bs', h2, _⟩ := bind_ok h
      exact ⟨⟨b, h1⟩, bs', h2⟩
    · rintro ⟨⟨b, h1⟩, bs, h2⟩
      exact ⟨b :: bs, by rw [h1, h2]; rfl⟩

/-- **C55, layout.**  The header and a row are printed, without an exception, exactly if no enabled column has a negative width. -/
theorem C55_printed_iff (l : SolverLogger) (hl : l.level ≠ 0) :
    ((∃ ls, l.printHeader = .ok ls) ↔ ∀ e ∈ l.activeEntries, 0 ≤ e.width) ∧
    ((∃ ls, l.printData = .ok ls) ↔ ∀ e ∈ l.activeEntries, 0 ≤ e.width) := by
  have hc : ∀ (x : String) (w : ℤ) (c : Color), (∃ d, Entry.cell x w c = .ok d) ↔ 0 ≤ w := by
    intro x w c
    unfold Entry.cell
    split
    · rename_i h; exact ⟨fun _ => h, fun _ => ⟨_, rfl⟩⟩
    · rename_i h; exact ⟨(fun ⟨_, h'⟩ => nomatch h'), fun h' => absurd h' h⟩
  constructor
  · rw [show (∀ e ∈ l.activeEntries, 0 ≤ e.width) ↔ ∀ e ∈ l.activeEntries, ∃ d, e.headerCell l.headerColor = .ok d from
      forall₂_congr fun e _ => (hc _ _ _).symm, ← mapM_defined]
    unfold SolverLogger.printHeader
    rw [if_neg hl]
    constructor
    · rintro ⟨ls, h⟩
      obtain ⟨cs, h1, _⟩ := bind_ok h
      exact ⟨cs, h1⟩
    · rintro ⟨cs, h⟩
      rw [h]
      by_cases hn : cs = []
      · exact ⟨[], by rw [hn]; rfl⟩
      · exact ⟨_, if_neg hn⟩
  · rw [show (∀ e ∈ l.activeEntries, 0 ≤ e.width) ↔ ∀ e ∈ l.activeEntries, ∃ d, e.printCell = .ok d from
      forall₂_congr fun e _ => (hc _ _ _).symm, ← mapM_defined]
    unfold SolverLogger.printData
    rw [if_neg hl]
    constructor
    · rintro ⟨ls, h⟩
      obtain ⟨cs, h1, _⟩ := bind_ok h
      exact ⟨cs, h1⟩
    · rintro ⟨cs, h⟩
      rw [h]
      by_cases hn : cs = []
      · exact ⟨[], by rw [hn]; rfl⟩
      · exact ⟨_, if_neg hn⟩

example : ((SolverLogger.run demoFmt {} [.add 0 "a" "" .kInt, .set "a" (.width 0), .level 3, .print]).toOption.map fun r => r.2.length)
    = some 2 ∧ (SolverLogger.run demoFmt {} [.add 0 "a" "" .kInt, .set "a" (.width (-1)), .level 3, .print]).isOk = false := by
  decide +kernel

/-- The bounds are consulted when a value is logged, not when it is printed: a bound set in between does not recolour
the value. -/
theorem C57_logged_not_printed :
    ((runEntry demoFmt (Entry.make "dJ" "" .kFloat) [.log (.int 5), .set (.upper (.val 2) red)]).toOption.bind
      fun e => e.printCell.toOption).map Cell.color = some white := by
  decide +kernel

/-- Logging at any level but the silent one creates an entry for an unknown title, also when that entry is not active; no
column is added. -/
theorem C55_phantom_entry {φ : Fmt} {l l' : SolverLogger} {t : String} {v : Val} (hl : l.level ≠ 0)
    (h : l.log φ t v = .ok l') : (l'.entries.lookup t).isSome = true ∧ l'.order = l.order := by
  have hput : ∀ (m : Map) (e : Entry), (m.lookup t).isSome = true → ((m.put t e).lookup t).isSome = true := by
    intro m e
    induction m with
    | nil => intro h; exact h
    | cons p m ih =>
      obtain ⟨k, x⟩ := p
      intro h
      by_cases hk : k = t
      · subst hk; simp [Map.put]
      · have hk' : (t == k) = false := by simpa using fun h => hk h.symm
        have : Map.put ((k, x) :: m) t e = (k, x) :: Map.put m t e := by simp [Map.put, hk]
        rw [this]
        simp only [List.lookup, hk'] at h ⊢
        exact ih h
  have htouch : ((l.entries.touch t).lookup t).isSome = true := by
    unfold Map.touch Map.emplace
    cases hm : l.entries.lookup t with
    | some e => simp [hm]
    | none => simp [List.lookup_append, hm, List.lookup]
  unfold SolverLogger.log at h
  rw [if_pos (Nat.pos_of_ne_zero hl)] at h
  simp only at h
  split at h
  · cases he : ((l.entries.touch t).get t).log φ v with
    | error e => rw [he] at h; cases h
    | ok e => rw [he] at h; cases h; exact ⟨hput _ _ htouch, rfl⟩
  · cases h; exact ⟨htouch, rfl⟩

/-- At level 1 the default entry (level 3) is not active; it exists all the same, and a position beyond the table is accepted. -/
example : (SolverLogger.run demoFmt {} [.level 1, .log "b" (.int 1)]).toOption.map (fun r => (r.1.entries.length, r.1.order.length))
      = some (1, 0) ∧
    ((SolverLogger.run demoFmt {} [.level 1, .log "b" (.int 1), .add 1 "c" "" .kInt]).map fun r => r.2) = .error .undefined := by
  constructor <;> decide +kernel

end Altro.Props
