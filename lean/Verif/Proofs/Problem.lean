import Verif.Spec.Problem

/-! Lemmas for the problem definition: vectors as tables, and the invariant tying a problem to its history. -/

namespace Altro
open Prob Spec

theorem bind_ok {α β : Type _} {x : Except Err α} {f : α → Except Err β} {b : β} :
    (x >>= f) = .ok b ↔ ∃ a, x = .ok a ∧ f a = .ok b := by
  cases x with
  | error e => simp [bind, Except.bind]
  | ok a => simp [bind, Except.bind]

theorem pure_ok {α : Type*} {a b : α} : (pure a : Except Err α) = .ok b ↔ a = b := by
  simp [pure, Except.pure]

theorem assertThat_ok {b : Bool} {u : Unit} : assertThat b = .ok u ↔ b = true := by
  unfold assertThat; cases b <;> simp

theorem map_ok {α β : Type*} {x : Except Err α} {f : α → β} {b : β} :
    x.map f = .ok b ↔ ∃ a, x = .ok a ∧ f a = b := by
  cases x <;> simp [Except.map]

/-- A vector given by a function. -/
def tab {α : Type*} (n : ℕ) (f : ℕ → α) : List α := (List.range n).map f

section tab
variable {α : Type*}

theorem tab_length (n : ℕ) (f : ℕ → α) : (tab n f).length = n := by simp [tab]

theorem tab_get {n : ℕ} (f : ℕ → α) {k : ℕ} (h : k < n) : (tab n f)[k]? = some (f k) := by simp [tab, h]

theorem tab_set {n : ℕ} (f : ℕ → α) (k : ℕ) (a : α) : (tab n f).set k a = tab n (Function.update f k a) := by
  apply List.ext_getElem
  · simp [tab]
  · intro i h1 h2
    simp only [tab, List.getElem_set, List.getElem_map, List.getElem_range, Function.update_apply]
    by_cases h : k = i
    · subst h; simp
    · rw [if_neg h, if_neg (fun e => h e.symm)]

theorem tab_congr {n : ℕ} {f g : ℕ → α} (h : ∀ k, k < n → f k = g k) : tab n f = tab n g := by
  unfold tab
  exact List.map_congr_left fun k hk => h k (List.mem_range.mp hk)

theorem tab_replicate (n : ℕ) (a : α) : List.replicate n a = tab n fun _ => a := by
  apply List.ext_getElem <;> simp [tab]

theorem tab_inj {n : ℕ} {f g : ℕ → α} (h : tab n f = tab n g) : ∀ k, k < n → f k = g k := by
  intro k hk
  have := congrArg (·[k]?) h
  simpa [tab_get _ hk] using this

theorem vread_tab {n : ℕ} (f : ℕ → α) {k : ℤ} (h0 : 0 ≤ k) (h : k.toNat < n) : vread (tab n f) k = .ok (f k.toNat) := by
  simp [vread, h0, tab_get f h]

theorem vat_tab {n : ℕ} (f : ℕ → α) {k : ℤ} (h0 : 0 ≤ k) (h : k.toNat < n) : vat (tab n f) k = .ok (f k.toNat) := by
  simp [vat, h0, tab_get f h]

theorem vread_tab_ok {n : ℕ} {f : ℕ → α} {k : ℤ} {a : α} :
    vread (tab n f) k = .ok a ↔ 0 ≤ k ∧ k.toNat < n ∧ a = f k.toNat := by
  by_cases h0 : 0 ≤ k
  · by_cases h : k.toNat < n
    · simp [vread_tab f h0 h, h0, h, eq_comm]
    · have : (tab n f)[k.toNat]? = none := by simp [tab]; omega
      simp [vread, h0, this, h]
  · simp [vread, h0]

theorem vwrite_tab_ok {n : ℕ} {f : ℕ → α} {k : ℤ} {a : α} {l : List α} :
    vwrite (tab n f) k a = .ok l ↔ 0 ≤ k ∧ k.toNat < n ∧ l = tab n (Function.update f k.toNat a) := by
  unfold vwrite
  rw [tab_length]
  split
  next h => simp [h.1, h.2, tab_set, eq_comm]
  next h =>
    constructor
    · intro h'; cases h'
    · rintro ⟨h1, h2, _⟩; exact absurd ⟨h1, h2⟩ h

theorem vwrite_tab {n : ℕ} (f : ℕ → α) {k : ℤ} (a : α) (h0 : 0 ≤ k) (h : k.toNat < n) :
    vwrite (tab n f) k a = .ok (tab n (Function.update f k.toNat a)) := vwrite_tab_ok.mpr ⟨h0, h, rfl⟩

end tab

section history
variable {C M E K : Type}

theorem lastOf_snoc {A B : Type} (f : A → Option B) (l : List A) (c : A) :
    lastOf f (l ++ [c]) = (f c).or (lastOf f l) := by
  unfold lastOf
  rw [List.filterMap_append]
  cases h : f c <;> simp [h]

theorem costAt_cost (l : List (Call C M E K)) (c : Option C) (j k : ℤ) :
    costAt (l ++ [.cost c j]) k = if j = k then c else costAt l k := by
  unfold costAt
  rw [lastOf_snoc]
  by_cases h : j = k <;> simp [h]

theorem costAt_of (l : List (Call C M E K)) (k : ℤ) (c : Call C M E K) (h : ∀ x j, c ≠ .cost x j) :
    costAt (l ++ [c]) k = costAt l k := by
  unfold costAt
  rw [lastOf_snoc]
  cases c <;> simp_all

theorem modelAt_dynamics (l : List (Call C M E K)) (c : Option M) (j k : ℤ) :
    modelAt (l ++ [.dynamics c j]) k = if j = k then c else modelAt l k := by
  unfold modelAt
  rw [lastOf_snoc]
  by_cases h : j = k <;> simp [h]

theorem modelAt_of (l : List (Call C M E K)) (k : ℤ) (c : Call C M E K) (h : ∀ x j, c ≠ .dynamics x j) :
    modelAt (l ++ [c]) k = modelAt l k := by
  unfold modelAt
  rw [lastOf_snoc]
  cases c <;> simp_all

theorem initialState_set (x : List K) (l : List (Call C M E K)) (v : List K) :
    initialState x (l ++ [.initialState v]) = v := by
  unfold initialState
  rw [lastOf_snoc]; simp

theorem initialState_of (x : List K) (l : List (Call C M E K)) (c : Call C M E K) (h : ∀ v, c ≠ .initialState v) :
    initialState x (l ++ [c]) = initialState x l := by
  unfold initialState
  rw [lastOf_snoc]
  cases c <;> simp_all

theorem eqsAt_eq (l : List (Call C M E K)) (e : E) (j k : ℤ) :
    eqsAt (l ++ [.equality (some e) j]) k = if j = k then eqsAt l k ++ [e] else eqsAt l k := by
  unfold eqsAt
  rw [List.filterMap_append]
  by_cases h : j = k <;> simp [h]

theorem eqsAt_of (l : List (Call C M E K)) (k : ℤ) (c : Call C M E K) (h : ∀ x j, c ≠ .equality x j) :
    eqsAt (l ++ [c]) k = eqsAt l k := by
  unfold eqsAt
  rw [List.filterMap_append]
  cases c <;> simp_all

theorem ineqsAt_ineq (l : List (Call C M E K)) (e : E) (j k : ℤ) :
    ineqsAt (l ++ [.inequality (some e) j]) k = if j = k then ineqsAt l k ++ [e] else ineqsAt l k := by
  unfold ineqsAt
  rw [List.filterMap_append]
  by_cases h : j = k <;> simp [h]

theorem ineqsAt_of (l : List (Call C M E K)) (k : ℤ) (c : Call C M E K) (h : ∀ x j, c ≠ .inequality x j) :
    ineqsAt (l ++ [c]) k = ineqsAt l k := by
  unfold ineqsAt
  rw [List.filterMap_append]
  cases c <;> simp_all

/-- What the vector of models holds: the models set, and at the end the identity model made from the last one. -/
def modelsOf (I : ProbIface M E) (N : ℕ) (calls : List (Call C M E K)) (k : ℕ) : Option M :=
  if k < N then modelAt calls k else (modelAt calls ((N : ℤ) - 1)).map fun m => I.ident (I.sdim m) (I.cdim m)

/-- The problem state is the one described by the history. -/
structure Agrees (I : ProbIface M E) (N addr : ℕ) (h₀ : Heap K) (calls : List (Call C M E K))
    (s : Heap K × Prob C M E) : Prop where
  hN : s.2.N = N
  x0 : s.2.x0 = addr
  costs : s.2.costs = tab (N + 1) fun k => costAt calls k
  models : s.2.models = tab (N + 1) (modelsOf I N calls)
  eq : s.2.eq = tab (N + 1) fun k => eqsAt calls k
  ineq : s.2.ineq = tab (N + 1) fun k => ineqsAt calls k
  heap : s.1 = Function.update h₀ addr (initialState (h₀ addr) calls)
  pos : ∀ m, modelAt calls ((N : ℤ) - 1) = some m → 0 < I.sdim m ∧ 0 < I.cdim m
  rng : ∀ k, (modelAt calls k).isSome → 0 ≤ k ∧ k < N

/-- The vector of models that goes with a function giving the models. -/
def modelTab (I : ProbIface M E) (N : ℕ) (model : ℤ → Option M) (k : ℕ) : Option M :=
  if k < N then model k else (model ((N : ℤ) - 1)).map fun m => I.ident (I.sdim m) (I.cdim m)

/-- The part of `Agrees` that concerns completeness, for any description of costs and models. -/
structure Holds (I : ProbIface M E) (N : ℕ) (x : List K) (cost : ℤ → Option C) (model : ℤ → Option M)
    (s : Heap K × Prob C M E) : Prop where
  hN : s.2.N = N
  x0 : s.1 s.2.x0 = x
  costs : s.2.costs = tab (N + 1) fun k => cost k
  models : s.2.models = tab (N + 1) (modelTab I N model)
  rng : ∀ k, (model k).isSome → 0 ≤ k ∧ k < N

theorem Agrees.holds {I : ProbIface M E} {N addr : ℕ} {h₀ : Heap K} {calls : List (Call C M E K)}
    {s : Heap K × Prob C M E} (ha : Agrees I N addr h₀ calls s) :
    Holds I N (initialState (h₀ addr) calls) (costAt calls) (modelAt calls) s where
  hN := ha.hN
  x0 := by rw [ha.heap, ha.x0]; simp
  costs := ha.costs
  models := ha.models
  rng := ha.rng

theorem agrees_new (I : ProbIface M E) (N addr : ℕ) (h₀ : Heap K) :
    Agrees I N addr h₀ ([] : List (Call C M E K)) (h₀, Prob.new N addr) where
  hN := rfl
  x0 := rfl
  costs := tab_replicate _ _
  models := by
    refine (tab_replicate _ _).trans (tab_congr fun k _ => ?_)
    unfold modelsOf; split <;> rfl
  eq := tab_replicate _ _
  ineq := tab_replicate _ _
  heap := by simp [initialState, lastOf]
  pos m h := by simp [modelAt, lastOf] at h
  rng m h := by simp [modelAt, lastOf] at h

theorem agrees_step (I : ProbIface M E) {N addr : ℕ} {h₀ : Heap K} {calls : List (Call C M E K)}
    {s s' : Heap K × Prob C M E} (ha : Agrees I N addr h₀ calls s) (c : Call C M E K) (hs : step I s c = .ok s') :
    Agrees I N addr h₀ (calls ++ [c]) s' := by
  obtain ⟨h, p⟩ := s
  obtain ⟨aN, ax, ac, am, ae, ai, ah, ap, ar⟩ := ha
  dsimp only at aN ax ac am ae ai ah
  have key : ∀ (P : Call C M E K → Prop) (j : ℤ) (k : ℕ), 0 ≤ j → (j = (k : ℤ) ↔ k = j.toNat) := by
    intro _ j k h; omega
  cases c with
  | initialState v =>
    simp only [step, Except.ok.injEq] at hs
    subst hs
    refine ⟨aN, ax, ?_, ?_, ?_, ?_, ?_, ?_, ?_⟩
    · exact ac.trans (tab_congr fun k _ => (costAt_of _ _ _ (by simp)).symm)
    · refine am.trans (tab_congr fun k _ => ?_)
      simp [modelsOf, modelAt_of]
    · exact ae.trans (tab_congr fun k _ => (eqsAt_of _ _ _ (by simp)).symm)
    · exact ai.trans (tab_congr fun k _ => (ineqsAt_of _ _ _ (by simp)).symm)
    · simp only [setInitialState, ax, ah, initialState_set, Function.update_idem]
    · intro m hm; exact ap m (by simpa [modelAt_of] using hm)
    · intro k hk; exact ar k (by simpa [modelAt_of] using hk)
  | cost c j =>
    simp only [step, map_ok, setCost, bind_ok, assertThat_ok, pure_ok, ac, vwrite_tab_ok, decide_eq_true_eq] at hs
    obtain ⟨q, ⟨-, ⟨-, cs, ⟨h0, h1, rfl⟩, rfl⟩⟩, rfl⟩ := hs
    refine ⟨aN, ax, ?_, ?_, ?_, ?_, ?_, ?_, ?_⟩
    · refine tab_congr fun k _ => ?_
      rw [costAt_cost, Function.update_apply]
      simp only [key (fun _ => True) j k h0]
    · refine am.trans (tab_congr fun k _ => ?_)
      simp [modelsOf, modelAt_of]
    · exact ae.trans (tab_congr fun k _ => (eqsAt_of _ _ _ (by simp)).symm)
    · exact ai.trans (tab_congr fun k _ => (ineqsAt_of _ _ _ (by simp)).symm)
    · simp only [ah]; rw [initialState_of _ _ _ (by simp)]
    · intro m hm; exact ap m (by simpa [modelAt_of] using hm)
    · intro k hk; exact ar k (by simpa [modelAt_of] using hk)
  | dynamics m j =>
    cases m with
    | none => simp [step, setDynamics, Except.map] at hs
    | some md =>
      have hs' : ∃ ms, (0 ≤ j ∧ j < (N : ℤ)) ∧ ms = tab (N + 1) (if j = (N : ℤ) - 1 then
          Function.update (modelsOf I N calls) N (some (I.ident (I.sdim md) (I.cdim md))) else modelsOf I N calls) ∧
          (j = (N : ℤ) - 1 → 0 < I.sdim md ∧ 0 < I.cdim md) ∧
          ∃ ms', vwrite ms j (some md) = .ok ms' ∧ s' = (h, { p with models := ms' }) := by
        by_cases hj : j = (N : ℤ) - 1
        · simp only [step, map_ok, setDynamics, bind_ok, assertThat_ok, decide_eq_true_eq, aN, if_pos hj, mkIdent,
            pure_ok] at hs
          obtain ⟨q, ⟨-, h0, idm, ⟨-, p1, -, p2, rfl⟩, -, -, ms, h1, ms', h2, rfl⟩, rfl⟩ := hs
          rw [am, vwrite_tab_ok] at h1
          refine ⟨ms, h0, ?_, fun _ => ⟨p1, p2⟩, ms', h2, by rw [← aN]⟩
          rw [if_pos hj]; simpa using h1.2.2
        · simp only [step, map_ok, setDynamics, bind_ok, assertThat_ok, decide_eq_true_eq, aN, if_neg hj,
            pure_ok] at hs
          obtain ⟨q, ⟨-, h0, ms, h1, ms', h2, rfl⟩, rfl⟩ := hs
          refine ⟨ms, h0, ?_, fun h => absurd h hj, ms', h2, by rw [← aN]⟩
          rw [if_neg hj, ← h1]; exact am
      obtain ⟨ms, ⟨h0, hN⟩, e2, e3, ms', h2, rfl⟩ := hs'
      rw [e2, vwrite_tab_ok] at h2
      obtain ⟨-, h2, rfl⟩ := h2
      refine ⟨aN, ax, ?_, ?_, ?_, ?_, ?_, ?_, ?_⟩
      · exact ac.trans (tab_congr fun k _ => (costAt_of _ _ _ (by simp)).symm)
      · refine tab_congr fun k hk => ?_
        rw [Function.update_apply]
        unfold modelsOf
        rw [modelAt_dynamics, modelAt_dynamics]
        by_cases hkN : k < N
        · simp only [hkN, if_true, key (fun _ => True) j k h0]
          split
          · rfl
          · split
            · rw [Function.update_of_ne (by omega)]; simp [hkN]
            · simp [hkN]
        · have hk' : k = N := by omega
          subst hk'
          simp only [lt_irrefl, if_false]
          rw [if_neg (by omega)]
          split
          · simp
          · simp
      · exact ae.trans (tab_congr fun k _ => (eqsAt_of _ _ _ (by simp)).symm)
      · exact ai.trans (tab_congr fun k _ => (ineqsAt_of _ _ _ (by simp)).symm)
      · simp only [ah]; rw [initialState_of _ _ _ (by simp)]
      · intro m hm
        rw [modelAt_dynamics] at hm
        split at hm
        next hj => cases hm; exact e3 hj
        next => exact ap m hm
      · intro k hk
        rw [modelAt_dynamics] at hk
        split at hk
        next hj => exact hj ▸ ⟨h0, hN⟩
        next => exact ar k hk
  | equality e j =>
    cases e with
    | none => simp [step, setEq, Except.map] at hs
    | some e =>
      simp only [step, map_ok, setEq, bind_ok, assertThat_ok, pure_ok, ae, vread_tab_ok, vwrite_tab_ok,
        decide_eq_true_eq] at hs
      obtain ⟨q, ⟨-, -, old, ⟨h0, h1, rfl⟩, es, ⟨-, -, rfl⟩, rfl⟩, rfl⟩ := hs
      refine ⟨aN, ax, ?_, ?_, ?_, ?_, ?_, ?_, ?_⟩
      · exact ac.trans (tab_congr fun k _ => (costAt_of _ _ _ (by simp)).symm)
      · refine am.trans (tab_congr fun k _ => ?_)
        simp [modelsOf, modelAt_of]
      · refine tab_congr fun k _ => ?_
        rw [eqsAt_eq, Function.update_apply]
        simp only [key (fun _ => True) j k h0]
        split
        next hk => subst hk; rfl
        next => rfl
      · exact ai.trans (tab_congr fun k _ => (ineqsAt_of _ _ _ (by simp)).symm)
      · simp only [ah]; rw [initialState_of _ _ _ (by simp)]
      · intro m hm; exact ap m (by simpa [modelAt_of] using hm)
      · intro k hk; exact ar k (by simpa [modelAt_of] using hk)
  | inequality e j =>
    cases e with
    | none => simp [step, setIneq, Except.map] at hs
    | some e =>
      simp only [step, map_ok, setIneq, bind_ok, assertThat_ok, pure_ok, ai, vread_tab_ok, vwrite_tab_ok,
        decide_eq_true_eq] at hs
      obtain ⟨q, ⟨-, -, old, ⟨h0, h1, rfl⟩, es, ⟨-, -, rfl⟩, rfl⟩, rfl⟩ := hs
      refine ⟨aN, ax, ?_, ?_, ?_, ?_, ?_, ?_, ?_⟩
      · exact ac.trans (tab_congr fun k _ => (costAt_of _ _ _ (by simp)).symm)
      · refine am.trans (tab_congr fun k _ => ?_)
        simp [modelsOf, modelAt_of]
      · exact ae.trans (tab_congr fun k _ => (eqsAt_of _ _ _ (by simp)).symm)
      · refine tab_congr fun k _ => ?_
        rw [ineqsAt_ineq, Function.update_apply]
        simp only [key (fun _ => True) j k h0]
        split
        next hk => subst hk; rfl
        next => rfl
      · simp only [ah]; rw [initialState_of _ _ _ (by simp)]
      · intro m hm; exact ap m (by simpa [modelAt_of] using hm)
      · intro k hk; exact ar k (by simpa [modelAt_of] using hk)

theorem agrees_run (I : ProbIface M E) {N addr : ℕ} {h₀ : Heap K} (cs : List (Call C M E K)) :
    ∀ {calls s s'}, Agrees I N addr h₀ calls s → run I cs s = .ok s' → Agrees I N addr h₀ (calls ++ cs) s' := by
  induction cs with
  | nil =>
    intro calls s s' ha hr
    simp only [run, Except.ok.injEq] at hr
    subst hr; simpa using ha
  | cons c cs ih =>
    intro calls s s' ha hr
    simp only [run, bind_ok] at hr
    obtain ⟨s1, h1, h2⟩ := hr
    have := ih (agrees_step I ha c h1) h2
    simpa using this

/-- A problem built by accepted calls agrees with their history. -/
theorem agrees_of_run (I : ProbIface M E) {N addr : ℕ} {h₀ : Heap K} {calls : List (Call C M E K)}
    {s : Heap K × Prob C M E} (hr : run I calls (h₀, Prob.new N addr) = .ok s) : Agrees I N addr h₀ calls s := by
  have := agrees_run I calls (agrees_new I N addr h₀) hr
  simpa using this

end history
end Altro
