import Verif.Proofs.Problem
import Mathlib.Tactic.IntervalCases

/-!
# C41, C42, C43: defining, counting and copying a problem
-/

namespace Altro.Props
open Prob Spec
variable {C M E K : Type}

/-! ## IsFullyDefined -/

theorem validAt_spec (I : ProbIface M E) {N : ℕ} {x : List K} {cost : ℤ → Option C} {model : ℤ → Option M}
    {s : Heap K × Prob C M E} (ha : Holds I N x cost model s)
    (hsafe : x = [] ∨ (model 0).isSome) (k : ℕ) (hk : k ≤ N) :
    ∃ b, validAt I s.1 s.2 k = .ok b ∧ (b = true ↔ (cost k).isSome ∧ (k < N → (model k).isSome) ∧
      (k = 0 → ∃ m, model 0 = some m ∧ I.sdim m = x.length ∧
        0 < x.length)) := by
  obtain ⟨aN, hx, ac, am, ar⟩ := ha
  have hc : vread s.2.costs k = .ok (cost k) := by
    rw [ac, vread_tab _ (by omega) (by omega)]; simp
  have hm : vread s.2.models k = .ok (modelTab I N model k) := by
    rw [am, vread_tab _ (by omega) (by omega)]; simp
  by_cases hk0 : k = 0
  · subst hk0
    by_cases hN : N = 0
    · subst hN
      have hno : model 0 = none := by
        cases h : model 0 with
        | none => rfl
        | some m => have := ar 0 (by rw [h]; rfl); omega
      have h0 : x = [] := by
        rcases hsafe with h | h
        · exact h
        · rw [hno] at h; cases h
      refine ⟨false, ?_, ?_⟩
      · unfold validAt
        rw [hc]
        simp [aN, hx, h0, bind, Except.bind, pure, Except.pure]
      · simp [hno]
    · have hmo : modelTab I N model 0 = model 0 := by unfold modelTab; rw [if_pos (by omega)]; rfl
      unfold validAt
      rw [hc, hm, hmo, aN, hx]
      cases hm0 : model 0 with
      | none =>
        have h0 : x = [] := by
          rcases hsafe with h | h
          · exact h
          · rw [hm0] at h; cases h
        refine ⟨false, ?_, by simp⟩
        simp [h0, bind, Except.bind, pure, Except.pure, Functor.map, Except.map]
      | some m =>
        have hNp : 0 < N := by omega
        by_cases hl : 0 < x.length
        · refine ⟨(cost 0).isSome && decide (I.sdim m = x.length), ?_, ?_⟩
          · simp [hl, hNp, bind, Except.bind, pure, Except.pure, Functor.map, Except.map]
          · simp [hl, hm0]
        · refine ⟨false, ?_, ?_⟩
          · have : x = [] := by simpa using hl
            simp [this, hNp, bind, Except.bind, pure, Except.pure, Functor.map, Except.map]
          · simp [hl]
  · unfold validAt
    have hk0' : ¬ ((k : ℤ) = 0) := by omega
    by_cases hkN : k < N
    · have hmo : modelTab I N model k = model k := by unfold modelTab; rw [if_pos hkN]
      refine ⟨(cost k).isSome && (model k).isSome, ?_, ?_⟩
      · rw [hc, hm, hmo]
        simp [aN, hkN, hk0, bind, Except.bind, pure, Except.pure, Functor.map, Except.map]
      · simp [hk0, hkN]
    · refine ⟨(cost k).isSome, ?_, ?_⟩
      · rw [hc]
        simp [aN, hkN, hk0, bind, Except.bind, pure, Except.pure]
      · simp [hk0, hkN]


theorem fullyDefined_holds (I : ProbIface M E) {N : ℕ} {x : List K} {cost : ℤ → Option C} {model : ℤ → Option M}
    {s : Heap K × Prob C M E} (ha : Holds I N x cost model s) (hsafe : x = [] ∨ (model 0).isSome) :
    ∃ b, isFullyDefined I s.1 s.2 = .ok b ∧ (b = true ↔ ∀ k : ℕ, k < N + 1 →
      (cost k).isSome ∧ (k < N → (model k).isSome) ∧
      (k = 0 → ∃ m, model 0 = some m ∧ I.sdim m = x.length ∧ 0 < x.length)) := by
  have loop : ∀ r : ℕ, r ≤ N + 1 → ∃ b, validUpTo I s.1 s.2 r = .ok b ∧ (b = true ↔ ∀ k : ℕ, k < r →
      (cost k).isSome ∧ (k < N → (model k).isSome) ∧
      (k = 0 → ∃ m, model 0 = some m ∧ I.sdim m = x.length ∧
        0 < x.length)) := by
    intro r
    induction r with
    | zero => intro _; exact ⟨true, rfl, by simp⟩
    | succ r ih =>
      intro hr
      obtain ⟨b, h1, h2⟩ := ih (by omega)
      obtain ⟨c, h3, h4⟩ := validAt_spec I ha hsafe r (by omega)
      refine ⟨b && c, ?_, ?_⟩
      · simp only [validUpTo, h1, h3]; rfl
      · rw [Bool.and_eq_true, h2, h4]
        constructor
        · rintro ⟨e1, e2⟩ k hk
          rcases Nat.lt_succ_iff_lt_or_eq.mp hk with h | rfl
          · exact e1 k h
          · exact e2
        · intro e
          exact ⟨fun k hk => e k (by omega), e r (by omega)⟩
  have hN : (s.2.N + 1).toNat = N + 1 := by rw [ha.hN]; omega
  obtain ⟨b, h1, h2⟩ := loop (N + 1) le_rfl
  exact ⟨b, by unfold isFullyDefined; rw [hN]; exact h1, h2⟩

/-- C41 whenever the query is safe (no initial state yet, or the first model is set): after any accepted calls,
`IsFullyDefined` returns and is true exactly when the problem is complete.  Missing from the full statement: safety at
any time, which is false (`C41_unsafe_counterexample`). -/
theorem C41_exact_partial (I : ProbIface M E) {N addr : ℕ} {h₀ : Heap K} {calls : List (Call C M E K)}
    {s : Heap K × Prob C M E} (hr : run I calls (h₀, Prob.new N addr) = .ok s)
    (hsafe : initialState (h₀ addr) calls = [] ∨ (modelAt calls 0).isSome) :
    ∃ b, isFullyDefined I s.1 s.2 = .ok b ∧ (b = true ↔ FullyDefined I N (h₀ addr) calls) := by
  obtain ⟨b, h1, h2⟩ := fullyDefined_holds I (agrees_of_run I hr).holds hsafe
  refine ⟨b, h1, h2.trans ⟨fun h => ?_, fun h k hk => ?_⟩⟩
  · exact ⟨fun k hk => (h k (by omega)).1, fun k hk => (h k (by omega)).2.1 hk, (h 0 (by omega)).2.2 rfl⟩
  · exact ⟨h.cost k (by omega), h.dyn k, fun _ => h.state⟩

/-- The rest of C41 fails: after any accepted calls that set a nonempty initial state but not the first model,
`IsFullyDefined` dereferences a null pointer.  With `N = 0` this is every problem with an initial state. -/
theorem C41_unsafe_counterexample (I : ProbIface M E) {N addr : ℕ} {h₀ : Heap K} {calls : List (Call C M E K)}
    {s : Heap K × Prob C M E} (hr : run I calls (h₀, Prob.new N addr) = .ok s)
    (hx : initialState (h₀ addr) calls ≠ []) (hm : modelAt calls 0 = none) :
    isFullyDefined I s.1 s.2 = .error .undefined := by
  obtain ⟨aN, ax, ac, am, ae, ai, ah, ap, ar⟩ := agrees_of_run I hr
  have hx' : s.1 s.2.x0 = initialState (h₀ addr) calls := by rw [ah, ax]; simp
  have hl : 0 < (initialState (h₀ addr) calls).length := List.length_pos_iff.mpr hx
  have h0 : validAt I s.1 s.2 (0 : ℕ) = .error .undefined := by
    have hc : vread s.2.costs (0 : ℕ) = .ok (costAt calls (0 : ℕ)) := by
      rw [ac, vread_tab _ (by omega) (by simp)]; simp
    have hmo : vread s.2.models (0 : ℕ) = .ok none := by
      rw [am, vread_tab _ (by omega) (by simp)]
      unfold modelsOf
      by_cases hN : 0 < N
      · simp [hN, hm]
      · have : N = 0 := by omega
        subst this
        cases h : modelAt calls (((0 : ℕ) : ℤ) - 1) with
        | none => simp at h; simp [h]
        | some m => have := ar _ (by rw [h]; rfl); omega
    unfold validAt
    rw [hc, hmo, hx']
    by_cases hN : (0 : ℤ) < s.2.N <;>
    simp [hl, hN, bind, Except.bind, pure, Except.pure, Functor.map, Except.map]
  have step : ∀ r : ℕ, validUpTo I s.1 s.2 (r + 1) = .error .undefined := by
    intro r
    induction r with
    | zero => simp only [validUpTo, h0]; rfl
    | succ r ih => rw [validUpTo, ih]; rfl
  have hN : (s.2.N + 1).toNat = N + 1 := by rw [aN]; omega
  unfold isFullyDefined
  rw [hN]; exact step N

/-- The terminal knot point has the identity model with the dimensions of the last segment. -/
theorem C41_terminal (I : ProbIface M E) {N addr : ℕ} {h₀ : Heap K} {calls : List (Call C M E K)}
    {s : Heap K × Prob C M E} (hr : run I calls (h₀, Prob.new N addr) = .ok s)
    (hf : FullyDefined I N (h₀ addr) calls) :
    (∀ k : ℕ, k < N → ∃ m, modelAt calls k = some m ∧ getDynamics s.2 k = .ok m) ∧
    ∃ m, modelAt calls ((N : ℤ) - 1) = some m ∧ getDynamics s.2 N = .ok (I.ident (I.sdim m) (I.cdim m)) ∧
      0 < I.sdim m ∧ 0 < I.cdim m := by
  obtain ⟨aN, ax, ac, am, ae, ai, ah, ap, ar⟩ := agrees_of_run I hr
  have get : ∀ k : ℕ, k ≤ N → ∀ m, modelsOf I N calls k = some m → getDynamics s.2 k = .ok m := by
    intro k hk m hm
    unfold getDynamics
    rw [am, vread_tab _ (by omega) (by omega), aN]
    simp [assertThat, hk, hm, bind, Except.bind, pure, Except.pure]
  constructor
  · intro k hk
    obtain ⟨m, hm⟩ := Option.isSome_iff_exists.mp (hf.dyn k hk)
    exact ⟨m, hm, get k hk.le m (by unfold modelsOf; rw [if_pos hk, hm])⟩
  · obtain ⟨m0, h0, -⟩ := hf.state
    have hN := (ar 0 (by rw [h0]; rfl)).2
    obtain ⟨m, hm⟩ := Option.isSome_iff_exists.mp (hf.dyn (N - 1) (by omega))
    have hm' : modelAt calls ((N : ℤ) - 1) = some m := by rw [← hm]; congr 1; omega
    refine ⟨m, hm', get N le_rfl _ ?_, ap m hm'⟩
    unfold modelsOf
    rw [if_neg (lt_irrefl _), hm']; rfl

/-- A complete problem has at least one segment. -/
theorem C41_positive (I : ProbIface M E) {N addr : ℕ} {h₀ : Heap K} {calls : List (Call C M E K)}
    {s : Heap K × Prob C M E} (hr : run I calls (h₀, Prob.new N addr) = .ok s)
    (hf : FullyDefined I N (h₀ addr) calls) : 0 < N := by
  obtain ⟨m0, h0, -⟩ := hf.state
  have := ((agrees_of_run I hr).rng 0 (by rw [h0]; rfl)).2
  omega

/-- The getters after any accepted calls, complete or not: what was last set, an assertion failure where no model is set and outside the knot
points; the last knot point has the identity model as soon as the last segment has a model. -/
theorem C41_getters (I : ProbIface M E) {N addr : ℕ} {h₀ : Heap K} {calls : List (Call C M E K)}
    {s : Heap K × Prob C M E} (hr : run I calls (h₀, Prob.new N addr) = .ok s) (k : ℤ) :
    ((k < 0 ∨ N < k) → getDynamics s.2 k = .error .assertion ∧ getCost s.2 k = .error .assertion) ∧
    (0 ≤ k ∧ k ≤ N → getCost s.2 k = .ok (costAt calls k)) ∧
    (0 ≤ k ∧ k < N → getDynamics s.2 k = (modelAt calls k).elim (.error .assertion) .ok) ∧
    getDynamics s.2 N = (modelAt calls ((N : ℤ) - 1)).elim (.error .assertion) fun m => .ok (I.ident (I.sdim m) (I.cdim m)) := by
  obtain ⟨aN, ax, ac, am, ae, ai, ah, ap, ar⟩ := agrees_of_run I hr
  have dyn : ∀ j : ℕ, j ≤ N → getDynamics s.2 j = (modelsOf I N calls j).elim (.error .assertion) .ok := by
    intro j hj
    unfold getDynamics
    rw [am, vread_tab _ (by omega) (by omega), aN]
    cases h : modelsOf I N calls j <;> simp [assertThat, hj, h, bind, Except.bind, pure, Except.pure]
  refine ⟨fun h => ?_, fun h => ?_, fun h => ?_, ?_⟩
  · have hd : decide (0 ≤ k ∧ k ≤ (N : ℤ)) = false := by simp; omega
    unfold getDynamics getCost
    rw [aN, hd]
    exact ⟨rfl, rfl⟩
  · unfold getCost
    rw [aN, ac, vread_tab _ h.1 (by omega)]
    simp [assertThat, h, bind, Except.bind]
  · lift k to ℕ using h.1
    rw [dyn k (by omega)]
    unfold modelsOf
    rw [if_pos (by omega)]
  · rw [dyn N le_rfl]
    unfold modelsOf
    rw [if_neg (lt_irrefl _)]
    cases modelAt calls ((N : ℤ) - 1) <;> rfl

/-- `SetConstraint` does not check its index: outside `[0, N]` the behaviour is undefined instead of an assertion
failure. -/
theorem C41_index_counterexample (I : ProbIface M E) {N addr : ℕ} {h₀ : Heap K} {calls : List (Call C M E K)}
    {s : Heap K × Prob C M E} (hr : run I calls (h₀, Prob.new N addr) = .ok s) (e : E) (he : 0 < I.dim e) (k : ℤ)
    (hk : k < 0 ∨ N < k) :
    setEq I s.2 (some e) k = .error .undefined ∧ setIneq I s.2 (some e) k = .error .undefined := by
  have ha := agrees_of_run I hr
  have rd : ∀ f : ℕ → List E, vread (tab (N + 1) f) k = .error .undefined := by
    intro f
    unfold vread
    split
    · have : (tab (N + 1) f)[k.toNat]? = none := by simp [tab]; omega
      rw [this]
    · rfl
  unfold setEq setIneq
  rw [ha.eq, ha.ineq, rd, rd]
  simp [assertThat, he, bind, Except.bind]

/-! ## NumConstraints -/

theorem foldl_add_sum {α : Type*} (f : α → ℕ) (l : List α) (a : ℕ) :
    l.foldl (fun c e => c + f e) a = a + (l.map f).sum := by
  induction l generalizing a with
  | nil => simp
  | cons x l ih => simp [ih, Nat.add_assoc]

theorem numAt_agrees (I : ProbIface M E) {N addr : ℕ} {h₀ : Heap K} {calls : List (Call C M E K)}
    {s : Heap K × Prob C M E} (ha : Agrees I N addr h₀ calls s) (k : ℕ) (hk : k ≤ N) :
    numConstraintsAt I s.2 k = .ok (((eqsAt calls k).map I.dim).sum + ((ineqsAt calls k).map I.dim).sum) := by
  unfold numConstraintsAt
  rw [ha.eq, ha.ineq, ha.hN, vat_tab _ (by omega) (by omega), vat_tab _ (by omega) (by omega)]
  simp [assertThat, hk, bind, Except.bind, pure, Except.pure, foldl_add_sum]

/-- C42: the number at a knot point is the sum of the dimensions of all constraints added there, the total is the sum
over knot points. -/
theorem C42_count (I : ProbIface M E) {N addr : ℕ} {h₀ : Heap K} {calls : List (Call C M E K)}
    {s : Heap K × Prob C M E} (hr : run I calls (h₀, Prob.new N addr) = .ok s) :
    (∀ k : ℕ, k ≤ N →
      numConstraintsAt I s.2 k = .ok (((eqsAt calls k).map I.dim).sum + ((ineqsAt calls k).map I.dim).sum)) ∧
    numConstraints I s.2 = .ok (∑ k ∈ Finset.range (N + 1),
      (((eqsAt calls k).map I.dim).sum + ((ineqsAt calls k).map I.dim).sum)) := by
  have ha := agrees_of_run I hr
  refine ⟨numAt_agrees I ha, ?_⟩
  have hN : (s.2.N + 1).toNat = N + 1 := by rw [ha.hN]; omega
  have loop : ∀ r : ℕ, r ≤ N + 1 → numConstraintsUpTo I s.2 r = .ok (∑ k ∈ Finset.range r,
      (((eqsAt calls k).map I.dim).sum + ((ineqsAt calls k).map I.dim).sum)) := by
    intro r
    induction r with
    | zero => intro _; simp [numConstraintsUpTo]
    | succ r ih =>
      intro hr
      rw [numConstraintsUpTo, ih (by omega), numAt_agrees I ha r (by omega), Finset.sum_range_succ]
      rfl
  unfold numConstraints
  rw [hN]; exact loop _ le_rfl

theorem vat_out {α : Type} {l : List α} {k : ℤ} (hk : k < 0 ∨ l.length ≤ k) : vat l k = .error .thrown := by
  unfold vat
  split
  · rw [List.getElem?_eq_none (by omega)]
  · rfl

/-- Without assertions the count is the same, and an index outside the knot points gives an exception, not undefined behaviour. -/
theorem C42_release (I : ProbIface M E) {N addr : ℕ} {h₀ : Heap K} {calls : List (Call C M E K)}
    {s : Heap K × Prob C M E} (hr : run I calls (h₀, Prob.new N addr) = .ok s) (k : ℤ) :
    numConstraintsAtRelease I s.2 k = if 0 ≤ k ∧ k ≤ N then numConstraintsAt I s.2 k else .error .thrown := by
  have ha := agrees_of_run I hr
  split
  · rename_i h
    simp [numConstraintsAt, numConstraintsAtRelease, ha.hN, h, assertThat, bind, Except.bind]
  · rename_i h
    unfold numConstraintsAtRelease
    rw [ha.eq, vat_out (by rw [tab_length]; omega)]
    rfl

/-- Outside the knot points the query aborts. -/
theorem C42_index (I : ProbIface M E) {N addr : ℕ} {h₀ : Heap K} {calls : List (Call C M E K)}
    {s : Heap K × Prob C M E} (hr : run I calls (h₀, Prob.new N addr) = .ok s) (k : ℤ) (hk : k < 0 ∨ N < k) :
    numConstraintsAt I s.2 k = .error .assertion := by
  have ha := agrees_of_run I hr
  unfold numConstraintsAt
  rw [ha.hN]
  have : decide (0 ≤ k ∧ k ≤ (N : ℤ)) = false := by simp; omega
  rw [this]; rfl

/-! ## Copies and moves -/

/-- Same costs, dynamics, constraints and initial state. -/
structure SameContent (h h' : Heap K) (p q : Prob C M E) : Prop where
  costs : q.costs = p.costs
  models : q.models = p.models
  eq : q.eq = p.eq
  ineq : q.ineq = p.ineq
  x0 : getInitialState h' q = getInitialState h p

/-- C43 except for the number of segments: all four operations carry over costs, dynamics, constraints and the initial
state.  Missing: the number of segments, which none of them copies. -/
theorem C43_content_partial (h : Heap K) (p t : Prob C M E) (fresh : ℕ) (junk : ℤ) :
    SameContent h (copyAssign h t p).1 p (copyAssign h t p).2 ∧
    SameContent h (copyCtor h fresh junk p).1 p (copyCtor h fresh junk p).2 ∧
    SameContent h (moveAssign h t p).1 p (moveAssign h t p).2.1 ∧
    SameContent h h p (moveCtor junk p).1 :=
  ⟨⟨rfl, rfl, rfl, rfl, by simp [copyAssign, getInitialState]⟩,
   ⟨rfl, rfl, rfl, rfl, by simp [copyCtor, getInitialState]⟩,
   ⟨rfl, rfl, rfl, rfl, by simp [moveAssign, getInitialState]⟩, ⟨rfl, rfl, rfl, rfl, rfl⟩⟩

/-- Assignment between problems with the same number of segments is faithful. -/
theorem C43_assign_partial (h : Heap K) (p t : Prob C M E) (hN : t.N = p.N) :
    (copyAssign h t p).2.N = p.N ∧ (moveAssign h t p).2.1.N = p.N := ⟨hN, hN⟩

/-- C43 fails for the number of segments: the constructors leave it indeterminate and the assignments keep the old one,
for every source problem. -/
theorem C43_counterexample (h : Heap K) (p : Prob C M E) (fresh : ℕ) :
    (∃ junk, (copyCtor h fresh junk p).2.N ≠ p.N) ∧ (∃ junk, (moveCtor junk p).1.N ≠ p.N) ∧
    (∀ t : Prob C M E, t.N ≠ p.N → (copyAssign h t p).2.N ≠ p.N ∧ (moveAssign h t p).2.1.N ≠ p.N) :=
  ⟨⟨p.N + 1, by simp [copyCtor]⟩, ⟨p.N + 1, by simp [moveCtor]⟩, fun _ ht => ⟨ht, ht⟩⟩

/-- A copied problem is independent of later changes of the initial state (copy constructor, new vector); a
move-constructed one shares the vector with the moved-from object. -/
theorem C43_aliasing (h : Heap K) (p : Prob C M E) (fresh : ℕ) (junk : ℤ) (hf : fresh ≠ p.x0) (v : List K) :
    getInitialState (setInitialState (copyCtor h fresh junk p).1 p v) (copyCtor h fresh junk p).2
      = getInitialState h p ∧
    getInitialState (setInitialState h (moveCtor junk p).2 v) (moveCtor junk p).1 = v := by
  simp [getInitialState, setInitialState, copyCtor, moveCtor, Function.update_of_ne hf]

/-! What goes wrong next: a problem whose vectors are shorter than its number of segments says. -/

theorem validAt_error (I : ProbIface M E) (h : Heap K) (p : Prob C M E) (k : ℤ) (e : Err)
    (he : validAt I h p k = .error e) : e = .undefined := by
  have rd : ∀ {α : Type} (l : List α) (k : ℤ) (e : Err), vread l k = .error e → e = .undefined := by
    intro α l k e h
    unfold vread at h
    split at h
    · split at h <;> cases h; rfl
    · cases h; rfl
  unfold validAt at he
  cases hc : vread p.costs k with
  | error e' => rw [hc] at he; cases he; exact rd _ _ _ hc
  | ok c =>
    cases hm : vread p.models k with
    | error e' =>
      have e1 := rd _ _ _ hm
      subst e1
      rw [hc, hm] at he
      by_cases h1 : k < p.N <;> by_cases h2 : k = 0 <;> by_cases h3 : 0 < (h p.x0).length <;>
        simp [h1, h2, h3, bind, Except.bind, pure, Except.pure, Functor.map, Except.map] at he <;>
        first | exact he.symm | (split at he <;> cases he; rfl)
    | ok m =>
      rw [hc, hm] at he
      cases m <;> by_cases h1 : k < p.N <;> by_cases h2 : k = 0 <;> by_cases h3 : 0 < (h p.x0).length <;>
        simp [h1, h2, h3, bind, Except.bind, pure, Except.pure, Functor.map, Except.map] at he <;>
        first | exact he.symm | (split at he <;> cases he; rfl)

theorem isFullyDefined_short (I : ProbIface M E) (h : Heap K) (q : Prob C M E) (hq : (q.costs.length : ℤ) ≤ q.N) :
    isFullyDefined I h q = .error .undefined := by
  have bad : ∀ r : ℕ, q.costs.length < r → validUpTo I h q r = .error .undefined := by
    intro r
    induction r with
    | zero => intro h; omega
    | succ r ih =>
      intro hr
      by_cases h1 : q.costs.length < r
      · rw [validUpTo, ih h1]; rfl
      · have hr' : r = q.costs.length := by omega
        have hv : validAt I h q r = .error .undefined := by
          have : vread q.costs (r : ℤ) = .error .undefined := by
            unfold vread; simp [hr']
          unfold validAt
          rw [this]; rfl
        rw [validUpTo]
        have up : ∀ j e, validUpTo I h q j = .error e → e = .undefined := by
          intro j
          induction j with
          | zero => intro e he; cases he
          | succ j ihj =>
            intro e he
            rw [validUpTo] at he
            cases h3 : validUpTo I h q j with
            | error e' => rw [h3] at he; cases he; exact ihj _ h3
            | ok b =>
              cases h4 : validAt I h q j with
              | error e' => rw [h3, h4] at he; cases he; exact validAt_error I h q j _ h4
              | ok c => rw [h3, h4] at he; cases he
        cases h3 : validUpTo I h q r with
        | error e => have := up r e h3; subst this; rfl
        | ok b => rw [hv]; rfl
  exact bad _ (by omega)

/-- Assigning a problem to one with more segments leaves an object on which `IsFullyDefined` reads past the end of its
vectors. -/
theorem C43_assign_counterexample (I : ProbIface M E) (h : Heap K) (p t : Prob C M E)
    (hp : (p.costs.length : ℤ) = p.N + 1) (hN : p.N < t.N) :
    isFullyDefined I (copyAssign h t p).1 (copyAssign h t p).2 = .error .undefined ∧
    isFullyDefined I (moveAssign h t p).1 (moveAssign h t p).2.1 = .error .undefined := by
  exact ⟨isFullyDefined_short I _ _ (by simp only [copyAssign]; omega), isFullyDefined_short I _ _ (by simp only [moveAssign]; omega)⟩

/-- A problem that has been moved from keeps its number of segments and its initial state, but none of its vectors: at every
knot point, whatever was defined there, reading or setting the cost, the dynamics or a constraint is undefined
behaviour, and counting the constraints throws. -/
theorem C43_moved_from (I : ProbIface M E) (h : Heap K) (p t : Prob C M E) (junk : ℤ) (k : ℤ) (h0 : 0 ≤ k) (hk : k < p.N)
    (q : Prob C M E) (hq : q = (moveCtor junk p).2 ∨ q = (moveAssign h t p).2.2) :
    q.N = p.N ∧ getInitialState h q = getInitialState h p ∧
    getCost q k = .error .undefined ∧ getDynamics q k = .error .undefined ∧
    numConstraintsAt I q k = .error .thrown ∧
    (∀ c, setCost q c k = .error .undefined) ∧
    (∀ m, k < p.N - 1 → setDynamics I q (some m) k = .error .undefined) ∧
    (∀ e, 0 < I.dim e → setEq I q (some e) k = .error .undefined ∧ setIneq I q (some e) k = .error .undefined) ∧
    isFullyDefined I h q = .error .undefined := by
  have e : q = { p with costs := [], models := [], eq := [], ineq := [] } := by
    rcases hq with h | h <;> exact h
  subst e
  have a1 : (0 ≤ k ∧ k ≤ p.N) = True := by simp; omega
  have a2 : (0 ≤ k ∧ k < p.N) = True := by simp; omega
  have r : ∀ {α : Type}, vread ([] : List α) k = .error .undefined := by intro α; simp [vread]
  have v : ∀ {α : Type}, vat ([] : List α) k = .error .thrown := by intro α; simp [vat]
  have w : ∀ {α : Type} (a : α), vwrite [] k a = .error .undefined := by intro α a; simp [vwrite]
  refine ⟨rfl, rfl, ?_, ?_, ?_, ?_, ?_, ?_, ?_⟩
  · simp [getCost, a1, r, assertThat, bind, Except.bind]
  · simp [getDynamics, a1, r, assertThat, bind, Except.bind]
  · simp [numConstraintsAt, a1, v, assertThat, bind, Except.bind]
  · intro c; simp [setCost, a1, w, assertThat, bind, Except.bind]
  · intro m hm
    have : k ≠ p.N - 1 := by omega
    simp [setDynamics, a2, w, assertThat, bind, Except.bind, this, pure, Except.pure]
  · intro e he
    simp [setEq, setIneq, r, assertThat, bind, Except.bind, he]
  · exact isFullyDefined_short I h _ (by simp; omega)

/-! ## Concrete problems -/

/-- Models are pairs of dimensions, costs are names, constraints are their dimensions. -/
def demoIface : ProbIface (ℕ × ℕ) ℕ := ⟨Prod.fst, Prod.snd, Prod.mk, id⟩

/-- Two segments, costs everywhere, one equality constraint and two inequality constraints. -/
def demoCalls : List (Call String (ℕ × ℕ) ℕ ℚ) :=
  [.cost (some "a") 0, .cost (some "a") 1, .cost (some "b") 2, .dynamics (some (2, 1)) 0, .dynamics (some (2, 1)) 1,
   .initialState [1, 2], .inequality (some 3) 0, .inequality (some 1) 1, .equality (some 2) 2, .cost (some "c") 1]

def demoFinal : Heap ℚ × Prob String (ℕ × ℕ) ℕ :=
  (Function.update (fun _ => []) 0 [1, 2],
   { N := 2, x0 := 0, costs := [some "a", some "c", some "b"], models := [some (2, 1), some (2, 1), some (2, 1)]
     eq := [[], [], [2]], ineq := [[3], [1], []] })

theorem demoRun : run demoIface demoCalls (fun _ => [], Prob.new 2 0) = .ok demoFinal := rfl

theorem demoFull : FullyDefined demoIface 2 [] demoCalls where
  cost k hk := by interval_cases k <;> rfl
  dyn k hk := by interval_cases k <;> rfl
  state := ⟨(2, 1), rfl, rfl, by decide⟩

/-- The complete problem is recognised, with 6 constraint rows. -/
example : isFullyDefined demoIface demoFinal.1 demoFinal.2 = .ok true := by
  obtain ⟨b, h1, h2⟩ := C41_exact_partial demoIface demoRun (Or.inr rfl)
  rw [h1, h2.mpr demoFull]

example : numConstraints demoIface demoFinal.2 = .ok 6 := rfl

/-- Setting the initial state first and asking: null dereference. -/
example : ∃ s, run demoIface [.initialState [1, 2]] ((fun _ => [], Prob.new 2 0) : Heap ℚ × Prob String (ℕ × ℕ) ℕ) = .ok s ∧
    isFullyDefined demoIface s.1 s.2 = .error .undefined :=
  ⟨_, rfl, C41_unsafe_counterexample (calls := [.initialState [1, 2]]) (h₀ := fun _ => []) (N := 2) (addr := 0) demoIface rfl
    (by simp [initialState, lastOf]) rfl⟩

/-- Asking a problem that was fully defined, after it has been moved from. -/
example : isFullyDefined demoIface demoFinal.1 (moveCtor 0 demoFinal.2).2 = .error .undefined :=
  (C43_moved_from demoIface demoFinal.1 demoFinal.2 demoFinal.2 0 0 (by decide) (by decide) _ (Or.inl rfl)).2.2.2.2.2.2.2.2

end Altro.Props
