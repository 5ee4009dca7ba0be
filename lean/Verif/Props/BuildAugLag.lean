import Verif.Props.Problem

/-!
# C09: the augmented Lagrangian problem
-/

namespace Altro.Props
open Prob Spec
variable {C C' M E K : Type}

theorem setDynamics_eval (I : ProbIface M E) {N : ℕ} (q : Prob C M E) (f : ℕ → Option M) (hN : q.N = N)
    (hm : q.models = tab (N + 1) f) (md : M) (k : ℕ) (hk : k < N)
    (hp : k + 1 = N → 0 < I.sdim md ∧ 0 < I.cdim md) :
    setDynamics I q (some md) k = .ok { q with models := tab (N + 1) (Function.update
      (if k + 1 = N then Function.update f N (some (I.ident (I.sdim md) (I.cdim md))) else f) k (some md)) } := by
  unfold setDynamics
  have h1 : decide (0 ≤ (k : ℤ) ∧ (k : ℤ) < q.N) = true := by simp [hN, hk]
  simp only [h1, hm]
  by_cases hkN : k + 1 = N
  · obtain ⟨p1, p2⟩ := hp hkN
    have e : (k : ℤ) = q.N - 1 := by omega
    rw [hN] at e
    simp only [hN, e, if_true, mkIdent, p1, p2, hkN]
    rw [vat_tab _ (by omega) (by omega)]
    simp only [assertThat, decide_true, if_true, bind, Except.bind, pure, Except.pure]
    rw [vwrite_tab _ _ (by omega) (by omega)]
    dsimp only
    rw [vwrite_tab _ _ (by omega) (by omega)]
    dsimp only
    have e1 : ((N : ℤ) - 1).toNat = k := by omega
    have e2 : ((N : ℤ)).toNat = N := by omega
    rw [e1, e2]
  · have e : ¬ ((k : ℤ) = (N : ℤ) - 1) := by omega
    simp only [hN, e, if_false, hkN, assertThat, if_true, bind, Except.bind, pure, Except.pure]
    rw [vwrite_tab _ _ (by omega) (by omega)]
    simp

theorem getDynamics_eval {N : ℕ} (q : Prob C M E) (f : ℕ → Option M) (hN : q.N = N)
    (hm : q.models = tab (N + 1) f) (k : ℕ) (hk : k ≤ N) (md : M) (hf : f k = some md) :
    getDynamics q k = .ok md := by
  unfold getDynamics
  rw [hm, vread_tab _ (by omega) (by omega), hN]
  simp [assertThat, hk, hf, bind, Except.bind, pure, Except.pure]

theorem getCost_eval {N : ℕ} (q : Prob C M E) (f : ℕ → Option C) (hN : q.N = N)
    (hm : q.costs = tab (N + 1) f) (k : ℕ) (hk : k ≤ N) : getCost q k = .ok (f k) := by
  unfold getCost
  rw [hm, vread_tab _ (by omega) (by omega), hN]
  simp [assertThat, hk, bind, Except.bind]

theorem setCost_eval {N : ℕ} (q : Prob C M E) (f : ℕ → Option C) (hN : q.N = N)
    (hm : q.costs = tab (N + 1) f) (c : Option C) (k : ℕ) (hk : k ≤ N) :
    setCost q c k = .ok { q with costs := tab (N + 1) (Function.update f k c) } := by
  unfold setCost
  rw [hm, vwrite_tab _ _ (by omega) (by omega), hN]
  simp [assertThat, hk, bind, Except.bind, pure, Except.pure]

/-- The augmented Lagrangian cost at `k` that goes with the history. -/
def alAt (mk : C → List E → List E → C') (calls : List (Call C M E K)) (k : ℤ) : Option C' :=
  (costAt calls k).map fun c => mk c (eqsAt calls k) (ineqsAt calls k)

theorem build_spec (I : ProbIface M E) (mk : C → List E → List E → C') {N addr : ℕ} {h₀ : Heap K}
    {calls : List (Call C M E K)} {s : Heap K × Prob C M E} (hr : run I calls (h₀, Prob.new N addr) = .ok s)
    (hf : FullyDefined I N (h₀ addr) calls) (costs : List C') :
    ∃ q cl, buildAugLag I mk s.1 s.2 costs = .ok (s.1, q, costs ++ cl) ∧ q.N = N ∧ q.x0 = s.2.x0 ∧
      q.models = s.2.models ∧ q.costs = tab (N + 1) (fun k => alAt mk calls k) ∧
      cl.map some = tab (N + 1) (fun k => alAt mk calls k) ∧
      q.eq = List.replicate (N + 1) [] ∧ q.ineq = List.replicate (N + 1) [] := by
  have ha := agrees_of_run I hr
  obtain ⟨aN, ax, ac, am, ae, ai, ah, ap, ar⟩ := ha
  have hNp := C41_positive I hr hf
  -- dynamics
  have dyn : ∀ r : ℕ, r ≤ N → buildDynamics I s.2 r (Prob.new (C := C') (M := M) (E := E) N s.2.x0) =
      .ok { Prob.new (C := C') (M := M) (E := E) N s.2.x0 with
        models := tab (N + 1) (fun k => if k < r then modelAt calls k else if r = N then modelsOf I N calls k else none) } := by
    intro r
    induction r with
    | zero =>
      intro _
      simp only [buildDynamics, Prob.new, tab_replicate]
      congr 2
      refine tab_congr fun k hk => ?_
      rw [if_neg (by omega), if_neg (by omega)]
    | succ r ih =>
      intro hr'
      obtain ⟨m, hm⟩ := Option.isSome_iff_exists.mp (hf.dyn r (by omega))
      have hg : getDynamics s.2 r = .ok m :=
        getDynamics_eval s.2 _ aN am r (by omega) m (by unfold modelsOf; rw [if_pos (by omega), hm])
      rw [buildDynamics, ih (by omega), hg]
      simp only [bind, Except.bind]
      rw [setDynamics_eval I (N := N) _ _ rfl rfl m r (by omega)]
      · congr 2
        refine tab_congr fun k hk => ?_
        rw [Function.update_apply]
        by_cases hkr : k = r
        · subst hkr; simp [hm]
        · rw [if_neg hkr]
          by_cases hrN : r + 1 = N
          · rw [if_pos hrN, Function.update_apply]
            by_cases hkN : k = N
            · subst hkN
              rw [if_pos rfl, if_neg (by omega), if_pos hrN]
              unfold modelsOf
              rw [if_neg (by omega)]
              have : ((k : ℤ) - 1) = (r : ℕ) := by omega
              rw [this, hm]; rfl
            · rw [if_neg hkN, if_pos (show k < r by omega), if_pos (by omega)]
          · rw [if_neg hrN]
            by_cases hk2 : k < r
            · rw [if_pos hk2, if_pos (by omega)]
            · rw [if_neg hk2, if_neg (by omega), if_neg (by omega), if_neg hrN]
      · intro hrN
        exact ap m (by rw [← hm]; congr 1; omega)
  -- costs
  have get : ∀ k : ℕ, k ≤ N → ∃ m, modelsOf I N calls k = some m := by
    intro k hk
    unfold modelsOf
    by_cases h : k < N
    · rw [if_pos h]; exact Option.isSome_iff_exists.mp (hf.dyn k h)
    · rw [if_neg h]
      obtain ⟨m, hm⟩ := Option.isSome_iff_exists.mp (hf.dyn (N - 1) (by omega))
      have : ((N : ℤ) - 1) = ((N - 1 : ℕ) : ℤ) := by omega
      rw [this, hm]; exact ⟨_, rfl⟩
  have mkc : ∀ k : ℕ, k ≤ N → ∃ c, alAt mk calls k = some c ∧ mkALCost mk s.2 k = .ok c := by
    intro k hk
    obtain ⟨c, hc⟩ := Option.isSome_iff_exists.mp (hf.cost k hk)
    obtain ⟨m, hm⟩ := get k hk
    refine ⟨mk c (eqsAt calls k) (ineqsAt calls k), by unfold alAt; rw [hc]; rfl, ?_⟩
    unfold mkALCost
    rw [getDynamics_eval s.2 _ aN am k hk m hm, getCost_eval s.2 _ aN ac k hk, ae, ai,
      vat_tab _ (by omega) (by omega), vat_tab _ (by omega) (by omega)]
    simp [hc, bind, Except.bind, pure, Except.pure]
  have cst : ∀ (q0 : Prob C' M E), q0.N = N → q0.costs = List.replicate (N + 1) none → ∀ r : ℕ, r ≤ N + 1 →
      ∃ cl, buildCosts mk s.2 r (q0, costs) = .ok ({ q0 with
        costs := tab (N + 1) (fun k => if k < r then alAt mk calls k else none) }, costs ++ cl) ∧ cl.map some = tab r fun k => alAt mk calls k := by
    intro q0 hq0 hq1 r
    induction r with
    | zero =>
      intro _
      refine ⟨[], ?_, rfl⟩
      simp only [buildCosts, List.append_nil]
      rw [tab_replicate] at hq1
      have : q0.costs = tab (N + 1) fun k : ℕ => if k < 0 then alAt mk calls k else none := by
        rw [hq1]; exact tab_congr fun k _ => by simp
      rw [← this]
    | succ r ih =>
      intro hr'
      obtain ⟨cl, h1, h2⟩ := ih (by omega)
      obtain ⟨c, h3, h4⟩ := mkc r (by omega)
      refine ⟨cl ++ [c], ?_, ?_⟩
      · rw [buildCosts, h1, h4]
        simp only [bind, Except.bind]
        rw [setCost_eval (N := N) { q0 with costs := tab (N + 1) (fun k => if k < r then alAt mk calls k else none) } _ hq0 rfl
          (some c) r (by omega)]
        simp only [pure, Except.pure, List.append_assoc]
        congr 3
        refine tab_congr fun k hk => ?_
        rw [Function.update_apply]
        by_cases hkr : k = r
        · subst hkr; simp [h3]
        · rw [if_neg hkr]
          by_cases hk2 : k < r
          · rw [if_pos hk2, if_pos (by omega)]
          · rw [if_neg hk2, if_neg (by omega)]
      · rw [List.map_append, h2]
        simp [tab, List.range_succ, h3]
  have hN' : (s.2.N + 1).toNat = N + 1 := by rw [aN]; omega
  have hN2 : s.2.N.toNat = N := by rw [aN]; omega
  obtain ⟨cl, h1, h2⟩ := cst { Prob.new (C := C') (M := M) (E := E) N s.2.x0 with models := tab (N + 1) (modelsOf I N calls) } rfl rfl (N + 1) le_rfl
  have hd := dyn N le_rfl
  have hd' : (tab (N + 1) fun k => if k < N then modelAt calls k else if N = N then modelsOf I N calls k else none)
      = tab (N + 1) (modelsOf I N calls) := by
    refine tab_congr fun k hk => ?_
    by_cases h : k < N
    · rw [if_pos h]; unfold modelsOf; rw [if_pos h]
    · rw [if_neg h, if_pos rfl]
  rw [hd'] at hd
  have hh : setInitialState s.1 (Prob.new (C := C') (M := M) (E := E) N s.2.x0) (getInitialState s.1 s.2) = s.1 := by
    simp [setInitialState, getInitialState, Prob.new]
  refine ⟨{ Prob.new (C := C') (M := M) (E := E) N s.2.x0 with
      models := tab (N + 1) (modelsOf I N calls)
      costs := tab (N + 1) (fun k => if k < N + 1 then alAt mk calls k else none) }, cl, ?_, rfl, rfl, am.symm, ?_, h2,
    rfl, rfl⟩
  · unfold buildAugLag
    rw [hN', hN2]
    have : ¬ s.2.N < 0 := by omega
    simp only [this, if_false, hh, hd, bind, Except.bind, pure, Except.pure]
    rw [h1]
  · exact tab_congr fun k hk => by rw [if_pos hk]

theorem tab_of_map_some {α : Type*} {n : ℕ} {l : List α} {f : ℕ → Option α} (h : l.map some = tab n f) (k : ℕ)
    (hk : k < n) : l[k]? = f k := by
  have := congrArg (·[k]?) h
  simp only [List.getElem?_map, tab_get f hk] at this
  cases hl : l[k]? with
  | none => rw [hl] at this; cases this
  | some a => rw [hl] at this; simpa using this

/-- C09, the problem: for every complete problem the construction succeeds; the result has the same number of segments,
the same initial state (the same vector, in fact), the same dynamics at every knot point, no constraints, and at knot
point `k` the cost made from the objective and the constraints given for `k`. -/
theorem C09_build (I : ProbIface M E) (mk : C → List E → List E → C') {N addr : ℕ} {h₀ : Heap K}
    {calls : List (Call C M E K)} {s : Heap K × Prob C M E} (hr : run I calls (h₀, Prob.new N addr) = .ok s)
    (hf : FullyDefined I N (h₀ addr) calls) (costs : List C') :
    ∃ q cl, buildAugLag I mk s.1 s.2 costs = .ok (s.1, q, costs ++ cl) ∧ q.N = s.2.N ∧ q.x0 = s.2.x0 ∧
      getInitialState s.1 q = initialState (h₀ addr) calls ∧ cl.length = N + 1 ∧
      (∀ k : ℕ, k ≤ N → getDynamics q k = getDynamics s.2 k ∧ numConstraintsAt I q k = .ok 0 ∧
        ∃ c, costAt calls k = some c ∧ getCost q k = .ok (some (mk c (eqsAt calls k) (ineqsAt calls k))) ∧
          cl[k]? = some (mk c (eqsAt calls k) (ineqsAt calls k))) := by
  obtain ⟨q, cl, h1, h2, h3, h4, h5, h6, h7, h8⟩ := build_spec I mk hr hf costs
  have ha := agrees_of_run I hr
  refine ⟨q, cl, h1, h2.trans ha.hN.symm, h3, ?_, ?_, fun k hk => ⟨?_, ?_, ?_⟩⟩
  · unfold getInitialState; rw [h3]; exact ha.holds.x0
  · have := congrArg List.length h6; simpa [tab_length] using this
  · unfold getDynamics; rw [h2, ha.hN, h4]
  · unfold numConstraintsAt
    rw [h7, h8, h2, tab_replicate, vat_tab _ (by omega) (by omega)]
    simp [assertThat, hk, bind, Except.bind, pure, Except.pure]
  · obtain ⟨c, hc⟩ := Option.isSome_iff_exists.mp (hf.cost k hk)
    have hal : alAt mk calls k = some (mk c (eqsAt calls k) (ineqsAt calls k)) := by unfold alAt; rw [hc]; rfl
    exact ⟨c, hc, by rw [getCost_eval q _ h2 h5 k hk, hal], by rw [tab_of_map_some h6 k (by omega), hal]⟩

/-- The dimensions of the identity model are the ones it was made with (problem.hpp:33-34). -/
def IdentOk (I : ProbIface M E) : Prop := ∀ n m, I.sdim (I.ident n m) = n ∧ I.cdim (I.ident n m) = m

theorem copyLoop_spec (I : ProbIface M E) (n m : Option ℕ) {N : ℕ} (q : Prob C M E) (f : ℕ → Option M)
    (g : ℕ → Option C) (hN : q.N = N) (hm : q.models = tab (N + 1) f) (hc : q.costs = tab (N + 1) g)
    (hf : ∀ k, k ≤ N → ∃ md, f k = some md ∧ (∀ a, n = some a → I.sdim md = a) ∧ (∀ a, m = some a → I.cdim md = a))
    (kps : List (M × Option C)) (r : ℕ) (hr : r ≤ N + 1) :
    ∃ l, copyLoop I n m q 0 r kps = .ok (kps ++ l) ∧
      l.map (fun x => (some x.1, x.2)) = tab r fun k => (f k, g k) := by
  induction r with
  | zero => exact ⟨[], by simp [copyLoop], rfl⟩
  | succ r ih =>
    obtain ⟨l, h1, h2⟩ := ih (by omega)
    obtain ⟨md, h3, h4, h5⟩ := hf r (by omega)
    refine ⟨l ++ [(md, g r)], ?_, ?_⟩
    · rw [copyLoop, h1]
      simp only [bind, Except.bind, Nat.zero_add]
      rw [getDynamics_eval q f hN hm r (by omega) md h3, getCost_eval q g hN hc r (by omega)]
      have e1 : dimOk n (I.sdim md) = true := by
        cases n with
        | none => rfl
        | some a => simp [dimOk, h4 a rfl]
      have e2 : dimOk m (I.cdim md) = true := by
        cases m with
        | none => rfl
        | some a => simp [dimOk, h5 a rfl]
      simp [e1, e2, assertThat, pure, Except.pure]
    · rw [List.map_append, h2]
      simp [tab, List.range_succ, h3]

/-- C09, the solver: constructing the solver from a complete problem whose models have the solver's dimensions
succeeds; it has the problem's number of segments and shares its initial state; knot point `k` has the problem's
dynamics at `k` and the augmented Lagrangian cost of `k`, the same object as in `costs_`. -/
theorem C09_solver (I : ProbIface M E) (hI : IdentOk I) (mk : C → List E → List E → C') (n m : Option ℕ) {N addr : ℕ}
    {h₀ : Heap K} {calls : List (Call C M E K)} {s : Heap K × Prob C M E}
    (hr : run I calls (h₀, Prob.new N addr) = .ok s) (hf : FullyDefined I N (h₀ addr) calls)
    (hn : ∀ k md, modelAt calls k = some md → (∀ a, n = some a → I.sdim md = a) ∧ (∀ a, m = some a → I.cdim md = a)) :
    ∃ d, alConstruct I n m mk s.1 s.2 = .ok (s.1, d) ∧ d.N = N ∧ d.x0 = s.2.x0 ∧
      d.costs.length = N + 1 ∧ d.kps.length = N + 1 ∧
      ∀ k : ℕ, k ≤ N → ∃ c md, costAt calls k = some c ∧ getDynamics s.2 k = .ok md ∧
        d.costs[k]? = some (mk c (eqsAt calls k) (ineqsAt calls k)) ∧
        d.kps[k]? = some (md, some (mk c (eqsAt calls k) (ineqsAt calls k))) := by
  obtain ⟨q, cl, h1, h2, h3, h4, h5, h6, h7, h8⟩ := build_spec I mk hr hf []
  have ha := agrees_of_run I hr
  have hcl : cl.length = N + 1 := by have := congrArg List.length h6; simpa [tab_length] using this
  have hmo : ∀ k, k ≤ N → ∃ md, modelsOf I N calls k = some md ∧ (∀ a, n = some a → I.sdim md = a) ∧
      (∀ a, m = some a → I.cdim md = a) := by
    intro k hk
    unfold modelsOf
    by_cases hkN : k < N
    · rw [if_pos hkN]
      obtain ⟨md, hmd⟩ := Option.isSome_iff_exists.mp (hf.dyn k hkN)
      exact ⟨md, hmd, hn _ md hmd⟩
    · rw [if_neg hkN]
      obtain ⟨-, md, hmd, -⟩ := C41_terminal I hr hf
      refine ⟨_, by rw [hmd]; rfl, ?_⟩
      have := hn _ md hmd
      rw [(hI _ _).1, (hI _ _).2]; exact this
  have hm' : q.models = tab (N + 1) (modelsOf I N calls) := h4.trans ha.models
  have hol : Holds I N (initialState (h₀ addr) calls) (alAt mk calls) (modelAt calls) (s.1, q) :=
    ⟨h2, by rw [h3]; exact ha.holds.x0, h5, hm', ha.rng⟩
  obtain ⟨b, hb1, hb2⟩ := fullyDefined_holds I hol (Or.inr (by obtain ⟨m0, h0, -⟩ := hf.state; rw [h0]; rfl))
  have hb : b = true := hb2.mpr fun k hk =>
    ⟨by unfold alAt; rw [Option.isSome_map]; exact hf.cost k (by omega), fun h => hf.dyn k h, fun _ => hf.state⟩
  subst hb
  obtain ⟨l, hl1, hl2⟩ := copyLoop_spec I n m q _ _ h2 hm' h5 hmo [] (N + 1) le_rfl
  have hll : l.length = N + 1 := by have := congrArg List.length hl2; simpa [tab_length] using this
  refine ⟨⟨cl, N, l, s.2.x0⟩, ?_, rfl, rfl, hcl, hll, fun k hk => ?_⟩
  · unfold alConstruct alInitialize
    simp only [h1, bind, Except.bind, List.nil_append]
    have e3 : ((N : ℤ) + 1).toNat = N + 1 := by omega
    unfold copyFromProblem
    rw [ha.hN, e3, hb1, hcl]
    simp [assertThat, bind, Except.bind, hl1, pure, Except.pure, h3]
  · obtain ⟨c, hc⟩ := Option.isSome_iff_exists.mp (hf.cost k hk)
    obtain ⟨md, hmd, -⟩ := hmo k hk
    have hal : alAt mk calls k = some (mk c (eqsAt calls k) (ineqsAt calls k)) := by unfold alAt; rw [hc]; rfl
    refine ⟨c, md, hc, getDynamics_eval s.2 _ ha.hN ha.models k hk md hmd, ?_, ?_⟩
    · rw [tab_of_map_some h6 k (by omega), hal]
    · have := congrArg (·[k]?) hl2
      simp only [List.getElem?_map, tab_get _ (show k < N + 1 by omega), hal, hmd] at this
      cases hlk : l[k]? with
      | none => rw [hlk] at this; cases this
      | some x => rw [hlk] at this; simp at this; rw [← this.1, ← this.2]

/-- C09, the counts: per knot point and in total, the solver reports as many constraints as the problem. -/
theorem C09_counts (I : ProbIface M E) (hI : IdentOk I) (mk : C → List E → List E → C') (count : C' → ℕ)
    (hcount : ∀ c es is, count (mk c es is) = (es.map I.dim).sum + (is.map I.dim).sum) (n m : Option ℕ) {N addr : ℕ}
    {h₀ : Heap K} {calls : List (Call C M E K)} {s : Heap K × Prob C M E}
    (hr : run I calls (h₀, Prob.new N addr) = .ok s) (hf : FullyDefined I N (h₀ addr) calls)
    (hn : ∀ k md, modelAt calls k = some md → (∀ a, n = some a → I.sdim md = a) ∧ (∀ a, m = some a → I.cdim md = a)) :
    ∃ d, alConstruct I n m mk s.1 s.2 = .ok (s.1, d) ∧
      (∀ k : ℕ, k ≤ N → alNumConstraintsAt count d k = numConstraintsAt I s.2 k) ∧
      alNumConstraints count d = numConstraints I s.2 := by
  obtain ⟨d, h1, h2, h3, h4, h5, h6⟩ := C09_solver I hI mk n m hr hf hn
  have ha := agrees_of_run I hr
  have at_k : ∀ k : ℕ, k ≤ N → alNumConstraintsAt count d k = numConstraintsAt I s.2 k := by
    intro k hk
    obtain ⟨c, md, -, -, hc, -⟩ := h6 k hk
    rw [numAt_agrees I ha k hk]
    unfold alNumConstraintsAt vat
    simp [h2, h4, hk, assertThat, hc, hcount, bind, Except.bind, Functor.map, Except.map]
  refine ⟨d, h1, at_k, ?_⟩
  unfold alNumConstraints numConstraints
  rw [h2, ha.hN]
  have loop : ∀ r : ℕ, r ≤ N + 1 → alNumConstraintsUpTo count d r = numConstraintsUpTo I s.2 r := by
    intro r
    induction r with
    | zero => intro _; rfl
    | succ r ih =>
      intro hr
      rw [alNumConstraintsUpTo, numConstraintsUpTo, ih (by omega), at_k r (by omega)]
  exact loop _ (by omega)

/-- Outside the knot points the solver's count stops at an assertion, before any access. -/
theorem C09_counts_range {C' M : Type} (count : C' → ℕ) (d : ALData C' M) {k : ℤ} (hk : k < 0 ∨ d.N < k) :
    alNumConstraintsAt count d k = .error .assertion := by
  unfold alNumConstraintsAt assertThat
  rw [if_neg (by simp only [decide_eq_true_eq]; omega)]
  rfl

/-- Without assertions the solver still counts as the problem does, for every index: in range the number, outside an exception. -/
theorem C09_counts_release (I : ProbIface M E) (hI : IdentOk I) (mk : C → List E → List E → C') (count : C' → ℕ)
    (hcount : ∀ c es is, count (mk c es is) = (es.map I.dim).sum + (is.map I.dim).sum) (n m : Option ℕ) {N addr : ℕ}
    {h₀ : Heap K} {calls : List (Call C M E K)} {s : Heap K × Prob C M E}
    (hr : run I calls (h₀, Prob.new N addr) = .ok s) (hf : FullyDefined I N (h₀ addr) calls)
    (hn : ∀ k md, modelAt calls k = some md → (∀ a, n = some a → I.sdim md = a) ∧ (∀ a, m = some a → I.cdim md = a)) :
    ∃ d, alConstruct I n m mk s.1 s.2 = .ok (s.1, d) ∧
      ∀ k : ℤ, alNumConstraintsAtRelease count d k = numConstraintsAtRelease I s.2 k := by
  obtain ⟨d, h1, h2, h3, h4, h5, h6⟩ := C09_solver I hI mk n m hr hf hn
  have ha := agrees_of_run I hr
  refine ⟨d, h1, fun k => ?_⟩
  rw [C42_release I hr]
  split
  · rename_i h
    obtain ⟨j, rfl⟩ := Int.eq_ofNat_of_zero_le h.1
    have hj : j ≤ N := by omega
    obtain ⟨c, md, -, -, hc, -⟩ := h6 j hj
    rw [numAt_agrees I ha j hj]
    unfold alNumConstraintsAtRelease vat
    simp [hc, hcount, Functor.map, Except.map]
  · rename_i h
    unfold alNumConstraintsAtRelease
    rw [vat_out (by rw [h4]; omega)]
    rfl

/-- `InitializeFromProblem` is public but only works once: a second call appends to `costs_` and aborts. -/
theorem C09_second_call (I : ProbIface M E) (mk : C → List E → List E → C') (n m : Option ℕ) {N addr : ℕ}
    {h₀ : Heap K} {calls : List (Call C M E K)} {s : Heap K × Prob C M E}
    (hr : run I calls (h₀, Prob.new N addr) = .ok s) (hf : FullyDefined I N (h₀ addr) calls) (d : ALData C' M)
    (hd : d.costs ≠ []) : alInitialize I n m mk s.1 d s.2 = .error .assertion := by
  obtain ⟨q, cl, h1, h2, h3, h4, h5, h6, h7, h8⟩ := build_spec I mk hr hf d.costs
  have ha := agrees_of_run I hr
  have hcl : cl.length = N + 1 := by have := congrArg List.length h6; simpa [tab_length] using this
  have hl : 0 < d.costs.length := List.length_pos_iff.mpr hd
  unfold alInitialize
  simp only [h1, bind, Except.bind]
  have e1 : decide (((d.costs ++ cl).length : ℤ) = s.2.N + 1) = false := by
    rw [List.length_append, hcl, ha.hN]; simp; omega
  rw [e1]; rfl

/-! ## With the model of `ALCost` -/

section concrete
variable {n m : ℕ} {F : Type} [Field F] [LinearOrder F]

theorem numConstraints_new (c : CostFun n m F) (es is : List (Con n m F)) :
    (ALCost.new c es is).numConstraints = (es.map Con.p).sum + (is.map Con.p).sum := by
  unfold ALCost.numConstraints ALCost.new
  rw [foldl_add_sum, foldl_add_sum]
  simp only [List.map_map, Nat.zero_add]
  congr 1

/-- The counts for the real cost objects. -/
theorem C09_alcost (I : ProbIface M (Con n m F)) (hI : IdentOk I) (hdim : I.dim = Con.p) {N addr : ℕ} {h₀ : Heap K}
    {calls : List (Call (CostFun n m F) M (Con n m F) K)} {s : Heap K × Prob (CostFun n m F) M (Con n m F)}
    (hr : run I calls (h₀, Prob.new N addr) = .ok s) (hf : FullyDefined I N (h₀ addr) calls)
    (hn : ∀ k md, modelAt calls k = some md → I.sdim md = n ∧ I.cdim md = m) :
    ∃ d, alConstruct I (some n) (some m) ALCost.new s.1 s.2 = .ok (s.1, d) ∧
      (∀ k : ℕ, k ≤ N → alNumConstraintsAt ALCost.numConstraints d k = numConstraintsAt I s.2 k) ∧
      alNumConstraints ALCost.numConstraints d = numConstraints I s.2 :=
  C09_counts I hI ALCost.new ALCost.numConstraints (fun c es is => by rw [numConstraints_new, hdim]) _ _ hr hf
    fun k md h => ⟨fun a ha => by cases ha; exact (hn k md h).1, fun a ha => by cases ha; exact (hn k md h).2⟩

end concrete

/-- The demonstration problem satisfies all hypotheses; costs are recorded as triples. -/
example : ∃ d, alConstruct (C' := String × List ℕ × List ℕ) demoIface (some 2) (some 1) (fun c es is => (c, es, is))
    demoFinal.1 demoFinal.2 = .ok (demoFinal.1, d) ∧ alNumConstraints (fun c => c.2.1.sum + c.2.2.sum) d = .ok 6 := by
  obtain ⟨d, h1, -, h3⟩ := C09_counts demoIface (fun _ _ => ⟨rfl, rfl⟩) (fun c es is => (c, es, is))
    (fun c : String × List ℕ × List ℕ => c.2.1.sum + c.2.2.sum) (fun c es is => by simp [demoIface]) (some 2) (some 1)
    demoRun demoFull (by
      intro k md h
      have : md = (2, 1) := by
        simp only [modelAt, lastOf, demoCalls, List.filterMap_cons, List.filterMap_nil] at h
        by_cases h0 : (0 : ℤ) = k <;> by_cases h1 : (1 : ℤ) = k <;> simp [h0, h1] at h <;> simp_all
      subst this
      exact ⟨fun a ha => by cases ha; rfl, fun a ha => by cases ha; rfl⟩)
  exact ⟨d, h1, h3⟩

end Altro.Props
