import Verif.Proofs.Repeat
import Verif.Proofs.Constraints
import Verif.Model.KnotPoint

/-!
# C26: a solve that follows other solves
-/

namespace Altro.Props
open Altro.Spec Altro.ILQR
variable {X U F C D : Type} [Arith F]
variable {P : Kernel X U F C D} (o : Opts F) {M : Memoryless P}

/-! ## What any solve leaves alone -/

/-- The cost objects still behave like `c0`, and the terminal control and step of the work trajectory are `u0`, `h0`. -/
structure Kept (M : Memoryless P) (c0 : ℕ → C) (u0 : U) (h0 : F) (s : St X U F C D) : Prop where
  cs : ∀ k ≤ P.N, M.RC (c0 k) (s.cs k)
  u : s.Zbar.u P.N = u0
  h : s.Zbar.h P.N = h0
  al : Aligned s.stats

variable {c0 : ℕ → C} {u0 : U} {h0 : F}

theorem kept_costsTo (Z : Traj X U F) (s : St X U F C D) (hs : Kept M c0 u0 h0 s) (k : ℕ) :
    Kept M c0 u0 h0 (costsTo P Z s k) := by
  refine ⟨?_, by rw [costsTo_Zbar]; exact hs.u, by rw [costsTo_Zbar]; exact hs.h,
    by rw [costsTo_stats]; exact hs.al⟩
  induction k with
  | zero => exact hs.cs
  | succ k ih =>
    intro j hj
    show M.RC _ (upd _ k _ j)
    by_cases e : j = k
    · subst e; rw [upd_self]; exact M.cost_same _ _ _ _ _ (ih j hj)
    · rw [upd_of_ne e]; exact ih j hj

theorem kept_expandBlock (s : St X U F C D) (hs : Kept M c0 u0 h0 s) (j : ℕ) :
    Kept M c0 u0 h0 (expandBlock P 0 s j) := by
  refine ⟨?_, by rw [expandBlock_Zbar]; exact hs.u, by rw [expandBlock_Zbar]; exact hs.h,
    by rw [expandBlock_stats]; exact hs.al⟩
  induction j with
  | zero => exact hs.cs
  | succ j ih =>
    intro k hk
    show M.RC _ (upd _ (0 + j) _ k)
    by_cases e : k = 0 + j
    · subst e; rw [upd_self]; exact M.cost_same _ _ _ _ _ (M.expand_same _ _ _ _ _ _ _ _ (ih _ hk))
    · rw [upd_of_ne e]; exact ih k hk

theorem kept_rcl (alpha : F) (s : St X U F C D) (hs : Kept M c0 u0 h0 s) :
    Kept M c0 u0 h0 (rolloutClosedLoop P o alpha s).1 := by
  obtain ⟨-, u2, u3, -⟩ := closedLoopTo_untouched P o alpha s P.N
  refine ⟨by rw [rcl_cs]; exact hs.cs, ?_, ?_, by rw [rcl_stats]; exact hs.al⟩
  · rw [rcl_Zbar, u3 _ le_rfl]; exact hs.u
  · rw [rcl_Zbar, u2]; exact hs.h

theorem kept_lineSearch (J0 : F) (r : ℕ) : ∀ (alpha J : F) (s : St X U F C D), Kept M c0 u0 h0 s →
    Kept M c0 u0 h0 (lineSearch P o J0 r alpha J s).1.1 := by
  induction r with
  | zero => intro alpha J s hs; exact hs
  | succ r ih =>
    intro alpha J s hs
    have h1 := kept_rcl o alpha s hs
    unfold lineSearch
    extract_lets q c z
    have h2 : Kept M c0 u0 h0 c.2 := kept_costsTo _ _ h1 _
    split
    · split
      · refine ⟨h2.cs, h2.u, h2.h, ?_⟩
        dsimp only
        exact aligned_log _ _ _ (aligned_log _ _ _ (aligned_log _ _ _ h2.al))
      · exact ih _ _ _ h2
    · exact ih _ _ _ h1

theorem kept_forwardPass (s : St X U F C D) (hs : Kept M c0 u0 h0 s) : Kept M c0 u0 h0 (forwardPass P o s) := by
  unfold forwardPass
  extract_lets J0 q src s1 J
  have hq : Kept M c0 u0 h0 q.1.1 := kept_lineSearch o _ _ _ _ _ hs
  have h1 : Kept M c0 u0 h0 s1 := by
    show Kept M c0 u0 h0 (if q.2 then _ else _)
    split
    · exact ⟨hq.cs, hq.u, hq.h, hq.al⟩
    · exact ⟨hq.cs, hq.u, hq.h, hq.al⟩
  split
  · exact ⟨h1.cs, h1.u, h1.h, h1.al⟩
  · exact h1

theorem aligned_updateConvergence (s : St X U F C D) (ha : Aligned s.stats) :
    Aligned (updateConvergence P s).stats := by
  unfold updateConvergence
  extract_lets dgrad dJ src st1 st2 st3 st4 st5
  have a1 : Aligned st1 := ha
  exact aligned_newIteration _ (aligned_log _ _ _ (aligned_log _ _ _ (aligned_log _ _ _ (aligned_log _ _ _ a1))))

theorem kept_iterate {fuel : ℕ} {s s1 : St X U F C D} (hs : Kept M c0 u0 h0 s) (h : iterate P o fuel s = some s1) :
    Kept M c0 u0 h0 s1 := by
  obtain ⟨b, hb, rfl⟩ := iterate_some P o h
  have fr := backwardPass_frame P o _ _ _ hb
  have he : Kept M c0 u0 h0 (updateExpansions P s) := kept_expandBlock s hs _
  have hkb : Kept M c0 u0 h0 b := by
    refine ⟨by rw [fr.cs]; exact he.cs, by rw [fr.Zbar]; exact he.u, by rw [fr.Zbar]; exact he.h, ?_⟩
    obtain ⟨r, hr⟩ := fr.stats
    rw [hr]; exact aligned_log _ _ _ he.al
  have hf := kept_forwardPass o b hkb
  exact ⟨hf.cs, hf.u, hf.h, aligned_updateConvergence _ hf.al⟩

theorem kept_start {s : St X U F C D} (hs : Kept M c0 u0 h0 s) : Kept M c0 u0 h0 (start P o s) := by
  have h1 : Kept M c0 u0 h0 (rollout P (solveSetup P o s)) := by
    refine ⟨hs.cs, hs.u, ?_, hs.al⟩
    show (if P.N < P.N then s.Z.h P.N else s.Zbar.h P.N) = h0
    rw [if_neg (lt_irrefl _)]; exact hs.h
  have h2 := kept_costsTo (rollout P (solveSetup P o s)).Z _ h1 (P.N + 1)
  exact ⟨h2.cs, h2.u, h2.h, h2.al⟩

theorem kept_solve {fuel : ℕ} {s s1 : St X U F C D} (hs : Kept M c0 u0 h0 s) (h : solve P o fuel s = some s1) :
    Kept M c0 u0 h0 s1 :=
  solveLoop_inv P o (Kept M c0 u0 h0) fuel (fun _ _ ha hi => kept_iterate o ha hi)
    (fun _ _ ⟨a, b, c, d⟩ => ⟨a, b, c, d⟩) _ _ _ (kept_start o hs) h

theorem kept_solveAll {fuel : ℕ} (l : List (Opts F × Traj X U F)) : ∀ {s s1 : St X U F C D}, Kept M c0 u0 h0 s →
    solveAll P fuel l s = some s1 → Kept M c0 u0 h0 s1 := by
  induction l with
  | nil => intro s s1 hs h; injection h with h; exact h ▸ hs
  | cons a l ih =>
    intro s s1 hs h
    obtain ⟨o', Z⟩ := a
    simp only [solveAll] at h
    cases hq : solve P o' fuel { s with Z := Z } with
    | none => rw [hq] at h; cases h
    | some t =>
      rw [hq] at h
      exact ih (kept_solve o' (s := { s with Z := Z }) ⟨hs.cs, hs.u, hs.h, hs.al⟩ hq) h

/-! ## Two solves -/

theorem start_sim {s s' : St X U F C D}
    (hZ : ∀ k ≤ P.N, s.Z.u k = s'.Z.u k ∧ s.Z.t k = s'.Z.t k ∧ s.Z.h k = s'.Z.h k)
    (hk : Kept M s.cs (s.Zbar.u P.N) (s.Zbar.h P.N) s') (ha : Aligned s.stats) :
    Sim M.toAlike (start P o s) (start P o s') := by
  have hr : SameTraj P (rolloutTo P s.Z P.N) (rolloutTo P s'.Z P.N) := by
    obtain ⟨a1, a2, a3, a4, a5⟩ := rolloutTo_spec P s.Z P.N
    obtain ⟨b1, b2, b3, b4, b5⟩ := rolloutTo_spec P s'.Z P.N
    have hx : ∀ k ≤ P.N, (rolloutTo P s.Z P.N).x k = (rolloutTo P s'.Z P.N).x k := by
      intro k hk
      induction k with
      | zero => rw [a4, b4]
      | succ k ih =>
        obtain ⟨z1, z2, z3⟩ := hZ k (by omega)
        rw [a5 k (by omega), b5 k (by omega), ih (by omega), z1, z2, z3]
    intro k hk
    obtain ⟨z1, z2, z3⟩ := hZ k hk
    refine ⟨hx k hk, ?_, ?_, ?_⟩
    · rw [a1, b1, z1]
    · rw [a2, b2, z2]
    · rw [a3, b3, z3]
  obtain ⟨c1, c2⟩ := cost_sim (M := M.toAlike) (s := rollout P (solveSetup P o s)) (s' := rollout P (solveSetup P o s'))
    hr hk.cs
  obtain ⟨-, f2, f3, -, -, f6, f7, -, f9⟩ := start_facts P o s
  obtain ⟨-, g2, g3, -, -, g6, g7, -, g9⟩ := start_facts P o s'
  have eB : (start P o s).Zbar = (solveSetup P o s).Zbar := cost_Zbar P _ (rollout P (solveSetup P o s))
  have eB' : (start P o s').Zbar = (solveSetup P o s').Zbar := cost_Zbar P _ (rollout P (solveSetup P o s'))
  refine ⟨?_, ?_, c2, f2.trans g2.symm, f9.trans g9.symm, ?_, ⟨?_, ?_, f3.trans g3.symm, c1, fun h => absurd f3 h⟩⟩
  · show SameTraj P (cost P _ (rollout P (solveSetup P o s))).2.Z (cost P _ (rollout P (solveSetup P o s'))).2.Z
    rw [cost_Z, cost_Z]; exact hr
  · rw [eB, eB']
    refine ⟨fun k hk' => ?_, fun k hk' => ?_, hk.u.symm⟩
    · show (if k ≤ P.N then s.Z.t k else s.Zbar.t k) = if k ≤ P.N then s'.Z.t k else s'.Zbar.t k
      rw [if_pos hk', if_pos hk']; exact (hZ k hk').2.1
    · show (if k < P.N then s.Z.h k else s.Zbar.h k) = if k < P.N then s'.Z.h k else s'.Zbar.h k
      by_cases e : k < P.N
      · rw [if_pos e, if_pos e]; exact (hZ k hk').2.2
      · have : k = P.N := by omega
        subst this
        rw [if_neg e, if_neg e]; exact hk.h.symm
  · exact (cost_drho P _ _).trans (cost_drho P _ (rollout P (solveSetup P o s'))).symm
  · intro c; rw [f7, f6]; exact ha c
  · intro c; rw [g7, g6]; exact hk.al c

/-- The stopping test of two runs whose total iteration limit is not reached first. -/
theorem isDone_sim {s s' : St X U F C D} (hs : Sim M.toAlike s s')
    (hd : Stats.back (s.stats.col .dJ) = Stats.back (s'.stats.col .dJ))
    (hg : Stats.back (s.stats.col .grad) = Stats.back (s'.stats.col .grad))
    (ht : (s.stats.inner : ℤ) < o.maxInner → (s.stats.total : ℤ) < o.maxTotal ∧ (s'.stats.total : ℤ) < o.maxTotal) :
    (isDone o s).2 = (isDone o s').2 ∧ Sim M.toAlike (isDone o s).1 (isDone o s').1 := by
  have hset : ∀ st, Sim M.toAlike { s with status := st } { s' with status := st } :=
    fun st => ⟨hs.Z, hs.bar, hs.cs, rfl, hs.rho, hs.drho, hs.stats⟩
  have hi := hs.stats.inner
  unfold isDone
  rw [hd, hg, ← hi, hs.status]
  split
  · exact ⟨rfl, hset _⟩
  · split
    · exact ⟨rfl, hset _⟩
    · rename_i h
      obtain ⟨t1, t2⟩ := ht (not_le.mp h)
      rw [if_neg (not_le.mpr t1), if_neg (not_le.mpr t2)]
      exact ⟨rfl, hs⟩

theorem inner_mono {fuel : ℕ} {r : ℕ} {s s1 : St X U F C D} (h : solveLoop P o fuel r s = some s1) :
    s.stats.inner ≤ s1.stats.inner := by
  refine solveLoop_inv P o (fun a => s.stats.inner ≤ a.stats.inner) fuel (fun a a' ha hi => ?_) (fun _ _ h => h) r s s1
    le_rfl h
  have := (iterate_counters P o fuel a a' hi).1
  omega

theorem solveLoop_sim {fuel : ℕ} {s0 : St X U F C D} (r : ℕ) : ∀ {s s' s1 : St X U F C D}, Sim M.toAlike s s' →
    iterState P o fuel s0 s.stats.inner = some s → (s.stats.inner : ℤ) + r = o.maxInner →
    (s.stats.total : ℤ) + r ≤ o.maxTotal → (s'.stats.total : ℤ) + r ≤ o.maxTotal →
    (s.stats.inner = 0 → ∀ a, iterate P o fuel s = some a → a.Z ≠ s.Z) →
    solveLoop P o fuel r s = some s1 → NoGiveUp P o fuel s0 s1.stats.inner →
    ∃ s1', solveLoop P o fuel r s' = some s1' ∧ Sim M.toAlike s1 s1' := by
  induction r with
  | zero =>
    intro s s' s1 hs _ _ _ _ _ h _
    simp only [solveLoop] at h
    injection h with h
    exact ⟨s', rfl, h ▸ hs⟩
  | succ r ih =>
    intro s s' s1 hs hj hr ht ht' hmove h hng
    unfold solveLoop at h ⊢
    cases hi : iterate P o fuel s with
    | none => rw [hi] at h; cases h
    | some a =>
      rw [hi] at h
      simp only at h
      obtain ⟨k1, k2, -, -⟩ := iterate_counters P o fuel _ _ hi
      have hend : a.stats.inner ≤ s1.stats.inner := by
        have e : (isDone o a).1.stats.inner = a.stats.inner := by rw [isDone_frame]
        split at h
        · injection h with h; rw [← h, e]
        · rw [← e]; exact inner_mono o h
      obtain ⟨a', ha', hsim, hd, hg⟩ := iterate_sim o hs hi (fun b hb => hng _ (by omega) _ _ hj hb)
        (fun h0 => hmove h0 a hi)
      obtain ⟨k1', k2', -, -⟩ := iterate_counters P o fuel _ _ ha'
      rw [ha']
      simp only
      obtain ⟨d1, d2⟩ := isDone_sim o hsim hd hg (fun hlt => by omega)
      rw [← d1]
      by_cases hdone : (isDone o a).2 = true
      · rw [if_pos hdone] at h ⊢
        injection h with h
        exact ⟨_, rfl, h ▸ d2⟩
      · rw [if_neg hdone] at h ⊢
        have e1 := (isDone_false o a (by simpa using hdone)).1
        have e2 := (isDone_false o a' (by rw [← d1]; simpa using hdone)).1
        rw [e1] at h d2
        rw [e2] at d2 ⊢
        refine ih d2 ?_ (by omega) (by omega) (by omega) (fun h0 => by omega) h hng
        rw [k1, iterState, hj]
        exact hi

/-- **C26 (partial): repeated solves are reproducible.**  A solver `s` solves a problem and returns `s1`.  A solver `s'`
is the same solver after any number of other solves (`l`: any options, any initial trajectories), given the controls,
times and steps of `s`.  Then it returns the same status, iteration count and trajectory, provided that

* the total iteration limit does not end either solve (the counter is carried over, `C26_counterexample`);
* no backward pass of the solve gives up (otherwise gains of earlier solves are used, `C26_gains_counterexample`);
* the first iteration changes the trajectory (otherwise the cost change is computed from a cost recorded by an earlier
  solve, `C26_record_counterexample`). -/
theorem C26_repeat_partial {fuel : ℕ} {s s' t s1 : St X U F C D} (l : List (Opts F × Traj X U F))
    (ha : Aligned s.stats) (hc : ∀ k ≤ P.N, M.RC (s.cs k) (s.cs k)) (hl : solveAll P fuel l s = some t)
    (hs' : s' = { t with Z := s'.Z })
    (hZ : ∀ k ≤ P.N, s.Z.u k = s'.Z.u k ∧ s.Z.t k = s'.Z.t k ∧ s.Z.h k = s'.Z.h k)
    (hmax : 0 ≤ o.maxInner) (ht : (s.stats.total : ℤ) + o.maxInner ≤ o.maxTotal)
    (ht' : (t.stats.total : ℤ) + o.maxInner ≤ o.maxTotal)
    (h : solve P o fuel s = some s1) (hreg : NoGiveUp P o fuel s s1.stats.inner)
    (hmove : ∀ a, iterate P o fuel (start P o s) = some a → a.Z ≠ (start P o s).Z) :
    ∃ s1', solve P o fuel s' = some s1' ∧ s1'.status = s1.status ∧ s1'.stats.inner = s1.stats.inner ∧
      SameTraj P s1'.Z s1.Z ∧ s1'.stats.initialCost = s1.stats.initialCost := by
  have hk : Kept M s.cs (s.Zbar.u P.N) (s.Zbar.h P.N) s' := by
    have := kept_solveAll l (M := M) (s := s) ⟨hc, rfl, rfl, ha⟩ hl
    rw [hs']
    exact ⟨this.cs, this.u, this.h, this.al⟩
  have htt : s'.stats.total = t.stats.total := by rw [hs']
  obtain ⟨-, -, f3, f4, -⟩ := start_facts P o s
  obtain ⟨-, -, -, g4, -⟩ := start_facts P o s'
  obtain ⟨s1', h1, h2⟩ := solveLoop_sim o (s0 := s) o.maxInner.toNat (start_sim o hZ hk ha)
    (by rw [f3]; rfl) (by rw [f3]; omega) (by rw [f4]; omega) (by rw [g4, htt]; omega) (fun _ => hmove) h hreg
  refine ⟨s1', h1, h2.status.symm, h2.stats.inner.symm, fun k hk => ?_, h2.stats.initialCost.symm⟩
  obtain ⟨q1, q2, q3, q4⟩ := h2.Z k hk
  exact ⟨q1.symm, q2.symm, q3.symm, q4.symm⟩

/-! ## The hypotheses hold: a scalar problem, and the augmented Lagrangian costs -/

/-- The scalar example problems are memoryless. -/
def scalarMemoryless (N : ℕ) (x0 a b q : ℚ) (r : ℕ → ℚ) (const : ℚ) : Memoryless (scalarKernel N x0 a b q r const) where
  RC _ _ := True
  RE d d' := d.lxx = d'.lxx ∧ d.lxu = d'.lxu ∧ d.luu = d'.luu ∧ d.lx = d'.lx ∧ d.lu = d'.lu ∧ d.A = d'.A ∧ d.B = d'.B
  RS d d' := d.Sxx = d'.Sxx ∧ d.Sx = d'.Sx
  RG d d' := d.K = d'.K ∧ d.d = d'.d
  cost _ _ _ _ _ _ := ⟨rfl, trivial⟩
  cost_same _ _ _ _ _ _ := trivial
  expand _ _ _ _ _ _ _ _ _ _ := ⟨⟨rfl, rfl, rfl, rfl, rfl, rfl, rfl⟩, trivial⟩
  expand_same _ _ _ _ _ _ _ _ _ := trivial
  term d d' h := ⟨h, h.1, h.2.2.2.1⟩
  gains rho d d' e e' h hs := by
    obtain ⟨h1, h2, h3, h4, h5, h6, h7⟩ := h
    obtain ⟨g1, g2⟩ := hs
    simp only [scalarKernel, h1, h2, h3, h4, h5, h6, h7, g1, g2]
    split
    · exact ⟨rfl, rfl, rfl, rfl, rfl, rfl, rfl, rfl⟩
    · exact ⟨rfl, rfl, rfl, rfl, rfl, rfl, rfl, rfl⟩
  toGo rho d d' e e' h hs hok c c' hc hc' := by
    obtain ⟨h1, h2, h3, h4, h5, h6, h7⟩ := h
    obtain ⟨g1, g2⟩ := hs
    subst hc hc'
    simp only [scalarKernel, h1, h2, h3, h4, h5, h6, h7, g1, g2] at hok ⊢
    split at hok
    · simp at hok
    · rename_i hn
      simp only [if_neg hn]
      simp
  policy d d' xb x u alpha h := by simp only [scalarKernel, h.1, h.2]
  grad d d' u h := by simp only [scalarKernel, h.2]

/-- **C26 (partial), a concrete case.**  A second solver state, which has solved another initial trajectory before, solves
the convex example like a fresh one; all hypotheses of `C26_repeat_partial` hold. -/
example : ∃ t s1, solveAll convexK 5 [(scalarOpts, optimalState.Z)] scalarState = some t ∧
    solve convexK scalarOpts 5 scalarState = some s1 ∧ s1.status = .kSolved ∧
    ∃ s1', solve convexK scalarOpts 5 { t with Z := zeroTraj } = some s1' ∧ s1'.status = s1.status ∧
      s1'.stats.inner = s1.stats.inner ∧ SameTraj convexK s1'.Z s1.Z := by
  have hd : ((solveAll convexK 5 [(scalarOpts, optimalState.Z)] scalarState).map fun t => t.stats.total) = some 2 ∧
      ((solve convexK scalarOpts 5 scalarState).map fun s => (s.status, s.stats.inner)) = some (.kSolved, 2) ∧
      ((iterate convexK scalarOpts 5 (start convexK scalarOpts scalarState)).map fun a =>
        decide (a.Z.u 0 = (start convexK scalarOpts scalarState).Z.u 0)) = some false ∧
      ∀ j < 2, ((iterState convexK scalarOpts 5 scalarState j).bind fun a =>
        (backwardPass convexK scalarOpts 5 (updateExpansions convexK a)).map fun b => b.status) = some .kUnsolved := by
    decide +kernel
  obtain ⟨d1, d2, d3, d4⟩ := hd
  cases ht : solveAll convexK 5 [(scalarOpts, optimalState.Z)] scalarState with
  | none => rw [ht] at d1; cases d1
  | some t =>
    cases hs : solve convexK scalarOpts 5 scalarState with
    | none => rw [hs] at d2; cases d2
    | some s1 =>
      rw [ht] at d1
      rw [hs] at d2
      simp only [Option.map_some, Option.some.injEq, Prod.mk.injEq] at d1 d2
      refine ⟨t, s1, rfl, rfl, d2.1, ?_⟩
      obtain ⟨s1', h1, h2, h3, h4, -⟩ := C26_repeat_partial scalarOpts
        (M := scalarMemoryless 2 1 1 1 1 (fun _ => 1) 0) (s := scalarState) (s' := { t with Z := zeroTraj })
        [(scalarOpts, optimalState.Z)] aligned_new (fun _ _ => trivial) ht rfl (fun _ _ => ⟨rfl, rfl, rfl⟩)
        (by decide) (by decide) (by rw [d1]; decide) hs
        (fun j hj a b ha hb => by
          have := d4 j (d2.2 ▸ hj)
          rw [ha, Option.bind_some, hb] at this
          simp only [Option.map_some, Option.some.injEq] at this
          rw [this]; decide)
        (fun a ha e => by
          rw [ha] at d3
          simp only [Option.map_some, Option.some.injEq, decide_eq_false_iff_not] at d3
          exact d3 (by rw [e]))
      exact ⟨s1', h1, h2, h3, h4⟩

/-- Options with a larger regularization limit. -/
def bigOpts : Opts ℚ := { scalarOpts with regMax := 64, regFailThreshold := 4 }

/-- **C26 is false, second reason.**  The initial controls are optimal, so the first line search fails; the change of the
cost is then computed from the cost recorded by an earlier solve.  A fresh solver needs two iterations, the same solver
after another solve needs one; the total limit plays no role. -/
theorem C26_record_counterexample :
    (report 2 (solveAll convexK 5 [(scalarOpts, optimalState.Z)] scalarState)).map (fun r => (r.status, r.inner))
      = some (.kSolved, 2) ∧
    (report 2 (solveAll convexK 5 [(scalarOpts, zeroTraj), (scalarOpts, optimalState.Z)] scalarState)).map
      (fun r => (r.status, r.inner)) = some (.kSolved, 1) := by
  decide +kernel

/-- **C26 is false, third reason.**  All factorizations fail, the backward pass gives up, and the gains that stay in the
knot points are used: those of an earlier solve, if there was one.  A fresh solver reports `kSolved`, the same solver
after another solve (with a larger regularization limit) does not. -/
theorem C26_gains_counterexample :
    (report 2 (solveAll hopelessK 9 [(scalarOpts, zeroTraj)] scalarState)).map (fun r => (r.status, r.inner))
      = some (.kSolved, 1) ∧
    (report 2 (solveAll hopelessK 9 [(bigOpts, { zeroTraj with u := fun _ => 1 }), (scalarOpts, zeroTraj)]
      scalarState)).map (fun r => (r.status, r.inner)) = some (.kMaxInnerIterations, 3) := by
  decide +kernel

section al
open Matrix
variable {K : Type} [Field K] [LinearOrder K] {n m : ℕ} {κ : ConKind}

/-- Constraint values that differ at most in what the next evaluation overwrites. -/
def ConLike (v v' : ConVal κ n m K) : Prop :=
  v.BufOk ∧ v'.BufOk ∧ ∃ c B, v' = { v with c := c, projJac := B }

theorem dualProjJac_congr {p : ℕ} (y : Fin p → K) {B B' : Matrix (Fin p) (Fin p) K} (h : ∀ i j, i ≠ j → B i j = 0)
    (h' : ∀ i j, i ≠ j → B' i j = 0) : κ.dualProjJac y B = κ.dualProjJac y B' := by
  cases κ
  · rfl
  · ext i j
    show (if i = j then _ else B i j) = if i = j then _ else B' i j
    split
    · rfl
    · rename_i hij
      rw [h i j hij, h' i j hij]

theorem conLike_augLag {v v' : ConVal κ n m K} (h : ConLike v v') (x : Fin n → K) (u : Fin m → K) :
    (v.augLag x u).1 = (v'.augLag x u).1 ∧ ConLike (v.augLag x u).2 (v'.augLag x u).2 ∧
    ConLike v (v'.augLag x u).2 := by
  obtain ⟨h1, h2, c, B, rfl⟩ := h
  exact ⟨rfl, ⟨h1, h2, _, _, rfl⟩, ⟨h1, h2, _, _, rfl⟩⟩

theorem conLike_evalProjJac {v v' : ConVal κ n m K} (h : ConLike v v') (x : Fin n → K) (u : Fin m → K) :
    v'.evalProjJac x u = v.evalProjJac x u := by
  obtain ⟨h1, h2, c, B, rfl⟩ := h
  have := dualProjJac_congr (κ := κ) (v.evalC x u).shifted (B := v.projJac) (B' := B) h1 h2
  have e : ∀ D D', D = D' → ({ v.evalC x u with projJac := D } : ConVal κ n m K) = { v.evalC x u with projJac := D' } :=
    fun D D' hD => by rw [hD]
  exact e _ _ this.symm

theorem conLike_eval_same {v v' : ConVal κ n m K} (h : ConLike v v') (x : Fin n → K) (u : Fin m → K) :
    ConLike v (v'.evalProjJac x u) := by
  rw [conLike_evalProjJac h]
  exact ⟨h.1, v.evalProjJac_bufOk x u h.1, _, _, rfl⟩

theorem conLike_eval {v v' : ConVal κ n m K} (h : ConLike v v') (x : Fin n → K) (u : Fin m → K) :
    ConLike (v.evalProjJac x u) (v'.evalProjJac x u) := by
  rw [conLike_evalProjJac h]
  have := v.evalProjJac_bufOk x u h.1
  exact ⟨this, this, _, _, rfl⟩

theorem conLike_gradient {v v' : ConVal κ n m K} (h : ConLike v v') (x : Fin n → K) (u : Fin m → K) :
    (v'.augLagGradient x u) = v.augLagGradient x u := by
  unfold ConVal.augLagGradient
  rw [conLike_evalProjJac h]

theorem conLike_hessian {v v' : ConVal κ n m K} (h : ConLike v v') (x : Fin n → K) (u : Fin m → K) :
    (v'.augLagHessian x u) = v.augLagHessian x u := by
  unfold ConVal.augLagHessian
  rw [conLike_evalProjJac h]

/-- Cost objects with the same objective, constraints, multipliers and penalties. -/
def CostLike (c c' : ALCost n m K) : Prop :=
  c.cost = c'.cost ∧ List.Forall₂ ConLike c.eq c'.eq ∧ List.Forall₂ ConLike c.ineq c'.ineq

theorem forall₂_map_eq {α β : Type*} {R : α → α → Prop} {f : α → β} (h : ∀ a a', R a a' → f a' = f a)
    {l l' : List α} (hl : List.Forall₂ R l l') : l'.map f = l.map f := by
  induction hl with
  | nil => rfl
  | cons h1 _ ih => simp [h _ _ h1, ih]

theorem forall₂_map_rel {α : Type*} {R S : α → α → Prop} {f g : α → α} (h : ∀ a a', R a a' → S (f a) (g a'))
    {l l' : List α} (hl : List.Forall₂ R l l') : List.Forall₂ S (l.map f) (l'.map g) := by
  induction hl with
  | nil => exact .nil
  | cons h1 _ ih => exact .cons (h _ _ h1) ih

theorem forall₂_map_right {α : Type*} {R S : α → α → Prop} {g : α → α} (h : ∀ a a', R a a' → S a (g a'))
    {l l' : List α} (hl : List.Forall₂ R l l') : List.Forall₂ S l (l'.map g) := by
  induction hl with
  | nil => exact .nil
  | cons h1 _ ih => exact .cons (h _ _ h1) ih

theorem foldl_fst {α σ : Type*} (l : List (K × σ)) (f : α → K × σ) (l' : List α) (hl : l = l'.map f) (a : K) :
    l.foldl (fun J r => J + r.1) a = (l'.map fun v => (f v).1).foldl (· + ·) a := by
  subst hl
  simp [List.foldl_map]

theorem costLike_evaluate {c c' : ALCost n m K} (h : CostLike c c') (x : Fin n → K) (u : Fin m → K) :
    (c.evaluate x u).1 = (c'.evaluate x u).1 ∧ CostLike (c.evaluate x u).2 (c'.evaluate x u).2 ∧
    CostLike c (c'.evaluate x u).2 := by
  obtain ⟨h1, h2, h3⟩ := h
  unfold ALCost.evaluate
  refine ⟨?_, ⟨h1, ?_, ?_⟩, ⟨h1, ?_, ?_⟩⟩
  · simp only
    rw [foldl_fst _ (·.augLag x u) c.ineq rfl, foldl_fst _ (·.augLag x u) c.eq rfl,
      foldl_fst _ (·.augLag x u) c'.ineq rfl, foldl_fst _ (·.augLag x u) c'.eq rfl, h1,
      forall₂_map_eq (f := fun v => (v.augLag x u).1) (fun a a' hr => (conLike_augLag hr x u).1.symm) h2,
      forall₂_map_eq (f := fun v => (v.augLag x u).1) (fun a a' hr => (conLike_augLag hr x u).1.symm) h3]
  · simp only [List.map_map]
    exact forall₂_map_rel (fun a a' hr => (conLike_augLag hr x u).2.1) h2
  · simp only [List.map_map]
    exact forall₂_map_rel (fun a a' hr => (conLike_augLag hr x u).2.1) h3
  · simp only [List.map_map]
    exact forall₂_map_right (fun a a' hr => (conLike_augLag hr x u).2.2) h2
  · simp only [List.map_map]
    exact forall₂_map_right (fun a a' hr => (conLike_augLag hr x u).2.2) h3

theorem costLike_gradient {c c' : ALCost n m K} (h : CostLike c c') (x : Fin n → K) (u : Fin m → K) :
    (c'.gradient x u).1 = (c.gradient x u).1 ∧ CostLike (c.gradient x u).2 (c'.gradient x u).2 ∧
    CostLike c (c'.gradient x u).2 := by
  obtain ⟨h1, h2, h3⟩ := h
  unfold ALCost.gradient
  refine ⟨?_, ⟨h1, ?_, ?_⟩, ⟨h1, ?_, ?_⟩⟩
  · simp only
    rw [forall₂_map_eq (f := fun v => v.augLagGradient x u) (fun a a' hr => conLike_gradient hr x u) h2,
      forall₂_map_eq (f := fun v => v.augLagGradient x u) (fun a a' hr => conLike_gradient hr x u) h3, h1]
  · simp only [List.map_map]
    exact forall₂_map_rel (fun a a' hr => conLike_eval hr x u) h2
  · simp only [List.map_map]
    exact forall₂_map_rel (fun a a' hr => conLike_eval hr x u) h3
  · simp only [List.map_map]
    exact forall₂_map_right (fun a a' hr => conLike_eval_same hr x u) h2
  · simp only [List.map_map]
    exact forall₂_map_right (fun a a' hr => conLike_eval_same hr x u) h3

theorem costLike_hessian {c c' : ALCost n m K} (h : CostLike c c') (x : Fin n → K) (u : Fin m → K) :
    (c'.hessian x u).1 = (c.hessian x u).1 ∧ CostLike (c.hessian x u).2 (c'.hessian x u).2 ∧
    CostLike c (c'.hessian x u).2 := by
  obtain ⟨h1, h2, h3⟩ := h
  unfold ALCost.hessian
  refine ⟨?_, ⟨h1, ?_, ?_⟩, ⟨h1, ?_, ?_⟩⟩
  · simp only
    rw [forall₂_map_eq (f := fun v => v.augLagHessian x u) (fun a a' hr => conLike_hessian hr x u) h2,
      forall₂_map_eq (f := fun v => v.augLagHessian x u) (fun a a' hr => conLike_hessian hr x u) h3, h1]
  · simp only [List.map_map]
    exact forall₂_map_rel (fun a a' hr => conLike_eval hr x u) h2
  · simp only [List.map_map]
    exact forall₂_map_rel (fun a a' hr => conLike_eval hr x u) h3
  · simp only [List.map_map]
    exact forall₂_map_right (fun a a' hr => conLike_eval_same hr x u) h2
  · simp only [List.map_map]
    exact forall₂_map_right (fun a a' hr => conLike_eval_same hr x u) h3

/-- The solver's kernel with `ALCost` objects, for any number of constraints, is memoryless. -/
def alMemoryless (p : DynProblem n m K) : Memoryless (alKernel p) where
  RC := CostLike
  RE d d' := d.cost = d'.cost ∧ d.A = d'.A ∧ d.B = d'.B
  RS d d' := d.Sxx = d'.Sxx ∧ d.Sx = d'.Sx
  RG d d' := d.gain = d'.gain ∧ d.ff = d'.ff
  cost k c c' x u h := ⟨(costLike_evaluate h x u).1, (costLike_evaluate h x u).2.1⟩
  cost_same k c c' x u h := (costLike_evaluate h x u).2.2
  expand k c c' x u t h d d' hc := by
    obtain ⟨g1, g2, -⟩ := costLike_gradient hc x u
    obtain ⟨k1, k2, -⟩ := costLike_hessian g2 x u
    refine ⟨⟨?_, rfl, rfl⟩, k2⟩
    simp only [alKernel, KP.setExpansion, g1, k1]
  expand_same k c c' x u t h d hc := by
    obtain ⟨-, -, g3⟩ := costLike_gradient hc x u
    exact (costLike_hessian g3 x u).2.2
  term d d' h := ⟨h, by simp only [alKernel, KP.term, h.1], by simp only [alKernel, KP.term, h.1]⟩
  gains rho d d' e e' h hs := by
    obtain ⟨h1, h2, h3⟩ := h
    obtain ⟨g1, g2⟩ := hs
    have hq : (KP.actionValue d e).q = (KP.actionValue d' e').q := by
      simp only [KP.actionValue, h1, h2, h3, g1, g2]
    have hr : (KP.regularize rho (KP.actionValue d e)).qreg = (KP.regularize rho (KP.actionValue d' e')).qreg := by
      simp only [KP.regularize, hq]
    simp only [alKernel, KP.gains, hr]
    split
    · exact ⟨rfl, h1, h2, h3⟩
    · exact ⟨rfl, h1, h2, h3⟩
  toGo rho d d' e e' h hs hok c c' hc hc' := by
    obtain ⟨h1, h2, h3⟩ := h
    obtain ⟨g1, g2⟩ := hs
    subst hc hc'
    have hq : (KP.actionValue d e).q = (KP.actionValue d' e').q := by
      simp only [KP.actionValue, h1, h2, h3, g1, g2]
    have hr : (KP.regularize rho (KP.actionValue d e)).qreg = (KP.regularize rho (KP.actionValue d' e')).qreg := by
      simp only [KP.regularize, hq]
    have hq' : (KP.regularize rho (KP.actionValue d e)).q = (KP.regularize rho (KP.actionValue d' e')).q := hq
    simp only [alKernel, KP.gains, hr] at hok ⊢
    split at hok
    · rename_i hn
      simp only [if_pos hn, KP.costToGo, hq']
      simp [h1, h2, h3, KP.actionValue, KP.regularize]
    · simp at hok
  policy d d' xb x u alpha h := by simp only [alKernel, KP.policy, h.1, h.2]
  grad d d' u h := by simp only [alKernel, KP.gradTerm, h.2]

/-- The cost objects built by `BuildAugLagProblem` satisfy the hypothesis on the cost objects. -/
theorem costLike_new (cost : CostFun n m K) (eqs ineqs : List (Con n m K)) :
    CostLike (ALCost.new cost eqs ineqs) (ALCost.new cost eqs ineqs) := by
  have hf : ∀ (κ : ConKind) (l : List (Con n m K)), List.Forall₂ ConLike (l.map (ConVal.new κ)) (l.map (ConVal.new κ)) := by
    intro κ l
    induction l with
    | nil => exact .nil
    | cons a l ih => exact .cons ⟨ConVal.new_bufOk a, ConVal.new_bufOk a, _, _, rfl⟩ ih
  exact ⟨rfl, hf _ _, hf _ _⟩

end al

end Altro.Props
