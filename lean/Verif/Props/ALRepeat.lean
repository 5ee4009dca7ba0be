import Verif.Proofs.ALRepeat
import Verif.Props.ALExamples

/-!
# C81: repeated augmented Lagrangian solves
-/

namespace Altro.Props
open Altro.Spec Altro.ILQR
variable {X U F C D : Type} [Arith F]
variable {P : Kernel X U F C D} {A : CostOps C F} (o : Opts F) {R : Replay P A}

/-! ## What the operations of a solver leave alone -/

/-- The cost objects still have the objectives and constraints of `c0`; the terminal control and step of the work
trajectory are `u0`, `h0`. -/
structure SameBase (R : Replay P A) (c0 : ℕ → C) (u0 : U) (h0 : F) (s : St X U F C D) : Prop where
  cs : ∀ k ≤ P.N, R.RB (c0 k) (s.cs k)
  u : s.Zbar.u P.N = u0
  h : s.Zbar.h P.N = h0

variable {c0 : ℕ → C} {u0 : U} {h0 : F}

theorem base_costsTo (Z : Traj X U F) (s : St X U F C D) (hs : SameBase R c0 u0 h0 s) (k : ℕ) :
    SameBase R c0 u0 h0 (costsTo P Z s k) := by
  refine ⟨?_, by rw [costsTo_Zbar]; exact hs.u, by rw [costsTo_Zbar]; exact hs.h⟩
  induction k with
  | zero => exact hs.cs
  | succ k ih =>
    intro j hj
    show R.RB _ (upd _ k _ j)
    by_cases e : j = k
    · subst e; rw [upd_self]; exact R.cost_base _ _ _ _ _ (ih j hj)
    · rw [upd_of_ne e]; exact ih j hj

theorem base_expandBlock (s : St X U F C D) (hs : SameBase R c0 u0 h0 s) (j : ℕ) :
    SameBase R c0 u0 h0 (expandBlock P 0 s j) := by
  refine ⟨?_, by rw [expandBlock_Zbar]; exact hs.u, by rw [expandBlock_Zbar]; exact hs.h⟩
  induction j with
  | zero => exact hs.cs
  | succ j ih =>
    intro k hk
    show R.RB _ (upd _ (0 + j) _ k)
    by_cases e : k = 0 + j
    · subst e; rw [upd_self]; exact R.cost_base _ _ _ _ _ (R.expand_base _ _ _ _ _ _ _ _ (ih _ hk))
    · rw [upd_of_ne e]; exact ih k hk

theorem base_rcl (alpha : F) (s : St X U F C D) (hs : SameBase R c0 u0 h0 s) :
    SameBase R c0 u0 h0 (rolloutClosedLoop P o alpha s).1 := by
  obtain ⟨-, u2, u3, -⟩ := closedLoopTo_untouched P o alpha s P.N
  refine ⟨by rw [rcl_cs]; exact hs.cs, ?_, ?_⟩
  · rw [rcl_Zbar, u3 _ le_rfl]; exact hs.u
  · rw [rcl_Zbar, u2]; exact hs.h

theorem base_lineSearch (J0 : F) (r : ℕ) : ∀ (alpha J : F) (s : St X U F C D), SameBase R c0 u0 h0 s →
    SameBase R c0 u0 h0 (lineSearch P o J0 r alpha J s).1.1 := by
  induction r with
  | zero => intro alpha J s hs; exact hs
  | succ r ih =>
    intro alpha J s hs
    have h1 := base_rcl o alpha s hs
    unfold lineSearch
    extract_lets q c z
    have h2 : SameBase R c0 u0 h0 c.2 := base_costsTo _ _ h1 _
    split
    · split
      · exact ⟨h2.cs, h2.u, h2.h⟩
      · exact ih _ _ _ h2
    · exact ih _ _ _ h1

theorem base_forwardPass (s : St X U F C D) (hs : SameBase R c0 u0 h0 s) :
    SameBase R c0 u0 h0 (forwardPass P o s) := by
  unfold forwardPass
  extract_lets J0 q src s1 J
  have hq : SameBase R c0 u0 h0 q.1.1 := base_lineSearch o _ _ _ _ _ hs
  have h1 : SameBase R c0 u0 h0 s1 := by
    show SameBase R c0 u0 h0 (if q.2 then _ else _)
    split
    · exact ⟨hq.cs, hq.u, hq.h⟩
    · exact ⟨hq.cs, hq.u, hq.h⟩
  split
  · exact ⟨h1.cs, h1.u, h1.h⟩
  · exact h1

theorem base_iterate {fuel : ℕ} {s s1 : St X U F C D} (hs : SameBase R c0 u0 h0 s)
    (h : iterate P o fuel s = some s1) : SameBase R c0 u0 h0 s1 := by
  obtain ⟨b, hb, rfl⟩ := iterate_some P o h
  have fr := backwardPass_frame P o _ _ _ hb
  have he : SameBase R c0 u0 h0 (updateExpansions P s) := base_expandBlock s hs _
  have hkb : SameBase R c0 u0 h0 b :=
    ⟨by rw [fr.cs]; exact he.cs, by rw [fr.Zbar]; exact he.u, by rw [fr.Zbar]; exact he.h⟩
  have hf := base_forwardPass o b hkb
  exact ⟨hf.cs, hf.u, hf.h⟩

theorem base_solve {fuel : ℕ} {s s1 : St X U F C D} (hs : SameBase R c0 u0 h0 s) (h : solve P o fuel s = some s1) :
    SameBase R c0 u0 h0 s1 := by
  have h1 : SameBase R c0 u0 h0 (rollout P (solveSetup P o s)) := by
    refine ⟨hs.cs, hs.u, ?_⟩
    show (if P.N < P.N then s.Z.h P.N else s.Zbar.h P.N) = h0
    rw [if_neg (lt_irrefl _)]; exact hs.h
  have h2 := base_costsTo (rollout P (solveSetup P o s)).Z _ h1 (P.N + 1)
  exact solveLoop_inv P o (SameBase R c0 u0 h0) fuel (fun _ _ ha hi => base_iterate o ha hi)
    (fun _ _ ⟨a, b, c⟩ => ⟨a, b, c⟩) _ _ _ (show SameBase R c0 u0 h0 (start P o s) from ⟨h2.cs, h2.u, h2.h⟩) h

theorem base_eachCost {f : C → C} (hf : ∀ c c', R.RB c c' → R.RB c (f c')) {s : St X U F C D}
    (hs : SameBase R c0 u0 h0 s) : SameBase R c0 u0 h0 (AL.eachCost P f s) := by
  refine ⟨fun k hk => ?_, hs.u, hs.h⟩
  show R.RB _ (if k ≤ P.N then f (s.cs k) else s.cs k)
  rw [if_pos hk]; exact hf _ _ (hs.cs k hk)

theorem base_init {s : ALSt X U F C D} (hs : SameBase R c0 u0 h0 s.st) : SameBase R c0 u0 h0 (AL.init P A o s).st := by
  unfold AL.init
  extract_lets s1 s2 s3 s4 s5
  have h1 : SameBase R c0 u0 h0 s1 := by
    show SameBase R c0 u0 h0 (if o.resetDuals then _ else _)
    split
    · exact base_eachCost R.reset_base hs
    · exact hs
  have h2 : SameBase R c0 u0 h0 s2 := by
    show SameBase R c0 u0 h0 (if Arith.gt o.initialPenalty 0 then _ else _)
    split
    · exact base_eachCost (R.set_base _) h1
    · exact h1
  have h3 : SameBase R c0 u0 h0 s3 := ⟨h2.cs, h2.u, h2.h⟩
  have h4 : SameBase R c0 u0 h0 s4 := base_costsTo _ _ h3 _
  exact ⟨h4.cs, h4.u, h4.h⟩

theorem base_isDone (s : ALSt X U F C D) : (AL.isDone o s).1.st = s.st := by
  unfold AL.isDone
  split
  · rfl
  · split
    · rfl
    · split
      · rfl
      · split
        · rfl
        · split <;> rfl

theorem base_outerLoop {fuel : ℕ} (r : ℕ) : ∀ {s s1 : ALSt X U F C D}, SameBase R c0 u0 h0 s.st →
    AL.outerLoop P A o (solve P o fuel) r s = some s1 → SameBase R c0 u0 h0 s1.st := by
  induction r with
  | zero => intro s s1 hs h; simp only [AL.outerLoop] at h; rw [← Option.some.inj h]; exact hs
  | succ r ih =>
    intro s s1 hs h
    unfold AL.outerLoop at h
    cases hi : solve P o fuel s.st with
    | none => rw [hi] at h; cases h
    | some t =>
      rw [hi] at h
      simp only at h
      have ht := base_eachCost R.duals_base (base_solve o hs hi)
      have hu : SameBase R c0 u0 h0
          (AL.isDone o (AL.updateConvergence P A { s with st := AL.eachCost P A.updateDuals t })).1.st := by
        rw [base_isDone]; exact ⟨ht.cs, ht.u, ht.h⟩
      split at h
      · rw [← Option.some.inj h]; exact hu
      · exact ih (base_eachCost R.penalties_base hu) h

/-- What is needed of a solver's past: after any operations, the objectives and constraints of the cost objects and the
terminal control and step of the work trajectory are the original ones. -/
theorem C81_history {fuel : ℕ} (l : List (ALOp X U F)) : ∀ {s t : ALSt X U F C D}, SameBase R c0 u0 h0 s.st →
    ALOp.runAll P A fuel l s = some t → SameBase R c0 u0 h0 t.st := by
  induction l with
  | nil => intro s t hs h; rw [← Option.some.inj h]; exact hs
  | cons a l ih =>
    intro s t hs h
    unfold ALOp.runAll at h
    cases hr : a.run P A fuel s with
    | none => rw [hr] at h; cases h
    | some t1 =>
      rw [hr] at h
      refine ih ?_ h
      cases a with
      | solve o Z =>
        exact base_outerLoop o _ (base_init o (s := { s with st := { s.st with Z := Z } }) ⟨hs.cs, hs.u, hs.h⟩) hr
      | inner o Z =>
        simp only [ALOp.run] at hr
        cases hq : ILQR.solve P o fuel { s.st with Z := Z } with
        | none => rw [hq] at hr; cases hr
        | some q =>
          rw [hq] at hr
          rw [← Option.some.inj hr]
          exact base_solve o (s := { s.st with Z := Z }) ⟨hs.cs, hs.u, hs.h⟩ hq
      | violation Z => rw [← Option.some.inj hr]; exact base_costsTo _ _ hs _
      | updateDuals => rw [← Option.some.inj hr]; exact base_eachCost R.duals_base hs
      | updatePenalties => rw [← Option.some.inj hr]; exact base_eachCost R.penalties_base hs
      | resetDuals => rw [← Option.some.inj hr]; exact base_eachCost R.reset_base hs
      | setPenalty r => rw [← Option.some.inj hr]; exact base_eachCost (R.set_base r) hs

/-! ## Two solves -/

theorem maxPenalty_esim {cs cs' : ℕ → C} (h : ∀ k ≤ P.N, R.RC (cs k) (cs' k)) :
    AL.maxPenalty P A cs = AL.maxPenalty P A cs' := by
  unfold AL.maxPenalty
  have : ∀ (l : List ℕ) (a : F), (∀ k ∈ l, k ≤ P.N) →
      l.foldl (fun a k => Arith.smax a (A.maxPenalty (cs k))) a
        = l.foldl (fun a k => Arith.smax a (A.maxPenalty (cs' k))) a := by
    intro l
    induction l with
    | nil => intro a _; rfl
    | cons k l ih =>
      intro a hl
      simp only [List.foldl_cons]
      rw [R.maxPenalty _ _ (h k (hl k (by simp)))]
      exact ih _ fun j hj => hl j (by simp [hj])
  exact this _ _ fun k hk => by rw [List.mem_range] at hk; omega

theorem eachCost_rel {f : C → C} (hf : ∀ c c', R.RC c c' → R.RC (f c) (f c')) {s s' : St X U F C D}
    (h : ∀ k ≤ P.N, R.RC (s.cs k) (s'.cs k)) :
    ∀ k ≤ P.N, R.RC ((AL.eachCost P f s).cs k) ((AL.eachCost P f s').cs k) := by
  intro k hk
  show R.RC (if k ≤ P.N then f (s.cs k) else s.cs k) (if k ≤ P.N then f (s'.cs k) else s'.cs k)
  rw [if_pos hk, if_pos hk]
  exact hf _ _ (h k hk)

theorem init_facts (hr : o.resetDuals = true) (hp : Arith.gt o.initialPenalty 0 = true) (s : ALSt X U F C D) :
    (AL.init P A o s).st.Z = s.st.Z ∧ (AL.init P A o s).st.Zbar = s.st.Zbar ∧
    (∀ k ≤ P.N, (AL.init P A o s).st.cs k =
      (P.cost k (A.setPenalty o.initialPenalty (A.resetDuals (s.st.cs k))) (s.st.Z.x k) (s.st.Z.u k)).2) ∧
    (AL.init P A o s).st.stats = ((Stats.new.log none 0).log (some .viol) (P.viol (AL.init P A o s).st.cs)).log
      (some .pen) (AL.maxPenalty P A (AL.init P A o s).st.cs) := by
  unfold AL.init
  extract_lets a1 a2 a3 a4 a5
  have e1 : a1 = AL.eachCost P A.resetDuals s.st := if_pos hr
  have e2 : a2 = AL.eachCost P (A.setPenalty o.initialPenalty) a1 := if_pos hp
  have eZ : a3.Z = s.st.Z := by
    show a2.Z = _
    rw [e2, e1]; rfl
  have eB : a3.Zbar = s.st.Zbar := by
    show a2.Zbar = _
    rw [e2, e1]; rfl
  refine ⟨(cost_Z P _ _).trans eZ, (cost_Zbar P _ _).trans eB, fun k hk => ?_, ?_⟩
  · have h := ((costsTo_at P a3.Z a3 (P.N + 1) k).1 (by omega)).2
    have e : a3.cs k = A.setPenalty o.initialPenalty (A.resetDuals (s.st.cs k)) := by
      show a2.cs k = _
      rw [e2, e1]
      show (if k ≤ P.N then A.setPenalty _ (if k ≤ P.N then _ else _) else _) = _
      rw [if_pos hk, if_pos hk]
    rw [e] at h
    rw [← eZ]
    exact h
  · have e : a4.stats = Stats.new.log none 0 := cost_stats P _ _
    show (a4.stats.log (some .viol) (P.viol a4.cs)).log (some .pen) (AL.maxPenalty P A a4.cs) = _
    rw [e]

/-- `Init` makes two solvers with the same constraints and the same trajectory agree. -/
theorem init_osim (hr : o.resetDuals = true) (hp : Arith.gt o.initialPenalty 0 = true) {s s' : ALSt X U F C D}
    (hZ : SameTraj P s.st.Z s'.st.Z) (hb : SameBase R s.st.cs (s.st.Zbar.u P.N) (s.st.Zbar.h P.N) s'.st) :
    OSim R (AL.init P A o s).st (AL.init P A o s').st := by
  obtain ⟨a1, a2, a3, a4⟩ := init_facts (P := P) (A := A) o hr hp s
  obtain ⟨b1, b2, b3, b4⟩ := init_facts (P := P) (A := A) o hr hp s'
  have hcs : ∀ k ≤ P.N, R.RC ((AL.init P A o s).st.cs k) ((AL.init P A o s').st.cs k) := by
    intro k hk
    obtain ⟨zx, zu, -, -⟩ := hZ k hk
    rw [a3 k hk, b3 k hk, ← zx, ← zu]
    exact R.fresh _ _ _ _ _ _ (hb.cs k hk)
  refine ⟨fun k hk => ?_, ?_, ?_, hcs, ?_⟩
  · rw [a1, b1]; exact (hZ k hk).2
  · rw [a2, b2]; exact hb.u.symm
  · rw [a2, b2]; exact hb.h.symm
  · rw [a4, b4, R.viol _ _ hcs, maxPenalty_esim hcs]

theorem alIsDone_esim {s s' : ALSt X U F C D} (hst : s.st.stats = s'.st.stats) (hs : s.st.status = s'.st.status) :
    (AL.isDone o s).2 = (AL.isDone o s').2 ∧
    ((AL.isDone o s).2 = true → (AL.isDone o s).1.status = (AL.isDone o s').1.status) ∧
    ((AL.isDone o s).2 = false → (s.st.stats.outer : ℤ) < o.maxOuter ∧ s.st.status = .kSolved) := by
  unfold AL.isDone
  rw [hst, hs]
  split
  · exact ⟨rfl, fun _ => rfl, by simp⟩
  · rename_i h
    have hsol : s'.st.status = .kSolved := not_not.mp h
    split
    · exact ⟨rfl, fun _ => rfl, by simp⟩
    · split
      · exact ⟨rfl, fun _ => rfl, by simp⟩
      · split
        · exact ⟨rfl, fun _ => rfl, by simp⟩
        · rename_i ho
          split
          · exact ⟨rfl, fun _ => rfl, by simp⟩
          · exact ⟨rfl, by simp, fun _ => ⟨not_le.mp ho, hsol⟩⟩

/-- Two results that a user cannot tell apart: same status, same trajectory, same statistics (all counters and recorded
columns), cost objects with the same multipliers, penalties and stored constraint values. -/
structure SameResult (R : Replay P A) (r r' : ALSt X U F C D) : Prop where
  status : r'.status = r.status
  inner : r'.st.status = r.st.status
  stats : r'.st.stats = r.st.stats
  Z : SameTraj P r.st.Z r'.st.Z
  cs : ∀ k ≤ P.N, R.RC (r.st.cs k) (r'.st.cs k)

theorem outerLoop_esim {fuel : ℕ} (r : ℕ) : ∀ {s s' s1 : ALSt X U F C D}, OSim R s.st s'.st →
    (SameGains R s.st s'.st ∨ FirstPass P o fuel s.st) → 1 ≤ r → (s.st.stats.outer : ℤ) + r = o.maxOuter →
    AL.outerLoop P A o (solve P o fuel) r s = some s1 →
    ∃ s1', AL.outerLoop P A o (solve P o fuel) r s' = some s1' ∧ SameResult R s1 s1' := by
  induction r with
  | zero => intro s s' s1 _ _ hr; omega
  | succ r ih =>
    intro s s' s1 hs hg _ hr h
    unfold AL.outerLoop at h ⊢
    cases hi : solve P o fuel s.st with
    | none => rw [hi] at h; cases h
    | some t =>
      rw [hi] at h
      obtain ⟨t', ht', et, gt⟩ := solve_esim o hs hg hi
      rw [ht']
      simp only at h ⊢
      have hout : t.stats.outer = s.st.stats.outer := C11_inner_ok P o fuel _ _ hi
      set a := AL.updateConvergence P A { s with st := AL.eachCost P A.updateDuals t } with ha
      set a' := AL.updateConvergence P A { s' with st := AL.eachCost P A.updateDuals t' } with ha'
      have hcs : ∀ k ≤ P.N, R.RC (a.st.cs k) (a'.st.cs k) := eachCost_rel R.duals et.cs
      have hst : a.st.stats = a'.st.stats := by
        have hv := R.viol _ _ hcs
        have hp := maxPenalty_esim hcs
        simp only [ha, ha', AL.updateConvergence] at hv hp ⊢
        have e : (AL.eachCost P A.updateDuals t).stats = (AL.eachCost P A.updateDuals t').stats := et.stats
        rw [e, hv, hp]
      have hstat : a.st.status = a'.st.status := et.status
      obtain ⟨d1, d2, d3⟩ := alIsDone_esim o hst hstat
      rw [← d1]
      by_cases hd : (AL.isDone o a).2 = true
      · rw [if_pos hd] at h ⊢
        refine ⟨_, rfl, ?_⟩
        rw [← Option.some.inj h]
        refine ⟨(d2 hd).symm, ?_, ?_, ?_, ?_⟩
        · rw [base_isDone, base_isDone]; exact hstat.symm
        · rw [base_isDone, base_isDone]; exact hst.symm
        · rw [base_isDone, base_isDone]; exact et.Z
        · rw [base_isDone, base_isDone]; exact hcs
      · rw [if_neg hd] at h ⊢
        obtain ⟨o1, o2⟩ := d3 (by simpa using hd)
        have hoa : a.st.stats.outer = s.st.stats.outer + 1 := by
          rw [← hout]
          simp only [ha, AL.updateConvergence]
          rw [(log_counters _ _ _).2.2.1, (log_counters _ _ _).2.2.1, (log_counters _ _ _).2.2.1]
          rfl
        have e0 := base_isDone o a
        have e0' := base_isDone o a'
        refine ih (s := { (AL.isDone o a).1 with st := AL.eachCost P A.updatePenalties (AL.isDone o a).1.st }) ?_ ?_ ?_ ?_ h
        · dsimp only
          rw [e0, e0']
          exact ⟨fun k hk => (et.Z k hk).2, et.bar.u, et.bar.h P.N le_rfl, eachCost_rel R.penalties hcs, hst⟩
        · dsimp only
          rw [e0, e0']
          refine .inl ?_
          rcases gt with g | g
          · exfalso
            have e : t.status = .kSolved := o2
            unfold solve at hi
            rw [g] at hi
            simp only [solveLoop] at hi
            rw [← Option.some.inj hi, (start_facts P o s.st).2.1] at e
            cases e
          · exact g
        · omega
        · dsimp only
          rw [e0]
          show (a.st.stats.outer : ℤ) + r = _
          omega

/-- **C81 (partial): repeated augmented Lagrangian solves are reproducible.**  A solver `s` solves a problem and returns
`r`.  A solver `t` is the same solver after any operations `l`: other solves with other options and trajectories, solves of
the inner solver, violation queries, updates of multipliers and penalties.  It is given the trajectory of `s` and solves
with the options `o`, which reset the multipliers and set the penalties.  Then it returns the same result: status, trajectory,
all statistics, multipliers, penalties and stored constraint values.

What is missing is the case that the first backward pass of the solve gives up; then the gains of an earlier solve are used
(`C81_gains_counterexample`).  Giving up later in the solve does no harm. -/
theorem C81_repeat_partial {fuel : ℕ} {s t r : ALSt X U F C D} (l : List (ALOp X U F))
    (hc : ∀ k ≤ P.N, R.RB (s.st.cs k) (s.st.cs k)) (hl : ALOp.runAll P A fuel l s = some t) {Z : Traj X U F}
    (hZ : SameTraj P s.st.Z Z) (hr : o.resetDuals = true) (hp : Arith.gt o.initialPenalty 0 = true)
    (hmax : 1 ≤ o.maxOuter) (hfirst : FirstPass P o fuel (AL.init P A o s).st)
    (h : AL.solve P A o (solve P o fuel) s = some r) :
    ∃ r', AL.solve P A o (solve P o fuel) { t with st := { t.st with Z := Z } } = some r' ∧ SameResult R r r' := by
  have hb := C81_history (R := R) l ⟨hc, rfl, rfl⟩ hl
  have hb' : SameBase R s.st.cs (s.st.Zbar.u P.N) (s.st.Zbar.h P.N)
      ({ t with st := { t.st with Z := Z } } : ALSt X U F C D).st := ⟨hb.cs, hb.u, hb.h⟩
  have h0 : (AL.init P A o s).st.stats.outer = 0 := by
    rw [(init_facts (P := P) (A := A) o hr hp s).2.2.2, (log_counters _ _ _).2.2.1, (log_counters _ _ _).2.2.1,
      (log_counters _ _ _).2.2.1]
    rfl
  exact outerLoop_esim o o.maxOuter.toNat (init_osim o hr hp (s := s) hZ hb') (.inr hfirst) (by omega)
    (by rw [h0]; omega) h

/-! ## The hypotheses hold for the code's cost objects -/

section al
open Matrix
variable {K : Type} [Field K] [LinearOrder K] {n m : ℕ} {κ : ConKind}

/-- `ConstraintValues` objects that agree in the constraint, the stored values, multipliers, penalties and scaling. -/
def ConSame (v v' : ConVal κ n m K) : Prop := v.BufOk ∧ v'.BufOk ∧ ∃ B, v' = { v with projJac := B }

/-- `ConstraintValues` objects of the same constraint, with the same scaling. -/
def ConBase (v v' : ConVal κ n m K) : Prop :=
  v.BufOk ∧ v'.BufOk ∧ ∃ c lam pen B, v' = { v with c := c, lam := lam, pen := pen, projJac := B }

def CostSame (c c' : ALCost n m K) : Prop :=
  c.cost = c'.cost ∧ List.Forall₂ ConSame c.eq c'.eq ∧ List.Forall₂ ConSame c.ineq c'.ineq

def CostBase (c c' : ALCost n m K) : Prop :=
  c.cost = c'.cost ∧ List.Forall₂ ConBase c.eq c'.eq ∧ List.Forall₂ ConBase c.ineq c'.ineq

theorem ConSame.like {v v' : ConVal κ n m K} (h : ConSame v v') : ConLike v v' := by
  obtain ⟨h1, h2, B, rfl⟩ := h
  exact ⟨h1, h2, _, _, rfl⟩

theorem CostSame.like {c c' : ALCost n m K} (h : CostSame c c') : CostLike c c' :=
  ⟨h.1, h.2.1.imp fun _ _ => ConSame.like, h.2.2.imp fun _ _ => ConSame.like⟩

theorem conLike_augLag_same {v v' : ConVal κ n m K} (h : ConLike v v') (x : Fin n → K) (u : Fin m → K) :
    ConSame (v.augLag x u).2 (v'.augLag x u).2 := by
  obtain ⟨h1, h2, c, B, rfl⟩ := h
  exact ⟨h1, h2, _, rfl⟩

theorem conLike_evalProjJac_same {v v' : ConVal κ n m K} (h : ConLike v v') (x : Fin n → K) (u : Fin m → K) :
    ConSame (v.evalProjJac x u) (v'.evalProjJac x u) := by
  rw [conLike_evalProjJac h]
  have := v.evalProjJac_bufOk x u h.1
  exact ⟨this, this, _, rfl⟩

theorem costLike_evaluate_same {c c' : ALCost n m K} (h : CostLike c c') (x : Fin n → K) (u : Fin m → K) :
    CostSame (c.evaluate x u).2 (c'.evaluate x u).2 := by
  obtain ⟨h1, h2, h3⟩ := h
  refine ⟨h1, ?_, ?_⟩
  · simp only [ALCost.evaluate, List.map_map]
    exact forall₂_map_rel (fun a a' hr => conLike_augLag_same hr x u) h2
  · simp only [ALCost.evaluate, List.map_map]
    exact forall₂_map_rel (fun a a' hr => conLike_augLag_same hr x u) h3

theorem costLike_gradient_same {c c' : ALCost n m K} (h : CostLike c c') (x : Fin n → K) (u : Fin m → K) :
    CostSame (c.gradient x u).2 (c'.gradient x u).2 := by
  obtain ⟨h1, h2, h3⟩ := h
  refine ⟨h1, ?_, ?_⟩
  · simp only [ALCost.gradient, List.map_map]
    exact forall₂_map_rel (fun a a' hr => conLike_evalProjJac_same hr x u) h2
  · simp only [ALCost.gradient, List.map_map]
    exact forall₂_map_rel (fun a a' hr => conLike_evalProjJac_same hr x u) h3

theorem costLike_hessian_same {c c' : ALCost n m K} (h : CostLike c c') (x : Fin n → K) (u : Fin m → K) :
    CostSame (c.hessian x u).2 (c'.hessian x u).2 := by
  obtain ⟨h1, h2, h3⟩ := h
  refine ⟨h1, ?_, ?_⟩
  · simp only [ALCost.hessian, List.map_map]
    exact forall₂_map_rel (fun a a' hr => conLike_evalProjJac_same hr x u) h2
  · simp only [ALCost.hessian, List.map_map]
    exact forall₂_map_rel (fun a a' hr => conLike_evalProjJac_same hr x u) h3

/-- An operation on the constraint values of a cost object that keeps the constraints. -/
theorem costBase_map {f : ∀ κ, ConVal κ n m K → ConVal κ n m K}
    (hf : ∀ κ (v v' : ConVal κ n m K), ConBase v v' → ConBase v (f κ v')) {c c' : ALCost n m K} (h : CostBase c c') :
    CostBase c { c' with eq := c'.eq.map (f _), ineq := c'.ineq.map (f _) } :=
  ⟨h.1, forall₂_map_right (g := f .equality) (fun _ _ => hf _ _ _) h.2.1,
    forall₂_map_right (g := f .inequality) (fun _ _ => hf _ _ _) h.2.2⟩

theorem conBase_eval {v v' : ConVal κ n m K} (x : Fin n → K) (u : Fin m → K) (h : ConBase v v') :
    ConBase v (v'.evalProjJac x u) := by
  refine ⟨h.1, v'.evalProjJac_bufOk x u h.2.1, ?_⟩
  obtain ⟨h1, h2, c, l, q, B, rfl⟩ := h
  exact ⟨_, _, _, _, rfl⟩

theorem foldl_max_congr {α : Type*} {S : α → α → Prop} {f : α → K} (h : ∀ a a', S a a' → f a = f a') {l l' : List α}
    (hl : List.Forall₂ S l l') : ∀ a : K, l.foldl (fun a v => max a (f v)) a = l'.foldl (fun a v => max a (f v)) a := by
  induction hl with
  | nil => intro a; rfl
  | cons h1 _ ih => intro a; simp only [List.foldl_cons, h _ _ h1]; exact ih _

/-- The solver's kernel with `ALCost` objects, for any number of constraints. -/
def alReplay (p : DynProblem n m K) : Replay (alKernel p) alOps where
  RC := CostSame
  RE := (alMemoryless p).RE
  RS := (alMemoryless p).RS
  RG := (alMemoryless p).RG
  cost k c c' x u h := ⟨(costLike_evaluate h.like x u).1, costLike_evaluate_same h.like x u⟩
  expand k c c' x u t h d d' hc := by
    obtain ⟨g1, g2, -⟩ := costLike_gradient hc.like x u
    obtain ⟨k1, -, -⟩ := costLike_hessian g2 x u
    refine ⟨⟨?_, rfl, rfl⟩, costLike_hessian_same g2 x u⟩
    simp only [alKernel, KP.setExpansion, g1, k1]
  term := (alMemoryless p).term
  gains := (alMemoryless p).gains
  toGo := (alMemoryless p).toGo
  policy := (alMemoryless p).policy
  grad := (alMemoryless p).grad
  RB := CostBase
  cost_base k c c' x u h := by
    have := costBase_map (f := fun _ v => (v.augLag x u).2)
      (fun κ v v' ⟨h1, h2, c, l, q, B, e⟩ => by subst e; exact ⟨h1, h2, _, _, _, _, rfl⟩) h
    simp only [alKernel, ALCost.evaluate, List.map_map]
    exact this
  expand_base k c c' x u t h d hb := by
    have := costBase_map (f := fun _ v => v.evalProjJac x u) (fun κ v v' => conBase_eval x u)
      (costBase_map (f := fun _ v => v.evalProjJac x u) (fun κ v v' => conBase_eval x u) hb)
    simp only [List.map_map] at this
    simp only [alKernel, ALCost.gradient, ALCost.hessian, List.map_map]
    exact this
  duals_base c c' h := costBase_map (f := fun _ v => v.updateDuals)
    (fun κ v v' ⟨h1, h2, c, l, q, B, e⟩ => by subst e; exact ⟨h1, h2, _, _, _, _, rfl⟩) h
  penalties_base c c' h := costBase_map (f := fun _ v => v.updatePenalties)
    (fun κ v v' ⟨h1, h2, c, l, q, B, e⟩ => by subst e; exact ⟨h1, h2, _, _, _, _, rfl⟩) h
  reset_base c c' h := costBase_map (f := fun _ v => v.resetDuals)
    (fun κ v v' ⟨h1, h2, c, l, q, B, e⟩ => by subst e; exact ⟨h1, h2, _, _, _, _, rfl⟩) h
  set_base r c c' h := costBase_map (f := fun _ v => v.setPenalty r)
    (fun κ v v' ⟨h1, h2, c, l, q, B, e⟩ => by subst e; exact ⟨h1, h2, _, _, _, _, rfl⟩) h
  fresh k r c c' x u h := by
    refine costLike_evaluate_same (c := alOps.setPenalty r (alOps.resetDuals c))
      (c' := alOps.setPenalty r (alOps.resetDuals c')) ⟨h.1, ?_, ?_⟩ x u
    · simp only [alOps, ALCost.setPenalty, ALCost.resetDuals, List.map_map]
      exact forall₂_map_rel (fun v v' ⟨h1, h2, c, l, q, B, e⟩ => by subst e; exact ⟨h1, h2, _, _, rfl⟩) h.2.1
    · simp only [alOps, ALCost.setPenalty, ALCost.resetDuals, List.map_map]
      exact forall₂_map_rel (fun v v' ⟨h1, h2, c, l, q, B, e⟩ => by subst e; exact ⟨h1, h2, _, _, rfl⟩) h.2.2
  duals c c' h := ⟨h.1,
    forall₂_map_rel (fun v v' ⟨h1, h2, B, e⟩ => by subst e; exact ⟨h1, h2, _, rfl⟩) h.2.1,
    forall₂_map_rel (fun v v' ⟨h1, h2, B, e⟩ => by subst e; exact ⟨h1, h2, _, rfl⟩) h.2.2⟩
  penalties c c' h := ⟨h.1,
    forall₂_map_rel (fun v v' ⟨h1, h2, B, e⟩ => by subst e; exact ⟨h1, h2, _, rfl⟩) h.2.1,
    forall₂_map_rel (fun v v' ⟨h1, h2, B, e⟩ => by subst e; exact ⟨h1, h2, _, rfl⟩) h.2.2⟩
  maxPenalty c c' h := by
    show c.maxPenalty = c'.maxPenalty
    unfold ALCost.maxPenalty
    rw [foldl_max_congr (f := fun v : ConVal .equality n m K => v.maxPenalty)
        (fun v v' ⟨_, _, B, e⟩ => by subst e; rfl) h.2.1,
      foldl_max_congr (f := fun v : ConVal .inequality n m K => v.maxPenalty)
        (fun v v' ⟨_, _, B, e⟩ => by subst e; rfl) h.2.2]
  viol cs cs' h := by
    show ALCosts.maxViolation _ = ALCosts.maxViolation _
    unfold ALCosts.maxViolation
    congr 1
    simp only [List.map_map]
    refine List.map_congr_left fun k hk => ?_
    have hk' : k ≤ p.N := by rw [List.mem_range] at hk; omega
    have hc := h k hk'
    show (cs k).maxViolation = (cs' k).maxViolation
    unfold ALCost.maxViolation
    rw [forall₂_map_eq (f := fun v : ConVal .equality n m K => v.maxViolation)
        (fun v v' ⟨_, _, B, e⟩ => by subst e; rfl) hc.2.1,
      forall₂_map_eq (f := fun v : ConVal .inequality n m K => v.maxViolation)
        (fun v v' ⟨_, _, B, e⟩ => by subst e; rfl) hc.2.2]
  expand_gain k c c' x u t h d d' hg := hg
  gains_gain rho d d' e e' h hs hg := by
    obtain ⟨h1, h2, h3⟩ := h
    obtain ⟨g1, g2⟩ := hs
    have hq : (KP.actionValue d e).q = (KP.actionValue d' e').q := by
      simp only [KP.actionValue, h1, h2, h3, g1, g2]
    have hr : (KP.regularize rho (KP.actionValue d e)).qreg = (KP.regularize rho (KP.actionValue d' e')).qreg := by
      simp only [KP.regularize, hq]
    have hk : (KP.regularize rho (KP.actionValue d e)).gain = (KP.regularize rho (KP.actionValue d' e')).gain := hg.1
    have hf : (KP.regularize rho (KP.actionValue d e)).ff = (KP.regularize rho (KP.actionValue d' e')).ff := hg.2
    show _ ∧ _
    simp only [alKernel, KP.gains, hr]
    split
    · exact ⟨rfl, rfl⟩
    · exact ⟨hk, hf⟩

/-- The cost objects built by `BuildAugLagProblem` satisfy the hypothesis on the cost objects. -/
theorem costBase_new (cost : CostFun n m K) (eqs ineqs : List (Con n m K)) :
    CostBase (ALCost.new cost eqs ineqs) (ALCost.new cost eqs ineqs) := by
  have hf : ∀ (κ : ConKind) (l : List (Con n m K)), List.Forall₂ ConBase (l.map (ConVal.new κ)) (l.map (ConVal.new κ)) := by
    intro κ l
    induction l with
    | nil => exact .nil
    | cons a l ih => exact .cons ⟨ConVal.new_bufOk a, ConVal.new_bufOk a, _, _, _, _, rfl⟩ ih
  exact ⟨rfl, hf _ _, hf _ _⟩

end al

/-! ## Concrete runs -/

/-- The scalar example with a terminal constraint. -/
def goalReplay : Replay goalK goalOps where
  RC c c' := c = c'
  RE := (scalarMemoryless 2 1 1 1 1 (fun _ => 1) 0).RE
  RS := (scalarMemoryless 2 1 1 1 1 (fun _ => 1) 0).RS
  RG := (scalarMemoryless 2 1 1 1 1 (fun _ => 1) 0).RG
  cost k c c' x u h := by subst h; exact ⟨rfl, rfl⟩
  expand k c c' x u t h d d' hc := by
    subst hc
    simp only [goalK]
    split
    · exact ⟨⟨rfl, rfl, rfl, rfl, rfl, rfl, rfl⟩, rfl⟩
    · exact ⟨⟨rfl, rfl, rfl, rfl, rfl, rfl, rfl⟩, rfl⟩
  term := (scalarMemoryless 2 1 1 1 1 (fun _ => 1) 0).term
  gains := (scalarMemoryless 2 1 1 1 1 (fun _ => 1) 0).gains
  toGo := (scalarMemoryless 2 1 1 1 1 (fun _ => 1) 0).toGo
  policy := (scalarMemoryless 2 1 1 1 1 (fun _ => 1) 0).policy
  grad := (scalarMemoryless 2 1 1 1 1 (fun _ => 1) 0).grad
  RB _ _ := True
  cost_base _ _ _ _ _ _ := trivial
  expand_base _ _ _ _ _ _ _ _ _ := trivial
  duals_base _ _ _ := trivial
  penalties_base _ _ _ := trivial
  reset_base _ _ _ := trivial
  set_base _ _ _ _ := trivial
  fresh k r c c' x u _ := by
    simp only [goalK, goalOps]
  duals c c' h := congrArg _ h
  penalties c c' h := congrArg _ h
  maxPenalty c c' h := congrArg _ h
  viol cs cs' h := by
    show |(cs 2).c| = |(cs' 2).c|
    rw [h 2 le_rfl]
  expand_gain k c c' x u t h d d' hg := by
    simp only [goalK]
    split <;> exact hg
  gains_gain rho d d' e e' h hs hg := by
    obtain ⟨h1, h2, h3, h4, h5, h6, h7⟩ := h
    obtain ⟨g1, g2⟩ := hs
    obtain ⟨k1, k2⟩ := hg
    show _ ∧ _
    simp only [goalK, scalarKernel, h1, h2, h3, h4, h5, h6, h7, g1, g2]
    split
    · exact ⟨k1, k2⟩
    · exact ⟨rfl, rfl⟩

/-- A past: a solve from other controls with other options, a solve of the inner solver, a query, updates. -/
def goalPast : List (ALOp ℚ ℚ ℚ) :=
  [.solve { goalOpts with maxOuter := 1, initialPenalty := 3 } { zeroTraj with u := fun _ => 1 },
   .inner goalOpts { zeroTraj with u := fun _ => 2 }, .violation { zeroTraj with x := fun _ => 7 }, .updateDuals,
   .updatePenalties, .setPenalty 1000]

/-- **C81 (partial), a concrete case.**  The run with two outer iterations and four inner ones, after that past. -/
example : ∃ t r r', ALOp.runAll goalK goalOps 3 goalPast ⟨goalState, .kUnsolved⟩ = some t ∧
    (t.st.cs 2).lam = -297 / 14 ∧ goalSolve ⟨goalState, .kUnsolved⟩ = some r ∧
    goalSolve { t with st := { t.st with Z := zeroTraj } } = some r' ∧ SameResult goalReplay r r' ∧ r'.status = .kSolved ∧
    r'.st.stats.total = 4 := by
  have hd : ((ALOp.runAll goalK goalOps 3 goalPast ⟨goalState, .kUnsolved⟩).map fun t => (t.st.cs 2).lam) = some (-297 / 14) ∧
      ((goalSolve ⟨goalState, .kUnsolved⟩).map fun r : ALSt ℚ ℚ ℚ AC SD => (r.status, r.st.stats.total)) = some (.kSolved, 4) ∧
      ((backwardPass goalK goalOpts 3 (updateExpansions goalK (start goalK goalOpts
        (AL.init goalK goalOps goalOpts ⟨goalState, .kUnsolved⟩).st))).map fun b => b.status) = some .kUnsolved := by
    decide +kernel
  obtain ⟨d1, d2, d3⟩ := hd
  cases ht : ALOp.runAll goalK goalOps 3 goalPast ⟨goalState, .kUnsolved⟩ with
  | none => rw [ht] at d1; cases d1
  | some t =>
    cases hr : goalSolve ⟨goalState, .kUnsolved⟩ with
    | none => rw [hr] at d2; cases d2
    | some r =>
      rw [ht] at d1
      rw [hr] at d2
      simp only [Option.map_some, Option.some.injEq, Prod.mk.injEq] at d1 d2
      obtain ⟨r', h1, h2⟩ := C81_repeat_partial goalOpts (R := goalReplay) (s := ⟨goalState, .kUnsolved⟩) (Z := zeroTraj)
        goalPast (fun _ _ => trivial) ht (fun _ _ => ⟨rfl, rfl, rfl, rfl⟩) rfl (by decide +kernel) (by decide)
        (fun b hb => by
          rw [hb] at d3
          simp only [Option.map_some, Option.some.injEq] at d3
          rw [d3]; decide) hr
      exact ⟨t, r, r', rfl, d1, rfl, h1, h2, h2.status.trans d2.1, by rw [h2.stats]; exact d2.2⟩

/-- Cost objects without constraints. -/
def plainOps : CostOps Unit ℚ where
  updateDuals c := c
  updatePenalties c := c
  resetDuals c := c
  setPenalty _ c := c
  maxPenalty _ := 0

/-- **C81 is false** when the first backward pass gives up: the gains in the knot points are those of an earlier solve.  The
fresh solver reports `kSolved`; the same solver, given the same trajectory and options after another solve, does not. -/
theorem C81_gains_counterexample :
    ((AL.solve hopelessK plainOps scalarOpts (solve hopelessK scalarOpts 9) ⟨scalarState, .kUnsolved⟩).map
      fun r => (r.status, r.st.stats.total)) = some (.kSolved, 1) ∧
    ((ALOp.runAll hopelessK plainOps 9 [.solve bigOpts { zeroTraj with u := fun _ => 1 }, .solve scalarOpts scalarState.Z]
      ⟨scalarState, .kUnsolved⟩).map fun r => (r.status, r.st.stats.total)) = some (.kMaxInnerIterations, 3) := by
  decide +kernel

/-- **C81 is false** with `reset_duals` off, and with an initial penalty that is not positive: the multipliers, or the
penalties, of an earlier solve are used (al_solver.hpp:289-297).  Each pair is the solve of a new solver and the same
solve after one with the options of the example. -/
theorem C81_options_counterexample :
    ((ALOp.runAll goalK goalOps 3 [.solve { goalOpts with resetDuals := false } zeroTraj]
      ⟨goalState, .kUnsolved⟩).map fun r => r.st.stats.total) = some 6 ∧
    ((ALOp.runAll goalK goalOps 3 [.solve goalOpts zeroTraj, .solve { goalOpts with resetDuals := false } zeroTraj]
      ⟨goalState, .kUnsolved⟩).map fun r => r.st.stats.total) = some 2 ∧
    ((ALOp.runAll goalK goalOps 3 [.solve { goalOpts with initialPenalty := 0 } zeroTraj]
      ⟨goalState, .kUnsolved⟩).map fun r => (r.st.cs 2).pen) = some 70 ∧
    ((ALOp.runAll goalK goalOps 3 [.solve goalOpts zeroTraj, .solve { goalOpts with initialPenalty := 0 } zeroTraj]
      ⟨goalState, .kUnsolved⟩).map fun r => (r.st.cs 2).pen) = some 100 := by
  decide +kernel

end Altro.Props
