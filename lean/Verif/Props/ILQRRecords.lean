import Verif.Props.ILQRBackward

/-!
# C25, C26: recorded costs and repeated solves
-/

namespace Altro.Props
open Altro.Spec Altro.ILQR
variable {X U F C D : Type} [Arith F]
variable {P : Kernel X U F C D} (o : Opts F)

theorem back2_setBack (l : List F) (x : F) : Stats.back2 (Stats.setBack l x) = Stats.back l.dropLast := by
  simp [Stats.back2, Stats.setBack]

theorem back_append (l : List F) (x : F) : Stats.back (l ++ [x]) = x := by simp [Stats.back]
theorem back2_append (l : List F) (x : F) : Stats.back2 (l ++ [x]) = Stats.back l := by simp [Stats.back2]

theorem log_len_ne (st : Stats F) (t : Option Col) (x : F) : (st.log t x).len ≠ 0 := by
  by_cases h : st.len = 0
  · rw [log_zero st t x h, (log_col _ _ _ (by simp [Stats.newIteration])).1]; simp [Stats.newIteration]
  · rw [(log_col _ _ _ h).1]; exact h

/-- What `UpdateConvergenceStatistics` records. -/
theorem updateConvergence_cols (s : St X U F C D) (ha : Aligned s.stats) (hl : s.stats.len ≠ 0) :
    Stats.back ((updateConvergence P s).stats.col .cost) = Stats.back (s.stats.col .cost) ∧
    Stats.back2 ((updateConvergence P s).stats.col .cost) = Stats.back (s.stats.col .cost) ∧
    Stats.back ((updateConvergence P s).stats.col .dJ) = recordedDJ s ∧
    Stats.back ((updateConvergence P s).stats.col .grad) = normalizedGain P s ∧
    Stats.back ((updateConvergence P s).stats.col .viol) = P.viol s.cs ∧
    Aligned (updateConvergence P s).stats ∧ (updateConvergence P s).stats.len = s.stats.len + 1 := by
  unfold updateConvergence
  extract_lets dgrad dJ src st1 st2 st3 st4 st5
  have a1 : Aligned st1 := ha
  have a2 : Aligned st2 := aligned_log _ _ _ a1
  have a3 : Aligned st3 := aligned_log _ _ _ a2
  have a4 : Aligned st4 := aligned_log _ _ _ a3
  have a5 : Aligned st5 := aligned_log _ _ _ a4
  obtain ⟨l2, c2⟩ := log_col st1 (some .dJ) dJ hl
  have h2 : st2.len ≠ 0 := log_len_ne _ _ _
  obtain ⟨l3, c3⟩ := log_col st2 (some .viol) (P.viol s.cs) h2
  have h3 : st3.len ≠ 0 := log_len_ne _ _ _
  obtain ⟨l4, c4⟩ := log_col st3 none (Arith.ofN st3.total) h3
  have h4 : st4.len ≠ 0 := log_len_ne _ _ _
  obtain ⟨l5, c5⟩ := log_col st4 (some .grad) dgrad h4
  have h5 : st5.len ≠ 0 := log_len_ne _ _ _
  have e : ∀ c, st5.newIteration.col c = st5.col c ++ [Stats.back (st5.col c)] := by
    intro c; rw [newIteration_col st5 a5, if_neg h5]
  have hcost : st5.col .cost = s.stats.col .cost := by
    rw [c5, c4, c3, c2]; simp; rfl
  refine ⟨?_, ?_, ?_, ?_, ?_, aligned_newIteration _ a5, ?_⟩
  · show Stats.back (st5.newIteration.col .cost) = _
    rw [e, back_append, hcost]
  · show Stats.back2 (st5.newIteration.col .cost) = _
    rw [e, back2_append, hcost]
  · show Stats.back (st5.newIteration.col .dJ) = _
    rw [e, back_append, c5, c4, c3, c2]; simp [back_setBack]; rfl
  · show Stats.back (st5.newIteration.col .grad) = _
    rw [e, back_append, c5, c4]; simp [back_setBack]; rfl
  · show Stats.back (st5.newIteration.col .viol) = _
    rw [e, back_append, c5, c4, c3]; simp [back_setBack]
  · show st5.len + 1 = _
    rw [l5, l4, l3, l2]

/-- What an iteration records, given whether a step was accepted. -/
theorem iterate_records (L : CostLaw P) (ol : OrderLaws F) {fuel : ℕ} {s s' : St X U F C D}
    (ha : Aligned s.stats) (h : iterate P o fuel s = some s') :
    Aligned s'.stats ∧ s'.stats.len ≠ 0 ∧
    ((Arith.lt (L.total s.cs s'.Z) (L.total s.cs s.Z) = true ∧
      Stats.back (s'.stats.col .cost) = L.total s.cs s'.Z ∧ Stats.back2 (s'.stats.col .cost) = L.total s.cs s'.Z ∧
      Stats.back (s'.stats.col .dJ) =
        (if s.stats.inner = 0 then s.stats.initialCost
         else if s.stats.len = 0 then Stats.back [] else Stats.back2 (s.stats.col .cost)) - L.total s.cs s'.Z) ∨
     (s'.Z = s.Z ∧
      Stats.back (s'.stats.col .cost) = (if s.stats.len = 0 then 0 else Stats.back (s.stats.col .cost)) ∧
      Stats.back2 (s'.stats.col .cost) = (if s.stats.len = 0 then 0 else Stats.back (s.stats.col .cost)) ∧
      Stats.back (s'.stats.col .dJ) =
        (if s.stats.inner = 0 then s.stats.initialCost
         else if s.stats.len = 0 then Stats.back [] else Stats.back2 (s.stats.col .cost)) -
        (if s.stats.len = 0 then 0 else Stats.back (s.stats.col .cost)))) := by
  obtain ⟨s1, h1, rfl⟩ := iterate_some P o h
  obtain ⟨hbZ, -, hbcs, hbcosts, ⟨r, hst⟩, -⟩ := backwardPass_frame P o _ _ _ h1
  rw [updateExpansions_stats] at hst
  rw [updateExpansions_Z] at hbZ
  obtain ⟨u1, u2⟩ := updateExpansions_law L s
  have hinv1 : ∀ j, L.inv (s1.cs j) = L.inv (s.cs j) := fun j => by rw [hbcs]; exact u2 j
  have a1 : Aligned s1.stats := by rw [hst]; exact aligned_log _ _ _ ha
  have n1 : s1.stats.len ≠ 0 := by rw [hst]; exact log_len_ne _ _ _
  have hcost1 : s1.stats.col .cost = if s.stats.len = 0 then s.stats.newIteration.col .cost else s.stats.col .cost := by
    rw [hst]
    by_cases h0 : s.stats.len = 0
    · rw [log_zero _ _ _ h0, (log_col _ _ _ (by simp [Stats.newIteration])).2, if_pos h0]; simp
    · rw [(log_col _ _ _ h0).2, if_neg h0]; simp
  have hback1 : Stats.back (s1.stats.col .cost) = if s.stats.len = 0 then 0 else Stats.back (s.stats.col .cost) := by
    rw [hcost1]
    by_cases h0 : s.stats.len = 0
    · rw [if_pos h0, if_pos h0, back_newIteration _ ha, if_pos h0]
    · rw [if_neg h0, if_neg h0]
  have hback21 : Stats.back2 (s1.stats.col .cost)
      = if s.stats.len = 0 then Stats.back [] else Stats.back2 (s.stats.col .cost) := by
    rw [hcost1]
    by_cases h0 : s.stats.len = 0
    · rw [if_pos h0, if_pos h0, newIteration_col _ ha, back2_append]
      have := ha .cost
      rw [h0, List.length_eq_zero_iff] at this
      rw [this]
    · rw [if_neg h0, if_neg h0]
  have hcnt1 : s1.stats.inner = s.stats.inner ∧ s1.stats.initialCost = s.stats.initialCost := by
    rw [hst]; exact ⟨(log_counters _ _ _).1, (log_counters _ _ _).2.2.2⟩
  have hbase : SameBase L s1 s1 := ⟨LSFrame.refl P s1, fun _ => rfl⟩
  obtain ⟨l1, l2⟩ := lineSearch_spec o L s1 (costSum P s1) o.lsMax.toNat 0 (costSum P s1) s1 hbase rfl
  rw [updateConvergence_Z, forwardPass_eq P o ol]
  by_cases hq : (lineSearch P o (costSum P s1) o.lsMax.toNat 1 (costSum P s1) s1).2 = true
  · simp only [hq, if_true]
    obtain ⟨⟨i', _, _, hqual, _, hJ, hT, _, z, hz⟩, hB⟩ := l1 hq
    set q := lineSearch P o (costSum P s1) o.lsMax.toNat 1 (costSum P s1) s1 with hqdef
    have hz' : q.1.1.stats = ((s1.stats.log (some .cost) q.1.2).log (some .alpha) (stepLength o.lsFactor i')).log
      (some .z) z := hz
    have hJ' : q.1.2 = L.total s.cs q.1.1.Zbar := by
      refine Eq.trans hJ (total_congr L _ _ _ _ (fun j _ => hinv1 j) (fun k hk => ?_) (fun k hk => ?_))
      · exact (hT.x k hk).symm
      · exact (hT.u k hk).symm
    have aq : Aligned q.1.1.stats := by rw [hz']; exact aligned_log _ _ _ (aligned_log _ _ _ (aligned_log _ _ _ a1))
    have nq : q.1.1.stats.len ≠ 0 := by rw [hz']; exact log_len_ne _ _ _
    have hcolq : q.1.1.stats.col .cost = Stats.setBack (s1.stats.col .cost) q.1.2 := by
      rw [hz', (log_col _ _ _ (log_len_ne _ _ _)).2, (log_col _ _ _ (log_len_ne _ _ _)).2, (log_col _ _ _ n1).2]
      simp
    have hcntq : q.1.1.stats.inner = s.stats.inner ∧ q.1.1.stats.initialCost = s.stats.initialCost :=
      ⟨hB.frame.inner.trans hcnt1.1, hB.frame.initialCost.trans hcnt1.2⟩
    obtain ⟨k1, k2, k3, -, -, k4, k5⟩ := updateConvergence_cols (P := P) { q.1.1 with Z := q.1.1.Zbar } aq nq
    refine ⟨k4, by rw [k5]; omega, .inl ⟨?_, ?_, ?_, ?_⟩⟩
    · have e : L.total s.cs q.1.1.Zbar = L.total s1.cs (candidateTraj P s1.kd s1.Z s1.Zbar (stepLength o.lsFactor i')) :=
        total_congr L _ _ _ _ (fun j _ => (hinv1 j).symm) hT.x hT.u
      show Arith.lt (L.total s.cs q.1.1.Zbar) _ = true
      have hJ0 : costSum P s1 = L.total s.cs s.Z := by
        unfold costSum at *; rw [hbcosts]; exact u1
      rw [e, ← hJ0]
      exact hqual.lower
    · refine k1.trans ?_
      show Stats.back (q.1.1.stats.col .cost) = _
      rw [hcolq, back_setBack, hJ']
    · refine k2.trans ?_
      show Stats.back (q.1.1.stats.col .cost) = _
      rw [hcolq, back_setBack, hJ']
    · refine k3.trans ?_
      unfold recordedDJ
      show (if q.1.1.stats.inner = 0 then q.1.1.stats.initialCost - Stats.back (q.1.1.stats.col .cost)
        else Stats.back2 (q.1.1.stats.col .cost) - Stats.back (q.1.1.stats.col .cost)) = _
      rw [hcolq, back_setBack, back2_setBack, hcntq.1, hcntq.2, hJ']
      have : Stats.back (s1.stats.col .cost).dropLast = Stats.back2 (s1.stats.col .cost) := rfl
      rw [this, hback21]
      by_cases hi : s.stats.inner = 0
      · simp [hi]
      · simp [hi]
  · have hq' : (lineSearch P o (costSum P s1) o.lsMax.toNat 1 (costSum P s1) s1).2 = false := by simpa using hq
    simp only [hq', if_false, Bool.false_eq_true]
    obtain ⟨_, hB, hstq⟩ := l2 hq'
    set q := lineSearch P o (costSum P s1) o.lsMax.toNat 1 (costSum P s1) s1 with hqdef
    have hstq' : (increaseReg o q.1.1).stats = s1.stats := hstq
    obtain ⟨k1, k2, k3, -, -, k4, k5⟩ := updateConvergence_cols (P := P) (increaseReg o q.1.1)
      (by rw [hstq']; exact a1) (by rw [hstq']; exact n1)
    refine ⟨k4, by rw [k5]; omega, .inr ⟨?_, ?_, ?_, ?_⟩⟩
    · exact hB.frame.Z.trans hbZ
    · rw [k1, hstq', hback1]
    · rw [k2, hstq', hback1]
    · rw [k3]
      unfold recordedDJ
      rw [hstq', hback1, hback21, hcnt1.1, hcnt1.2]
      by_cases hi : s.stats.inner = 0
      · simp [hi]
      · simp [hi]

/-- The recorded cost is the cost of the current trajectory, in the current and the previous entry (which are equal
between iterations). -/
structure CostRecorded (L : CostLaw P) (s : St X U F C D) : Prop where
  aligned : Aligned s.stats
  len : s.stats.len ≠ 0
  inner : s.stats.inner ≠ 0
  back : Stats.back (s.stats.col .cost) = L.total s.cs s.Z
  back2 : Stats.back2 (s.stats.col .cost) = L.total s.cs s.Z

/-- **C25 (partial), later iterations.**  Once the recorded cost is the trajectory's cost, every further iteration
(accepted or not) records the new cost and exactly the change of the cost. -/
theorem C25_step_partial (L : CostLaw P) (ol : OrderLaws F) {fuel : ℕ} {s s' : St X U F C D}
    (hs : CostRecorded L s) (h : iterate P o fuel s = some s') :
    CostRecorded L s' ∧ Stats.back (s'.stats.col .dJ) = L.total s.cs s.Z - L.total s'.cs s'.Z := by
  obtain ⟨a, n, hc⟩ := iterate_records o L ol hs.aligned h
  obtain ⟨hinv, -⟩ := iterate_cost o L ol h
  have e : ∀ Z, L.total s'.cs Z = L.total s.cs Z := fun Z =>
    total_congr L _ _ _ _ (fun j _ => hinv j) (fun _ _ => rfl) (fun _ _ => rfl)
  have hi : s'.stats.inner ≠ 0 := by rw [(iterate_counters P o fuel s s' h).1]; omega
  rcases hc with ⟨-, c1, c2, c3⟩ | ⟨c0, c1, c2, c3⟩
  · rw [if_neg hs.inner, if_neg hs.len, hs.back2] at c3
    exact ⟨⟨a, n, hi, c1.trans (e _).symm, c2.trans (e _).symm⟩, by rw [c3, e]⟩
  · rw [if_neg hs.len, hs.back] at c1 c2
    rw [if_neg hs.inner, if_neg hs.len, if_neg hs.len, hs.back, hs.back2] at c3
    exact ⟨⟨a, n, hi, by rw [c1, e, c0], by rw [c2, e, c0]⟩, by rw [c3, e, c0]⟩

/-- **C25 (partial), first iteration.**  If the first iteration of a solve lowers the cost, it records the new cost and
exactly the change.  Missing for the full claim: a solve whose first line search fails records the cost entry of an
earlier iteration (or zero) instead, see `C25_counterexample`. -/
theorem C25_first_partial (L : CostLaw P) (ol : OrderLaws F) {fuel : ℕ} {s s' : St X U F C D}
    (ha : Aligned s.stats) (h : iterate P o fuel (start P o s) = some s')
    (hlow : Arith.lt (L.total s.cs s'.Z) (L.total s.cs (start P o s).Z) = true) :
    CostRecorded L s' ∧
    Stats.back (s'.stats.col .dJ) = L.total s.cs (start P o s).Z - L.total s'.cs s'.Z := by
  obtain ⟨f1, f2, f3, f4, f5, f6, f7, -, -⟩ := start_facts P o s
  have ha' : Aligned (start P o s).stats := by intro c; rw [f7, f6]; exact ha c
  obtain ⟨a, n, hc⟩ := iterate_records o L ol ha' h
  obtain ⟨hinv, -⟩ := iterate_cost o L ol h
  have hinv0 : ∀ j, L.inv ((start P o s).cs j) = L.inv (s.cs j) := by
    unfold start; extract_lets s1 c; exact (cost_law L s1.Z s1).2
  have hic : (start P o s).stats.initialCost = L.total s.cs (start P o s).Z := by
    rw [f1]; unfold start; extract_lets s1 c; exact (cost_law L s1.Z s1).1
  have e0 : ∀ Z, L.total (start P o s).cs Z = L.total s.cs Z := fun Z =>
    total_congr L _ _ _ _ (fun j _ => hinv0 j) (fun _ _ => rfl) (fun _ _ => rfl)
  have e : ∀ Z, L.total s'.cs Z = L.total s.cs Z := fun Z =>
    (total_congr L _ _ _ _ (fun j _ => hinv j) (fun _ _ => rfl) (fun _ _ => rfl)).trans (e0 Z)
  have hi : s'.stats.inner ≠ 0 := by rw [(iterate_counters P o fuel _ s' h).1]; omega
  rcases hc with ⟨-, c1, c2, c3⟩ | ⟨c0, -, -, -⟩
  · rw [if_pos f3, hic] at c3
    rw [e0] at c1 c2 c3
    exact ⟨⟨a, n, hi, c1.trans (e _).symm, c2.trans (e _).symm⟩, by rw [c3, e]⟩
  · exfalso
    rw [c0] at hlow
    have := ol.asymm _ _ hlow
    rw [hlow] at this; cases this

/-- **C25 (partial), whole solve.**  If the first iteration lowers the cost, the last recorded cost is the cost of the
returned trajectory.  Missing: see `C25_first_partial`. -/
theorem C25_solve_partial (L : CostLaw P) (ol : OrderLaws F) {fuel : ℕ} {s s1 s' : St X U F C D}
    (ha : Aligned s.stats) (hmax : 1 ≤ o.maxInner) (h1 : iterate P o fuel (start P o s) = some s1)
    (hlow : Arith.lt (L.total s.cs s1.Z) (L.total s.cs (start P o s).Z) = true)
    (h : solve P o fuel s = some s') :
    Stats.back (s'.stats.col .cost) = L.total s'.cs s'.Z := by
  have hr1 := (C25_first_partial o L ol ha h1 hlow).1
  obtain ⟨r, hr⟩ : ∃ r, o.maxInner.toNat = r + 1 := ⟨o.maxInner.toNat - 1, by omega⟩
  unfold solve at h
  rw [hr] at h
  unfold solveLoop at h
  rw [h1] at h
  simp only at h
  have hst : ∀ (a : St X U F C D) st, CostRecorded L a → CostRecorded L { a with status := st } :=
    fun a st ⟨x1, x2, x3, x4, x5⟩ => ⟨x1, x2, x3, x4, x5⟩
  have hr1' : CostRecorded L (isDone o s1).1 := by rw [isDone_frame]; exact hst _ _ hr1
  split at h
  · injection h with h; exact h ▸ hr1'.back
  · exact (solveLoop_inv P o (CostRecorded L) fuel (fun a a' ia ha => (C25_step_partial o L ol ia ha).1) hst r _ _
      hr1' h).back

/-- The last recorded cost; zero if nothing has been recorded, because the first entry is made with zeros. -/
def lastRecorded (st : Stats F) : F := if st.len = 0 then 0 else Stats.back (st.col .cost)

/-- **C25, exactly.**  After a solve either the cost was lowered and the last recorded cost is that of the returned trajectory, or
the trajectory is the initial rollout and the last recorded cost is the one recorded before the solve.  So the record is right if
and only if the solve lowered the cost or the old record happened to be the initial cost. -/
theorem C25_solve_exact {K : Type} [Field K] [LinearOrder K] {P : Kernel X U K C D} (o : Opts K) (L : CostLaw P) {fuel : ℕ}
    {s s' : St X U K C D} (ha : Aligned s.stats) (hmax : 1 ≤ o.maxInner) (h : solve P o fuel s = some s') :
    ((L.total s.cs s'.Z < L.total s.cs (start P o s).Z ∧ Stats.back (s'.stats.col .cost) = L.total s'.cs s'.Z) ∨
      (s'.Z = (start P o s).Z ∧ Stats.back (s'.stats.col .cost) = lastRecorded s.stats)) ∧
    (Stats.back (s'.stats.col .cost) = L.total s'.cs s'.Z ↔
      L.total s.cs s'.Z < L.total s.cs (start P o s).Z ∨ lastRecorded s.stats = L.total s.cs (start P o s).Z) := by
  have ol : OrderLaws K := .ofField
  obtain ⟨f1, f2, f3, f4, f5, f6, f7, -, -⟩ := start_facts P o s
  have hinv0 : ∀ j, L.inv ((start P o s).cs j) = L.inv (s.cs j) := by
    unfold start; extract_lets s1 c; exact (cost_law L s1.Z s1).2
  set J0 := L.total s.cs (start P o s).Z with hJ0
  let I (a : St X U K C D) : Prop := Aligned a.stats ∧ (∀ j, L.inv (a.cs j) = L.inv (s.cs j)) ∧
    ((a.stats.len ≠ 0 ∧ L.total s.cs a.Z < J0 ∧ Stats.back (a.stats.col .cost) = L.total s.cs a.Z) ∨
      (a.Z = (start P o s).Z ∧ lastRecorded a.stats = lastRecorded s.stats))
  have tot : ∀ a : St X U K C D, (∀ j, L.inv (a.cs j) = L.inv (s.cs j)) → ∀ Z, L.total a.cs Z = L.total s.cs Z := fun a e Z =>
    total_congr L _ _ _ _ (fun j _ => e j) (fun _ _ => rfl) (fun _ _ => rfl)
  have h0 : I (start P o s) := by
    refine ⟨by intro c; rw [f7, f6]; exact ha c, hinv0, .inr ⟨rfl, ?_⟩⟩
    unfold lastRecorded
    rw [f7, f6]
  have hstep : ∀ a a', I a → iterate P o fuel a = some a' → I a' ∧ a'.stats.len ≠ 0 := by
    rintro a a' ⟨i1, i2, i3⟩ e
    obtain ⟨b1, b2, hc⟩ := iterate_records o L ol i1 e
    obtain ⟨b3, -⟩ := iterate_cost o L ol e
    refine ⟨⟨b1, fun j => (b3 j).trans (i2 j), ?_⟩, b2⟩
    rcases hc with ⟨lt, c1, -, -⟩ | ⟨c0, c1, -, -⟩
    · have lt : L.total a.cs a'.Z < L.total a.cs a.Z := by simpa using lt
      rw [tot a i2] at lt c1
      refine .inl ⟨b2, ?_, c1⟩
      rw [tot a i2] at lt
      rcases i3 with ⟨-, q1, -⟩ | ⟨q1, -⟩
      · exact lt.trans q1
      · rw [q1] at lt; exact lt
    · rcases i3 with ⟨q0, q1, q2⟩ | ⟨q1, q2⟩
      · rw [if_neg q0] at c1
        exact .inl ⟨b2, by rw [c0]; exact q1, by rw [c1, c0]; exact q2⟩
      · refine .inr ⟨by rw [c0]; exact q1, ?_⟩
        rw [← q2]
        unfold lastRecorded
        rw [if_neg b2]
        exact c1
  have hfin : I s' ∧ s'.stats.len ≠ 0 := by
    obtain ⟨r, hr⟩ : ∃ r, o.maxInner.toNat = r + 1 := ⟨o.maxInner.toNat - 1, by omega⟩
    unfold solve at h
    rw [hr] at h
    unfold solveLoop at h
    split at h
    · cases h
    · rename_i s1 h1
      have hr1 := hstep _ _ h0 h1
      have hst : ∀ (a : St X U K C D) st, (I a ∧ a.stats.len ≠ 0) → (I { a with status := st } ∧ a.stats.len ≠ 0) :=
        fun a st h => h
      have hr1' : I (isDone o s1).1 ∧ (isDone o s1).1.stats.len ≠ 0 := by rw [isDone_frame]; exact hst _ _ hr1
      simp only at h
      split at h
      · rw [← Option.some.inj h]; exact hr1'
      · exact solveLoop_inv P o (fun a => I a ∧ a.stats.len ≠ 0) fuel (fun a a' ia e => hstep a a' ia.1 e) hst r _ _ hr1' h
  obtain ⟨⟨-, e1, e2⟩, e3⟩ := hfin
  have lr : lastRecorded s'.stats = Stats.back (s'.stats.col .cost) := if_neg e3
  rw [tot s' e1]
  rcases e2 with ⟨-, q1, q2⟩ | ⟨q1, q2⟩
  · exact ⟨.inl ⟨q1, q2⟩, fun _ => .inl q1, fun _ => q2⟩
  · rw [lr] at q2
    refine ⟨.inr ⟨q1, q2⟩, fun e => .inr ?_, fun e => ?_⟩
    · rw [← q2, e, q1]
    · rcases e with e | e
      · rw [q1] at e; exact absurd e (lt_irrefl _)
      · rw [q2, e, q1]

/-- The convex example satisfies the hypotheses: its first iteration lowers the cost from 3/2 to 4/5. -/
example : ∃ s1, iterate convexK scalarOpts 5 (start convexK scalarOpts scalarState) = some s1 ∧
    Aligned scalarState.stats ∧
    Arith.lt ((scalarLaw 2 1 1 1 1 (fun _ => 1) 0).total scalarState.cs s1.Z)
      ((scalarLaw 2 1 1 1 1 (fun _ => 1) 0).total scalarState.cs (start convexK scalarOpts scalarState).Z) = true ∧
    Stats.back (s1.stats.col .dJ) = 7 / 10 := by
  have hd : ((iterate convexK scalarOpts 5 (start convexK scalarOpts scalarState)).map fun s1 =>
      (Arith.lt ((scalarLaw 2 1 1 1 1 (fun _ => 1) 0).total scalarState.cs s1.Z)
        ((scalarLaw 2 1 1 1 1 (fun _ => 1) 0).total scalarState.cs (start convexK scalarOpts scalarState).Z),
       decide (Stats.back (s1.stats.col .dJ) = 7 / 10))) = some (true, true) := by decide +kernel
  cases hb : iterate convexK scalarOpts 5 (start convexK scalarOpts scalarState) with
  | none => rw [hb] at hd; cases hd
  | some s1 =>
    rw [hb] at hd
    simp only [Option.map_some, Option.some.injEq, Prod.mk.injEq, decide_eq_true_eq] at hd
    exact ⟨s1, rfl, aligned_new, hd.1, hd.2⟩

/-- The solver state with the optimal controls of the convex problem as initial guess. -/
def optimalState : St ℚ ℚ ℚ Unit SD :=
  { scalarState with Z := { zeroTraj with u := fun k => if k = 0 then -3 / 5 else if k = 1 then -1 / 5 else 0 } }

/-- **C25 is false.**  Started at the optimum, the first line search fails; the recorded cost is then `0` although the
trajectory costs `4/5`, and the recorded cost change is `4/5` although the cost did not change. -/
theorem C25_counterexample :
    ∃ s1, iterate convexK scalarOpts 5 (start convexK scalarOpts optimalState) = some s1 ∧
      [s1.Z.u 0, s1.Z.u 1, s1.Z.u 2] = [optimalState.Z.u 0, optimalState.Z.u 1, optimalState.Z.u 2] ∧
      (scalarLaw 2 1 1 1 1 (fun _ => 1) 0).total s1.cs s1.Z = 4 / 5 ∧
      Stats.back (s1.stats.col .cost) = 0 ∧ Stats.back (s1.stats.col .dJ) = 4 / 5 := by
  have hd : ((iterate convexK scalarOpts 5 (start convexK scalarOpts optimalState)).map fun s1 : St ℚ ℚ ℚ Unit SD =>
      (decide ([s1.Z.u 0, s1.Z.u 1, s1.Z.u 2] = [optimalState.Z.u 0, optimalState.Z.u 1, optimalState.Z.u 2]),
       decide ((scalarLaw 2 1 1 1 1 (fun _ => 1) 0).total s1.cs s1.Z = 4 / 5),
       decide (Stats.back (s1.stats.col .cost) = 0), decide (Stats.back (s1.stats.col .dJ) = 4 / 5)))
      = some (true, true, true, true) := by decide +kernel
  cases hb : iterate convexK scalarOpts 5 (start convexK scalarOpts optimalState) with
  | none => rw [hb] at hd; cases hd
  | some s1 =>
    rw [hb] at hd
    simp only [Option.map_some, Option.some.injEq, Prod.mk.injEq, decide_eq_true_eq] at hd
    exact ⟨s1, rfl, hd.1, hd.2.1, hd.2.2.1, hd.2.2.2⟩

/-- **C25 is false, consequence.**  That wrong cost change keeps the solver from declaring convergence at the optimum in
the first iteration: a second iteration is needed. -/
theorem C25_counterexample_consequence :
    (report 2 (solve convexK scalarOpts 5 optimalState)).map (fun r => (r.status, r.inner)) = some (.kSolved, 2) := by
  decide +kernel

/-- The exact statement on this run: no step is accepted, so the record stays at the zero from before the solve. -/
example : ∃ s', solve convexK scalarOpts 5 optimalState = some s' ∧ Stats.back (s'.stats.col .cost) = 0 ∧
    (Stats.back (s'.stats.col .cost) = (scalarLaw 2 1 1 1 1 (fun _ => 1) 0).total s'.cs s'.Z ↔
      (scalarLaw 2 1 1 1 1 (fun _ => 1) 0).total optimalState.cs s'.Z
          < (scalarLaw 2 1 1 1 1 (fun _ => 1) 0).total optimalState.cs (start convexK scalarOpts optimalState).Z ∨
        lastRecorded optimalState.stats
          = (scalarLaw 2 1 1 1 1 (fun _ => 1) 0).total optimalState.cs (start convexK scalarOpts optimalState).Z) := by
  have hd : ((solve convexK scalarOpts 5 optimalState).map fun s' => Stats.back (s'.stats.col .cost)) = some 0 := by
    decide +kernel
  cases hb : solve convexK scalarOpts 5 optimalState with
  | none => rw [hb] at hd; cases hd
  | some s' =>
    rw [hb] at hd
    exact ⟨s', rfl, by simpa using hd, (C25_solve_exact scalarOpts _ aligned_new (by decide) hb).2⟩

/-! ## C26: repeated solves -/

variable (P)

/-- **C26 (partial).**  A solve does not depend on the status, stored costs, regularization, expected decrease or inner
counter and initial cost left by earlier solves.  Missing for the full claim: the total iteration counter is carried over
(`C26_counterexample`). -/
theorem C26_reset_partial (fuel : ℕ) (s : St X U F C D) (costs : ℕ → F) (st : Status) (rho drho dV0 dV1 : F)
    (inner : ℕ) (J : F) :
    solve P o fuel { s with costs := costs, status := st, rho := rho, drho := drho, dV0 := dV0, dV1 := dV1,
                            stats := { s.stats with inner := inner, initialCost := J } }
      = solve P o fuel s := by
  have hs : solveSetup P o { s with costs := costs, status := st, rho := rho, drho := drho, dV0 := dV0, dV1 := dV1,
                                    stats := { s.stats with inner := inner, initialCost := J } }
      = { solveSetup P o s with stats := { (solveSetup P o s).stats with initialCost := J } } := rfl
  unfold solve
  congr 1
  have key : ∀ (a : St X U F C D) (st : Stats F) (Z : Traj X U F) (k : ℕ),
      costsTo P Z { a with stats := st } k = { costsTo P Z a k with stats := st } := by
    intro a st Z k
    induction k with
    | zero => rfl
    | succ k ih => simp only [costsTo]; rw [ih]
  have hc : ∀ (a : St X U F C D) (st : Stats F) (Z : Traj X U F),
      cost P Z { a with stats := st } = ((cost P Z a).1, { (cost P Z a).2 with stats := st }) := by
    intro a st Z
    unfold cost
    simp only
    rw [key]; rfl
  have hst : (cost P (rollout P (solveSetup P o s)).Z (rollout P (solveSetup P o s))).2.stats
      = (solveSetup P o s).stats := cost_stats ..
  have e := hc (rollout P (solveSetup P o s)) { (solveSetup P o s).stats with initialCost := J }
    (rollout P (solveSetup P o s)).Z
  let finish : F × St X U F C D → St X U F C D := fun c =>
    { c.2 with stats := { c.2.stats with initialCost := c.1 } }
  have hstart : ∀ a, start P o a = finish (cost P (rollout P (solveSetup P o a)).Z (rollout P (solveSetup P o a))) :=
    fun _ => rfl
  rw [hstart, hstart, hs]
  refine (congrArg finish e).trans ?_
  show { (cost P (rollout P (solveSetup P o s)).Z (rollout P (solveSetup P o s))).2 with
    stats := { (solveSetup P o s).stats with
      initialCost := (cost P (rollout P (solveSetup P o s)).Z (rollout P (solveSetup P o s))).1 } } = _
  rw [← hst]

/-- Options that allow 3 iterations in total. -/
def tightOpts : Opts ℚ := { scalarOpts with maxTotal := 3 }

/-- **C26 is false.**  The same problem, options and initial trajectory are solved twice; the first call returns
`kSolved` after two iterations, the second stops after one with `kMaxIterations`. -/
theorem C26_counterexample :
    ∃ s1 s2, solve convexK tightOpts 5 scalarState = some s1 ∧
      solve convexK tightOpts 5 { s1 with Z := scalarState.Z } = some s2 ∧
      s1.status = .kSolved ∧ s2.status = .kMaxIterations ∧ s1.stats.inner = 2 ∧ s2.stats.inner = 1 := by
  have hd : ((solve convexK tightOpts 5 scalarState).bind fun s1 =>
      (solve convexK tightOpts 5 { s1 with Z := scalarState.Z }).map fun s2 =>
        (s1.status, s2.status, s1.stats.inner, s2.stats.inner)) = some (.kSolved, .kMaxIterations, 2, 1) := by
    decide +kernel
  cases h1 : solve convexK tightOpts 5 scalarState with
  | none => rw [h1] at hd; cases hd
  | some s1 =>
    rw [h1] at hd
    cases h2 : solve convexK tightOpts 5 { s1 with Z := scalarState.Z } with
    | none => simp only [Option.bind_some] at hd; rw [h2] at hd; cases hd
    | some s2 =>
      simp only [Option.bind_some] at hd
      rw [h2] at hd
      simp only [Option.map_some, Option.some.injEq, Prod.mk.injEq] at hd
      exact ⟨s1, s2, rfl, h2, hd.1, hd.2.1, hd.2.2.1, hd.2.2.2⟩

end Altro.Props
