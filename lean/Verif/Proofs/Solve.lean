import Verif.Proofs.LineSearch

namespace Altro.ILQR
open Spec
variable {X U F C D : Type} [Arith F]
variable (P : Kernel X U F C D) (o : Opts F)

/-- Both outcomes of the forward pass, when `<` is asymmetric: the `kCostIncrease` branch is dead. -/
theorem forwardPass_eq (ol : OrderLaws F) (s : St X U F C D) :
    forwardPass P o s =
      (let q := lineSearch P o (costSum P s) o.lsMax.toNat 1 (costSum P s) s
       if q.2 then { q.1.1 with Z := q.1.1.Zbar } else increaseReg o q.1.1) := by
  unfold forwardPass
  have hirr : Arith.lt (costSum P s) (costSum P s) = false := by
    by_contra h
    have h' : Arith.lt (costSum P s) (costSum P s) = true := by simpa using h
    have := ol.asymm _ _ h'
    rw [h'] at this; cases this
  by_cases h : (lineSearch P o (costSum P s) o.lsMax.toNat 1 (costSum P s) s).2 = true
  · have hl := (lineSearch_success P o _ _ _ _ _ h).1
    have := ol.asymm _ _ hl
    simp [h, Arith.gt, this]
  · simp [h, Arith.gt, hirr]

/-- Facts about the forward pass that hold in any arithmetic. -/
structure FPFrame (s s' : St X U F C D) : Prop where
  kd : s'.kd = s.kd
  dV0 : s'.dV0 = s.dV0
  dV1 : s'.dV1 = s.dV1
  Zbar_t : s'.Zbar.t = s.Zbar.t
  Zbar_h : s'.Zbar.h = s.Zbar.h
  traj : s'.Z = s.Z ∨ (s'.Z = s'.Zbar ∧ DynFeasible P s'.Z)
  inner : s'.stats.inner = s.stats.inner
  total : s'.stats.total = s.stats.total
  outer : s'.stats.outer = s.stats.outer
  initialCost : s'.stats.initialCost = s.stats.initialCost

theorem forwardPass_frame (s : St X U F C D) : FPFrame P s (forwardPass P o s) := by
  unfold forwardPass
  extract_lets J0 q src s1 J
  have hl : LSFrame P s q.1.1 := lineSearch_LSFrame P o _ _ _ _ _
  have key : FPFrame P s s1 := by
    by_cases h : q.2 = true
    · have hf := (lineSearch_success P o _ _ _ _ _ h).2.2
      have e : s1 = { q.1.1 with Z := q.1.1.Zbar } := if_pos h
      rw [e]
      exact ⟨hl.kd, hl.dV0, hl.dV1, hl.t, hl.h, .inr ⟨rfl, hf⟩, hl.inner, hl.total, hl.outer, hl.initialCost⟩
    · have e : s1 = increaseReg o q.1.1 := if_neg h
      rw [e]
      exact ⟨hl.kd, hl.dV0, hl.dV1, hl.t, hl.h, .inl hl.Z, hl.inner, hl.total, hl.outer, hl.initialCost⟩
  split
  · obtain ⟨a, b, c, d, e, f, g, h, i, j⟩ := key
    exact ⟨a, b, c, d, e, f, g, h, i, j⟩
  · exact key

@[simp] theorem updateConvergence_Z (s : St X U F C D) : (updateConvergence P s).Z = s.Z := rfl
@[simp] theorem updateConvergence_Zbar (s : St X U F C D) : (updateConvergence P s).Zbar = s.Zbar := rfl
@[simp] theorem updateConvergence_cs (s : St X U F C D) : (updateConvergence P s).cs = s.cs := rfl
@[simp] theorem updateConvergence_kd (s : St X U F C D) : (updateConvergence P s).kd = s.kd := rfl
@[simp] theorem updateConvergence_status (s : St X U F C D) : (updateConvergence P s).status = s.status := rfl
@[simp] theorem updateConvergence_rho (s : St X U F C D) : (updateConvergence P s).rho = s.rho := rfl

theorem newIteration_counters (st : Stats F) : st.newIteration.inner = st.inner ∧
    st.newIteration.total = st.total ∧ st.newIteration.outer = st.outer ∧
    st.newIteration.initialCost = st.initialCost := ⟨rfl, rfl, rfl, rfl⟩

theorem updateConvergence_counters (s : St X U F C D) :
    (updateConvergence P s).stats.inner = s.stats.inner + 1 ∧
    (updateConvergence P s).stats.total = s.stats.total + 1 ∧
    (updateConvergence P s).stats.outer = s.stats.outer ∧
    (updateConvergence P s).stats.initialCost = s.stats.initialCost := by
  unfold updateConvergence
  extract_lets dgrad dJ src st1 st2 st3 st4 st5
  obtain ⟨a1, a2, a3, a4⟩ := log_counters st1 (some .dJ) dJ
  obtain ⟨b1, b2, b3, b4⟩ := log_counters st2 (some .viol) (P.viol s.cs)
  obtain ⟨c1, c2, c3, c4⟩ := log_counters st3 none (Arith.ofN st3.total)
  obtain ⟨d1, d2, d3, d4⟩ := log_counters st4 (some .grad) dgrad
  refine ⟨?_, ?_, ?_, ?_⟩
  · show st5.inner = _
    exact d1.trans (c1.trans (b1.trans a1))
  · show st5.total = _
    exact d2.trans (c2.trans (b2.trans a2))
  · show st5.outer = _
    exact d3.trans (c3.trans (b3.trans a3))
  · show st5.initialCost = _
    exact d4.trans (c4.trans (b4.trans a4))

/-- One iteration, unfolded. -/
theorem iterate_some {fuel : ℕ} {s s' : St X U F C D} (h : iterate P o fuel s = some s') :
    ∃ s1, backwardPass P o fuel (updateExpansions P s) = some s1 ∧
      s' = updateConvergence P (forwardPass P o s1) := by
  unfold iterate at h
  split at h
  · cases h
  · rename_i s1 h1
    injection h with h
    exact ⟨s1, h1, h.symm⟩

/-- `IsDone` only writes the status. -/
theorem isDone_frame (s : St X U F C D) : (isDone o s).1 = { s with status := (isDone o s).1.status } := by
  unfold isDone
  split
  · rfl
  · split
    · rfl
    · split <;> rfl

theorem isDone_false (s : St X U F C D) (h : (isDone o s).2 = false) :
    (isDone o s).1 = s ∧ s.status = .kUnsolved ∧ (s.stats.inner : ℤ) < o.maxInner := by
  unfold isDone at *
  split at h
  · simp at h
  · split at h
    · simp at h
    · split at h
      · simp at h
      · rename_i h1 h2 h3
        refine ⟨?_, by simpa using h, by omega⟩
        rw [if_neg h1, if_neg h2, if_neg h3]

/-- Induction principle for the iteration loop: an invariant of the iterations that ignores the status holds at
the end. -/
theorem solveLoop_inv (I : St X U F C D → Prop) (fuel : ℕ)
    (hstep : ∀ s s', I s → iterate P o fuel s = some s' → I s')
    (hstatus : ∀ s st, I s → I { s with status := st })
    (r : ℕ) (s s' : St X U F C D) (hs : I s) (h : solveLoop P o fuel r s = some s') : I s' := by
  induction r generalizing s with
  | zero => simp only [solveLoop] at h; injection h with h; exact h ▸ hs
  | succ r ih =>
    unfold solveLoop at h
    split at h
    · cases h
    · rename_i s1 h1
      have hI := hstep s s1 hs h1
      have hI' : I (isDone o s1).1 := by rw [isDone_frame]; exact hstatus _ _ hI
      simp only at h
      split at h
      · injection h with h; exact h ▸ hI'
      · exact ih _ hI' h

/-- The start of a solve. -/
theorem start_facts (s : St X U F C D) :
    (start P o s).Z = (rollout P s).Z ∧ (start P o s).status = .kUnsolved ∧
    (start P o s).stats.inner = 0 ∧ (start P o s).stats.total = s.stats.total ∧
    (start P o s).stats.outer = s.stats.outer ∧ (start P o s).stats.len = s.stats.len ∧
    (start P o s).stats.col = s.stats.col ∧
    SameTimes P (start P o s).Zbar s.Z ∧ (start P o s).rho = o.regInitial := by
  unfold start
  extract_lets s1 c
  have hst : c.2.stats = s1.stats := cost_stats ..
  refine ⟨cost_Z .., cost_status .., ?_, ?_, ?_, ?_, ?_, ?_, cost_rho ..⟩
  · show c.2.stats.inner = 0
    rw [hst]; rfl
  · show c.2.stats.total = _
    rw [hst]; rfl
  · show c.2.stats.outer = _
    rw [hst]; rfl
  · show c.2.stats.len = _
    rw [hst]; rfl
  · show c.2.stats.col = _
    rw [hst]; rfl
  · have e : c.2.Zbar = s1.Zbar := cost_Zbar ..
    constructor
    · intro k hk
      show c.2.Zbar.t k = _
      rw [e]; exact if_pos hk
    · intro k hk
      show c.2.Zbar.h k = _
      rw [e]; exact if_pos hk

variable {P}

/-- One iteration under a cost law: multipliers etc. are unchanged, and either nothing happened to the trajectory
or the total cost went down and the last recorded cost is the new one. -/
theorem iterate_cost (L : CostLaw P) (ol : OrderLaws F) {fuel : ℕ} {s s' : St X U F C D}
    (h : iterate P o fuel s = some s') :
    (∀ j, L.inv (s'.cs j) = L.inv (s.cs j)) ∧
    (s'.Z = s.Z ∨ Arith.lt (L.total s.cs s'.Z) (L.total s.cs s.Z) = true) := by
  obtain ⟨s1, h1, rfl⟩ := iterate_some P o h
  obtain ⟨hb⟩ := backwardPass_frame P o _ _ _ h1
  rename_i hbZ hbcs hbcosts _ _
  obtain ⟨u1, u2⟩ := updateExpansions_law L s
  have hJ0 : costSum P s1 = L.total s.cs s.Z := by
    unfold costSum at *; rw [hbcosts]; exact u1
  have hinv1 : ∀ j, L.inv (s1.cs j) = L.inv (s.cs j) := fun j => by rw [hbcs]; exact u2 j
  have hbase : SameBase L s1 s1 := ⟨LSFrame.refl P s1, fun _ => rfl⟩
  obtain ⟨l1, l2⟩ := lineSearch_spec o L s1 (costSum P s1) o.lsMax.toNat 0 (costSum P s1) s1 hbase rfl
  rw [updateConvergence_cs, updateConvergence_Z, forwardPass_eq P o ol]
  by_cases hq : (lineSearch P o (costSum P s1) o.lsMax.toNat 1 (costSum P s1) s1).2 = true
  · simp only [hq, if_true]
    obtain ⟨⟨i', _, _, hqual, _, hJ, hT, _, _⟩, hB⟩ := l1 hq
    refine ⟨fun j => (hB.inv j).trans (hinv1 j), .inr ?_⟩
    have e : L.total s.cs (lineSearch P o (costSum P s1) o.lsMax.toNat 1 (costSum P s1) s1).1.1.Zbar
        = L.total s1.cs (candidateTraj P s1.kd s1.Z s1.Zbar (stepLength o.lsFactor i')) :=
      total_congr L _ _ _ _ (fun j _ => (hinv1 j).symm) hT.x hT.u
    rw [e, ← hJ0]
    exact hqual.lower
  · have hq' : (lineSearch P o (costSum P s1) o.lsMax.toNat 1 (costSum P s1) s1).2 = false := by simpa using hq
    simp only [hq', if_false, Bool.false_eq_true]
    obtain ⟨_, hB, _⟩ := l2 hq'
    refine ⟨fun j => (hB.inv j).trans (hinv1 j), .inl ?_⟩
    rw [increaseReg_Z]
    exact hB.frame.Z.trans (hb.trans (updateExpansions_Z ..))

end Altro.ILQR
