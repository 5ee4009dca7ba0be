import Verif.Proofs.ILQR

namespace Altro.ILQR
open Spec
variable {X U F C D : Type} [Arith F]
variable {P : Kernel X U F C D} (o : Opts F)

/-- The parts of the state a candidate depends on are those of `s0`. -/
structure SameBase (L : CostLaw P) (s0 s : St X U F C D) : Prop where
  frame : LSFrame P s0 s
  inv : ∀ j, L.inv (s.cs j) = L.inv (s0.cs j)

theorem candidate_congr (kd : ℕ → D) (Z : Traj X U F) (t h : ℕ → F) (alpha : F) (k : ℕ) :
    candidateU P kd Z t h alpha k = P.policy (kd k) (candidate P kd Z t h alpha k) (Z.x k) (Z.u k) alpha := rfl

/-- After a completed rollout `Zbar` is the candidate trajectory of the base state. -/
theorem closedLoop_eq_candidate (alpha : F) (s : St X U F C D)
    (h : withinLimits o P s.kd s.Z s.Zbar.t s.Zbar.h alpha) :
    (∀ k ≤ P.N, (closedLoopTo P o alpha s P.N).1.x k = (candidateTraj P s.kd s.Z s.Zbar alpha).x k) ∧
    (∀ k ≤ P.N, (closedLoopTo P o alpha s P.N).1.u k = (candidateTraj P s.kd s.Z s.Zbar alpha).u k) ∧
    (closedLoopTo P o alpha s P.N).1.t = s.Zbar.t ∧ (closedLoopTo P o alpha s P.N).1.h = s.Zbar.h := by
  obtain ⟨_, i2, i3⟩ := closedLoopTo_candidate P o alpha s P.N h
  obtain ⟨t1, t2, t3, _⟩ := closedLoopTo_untouched P o alpha s P.N
  refine ⟨fun k hk => i2 k hk, fun k hk => ?_, t1, t2⟩
  show _ = if k < P.N then _ else _
  split
  · rename_i hk'; exact i3 k hk'
  · rename_i hk'; exact t3 k (by omega)

theorem candidateTraj_congr {s0 s : St X U F C D} (hf : LSFrame P s0 s) (alpha : F) :
    candidate P s.kd s.Z s.Zbar.t s.Zbar.h alpha = candidate P s0.kd s0.Z s0.Zbar.t s0.Zbar.h alpha := by
  rw [hf.kd, hf.Z, hf.t, hf.h]

theorem total_candidate_congr (L : CostLaw P) {s0 s : St X U F C D} (hb : SameBase L s0 s) (alpha : F) :
    L.total s.cs (candidateTraj P s.kd s.Z s.Zbar alpha)
      = L.total s0.cs (candidateTraj P s0.kd s0.Z s0.Zbar alpha) := by
  have hf := hb.frame
  refine total_congr L _ _ _ _ (fun j _ => hb.inv j) (fun j _ => ?_) (fun j _ => ?_)
  · show candidate _ _ _ _ _ _ _ = candidate _ _ _ _ _ _ _
    rw [candidateTraj_congr hf]
  · show (if j < P.N then _ else _) = (if j < P.N then _ else _)
    split
    · rw [candidate_congr, candidate_congr, candidateTraj_congr hf, hf.kd, hf.Z]
    · exact hf.uN j (by omega)

theorem qualifies_congr (L : CostLaw P) {s0 s : St X U F C D} (hb : SameBase L s0 s) (J0 alpha : F) :
    Qualifies L o s J0 alpha ↔ Qualifies L o s0 J0 alpha := by
  have hf := hb.frame
  have e := total_candidate_congr L hb alpha
  constructor
  · rintro ⟨a, b, c⟩
    exact ⟨by rwa [hf.kd, hf.Z, hf.t, hf.h] at a, by rwa [e, hf.dV0, hf.dV1] at b, by rwa [e] at c⟩
  · rintro ⟨a, b, c⟩
    exact ⟨by rwa [hf.kd, hf.Z, hf.t, hf.h], by rwa [e, hf.dV0, hf.dV1], by rwa [e]⟩

theorem SameBase.rcl (L : CostLaw P) {s0 s : St X U F C D} (hb : SameBase L s0 s) (alpha : F) :
    SameBase L s0 (rolloutClosedLoop P o alpha s).1 :=
  ⟨hb.frame.trans P (rcl_LSFrame P o alpha s), fun j => by rw [rcl_cs]; exact hb.inv j⟩

theorem SameBase.cost (L : CostLaw P) {s0 s : St X U F C D} (hb : SameBase L s0 s) (Z : Traj X U F) :
    SameBase L s0 (cost P Z s).2 :=
  ⟨hb.frame.trans P (cost_LSFrame P Z s), fun j => by rw [(cost_law L Z s).2]; exact hb.inv j⟩

/-- The cost computed after a completed rollout is the candidate's total cost. -/
theorem cost_after_rollout (L : CostLaw P) {s0 s : St X U F C D} (hb : SameBase L s0 s) (alpha : F)
    (h : withinLimits o P s.kd s.Z s.Zbar.t s.Zbar.h alpha) :
    (cost P (rolloutClosedLoop P o alpha s).1.Zbar (rolloutClosedLoop P o alpha s).1).1
      = L.total s0.cs (candidateTraj P s0.kd s0.Z s0.Zbar alpha) := by
  rw [(cost_law L _ _).1, ← total_candidate_congr L hb alpha, rcl_Zbar, rcl_cs]
  obtain ⟨a, b, _, _⟩ := closedLoop_eq_candidate o alpha s h
  exact total_congr L _ _ _ _ (fun _ _ => rfl) a b

theorem accept_iff_qualifies (L : CostLaw P) (s : St X U F C D) (J0 alpha : F) (s' : St X U F C D)
    (h0 : s'.dV0 = s.dV0) (h1 : s'.dV1 = s.dV1)
    (hw : withinLimits o P s.kd s.Z s.Zbar.t s.Zbar.h alpha) :
    accept o J0 (L.total s.cs (candidateTraj P s.kd s.Z s.Zbar alpha))
      (ratio J0 (L.total s.cs (candidateTraj P s.kd s.Z s.Zbar alpha)) alpha s') = true
    ↔ Qualifies L o s J0 alpha := by
  have he : expected alpha s' = predicted s.dV0 s.dV1 alpha := by unfold expected predicted; rw [h0, h1]
  unfold accept ratio
  rw [he]
  constructor
  · intro h
    simp only [Bool.and_eq_true] at h
    obtain ⟨⟨a, b⟩, c⟩ := h
    refine ⟨hw, ⟨_, ?_, ?_, a, b⟩, c⟩
    · intro hp; rw [if_pos hp]
    · intro hp; rw [if_neg (by simp [hp])]
  · rintro ⟨_, ⟨z, z1, z2, a, b⟩, c⟩
    have hz : (if Arith.gt (predicted s.dV0 s.dV1 alpha) 0 = true then
        (J0 - L.total s.cs (candidateTraj P s.kd s.Z s.Zbar alpha)) / predicted s.dV0 s.dV1 alpha else -1) = z := by
      split
      · rename_i hp; exact (z1 hp).symm
      · rename_i hp; exact (z2 (by simpa using hp)).symm
    rw [hz]; simp [a, b, c]

/-- Outcome of a successful line search that started at step index `i` with `r` tries left. -/
structure LSFound (L : CostLaw P) (s0 : St X U F C D) (J0 : F) (i r : ℕ) (q : (St X U F C D × F)) : Prop where
  ex : ∃ i', i ≤ i' ∧ i' < i + r ∧ Qualifies L o s0 J0 (stepLength o.lsFactor i') ∧
    (∀ j, i ≤ j → j < i' → ¬ Qualifies L o s0 J0 (stepLength o.lsFactor j)) ∧
    q.2 = L.total s0.cs (candidateTraj P s0.kd s0.Z s0.Zbar (stepLength o.lsFactor i')) ∧
    TrajEq P q.1.Zbar (candidateTraj P s0.kd s0.Z s0.Zbar (stepLength o.lsFactor i')) ∧
    q.1.status = .kUnsolved ∧
    (∃ z, q.1.stats = ((s0.stats.log (some .cost) q.2).log (some .alpha) (stepLength o.lsFactor i')).log
      (some .z) z)
  base : SameBase L s0 q.1

theorem lineSearch_spec (L : CostLaw P) (s0 : St X U F C D) (J0 : F) (r i : ℕ) (J : F) (s : St X U F C D)
    (hb : SameBase L s0 s) (hst : s.stats = s0.stats) :
    ((lineSearch P o J0 r (stepLength o.lsFactor i) J s).2 = true →
      LSFound o L s0 J0 i r (lineSearch P o J0 r (stepLength o.lsFactor i) J s).1) ∧
    ((lineSearch P o J0 r (stepLength o.lsFactor i) J s).2 = false →
      (∀ j, i ≤ j → j < i + r → ¬ Qualifies L o s0 J0 (stepLength o.lsFactor j)) ∧
      SameBase L s0 (lineSearch P o J0 r (stepLength o.lsFactor i) J s).1.1 ∧
      (lineSearch P o J0 r (stepLength o.lsFactor i) J s).1.1.stats = s0.stats) := by
  induction r generalizing i J s with
  | zero =>
    refine ⟨fun h => by simp [lineSearch] at h, fun _ => ⟨fun j h1 h2 => absurd h2 (by omega), hb, hst⟩⟩
  | succ r ih =>
    have hstep : stepLength o.lsFactor i / o.lsFactor = stepLength o.lsFactor (i + 1) := rfl
    simp only [lineSearch]
    set alpha := stepLength o.lsFactor i with halpha
    by_cases hok : (rolloutClosedLoop P o alpha s).2 = true
    · rw [if_pos hok]
      have hw := (rcl_ok_iff P o alpha s).mp hok
      have hf := hb.frame
      have hw0 : withinLimits o P s0.kd s0.Z s0.Zbar.t s0.Zbar.h alpha := by
        rwa [hf.kd, hf.Z, hf.t, hf.h] at hw
      have hJ := cost_after_rollout o L hb alpha hw
      have hb2 : SameBase L s0 (cost P (rolloutClosedLoop P o alpha s).1.Zbar
          (rolloutClosedLoop P o alpha s).1).2 := (hb.rcl o L alpha).cost L _
      have hst2 : (cost P (rolloutClosedLoop P o alpha s).1.Zbar (rolloutClosedLoop P o alpha s).1).2.stats
          = s0.stats := by rw [cost_stats, rcl_stats, hst]
      have hacc := accept_iff_qualifies o L s0 J0 alpha
        (cost P (rolloutClosedLoop P o alpha s).1.Zbar (rolloutClosedLoop P o alpha s).1).2
        hb2.frame.dV0 hb2.frame.dV1 hw0
      rw [← hJ] at hacc
      split
      · rename_i ha
        have hq := hacc.mp ha
        refine ⟨fun _ => ⟨⟨i, le_rfl, by omega, hq, fun j h1 h2 => absurd h2 (by omega), hJ, ?_, ?_, ?_⟩, ?_⟩,
          fun h => by simp at h⟩
        · obtain ⟨a, b, c, d⟩ := closedLoop_eq_candidate o alpha s hw
          refine ⟨fun k hk => ?_, fun k hk => ?_, ⟨fun k _ => ?_, fun k _ => ?_⟩⟩
          · simp only [cost_Zbar, rcl_Zbar]
            rw [a k hk]
            show candidate _ _ _ _ _ _ k = candidate _ _ _ _ _ _ k
            rw [candidateTraj_congr hf]
          · simp only [cost_Zbar, rcl_Zbar]
            rw [b k hk]
            show (if k < P.N then _ else _) = (if k < P.N then _ else _)
            split
            · rw [candidate_congr, candidate_congr, candidateTraj_congr hf, hf.kd, hf.Z]
            · exact hf.uN k (by omega)
          · simp only [cost_Zbar, rcl_Zbar]
            rw [c]; exact congrFun hf.t k
          · simp only [cost_Zbar, rcl_Zbar]
            rw [d]; exact congrFun hf.h k
        · simp only [cost_status]; exact rcl_status_ok P o alpha s hok
        · exact ⟨_, by rw [hst2]⟩
        · exact ⟨hb2.frame.trans P (logs_LSFrame P _ _ _ _), hb2.inv⟩
      · rename_i ha
        have hq : ¬ Qualifies L o s0 J0 alpha := fun h => ha (hacc.mpr h)
        obtain ⟨i1, i2⟩ := ih (i + 1)
          (cost P (rolloutClosedLoop P o alpha s).1.Zbar (rolloutClosedLoop P o alpha s).1).1 _ hb2 hst2
        rw [hstep]
        refine ⟨fun h => ?_, fun h => ?_⟩
        · obtain ⟨⟨i', a, b, c, d, e⟩, f⟩ := i1 h
          refine ⟨⟨i', by omega, by omega, c, fun j h1 h2 => ?_, e⟩, f⟩
          by_cases hj : j = i
          · subst hj; exact hq
          · exact d j (by omega) h2
        · obtain ⟨a, b⟩ := i2 h
          refine ⟨fun j h1 h2 => ?_, b⟩
          by_cases hj : j = i
          · subst hj; exact hq
          · exact a j (by omega) (by omega)
    · rw [if_neg hok]
      have hw : ¬ withinLimits o P s.kd s.Z s.Zbar.t s.Zbar.h alpha := fun h => hok ((rcl_ok_iff P o alpha s).mpr h)
      have hq : ¬ Qualifies L o s0 J0 alpha := by
        rw [← qualifies_congr o L hb]; exact fun h => hw h.within
      obtain ⟨i1, i2⟩ := ih (i + 1) J _ (hb.rcl o L alpha) (by rw [rcl_stats, hst])
      rw [hstep]
      refine ⟨fun h => ?_, fun h => ?_⟩
      · obtain ⟨⟨i', a, b, c, d, e⟩, f⟩ := i1 h
        refine ⟨⟨i', by omega, by omega, c, fun j h1 h2 => ?_, e⟩, f⟩
        by_cases hj : j = i
        · subst hj; exact hq
        · exact d j (by omega) h2
      · obtain ⟨a, b⟩ := i2 h
        refine ⟨fun j h1 h2 => ?_, b⟩
        by_cases hj : j = i
        · subst hj; exact hq
        · exact a j (by omega) (by omega)

/-! Facts that need no cost law. -/

variable (P)

/-- Every state the line search can end in has a rollout status, if at least one step is tried. -/
theorem lineSearch_status (J0 : F) (r : ℕ) (alpha J : F) (s : St X U F C D)
    (h : r = 0 → s.status = .kUnsolved ∨ s.status = .kStateLimit ∨ s.status = .kControlLimit) :
    (lineSearch P o J0 r alpha J s).1.1.status = .kUnsolved ∨
    (lineSearch P o J0 r alpha J s).1.1.status = .kStateLimit ∨
    (lineSearch P o J0 r alpha J s).1.1.status = .kControlLimit := by
  induction r generalizing alpha J s with
  | zero => exact h rfl
  | succ r ih =>
    simp only [lineSearch]
    split
    · split
      · simp only [cost_status]; exact rcl_status P o alpha s
      · exact ih _ _ _ fun _ => by rw [cost_status]; exact rcl_status P o alpha s
    · exact ih _ _ _ fun _ => rcl_status P o alpha s

/-- A successful line search ends with status `kUnsolved`, a lower cost, and a feasible `Zbar`. -/
theorem lineSearch_success (J0 : F) (r : ℕ) (alpha J : F) (s : St X U F C D)
    (h : (lineSearch P o J0 r alpha J s).2 = true) :
    Arith.lt (lineSearch P o J0 r alpha J s).1.2 J0 = true ∧
    (lineSearch P o J0 r alpha J s).1.1.status = .kUnsolved ∧
    DynFeasible P (lineSearch P o J0 r alpha J s).1.1.Zbar := by
  induction r generalizing alpha J s with
  | zero => simp [lineSearch] at h
  | succ r ih =>
    simp only [lineSearch] at h ⊢
    split
    · rename_i hok
      rw [if_pos hok] at h
      split
      · rename_i ha
        refine ⟨?_, ?_, ?_⟩
        · unfold accept at ha; simp only [Bool.and_eq_true] at ha; exact ha.2
        · simp only [cost_status]; exact rcl_status_ok P o alpha s hok
        · simp only [cost_Zbar, rcl_Zbar]
          exact closedLoopTo_feasible P o alpha s ((rcl_ok_iff P o alpha s).mp hok)
      · rename_i ha
        rw [if_neg ha] at h; exact ih _ _ _ h
    · rename_i hok
      rw [if_neg hok] at h; exact ih _ _ _ h

end Altro.ILQR
