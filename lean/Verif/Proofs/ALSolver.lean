import Verif.Proofs.Solve
import Verif.Spec.ALSolver
import Verif.Props.Stats

namespace Altro.AL
open Spec
variable {X U F C D : Type} [Arith F]
variable (P : Kernel X U F C D) (A : CostOps C F) (o : Opts F)

/-- The state at the convergence test after the inner solver returned `t`. -/
def body (s : ALSt X U F C D) (t : St X U F C D) : ALSt X U F C D :=
  updateConvergence P A { s with st := eachCost P A.updateDuals t }

/-- The state at the start of the next outer iteration. -/
def next (s : ALSt X U F C D) (t : St X U F C D) : ALSt X U F C D :=
  { body P A s t with st := eachCost P A.updatePenalties (body P A s t).st }

theorem isDone_false (s : ALSt X U F C D) (h : (isDone o s).2 = false) : (isDone o s).1 = s := by
  unfold isDone at *
  split_ifs at h ⊢
  rfl

theorem isDone_true (s : ALSt X U F C D) (h : (isDone o s).2 = true) :
    Outcome o s.st.status (Stats.back (s.st.stats.col .viol)) (Stats.back (s.st.stats.col .pen))
      s.st.stats.outer s.st.stats.total (isDone o s).1.status ∧
    (isDone o s).1.st = s.st := by
  unfold isDone at *
  split
  · rename_i h1; exact ⟨.innerFailed h1, rfl⟩
  · rename_i h1
    have h1 : s.st.status = .kSolved := by simpa using h1
    split
    · rename_i h2; exact ⟨.solved h1 h2, rfl⟩
    · rename_i h2
      split
      · rename_i h3; exact ⟨.maxPenalty h1 (by simpa using h2) h3, rfl⟩
      · rename_i h3
        split
        · rename_i h4; exact ⟨.maxOuter h1 (by simpa using h2) (by simpa using h3) h4, rfl⟩
        · rename_i h4
          split
          · rename_i h5
            exact ⟨.maxTotal h1 (by simpa using h2) (by simpa using h3) (by omega) h5, rfl⟩
          · rename_i h5; simp_all

theorem isDone_continues (s : ALSt X U F C D) (h : (isDone o s).2 = false) :
    Continues o s.st.status (Stats.back (s.st.stats.col .viol)) (Stats.back (s.st.stats.col .pen))
      s.st.stats.outer s.st.stats.total := by
  unfold isDone at h
  split at h
  · simp at h
  · rename_i h1
    split at h
    · simp at h
    · rename_i h2
      split at h
      · simp at h
      · rename_i h3
        split at h
        · simp at h
        · rename_i h4
          split at h
          · simp at h
          · rename_i h5
            exact ⟨by simpa using h1, by simpa using h2, by simpa using h3, by omega, by omega⟩

theorem back_log (t : Stats F) (c : Col) (x : F) : Stats.back ((t.log (some c) x).col c) = x := by
  unfold Stats.log Stats.back Stats.setBack
  simp

theorem back_log_ne (t : Stats F) (c c' : Option Col) (d : Col) (x : F) (hc : c ≠ some d) (hl : t.len ≠ 0) :
    (t.log c x).col d = t.col d ∧ (t.log c x).len = t.len := by
  obtain ⟨h1, h2⟩ := Props.log_col t c x hl
  exact ⟨by rw [h2, if_neg hc], h1⟩

theorem log_len_ne (t : Stats F) (c : Option Col) (x : F) : (t.log c x).len ≠ 0 := by
  unfold Stats.log
  by_cases h : t.len = 0 <;> cases c <;> simp [h, Stats.newIteration]

/-- What the convergence statistics are after an outer iteration. -/
theorem body_facts (s : ALSt X U F C D) (t : St X U F C D) :
    (body P A s t).st.cs = (eachCost P A.updateDuals t).cs ∧
    (body P A s t).st.Z = t.Z ∧
    (body P A s t).st.status = t.status ∧
    (body P A s t).status = s.status ∧
    (body P A s t).st.stats.outer = t.stats.outer + 1 ∧
    (body P A s t).st.stats.total = t.stats.total ∧
    Stats.back ((body P A s t).st.stats.col .viol) = P.viol (eachCost P A.updateDuals t).cs ∧
    Stats.back ((body P A s t).st.stats.col .pen) = maxPenalty P A (eachCost P A.updateDuals t).cs := by
  unfold body
  generalize hs : ({ s with st := eachCost P A.updateDuals t } : ALSt X U F C D) = q
  have hq : q.st = eachCost P A.updateDuals t := by rw [← hs]
  have hqs : q.status = s.status := by rw [← hs]
  have e1 : q.st.stats.outer = t.stats.outer := by rw [hq]; rfl
  have e2 : q.st.stats.total = t.stats.total := by rw [hq]; rfl
  unfold updateConvergence
  extract_lets src t1 t2 t3 t4
  rw [← hq]
  obtain ⟨a1, a2, a3, _⟩ := ILQR.log_counters t1 (some .viol) (P.viol q.st.cs)
  obtain ⟨b1, b2, b3, _⟩ := ILQR.log_counters t2 (some .pen) (maxPenalty P A q.st.cs)
  obtain ⟨c1, c2, c3, _⟩ := ILQR.log_counters t3 none (Arith.ofN t3.outer)
  have l2 : t2.len ≠ 0 := log_len_ne _ _ _
  have l3 : t3.len ≠ 0 := log_len_ne _ _ _
  refine ⟨rfl, by show q.st.Z = _; rw [hq]; rfl, by show q.st.status = _; rw [hq]; rfl, hqs, ?_, ?_, ?_, ?_⟩
  · refine (c3.trans (b3.trans a3)).trans ?_
    show q.st.stats.outer + 1 = _
    rw [e1]
  · exact (c2.trans (b2.trans a2)).trans e2
  · show Stats.back (t4.col .viol) = _
    rw [(back_log_ne t3 none none .viol _ (by simp) l3).1,
      (back_log_ne t2 (some .pen) none .viol _ (by simp) l2).1]
    exact back_log ..
  · show Stats.back (t4.col .pen) = _
    rw [(back_log_ne t3 none none .pen _ (by simp) l3).1]
    exact back_log ..

/-- Induction principle for the outer loop. -/
theorem outerLoop_inv (inner : St X U F C D → Option (St X U F C D)) (J : ℕ → ALSt X U F C D → Prop)
    (hstep : ∀ j s t, J j s → inner s.st = some t → (isDone o (body P A s t)).2 = false →
      J (j + 1) (next P A s t))
    (r j : ℕ) (s s' : ALSt X U F C D) (hs : J j s) (h : outerLoop P A o inner r s = some s') :
    (∃ i s0 t, i < r ∧ J (j + i) s0 ∧ inner s0.st = some t ∧ (isDone o (body P A s0 t)).2 = true ∧
      s' = (isDone o (body P A s0 t)).1) ∨
    J (j + r) s' := by
  induction r generalizing j s with
  | zero => simp only [outerLoop, Option.some.injEq] at h; subst h; exact .inr hs
  | succ r ih =>
    unfold outerLoop at h
    split at h
    · cases h
    · rename_i t ht
      change (if (isDone o (body P A s t)).2 = true then some (isDone o (body P A s t)).1
        else outerLoop P A o inner r { (isDone o (body P A s t)).1 with
          st := eachCost P A.updatePenalties (isDone o (body P A s t)).1.st }) = some s' at h
      split at h
      · rename_i hd
        simp only [Option.some.injEq] at h
        exact .inl ⟨0, s, t, by omega, hs, ht, hd, h.symm⟩
      · rename_i hd
        have hd' : (isDone o (body P A s t)).2 = false := by simpa using hd
        rw [isDone_false o _ hd'] at h
        rcases ih (j + 1) _ (hstep j s t hs ht hd') h with ⟨i, s0, t0, hi, hJ, h1, h2, h3⟩ | hJ
        · exact .inl ⟨i + 1, s0, t0, by omega, by rw [show j + (i + 1) = j + 1 + i by omega]; exact hJ, h1, h2, h3⟩
        · exact .inr (by rw [show j + (r + 1) = j + 1 + r by omega]; exact hJ)

theorem init_facts (s : ALSt X U F C D) :
    (init P A o s).st.stats.outer = 0 ∧ (init P A o s).st.stats.total = 0 ∧ (init P A o s).status = s.status ∧
    (init P A o s).st.Z = s.st.Z := by
  unfold init
  extract_lets s1 s2 s3 s4 s5
  obtain ⟨a1, a2, a3, _⟩ := ILQR.log_counters s2.stats.reset none 0
  obtain ⟨b1, b2, b3, _⟩ := ILQR.log_counters s4.stats (some .viol) (P.viol s4.cs)
  obtain ⟨c1, c2, c3, _⟩ := ILQR.log_counters s5.stats (some .pen) (maxPenalty P A s5.cs)
  have e4 : s4.stats = s3.stats := ILQR.cost_stats ..
  refine ⟨?_, ?_, rfl, ?_⟩
  · refine c3.trans (b3.trans ?_)
    rw [e4]; exact a3
  · refine c2.trans (b2.trans ?_)
    rw [e4]; exact a2
  · show s4.Z = _
    rw [show s4.Z = s3.Z from ILQR.cost_Z ..]
    show s2.Z = _
    have e2 : s2.Z = s1.Z := by simp only [s2]; split <;> rfl
    have e1 : s1.Z = s.st.Z := by simp only [s1]; split <;> rfl
    rw [e2, e1]

/-- How a solve with at least one outer iteration ends: in the convergence test of some outer iteration, which is
the first one whose test says stop. -/
theorem solve_last (inner : St X U F C D → Option (St X U F C D)) (hk : KeepsOuter inner)
    (J : ℕ → ALSt X U F C D → Prop) (s s' : ALSt X U F C D) (h0 : J 0 (init P A o s))
    (hstep : ∀ j s t, J j s → inner s.st = some t → (isDone o (body P A s t)).2 = false →
      J (j + 1) (next P A s t))
    (hmax : 1 ≤ o.maxOuter) (h : solve P A o inner s = some s') :
    ∃ (j : ℕ) (s0 : ALSt X U F C D) (t : St X U F C D), (j : ℤ) < o.maxOuter ∧ J j s0 ∧ inner s0.st = some t ∧ s0.status = s.status ∧
      t.stats.outer = j ∧
      (isDone o (body P A s0 t)).2 = true ∧ s' = (isDone o (body P A s0 t)).1 := by
  have key := outerLoop_inv P A o inner
    (fun j q => J j q ∧ q.st.stats.outer = j ∧ q.status = s.status ∧ (j = 0 ∨ (j : ℤ) < o.maxOuter))
    (by
      rintro j q t ⟨hJ, hq, hst, _⟩ ht hd
      obtain ⟨_, _, _, b4, b5, _⟩ := body_facts P A q t
      have hc := isDone_continues o _ hd
      refine ⟨hstep j q t hJ ht hd, ?_, ?_, .inr ?_⟩
      · show (body P A q t).st.stats.outer = _
        rw [b5, hk _ _ ht, hq]
      · show (body P A q t).status = _
        rw [b4, hst]
      · have := hc.outer
        rw [b5, hk _ _ ht, hq] at this
        exact this)
    o.maxOuter.toNat 0 (init P A o s) s' ⟨h0, (init_facts P A o s).1, (init_facts P A o s).2.2.1, .inl rfl⟩ h
  rcases key with ⟨i, s0, t, hi, ⟨hJ, hq, hst, _⟩, ht, hd, he⟩ | ⟨_, _, _, h4⟩
  · refine ⟨0 + i, s0, t, by omega, hJ, ht, hst, ?_, hd, he⟩
    rw [hk _ _ ht, hq]
  · omega

end Altro.AL

namespace Altro.ILQR
open Spec
variable {X U F C D : Type} [Arith F]
variable (P : Kernel X U F C D) (o : Opts F)

/-! ## The inner solver as the outer one sees it -/

theorem iterate_outer {fuel : ℕ} {s s' : St X U F C D} (h : iterate P o fuel s = some s') :
    s'.stats.outer = s.stats.outer := by
  obtain ⟨s1, h1, rfl⟩ := iterate_some P o h
  obtain ⟨r, hr⟩ := (backwardPass_frame P o _ _ _ h1).stats
  rw [(updateConvergence_counters P _).2.2.1, (forwardPass_frame P o s1).outer, hr,
    (log_counters _ _ _).2.2.1, updateExpansions_stats]

theorem solve_keepsOuter (fuel : ℕ) : KeepsOuter (solve P o fuel) := by
  intro s s' h
  refine solveLoop_inv P o (fun q => q.stats.outer = s.stats.outer) fuel
    (fun a b ha hab => (iterate_outer P o hab).trans ha) (fun _ _ ha => ha) _ _ _ ?_ h
  exact (start_facts P o s).2.2.2.2.1

section obs
variable {M : Type} (obs : C → M)
variable (hc : ∀ k c x u, obs (P.cost k c x u).2 = obs c)
variable (he : ∀ k c x u t h d, obs (P.expand k c x u t h d).2 = obs c)
include hc

theorem costsTo_obs (Z : Traj X U F) (s : St X U F C D) (k j : ℕ) :
    obs ((costsTo P Z s k).cs j) = obs (s.cs j) := by
  induction k with
  | zero => rfl
  | succ k ih =>
    simp only [costsTo]
    by_cases hj : j = k
    · subst hj; rw [upd_self, hc, ih]
    · rw [upd_of_ne hj, ih]

theorem cost_obs (Z : Traj X U F) (s : St X U F C D) (j : ℕ) :
    obs ((cost P Z s).2.cs j) = obs (s.cs j) := costsTo_obs P obs hc Z s _ j

theorem lineSearch_obs (J0 : F) (r : ℕ) (alpha J : F) (s : St X U F C D) (j : ℕ) :
    obs ((lineSearch P o J0 r alpha J s).1.1.cs j) = obs (s.cs j) := by
  induction r generalizing alpha J s with
  | zero => rfl
  | succ r ih =>
    simp only [lineSearch]
    split
    · split
      · show obs ((cost P _ _).2.cs j) = _
        rw [cost_obs P obs hc, rcl_cs]
      · rw [ih, cost_obs P obs hc, rcl_cs]
    · rw [ih, rcl_cs]

theorem forwardPass_obs (s : St X U F C D) (j : ℕ) : obs ((forwardPass P o s).cs j) = obs (s.cs j) := by
  unfold forwardPass
  extract_lets J0 q src s1 J
  have key : obs (s1.cs j) = obs (s.cs j) := by
    simp only [s1]
    split
    · exact lineSearch_obs P o obs hc _ _ _ _ _ _
    · exact lineSearch_obs P o obs hc _ _ _ _ _ _
  split
  · exact key
  · exact key

include he

theorem expandBlock_obs (b : ℕ) (s : St X U F C D) (k j : ℕ) :
    obs ((expandBlock P b s k).cs j) = obs (s.cs j) := by
  induction k with
  | zero => rfl
  | succ k ih =>
    simp only [expandBlock]
    by_cases hj : j = b + k
    · subst hj; rw [upd_self, hc, he, ih]
    · rw [upd_of_ne hj, ih]

theorem iterate_obs {fuel : ℕ} {s s' : St X U F C D} (h : iterate P o fuel s = some s') (j : ℕ) :
    obs (s'.cs j) = obs (s.cs j) := by
  obtain ⟨s1, h1, rfl⟩ := iterate_some P o h
  rw [updateConvergence_cs, forwardPass_obs P o obs hc, (backwardPass_frame P o _ _ _ h1).cs]
  exact expandBlock_obs P obs hc he _ _ _ _

theorem solve_keeps (fuel : ℕ) : Keeps obs (solve P o fuel) := by
  intro s s' h
  refine solveLoop_inv P o (fun q => ∀ k, obs (q.cs k) = obs (s.cs k)) fuel
    (fun a b ha hab k => (iterate_obs P o obs hc he hab k).trans (ha k)) (fun _ _ ha => ha) _ _ _ ?_ h
  intro k
  unfold start
  extract_lets s1 c
  exact cost_obs P obs hc _ _ _

end obs

/-! ## Which trajectory the stored constraint values belong to -/

variable {P}

theorem costsTo_stored (V : ViolLaw P) (Z : Traj X U F) (s : St X U F C D) (k j : ℕ) (hj : j < k) :
    V.stored ((costsTo P Z s k).cs j) = V.con j (V.sig ((costsTo P Z s k).cs j)) (Z.x j) (Z.u j) := by
  induction k with
  | zero => omega
  | succ k ih =>
    simp only [costsTo]
    by_cases h : j = k
    · subst h; rw [upd_self, V.stored_cost, V.cost_sig]
    · rw [upd_of_ne h, ih (by omega)]

theorem cost_fresh (V : ViolLaw P) (Z : Traj X U F) (s : St X U F C D) : V.Fresh (cost P Z s).2.cs Z :=
  fun k hk => costsTo_stored V Z s _ k (by omega)

theorem expandBlock_stored (V : ViolLaw P) (b : ℕ) (s : St X U F C D) (k j : ℕ) (hj : j < k) :
    V.stored ((expandBlock P b s k).cs (b + j))
      = V.con (b + j) (V.sig ((expandBlock P b s k).cs (b + j))) (s.Z.x (b + j)) (s.Z.u (b + j)) := by
  induction k with
  | zero => omega
  | succ k ih =>
    simp only [expandBlock]
    by_cases h : j = k
    · subst h; rw [upd_self, V.stored_cost, V.cost_sig, expandBlock_Z]
    · rw [upd_of_ne (by omega), ih (by omega)]

theorem updateExpansions_fresh (V : ViolLaw P) (s : St X U F C D) : V.Fresh (updateExpansions P s).cs s.Z := by
  intro k hk
  have := expandBlock_stored V 0 s (P.N + 1) k (by omega)
  simpa [updateExpansions] using this

theorem candidateTraj_frame {s q : St X U F C D} (hf : LSFrame P s q) (a : F) (k : ℕ) :
    (candidateTraj P q.kd q.Z q.Zbar a).x k = (candidateTraj P s.kd s.Z s.Zbar a).x k ∧
    (k ≤ P.N → (candidateTraj P q.kd q.Z q.Zbar a).u k = (candidateTraj P s.kd s.Z s.Zbar a).u k) := by
  constructor
  · show candidate _ _ _ _ _ _ k = candidate _ _ _ _ _ _ k
    rw [candidateTraj_congr hf]
  · intro hk
    show (if k < P.N then _ else _) = (if k < P.N then _ else _)
    split
    · rw [candidate_congr, candidate_congr, candidateTraj_congr hf, hf.kd, hf.Z]
    · exact hf.uN k (by omega)

/-- The stored constraint values are those of the candidate with step index `i'`, the last candidate among step
indices `i..i+r-1` that respected the limits. -/
structure LastCandidate (V : ViolLaw P) (o : Opts F) (s : St X U F C D) (i r : ℕ) (cs : ℕ → C) (i' : ℕ) : Prop where
  ge : i ≤ i'
  lt : i' < i + r
  within : withinLimits o P s.kd s.Z s.Zbar.t s.Zbar.h (stepLength o.lsFactor i')
  last : ∀ j, i' < j → j < i + r → ¬ withinLimits o P s.kd s.Z s.Zbar.t s.Zbar.h (stepLength o.lsFactor j)
  fresh : V.Fresh cs (candidateTraj P s.kd s.Z s.Zbar (stepLength o.lsFactor i'))

/-- After the line search: an accepted step leaves the values of `Zbar`; otherwise they are the values of the last
evaluated candidate, or the ones from before if no candidate was within the limits. -/
theorem lineSearch_stored (V : ViolLaw P) (J0 : F) (r i : ℕ) (J : F) (s : St X U F C D) :
    ((lineSearch P o J0 r (stepLength o.lsFactor i) J s).2 = true →
      V.Fresh (lineSearch P o J0 r (stepLength o.lsFactor i) J s).1.1.cs
        (lineSearch P o J0 r (stepLength o.lsFactor i) J s).1.1.Zbar) ∧
    ((lineSearch P o J0 r (stepLength o.lsFactor i) J s).2 = false →
      ((lineSearch P o J0 r (stepLength o.lsFactor i) J s).1.1.cs = s.cs ∧
        ∀ j, i ≤ j → j < i + r → ¬ withinLimits o P s.kd s.Z s.Zbar.t s.Zbar.h (stepLength o.lsFactor j)) ∨
      ∃ i', LastCandidate V o s i r (lineSearch P o J0 r (stepLength o.lsFactor i) J s).1.1.cs i') := by
  induction r generalizing i J s with
  | zero => exact ⟨fun h => by simp [lineSearch] at h, fun _ => .inl ⟨rfl, fun j h1 h2 => absurd h2 (by omega)⟩⟩
  | succ r ih =>
    have hstep : stepLength o.lsFactor i / o.lsFactor = stepLength o.lsFactor (i + 1) := rfl
    simp only [lineSearch]
    set alpha := stepLength o.lsFactor i with halpha
    by_cases hok : (rolloutClosedLoop P o alpha s).2 = true
    · rw [if_pos hok]
      have hw := (rcl_ok_iff P o alpha s).mp hok
      have hf : LSFrame P s (cost P (rolloutClosedLoop P o alpha s).1.Zbar (rolloutClosedLoop P o alpha s).1).2 :=
        (rcl_LSFrame P o alpha s).trans P (cost_LSFrame P _ _)
      split
      · refine ⟨fun _ => ?_, fun h => by simp at h⟩
        simp only [cost_Zbar]
        exact cost_fresh V _ _
      · obtain ⟨i1, i2⟩ := ih (i + 1)
          (cost P (rolloutClosedLoop P o alpha s).1.Zbar (rolloutClosedLoop P o alpha s).1).1
          (cost P (rolloutClosedLoop P o alpha s).1.Zbar (rolloutClosedLoop P o alpha s).1).2
        rw [hstep]
        refine ⟨i1, fun h => .inr ?_⟩
        rcases i2 h with ⟨e, hn⟩ | ⟨i', hge, hlt, hwi, hla, hfr⟩
        · refine ⟨i, le_rfl, by omega, hw, fun j h1 h2 => ?_, ?_⟩
          · have := hn j (by omega) (by omega)
            rwa [hf.kd, hf.Z, hf.t, hf.h] at this
          · rw [e]
            intro k hk
            rw [cost_fresh V _ _ k hk, rcl_Zbar]
            obtain ⟨c1, c2, _, _⟩ := closedLoop_eq_candidate o alpha s hw
            rw [c1 k hk, c2 k hk]
        · refine ⟨i', by omega, by omega, by rwa [hf.kd, hf.Z, hf.t, hf.h] at hwi, fun j h1 h2 => ?_, ?_⟩
          · have := hla j h1 (by omega)
            rwa [hf.kd, hf.Z, hf.t, hf.h] at this
          · intro k hk
            rw [hfr k hk, (candidateTraj_frame hf _ k).1, (candidateTraj_frame hf _ k).2 hk]
    · rw [if_neg hok]
      have hw : ¬ withinLimits o P s.kd s.Z s.Zbar.t s.Zbar.h alpha := fun h => hok ((rcl_ok_iff P o alpha s).mpr h)
      have hf := rcl_LSFrame P o alpha s
      obtain ⟨i1, i2⟩ := ih (i + 1) J (rolloutClosedLoop P o alpha s).1
      rw [hstep]
      refine ⟨i1, fun h => ?_⟩
      rcases i2 h with ⟨e, hn⟩ | ⟨i', hge, hlt, hwi, hla, hfr⟩
      · refine .inl ⟨by rw [e, rcl_cs], fun j h1 h2 => ?_⟩
        by_cases hj : j = i
        · subst hj; exact hw
        · have := hn j (by omega) (by omega)
          rwa [hf.kd, hf.Z, hf.t, hf.h] at this
      · refine .inr ⟨i', by omega, by omega, by rwa [hf.kd, hf.Z, hf.t, hf.h] at hwi, fun j h1 h2 => ?_, ?_⟩
        · have := hla j h1 (by omega)
          rwa [hf.kd, hf.Z, hf.t, hf.h] at this
        · intro k hk
          rw [hfr k hk, (candidateTraj_frame hf _ k).1, (candidateTraj_frame hf _ k).2 hk]

/-- Which trajectory the stored constraint values belong to after one iteration. -/
theorem iterate_stored (V : ViolLaw P) {fuel : ℕ} {s s' : St X U F C D} (h : iterate P o fuel s = some s') :
    ∃ s1, backwardPass P o fuel (updateExpansions P s) = some s1 ∧
    (((lineSearch P o (costSum P s1) o.lsMax.toNat 1 (costSum P s1) s1).2 = true ∧ V.Fresh s'.cs s'.Z) ∨
     ((lineSearch P o (costSum P s1) o.lsMax.toNat 1 (costSum P s1) s1).2 = false ∧ s'.Z = s.Z ∧
      ((V.Fresh s'.cs s'.Z ∧
        ∀ j < o.lsMax.toNat, ¬ withinLimits o P s1.kd s1.Z s1.Zbar.t s1.Zbar.h (stepLength o.lsFactor j)) ∨
       ∃ i', LastCandidate V o s1 0 o.lsMax.toNat s'.cs i'))) := by
  obtain ⟨s1, h1, rfl⟩ := iterate_some P o h
  have hb := backwardPass_frame P o _ _ _ h1
  refine ⟨s1, h1, ?_⟩
  obtain ⟨l1, l2⟩ := lineSearch_stored o V (costSum P s1) o.lsMax.toNat 0 (costSum P s1) s1
  rw [updateConvergence_cs, updateConvergence_Z]
  unfold forwardPass
  extract_lets J0 q src q1 J
  have e : ∀ (c : Prop) [Decidable c], ((if c then { q1 with status := .kCostIncrease } else q1) : St X U F C D).cs = q1.cs ∧
      ((if c then { q1 with status := .kCostIncrease } else q1) : St X U F C D).Z = q1.Z := by
    intro c _; split <;> exact ⟨rfl, rfl⟩
  rw [(e _).1, (e _).2]
  by_cases hq : q.2 = true
  · refine .inl ⟨hq, ?_⟩
    have : q1 = { q.1.1 with Z := q.1.1.Zbar } := if_pos hq
    rw [this]
    exact l1 hq
  · have hq' : q.2 = false := by simpa using hq
    have : q1 = increaseReg o q.1.1 := if_neg hq
    have hZ : q1.Z = s.Z := by
      rw [this]; exact (lineSearch_LSFrame P o _ _ _ _ _).Z.trans (hb.Z.trans (updateExpansions_Z ..))
    refine .inr ⟨hq', hZ, ?_⟩
    have hcs : q1.cs = q.1.1.cs := by rw [this]; rfl
    rw [hcs]
    rcases l2 hq' with ⟨e1, hn⟩ | hl
    · refine .inl ⟨?_, fun j hj => hn j (by omega) (by omega)⟩
      have e1 : q.1.1.cs = s1.cs := e1
      rw [e1, hb.cs, hZ]
      exact updateExpansions_fresh V s
    · exact .inr hl

/-- The last iteration of a solve. -/
theorem solveLoop_last (fuel r : ℕ) (s s' : St X U F C D) (h : solveLoop P o fuel r s = some s') :
    (r = 0 ∧ s' = s) ∨ ∃ s0 s1, iterate P o fuel s0 = some s1 ∧ s'.cs = s1.cs ∧ s'.Z = s1.Z ∧ s'.stats = s1.stats := by
  induction r generalizing s with
  | zero => simp only [solveLoop, Option.some.injEq] at h; exact .inl ⟨rfl, h.symm⟩
  | succ r ih =>
    unfold solveLoop at h
    split at h
    · cases h
    · rename_i s1 h1
      simp only at h
      have e := isDone_frame o s1
      split at h
      · simp only [Option.some.injEq] at h
        subst h
        exact .inr ⟨s, s1, h1, by rw [e], by rw [e], by rw [e]⟩
      · rcases ih _ h with ⟨_, e2⟩ | h2
        · refine .inr ⟨s, s1, h1, ?_, ?_, ?_⟩ <;> rw [e2, e]
        · exact .inr h2

end Altro.ILQR
