import Verif.Spec.Sweeps
import Verif.Props.Sweep
import Verif.Props.ILQRBackward
import Mathlib.LinearAlgebra.Matrix.Notation
import Mathlib.Tactic.FinCases

/-!
# C22: what the expected decrease is in general
-/

namespace Altro.Props
open Altro.Spec Altro.ILQR Matrix

section general
variable {X U K C D : Type} [Field K] [LinearOrder K] [IsStrictOrderedRing K]
variable (P : Kernel X U K C D) (o : Opts K)

theorem bpSweep_complete (rho : K) (kd : ℕ → D) (dV : K × K) (h : (bpSweep P rho P.N kd dV).2 = true) :
    Complete P rho kd (bpSweep P rho P.N kd dV).1.1 ∧
    (bpSweep P rho P.N kd dV).1.2.1 = dV.1 + policyLin P (bpSweep P rho P.N kd dV).1.1 ∧
    (bpSweep P rho P.N kd dV).1.2.2 = dV.2 + policyQuad P (bpSweep P rho P.N kd dV).1.1 := by
  obtain ⟨i1, i2, i3, i4⟩ := bpSweep_spec P rho P.N kd dV h
  exact ⟨⟨i1, i2⟩, i3, i4⟩

/-- A sweep over segments `0..k-1` that does not get through. -/
theorem bpSweep_stop (rho : K) (k : ℕ) (kd : ℕ → D) (dV : K × K) (h : (bpSweep P rho k kd dV).2 = false) :
    ∃ i < k, (∀ j, k ≤ j → (bpSweep P rho k kd dV).1.1 j = kd j) ∧
      (∀ j, i < j → j < k → Treated P rho kd (bpSweep P rho k kd dV).1.1 j) ∧
      (P.gains (P.regularize rho (P.actionValue (kd i) ((bpSweep P rho k kd dV).1.1 (i + 1))))).2 = false ∧
      (bpSweep P rho k kd dV).1.1 i = (P.gains (P.regularize rho (P.actionValue (kd i) ((bpSweep P rho k kd dV).1.1 (i + 1))))).1 ∧
      (∀ j < i, (bpSweep P rho k kd dV).1.1 j = kd j) ∧
      (bpSweep P rho k kd dV).1.2.1 = dV.1 + ∑ j ∈ Finset.Ioo i k, (P.delta ((bpSweep P rho k kd dV).1.1 j)).1 ∧
      (bpSweep P rho k kd dV).1.2.2 = dV.2 + ∑ j ∈ Finset.Ioo i k, (P.delta ((bpSweep P rho k kd dV).1.1 j)).2 := by
  induction k generalizing kd dV with
  | zero => cases h
  | succ k ih =>
    unfold bpSweep at h ⊢
    extract_lets g d at h ⊢
    split at h
    · rename_i hg
      rw [if_pos hg]
      obtain ⟨i, hi, h1, h2, h3, h4, h5, h6, h7⟩ := ih _ _ h
      set r := bpSweep P rho k (upd kd k d) (dV.1 + (P.delta d).1, dV.2 + (P.delta d).2)
      have hk : r.1.1 k = d := by rw [h1 k le_rfl, upd_self]
      have hk1 : r.1.1 (k + 1) = kd (k + 1) := by rw [h1 (k + 1) (by omega), upd_of_ne (by omega)]
      have hio : Finset.Ioo i (k + 1) = insert k (Finset.Ioo i k) := by
        ext j
        simp only [Finset.mem_Ioo, Finset.mem_insert]
        omega
      have hnm : k ∉ Finset.Ioo i k := by simp
      refine ⟨i, by omega, fun j hj => ?_, fun j hij hj => ?_, ?_, ?_, fun j hj => ?_, ?_, ?_⟩
      · rw [h1 j (by omega), upd_of_ne (by omega)]
      · rcases Nat.lt_succ_iff_lt_or_eq.mp hj with hj | rfl
        · have := h2 j hij hj
          unfold Treated at this ⊢
          rwa [upd_of_ne (by omega)] at this
        · unfold Treated
          rw [hk, hk1]
          exact ⟨hg, rfl⟩
      · rwa [upd_of_ne (by omega)] at h3
      · rwa [upd_of_ne (by omega)] at h4
      · rw [h5 j hj, upd_of_ne (by omega)]
      · rw [hio, Finset.sum_insert hnm, h6, hk]
        ring
      · rw [hio, Finset.sum_insert hnm, h7, hk]
        ring
    · rename_i hg
      rw [if_neg hg]
      have hgf : g.2 = false := by simpa using hg
      refine ⟨k, by omega, fun j hj => upd_of_ne (by omega), fun j h1 h2 => by omega, ?_, ?_, fun j hj => upd_of_ne (by omega),
        ?_, ?_⟩
      · show (P.gains (P.regularize rho (P.actionValue (kd k) (upd kd k g.1 (k + 1))))).2 = false
        rw [upd_of_ne (by omega)]
        exact hgf
      · show upd kd k g.1 k = (P.gains (P.regularize rho (P.actionValue (kd k) (upd kd k g.1 (k + 1))))).1
        rw [upd_self, upd_of_ne (by omega)]
      · rw [show Finset.Ioo k (k + 1) = ∅ from Finset.eq_empty_of_forall_notMem fun j hj => by
          rw [Finset.mem_Ioo] at hj; omega]
        simp
      · rw [show Finset.Ioo k (k + 1) = ∅ from Finset.eq_empty_of_forall_notMem fun j hj => by
          rw [Finset.mem_Ioo] at hj; omega]
        simp

theorem bpSweep_stopped (rho : K) (kd : ℕ → D) (dV : K × K) (h : (bpSweep P rho P.N kd dV).2 = false) :
    ∃ i, Stopped P rho kd (bpSweep P rho P.N kd dV).1.1 i ∧
      (bpSweep P rho P.N kd dV).1.2.1 = dV.1 + Attempt.lin P ⟨rho, (bpSweep P rho P.N kd dV).1.1, i⟩ ∧
      (bpSweep P rho P.N kd dV).1.2.2 = dV.2 + Attempt.quad P ⟨rho, (bpSweep P rho P.N kd dV).1.1, i⟩ := by
  obtain ⟨i, hi, h1, h2, h3, h4, h5, h6, h7⟩ := bpSweep_stop P rho P.N kd dV h
  exact ⟨i, ⟨hi, h1, h2, h3, h4, h5⟩, h6, h7⟩

/-- The sweeps of the loop, and what has been added up in the end. -/
theorem bpLoop_sweeps (Q : K → Prop) (hQ : ∀ s : St X U K C D, Q s.rho → Q (increaseReg o s).rho) (fuel count : ℕ)
    (s s' : St X U K C D) (hs : s.status ≠ .kBackwardPassRegularizationFailed) (hq : Q s.rho)
    (h : bpLoop P o fuel count s = some s') :
    ∃ l kd1, (∀ a ∈ l, Q a.rho) ∧ Stops P s.kd l kd1 ∧
      ((s'.status = s.status ∧ Q s'.rho ∧ Complete P s'.rho kd1 s'.kd ∧
          s'.dV0 = s.dV0 + (l.map (Attempt.lin P)).sum + policyLin P s'.kd ∧
          s'.dV1 = s.dV1 + (l.map (Attempt.quad P)).sum + policyQuad P s'.kd) ∨
        (s'.status = .kBackwardPassRegularizationFailed ∧ s'.kd = kd1 ∧ l ≠ [] ∧
          s'.dV0 = s.dV0 + (l.map (Attempt.lin P)).sum ∧ s'.dV1 = s.dV1 + (l.map (Attempt.quad P)).sum)) := by
  induction fuel generalizing count s with
  | zero => cases h
  | succ fuel ih =>
    unfold bpLoop at h
    extract_lets r s1 s2 count' at h
    split at h
    · rename_i hr
      obtain ⟨c1, c2, c3⟩ := bpSweep_complete P s.rho s.kd (s.dV0, s.dV1) hr
      split at h
      · rename_i hN
        obtain ⟨l, kd1, hl, hst, hc⟩ := ih count s1 hs hq h
        have e : s1.kd = s.kd := funext fun j => c1.keeps j (by omega)
        have e0 : s1.dV0 = s.dV0 := by
          have : policyLin P r.1.1 = 0 := by unfold policyLin; rw [hN]; rfl
          show r.1.2.1 = s.dV0
          rw [c2, this, add_zero]
        have e1 : s1.dV1 = s.dV1 := by
          have : policyQuad P r.1.1 = 0 := by unfold policyQuad; rw [hN]; rfl
          show r.1.2.2 = s.dV1
          rw [c3, this, add_zero]
        rw [e] at hst
        rw [e0, e1] at hc
        exact ⟨l, kd1, hl, hst, hc⟩
      · rw [← Option.some.inj h]
        refine ⟨[], s.kd, by simp, .nil _, .inl ⟨rfl, hq, c1, ?_, ?_⟩⟩
        · show r.1.2.1 = _
          rw [c2]
          simp [s1, r]
        · show r.1.2.2 = _
          rw [c3]
          simp [s1, r]
    · rename_i hr
      have hr : (bpSweep P s.rho P.N s.kd (s.dV0, s.dV1)).2 = false := by simpa using hr
      obtain ⟨i, st, d0, d1⟩ := bpSweep_stopped P s.rho s.kd (s.dV0, s.dV1) hr
      split at h
      · rw [← Option.some.inj h]
        refine ⟨[⟨s.rho, r.1.1, i⟩], r.1.1, ?_, .cons st (.nil _), .inr ⟨rfl, rfl, by simp, ?_, ?_⟩⟩
        · intro a ha
          rw [List.mem_singleton] at ha
          subst ha
          exact hq
        · show r.1.2.1 = _
          rw [d0]
          simp [r]
        · show r.1.2.2 = _
          rw [d1]
          simp [r]
      · obtain ⟨l, kd1, hl, hst, hc⟩ := ih count' s2 hs (hQ s1 hq) h
        refine ⟨⟨s.rho, r.1.1, i⟩ :: l, kd1, ?_, .cons st hst, ?_⟩
        · intro a ha
          rcases List.mem_cons.mp ha with rfl | ha
          · exact hq
          · exact hl a ha
        · have e0 : s2.dV0 = s.dV0 + Attempt.lin P ⟨s.rho, r.1.1, i⟩ := d0
          have e1 : s2.dV1 = s.dV1 + Attempt.quad P ⟨s.rho, r.1.1, i⟩ := d1
          have e2 : s2.status = s.status := rfl
          rw [e0, e1, e2] at hc
          simp only [List.map_cons, List.sum_cons]
          rcases hc with ⟨a, b, c, d, e⟩ | ⟨a, b, _, d, e⟩
          · exact .inl ⟨a, b, c, by rw [d]; ring, by rw [e]; ring⟩
          · exact .inr ⟨a, b, by simp, by rw [d]; ring, by rw [e]; ring⟩

/-- **C22, in general.**  Every backward pass that returns without giving up is a sequence of stopped sweeps followed by one
complete sweep, whose policy is stored.  The stored expected decrease is that of the policy *plus* the sums over the segments
the stopped sweeps had treated. -/
theorem C22_accumulated (fuel : ℕ) (s s' : St X U K C D) (h : backwardPass P o fuel s = some s')
    (hs : s.status ≠ .kBackwardPassRegularizationFailed) (hs' : s'.status ≠ .kBackwardPassRegularizationFailed) :
    ∃ l kd1 rho, Stops P (upd s.kd P.N (P.term (s.kd P.N))) l kd1 ∧ Complete P rho kd1 s'.kd ∧
      s'.dV0 = (l.map (Attempt.lin P)).sum + policyLin P s'.kd ∧
      s'.dV1 = (l.map (Attempt.quad P)).sum + policyQuad P s'.kd := by
  unfold backwardPass at h
  split at h
  · cases h
  · rename_i s1 hb
    obtain ⟨l, kd1, _, hst, ⟨_, _, c, d0, d1⟩ | ⟨e, _⟩⟩ := bpLoop_sweeps P o (fun _ => True) (fun _ _ => trivial) fuel 0
      { s with kd := upd s.kd P.N (P.term (s.kd P.N)), dV0 := 0, dV1 := 0 } s1 hs trivial hb
    · rw [← Option.some.inj h]
      exact ⟨l, kd1, s1.rho, hst, c, d0.trans (by simp), d1.trans (by simp)⟩
    · rw [← Option.some.inj h] at hs'
      exact absurd e hs'

/-- **C22** when the backward pass gives up: the expected decrease consists of contributions of stopped sweeps only, while the
knot points hold a mixture: the data of the last sweep down to the segment where it stopped, older data before it. -/
theorem C22_gave_up (fuel : ℕ) (s s' : St X U K C D) (h : backwardPass P o fuel s = some s')
    (hs : s.status ≠ .kBackwardPassRegularizationFailed) (hs' : s'.status = .kBackwardPassRegularizationFailed) :
    ∃ l, l ≠ [] ∧ Stops P (upd s.kd P.N (P.term (s.kd P.N))) l s'.kd ∧
      s'.dV0 = (l.map (Attempt.lin P)).sum ∧ s'.dV1 = (l.map (Attempt.quad P)).sum := by
  unfold backwardPass at h
  split at h
  · cases h
  · rename_i s1 hb
    obtain ⟨l, kd1, _, hst, ⟨e, _⟩ | ⟨_, e1, e2, d0, d1⟩⟩ := bpLoop_sweeps P o (fun _ => True) (fun _ _ => trivial) fuel 0
      { s with kd := upd s.kd P.N (P.term (s.kd P.N)), dV0 := 0, dV1 := 0 } s1 hs trivial hb
    · rw [← Option.some.inj h] at hs'
      have e' : s1.status = s.status := e
      exact absurd (e'.symm.trans hs') hs
    · rw [← Option.some.inj h]
      subst e1
      exact ⟨l, e2, hst, d0.trans (by simp), d1.trans (by simp)⟩

end general

section concrete
variable {n m : ℕ} {K : Type} [Field K] [LinearOrder K] [IsStrictOrderedRing K]
variable (p : DynProblem n m K) (o : Opts K)

theorem treated_cost {rho : K} {kd kd' : ℕ → KP n m K} {j : ℕ} (h : Treated (alKernel p) rho kd kd' j) :
    (kd' j).cost = (kd j).cost := by
  rw [h.2]
  show ((((kd j).actionValue (kd' (j + 1))).regularize rho).gains).1.costToGo.cost = (kd j).cost
  unfold KP.gains
  split <;> rfl

theorem stopped_cost {rho : K} {kd kd' : ℕ → KP n m K} {k : ℕ} (h : Stopped (alKernel p) rho kd kd' k) (j : ℕ) :
    (kd' j).cost = (kd j).cost := by
  by_cases hj : p.N ≤ j
  · rw [h.keeps j hj]
  · rcases Nat.lt_trichotomy j k with h1 | rfl | h1
    · rw [h.below j h1]
    · rw [h.here]
      show ((((kd j).actionValue (kd' (j + 1))).regularize rho).gains).1.cost = (kd j).cost
      unfold KP.gains
      split <;> rfl
    · exact treated_cost p (h.done j h1 (by show j < p.N; omega))

/-- The improvement predicted by one treated segment. -/
theorem treated_predicted {rho : K} (hr : 0 ≤ rho) {kd kd' : ℕ → KP n m K} {j : ℕ} (h : Treated (alKernel p) rho kd kd' j)
    (hx : (kd j).cost.dxdx.IsSymm) (hu : (kd j).cost.dudu.IsSymm) (hs : (kd' (j + 1)).Sxx.IsSymm) {alpha : K} (ha : 0 < alpha)
    (ha1 : alpha ≤ 1) : 0 ≤ predicted (kd' j).delta.1 (kd' j).delta.2 alpha ∧
      (predicted (kd' j).delta.1 (kd' j).delta.2 alpha = 0 ↔ (kd' j).ff = 0) := by
  have st : StepOk (kd j) (kd' (j + 1)) (kd' j) rho := ⟨h.1, h.2⟩
  obtain ⟨e1, _, e3⟩ := st.eqs hx hu hs
  set f := (kd' j).ff with hf
  have h1 : f ⬝ᵥ (kd' j).q.du = -(f ⬝ᵥ (kd' j).q.dudu *ᵥ f) - rho * (f ⬝ᵥ f) := by
    have := congrArg (fun v => f ⬝ᵥ v) e3
    simp only [add_mulVec, dotProduct_add, smul_mulVec, one_mulVec, dotProduct_smul, smul_eq_mul,
      dotProduct_neg] at this
    linarith
  have ht : predicted (kd' j).delta.1 (kd' j).delta.2 alpha
      = alpha * ((1 - alpha / 2) * (f ⬝ᵥ (kd' j).q.dudu *ᵥ f + rho * (f ⬝ᵥ f)) + alpha / 2 * (rho * (f ⬝ᵥ f))) := by
    simp only [predicted, st.ctg.2.1, ← hf, h1]
    ring
  have hff : 0 ≤ f ⬝ᵥ f := Finset.sum_nonneg fun i _ => mul_self_nonneg _
  by_cases h0 : f = 0
  · rw [ht, h0]; simp
  · have hpd := e1 f h0
    simp only [add_mulVec, dotProduct_add, smul_mulVec, one_mulVec, dotProduct_smul, smul_eq_mul] at hpd
    have hpos : 0 < predicted (kd' j).delta.1 (kd' j).delta.2 alpha := by
      rw [ht]
      have h2 : 0 < 1 - alpha / 2 := by linarith
      have h3 := mul_pos h2 hpd
      have h4 : 0 ≤ alpha / 2 * (rho * (f ⬝ᵥ f)) := mul_nonneg (by linarith) (mul_nonneg hr hff)
      exact mul_pos ha (by linarith)
    exact ⟨hpos.le, fun h => absurd h hpos.ne', fun h => absurd h h0⟩

theorem stopped_symm {rho : K} {kd kd' : ℕ → KP n m K} {k : ℕ} (h : Stopped (alKernel p) rho kd kd' k)
    (hx : ∀ j < p.N, (kd j).cost.dxdx.IsSymm) (hu : ∀ j < p.N, (kd j).cost.dudu.IsSymm) (hs : (kd p.N).Sxx.IsSymm) :
    ∀ j, k < j → j ≤ p.N → (kd' j).Sxx.IsSymm := by
  have key : ∀ i j, j + i = p.N → k < j → (kd' j).Sxx.IsSymm := by
    intro i
    induction i with
    | zero =>
      intro j hj _
      obtain rfl : j = p.N := by omega
      rw [h.keeps p.N le_rfl]
      exact hs
    | succ i ih =>
      intro j hj hk
      have hjN : j < p.N := by omega
      have t := h.done j hk hjN
      have st : StepOk (kd j) (kd' (j + 1)) (kd' j) rho := ⟨t.1, t.2⟩
      exact st.Sxx_symm (hx j hjN) (hu j hjN) (ih (j + 1) (by omega) (by omega))
  exact fun j h1 h2 => key (p.N - j) j (by omega) h1

/-- The improvement predicted by the segments a stopped sweep has treated. -/
theorem stopped_predicted {rho : K} (hr : 0 ≤ rho) {kd kd' : ℕ → KP n m K} {k : ℕ} (h : Stopped (alKernel p) rho kd kd' k)
    (hx : ∀ j < p.N, (kd j).cost.dxdx.IsSymm) (hu : ∀ j < p.N, (kd j).cost.dudu.IsSymm) (hs : (kd p.N).Sxx.IsSymm) {alpha : K}
    (ha : 0 < alpha) (ha1 : alpha ≤ 1) :
    0 ≤ predicted (Attempt.lin (alKernel p) ⟨rho, kd', k⟩) (Attempt.quad (alKernel p) ⟨rho, kd', k⟩) alpha ∧
      (predicted (Attempt.lin (alKernel p) ⟨rho, kd', k⟩) (Attempt.quad (alKernel p) ⟨rho, kd', k⟩) alpha = 0 ↔
        ∀ j, k < j → j < p.N → (kd' j).ff = 0) := by
  have e : predicted (Attempt.lin (alKernel p) ⟨rho, kd', k⟩) (Attempt.quad (alKernel p) ⟨rho, kd', k⟩) alpha
      = ∑ j ∈ Finset.Ioo k p.N, predicted (kd' j).delta.1 (kd' j).delta.2 alpha := by
    unfold predicted Attempt.lin Attempt.quad
    rw [← Finset.mul_sum, Finset.sum_add_distrib, ← Finset.mul_sum]
    rfl
  have hj : ∀ j ∈ Finset.Ioo k p.N, 0 ≤ predicted (kd' j).delta.1 (kd' j).delta.2 alpha ∧
      (predicted (kd' j).delta.1 (kd' j).delta.2 alpha = 0 ↔ (kd' j).ff = 0) := by
    intro j hj
    rw [Finset.mem_Ioo] at hj
    exact treated_predicted p hr (h.done j hj.1 hj.2) (hx j hj.2) (hu j hj.2)
      (stopped_symm p h hx hu hs (j + 1) (by omega) (by omega)) ha ha1
  rw [e]
  refine ⟨Finset.sum_nonneg fun j h => (hj j h).1, ?_⟩
  rw [Finset.sum_eq_zero_iff_of_nonneg fun j h => (hj j h).1]
  exact ⟨fun h j h1 h2 => (hj j (Finset.mem_Ioo.mpr ⟨h1, h2⟩)).2.mp (h j (Finset.mem_Ioo.mpr ⟨h1, h2⟩)),
    fun h j hm => (hj j hm).2.mpr (h j (Finset.mem_Ioo.mp hm).1 (Finset.mem_Ioo.mp hm).2)⟩

theorem stops_predicted {kd kd' : ℕ → KP n m K} {l : List (Attempt K (KP n m K))} (h : Stops (alKernel p) kd l kd')
    (hl : ∀ a ∈ l, 0 ≤ a.rho)
    (hx : ∀ j < p.N, (kd j).cost.dxdx.IsSymm) (hu : ∀ j < p.N, (kd j).cost.dudu.IsSymm) (hs : (kd p.N).Sxx.IsSymm) {alpha : K}
    (ha : 0 < alpha) (ha1 : alpha ≤ 1) :
    0 ≤ predicted (l.map (Attempt.lin (alKernel p))).sum (l.map (Attempt.quad (alKernel p))).sum alpha ∧
      (predicted (l.map (Attempt.lin (alKernel p))).sum (l.map (Attempt.quad (alKernel p))).sum alpha = 0 ↔
        ∀ a ∈ l, ∀ j, a.stop < j → j < p.N → (a.kd j).ff = 0) := by
  induction h with
  | nil kd => simp [predicted]
  | @cons kd a l kd' st hst ih =>
    obtain ⟨i1, i2⟩ := ih (fun b hb => hl b (List.mem_cons_of_mem _ hb))
      (fun j hj => by rw [stopped_cost p st]; exact hx j hj) (fun j hj => by rw [stopped_cost p st]; exact hu j hj)
      (by rw [st.keeps p.N le_rfl]; exact hs)
    obtain ⟨a1, a2⟩ := stopped_predicted p (hl a List.mem_cons_self) st hx hu hs ha ha1
    have e : predicted ((a :: l).map (Attempt.lin (alKernel p))).sum ((a :: l).map (Attempt.quad (alKernel p))).sum alpha
        = predicted (Attempt.lin (alKernel p) a) (Attempt.quad (alKernel p) a) alpha
          + predicted (l.map (Attempt.lin (alKernel p))).sum (l.map (Attempt.quad (alKernel p))).sum alpha := by
      simp only [List.map_cons, List.sum_cons, predicted]
      ring
    rw [e]
    refine ⟨add_nonneg a1 i1, ?_⟩
    rw [add_eq_zero_iff_of_nonneg a1 i1, a2, i2]
    simp

/-- **C22, exactly.**  For the solver's own kernel: the improvement the line search expects of a step is never less than the one
predicted by the policy that is used, and it is equal to it if and only if all feedforward terms computed by the stopped sweeps
of this backward pass were zero.  In particular it is correct when every stopped sweep failed at the last segment, and too large
otherwise, except at stationary points. -/
theorem C22_exact_iff (fuel : ℕ) (s s' : St (Fin n → K) (Fin m → K) K (ALCost n m K) (KP n m K))
    (h : backwardPass (alKernel p) o fuel s = some s')
    (hs : s.status ≠ .kBackwardPassRegularizationFailed) (hs' : s'.status ≠ .kBackwardPassRegularizationFailed)
    (hr : 0 ≤ s.rho) (hmin : 0 ≤ o.regMin) (hmax : 0 ≤ o.regMax)
    (hx : ∀ k ≤ p.N, (s.kd k).cost.dxdx.IsSymm) (hu : ∀ k < p.N, (s.kd k).cost.dudu.IsSymm) :
    ∃ l kd1 rho, Stops (alKernel p) (upd s.kd p.N ((alKernel p).term (s.kd p.N))) l kd1 ∧
      Complete (alKernel p) rho kd1 s'.kd ∧
      ∀ alpha, 0 < alpha → alpha ≤ 1 →
        predicted (policyLin (alKernel p) s'.kd) (policyQuad (alKernel p) s'.kd) alpha ≤ predicted s'.dV0 s'.dV1 alpha ∧
        (predicted s'.dV0 s'.dV1 alpha = predicted (policyLin (alKernel p) s'.kd) (policyQuad (alKernel p) s'.kd) alpha ↔
          ∀ a ∈ l, ∀ j, a.stop < j → j < p.N → (a.kd j).ff = 0) := by
  unfold backwardPass at h
  split at h
  · cases h
  · rename_i s1 hb
    obtain ⟨l, kd1, hl, hst, ⟨_, _, c, d0, d1⟩ | ⟨e, _⟩⟩ := bpLoop_sweeps (alKernel p) o (fun r => 0 ≤ r)
      (fun s _ => by
        show 0 ≤ Arith.smin (Arith.smax (s.rho * Arith.smax (s.drho * o.regFactor) o.regFactor) o.regMin) o.regMax
        simp only [Arith.smax_eq, Arith.smin_eq]
        exact le_min (le_max_of_le_right hmin) hmax) fuel 0
      { s with kd := upd s.kd p.N ((alKernel p).term (s.kd p.N)), dV0 := 0, dV1 := 0 } s1 hs hr hb
    · rw [← Option.some.inj h]
      refine ⟨l, kd1, s1.rho, hst, c, fun alpha ha ha1 => ?_⟩
      have hx' : ∀ j < p.N, (upd s.kd p.N ((alKernel p).term (s.kd p.N)) j).cost.dxdx.IsSymm := fun j hj => by
        rw [upd_of_ne (by omega)]; exact hx j hj.le
      have hu' : ∀ j < p.N, (upd s.kd p.N ((alKernel p).term (s.kd p.N)) j).cost.dudu.IsSymm := fun j hj => by
        rw [upd_of_ne (by omega)]; exact hu j hj
      obtain ⟨q1, q2⟩ := stops_predicted p hst hl hx' hu' (by
        show (upd s.kd p.N ((alKernel p).term (s.kd p.N)) p.N).Sxx.IsSymm
        rw [upd_self]; exact hx p.N le_rfl) ha ha1
      have e : predicted s1.dV0 s1.dV1 alpha
          = predicted (l.map (Attempt.lin (alKernel p))).sum (l.map (Attempt.quad (alKernel p))).sum alpha
            + predicted (policyLin (alKernel p) s1.kd) (policyQuad (alKernel p) s1.kd) alpha := by
        rw [d0, d1]
        simp only [predicted]
        ring
      have e' : predicted (policyLin (alKernel p) s1.kd) (policyQuad (alKernel p) s1.kd) alpha ≤ predicted s1.dV0 s1.dV1 alpha ∧
        (predicted s1.dV0 s1.dV1 alpha = predicted (policyLin (alKernel p) s1.kd) (policyQuad (alKernel p) s1.kd) alpha ↔
          ∀ a ∈ l, ∀ j, a.stop < j → j < p.N → (a.kd j).ff = 0) := by
        rw [e, ← q2]
        exact ⟨by linarith, ⟨fun h => by linarith, fun h => by linarith⟩⟩
      exact e'
    · rw [← Option.some.inj h] at hs'
      exact absurd e hs'

/-! A concrete case: `x' = x + u`, two segments, the first control has weight -3.  The sweeps with regularization 0 and 1 stop
at segment 0, the one with 4 gets through. -/

section example22

def dipProblem : DynProblem 1 1 ℚ where
  N := 2
  x0 := ![0]
  f _ x u _ _ := x + u
  jac _ _ _ _ _ := (1, 1)
  normX x := |x 0|
  normU u := |u 0|

def dipKnot (r q g : ℚ) : KP 1 1 ℚ :=
  { KP.new with
    cost := { dxdx := !![q], dxdu := 0, dudu := !![r], dx := ![g], du := 0 }
    A := 1
    B := 1 }

def dipState : St (Fin 1 → ℚ) (Fin 1 → ℚ) ℚ (ALCost 1 1 ℚ) (KP 1 1 ℚ) where
  Z := { x := fun _ => 0, u := fun _ => 0, t := fun _ => 0, h := fun _ => 1 }
  Zbar := { x := fun _ => 0, u := fun _ => 0, t := fun _ => 0, h := fun _ => 1 }
  kd := fun k => if k = 0 then dipKnot (-3) 0 0 else if k = 1 then dipKnot 1 0 0 else dipKnot 0 1 1
  cs := fun _ => ALCost.new ⟨fun _ _ => 0, fun _ _ => (0, 0), fun _ _ => ⟨0, 0, 0⟩⟩ [] []
  costs := fun _ => 0
  status := .kUnsolved
  rho := 0
  drho := 0
  dV0 := 0
  dV1 := 0
  stats := Stats.new

theorem dip_result : ((backwardPass (alKernel dipProblem) scalarOpts 3 dipState).map fun s =>
    (s.status, s.dV0 - policyLin (alKernel dipProblem) s.kd)) = some (.kUnsolved, -1 / 2 - 1 / 3) := by decide +kernel

/-- The stopped sweeps leave `-1/2` and `-1/3` in the linear part: the line search expects more than the policy predicts. -/
example : ∃ s', backwardPass (alKernel dipProblem) scalarOpts 3 dipState = some s' ∧
    s'.dV0 = -1 / 2 - 1 / 3 + policyLin (alKernel dipProblem) s'.kd ∧
    ∃ l kd1 rho, Stops (alKernel dipProblem) (upd dipState.kd 2 ((alKernel dipProblem).term (dipState.kd 2))) l kd1 ∧
      Complete (alKernel dipProblem) rho kd1 s'.kd ∧
      ∀ alpha : ℚ, 0 < alpha → alpha ≤ 1 →
        predicted (policyLin (alKernel dipProblem) s'.kd) (policyQuad (alKernel dipProblem) s'.kd) alpha
          ≤ predicted s'.dV0 s'.dV1 alpha ∧
        (predicted s'.dV0 s'.dV1 alpha
            = predicted (policyLin (alKernel dipProblem) s'.kd) (policyQuad (alKernel dipProblem) s'.kd) alpha ↔
          ∀ a ∈ l, ∀ j, a.stop < j → j < 2 → (a.kd j).ff = 0) := by
  have h := dip_result
  cases hb : backwardPass (alKernel dipProblem) scalarOpts 3 dipState with
  | none => rw [hb] at h; cases h
  | some s' =>
    rw [hb] at h
    simp only [Option.map_some, Option.some.injEq, Prod.mk.injEq] at h
    refine ⟨s', rfl, by linarith [h.2], C22_exact_iff dipProblem scalarOpts 3 dipState s' hb (by decide) (by rw [h.1]; decide)
      le_rfl (by decide +kernel) (by decide +kernel) (fun k hk => ?_) (fun k hk => ?_)⟩
    · have hk : k ≤ 2 := hk
      ext i j
      fin_cases i; fin_cases j; rfl
    · ext i j
      fin_cases i; fin_cases j; rfl

end example22

end concrete

end Altro.Props
