import Verif.Props.ILQRExamples
import Mathlib.Algebra.Order.Archimedean.Basic

/-!
# C21-C23, C25, C26: backward pass and recorded statistics, including the claims that fail
-/

namespace Altro.Props
open Altro.Spec Altro.ILQR
variable {X U F C D : Type} [Arith F]
variable (P : Kernel X U F C D) (o : Opts F)

/-! ## C21: termination of the backward pass -/

/-- More rounds do not change a finished backward loop. -/
theorem bpLoop_mono (fuel count : ℕ) (s s' : St X U F C D) (h : bpLoop P o fuel count s = some s') (k : ℕ) :
    bpLoop P o (fuel + k) count s = some s' := by
  induction fuel generalizing count s with
  | zero => simp [bpLoop] at h
  | succ fuel ih =>
    rw [Nat.succ_add_eq_add_succ, Nat.add_succ]
    unfold bpLoop at h ⊢
    extract_lets r s1 s2 count' at h ⊢
    split at h
    · rename_i hr
      rw [if_pos hr]
      split at h
      · rename_i hN; rw [if_pos hN]; exact ih _ _ h
      · rename_i hN; rw [if_neg hN]; exact h
    · rename_i hr
      rw [if_neg hr]
      split at h
      · rename_i hc; rw [if_pos hc]; exact h
      · rename_i hc; rw [if_neg hc]; exact ih _ _ h

/-- **C21.**  The number of rounds the model allows does not influence the result: two finished runs agree. -/
theorem C21_result_unique (f1 f2 : ℕ) (s a b : St X U F C D) (h1 : backwardPass P o f1 s = some a)
    (h2 : backwardPass P o f2 s = some b) : a = b := by
  have key : ∀ f, ∀ a', backwardPass P o f s = some a' → ∀ k, backwardPass P o (f + k) s = some a' := by
    intro f a' h k
    unfold backwardPass at h ⊢
    split at h
    · cases h
    · rename_i s1 hs1
      rw [bpLoop_mono P o _ _ _ _ hs1 k]; exact h
  have e1 := key f1 a h1 f2
  have e2 := key f2 b h2 f1
  rw [Nat.add_comm, e1] at e2
  exact Option.some.inj e2

/-- **C21 fails for `N = 0`.**  Without segments the loop never ends, in any arithmetic. -/
theorem C21_no_segments_diverges (hN : P.N = 0) (fuel : ℕ) (s : St X U F C D) : backwardPass P o fuel s = none := by
  have key : ∀ fuel count (s : St X U F C D), bpLoop P o fuel count s = none := by
    intro fuel
    induction fuel with
    | zero => intro _ _; rfl
    | succ fuel ih =>
      intro count s
      unfold bpLoop
      extract_lets r s1 s2 count'
      have hr : r.2 = true := by
        show (bpSweep P s.rho P.N s.kd (s.dV0, s.dV1)).2 = true
        rw [hN]; rfl
      rw [if_pos hr, if_pos hN]
      exact ih _ _
  unfold backwardPass
  rw [key]

section field
variable {K : Type} [Field K] [LinearOrder K] [IsStrictOrderedRing K]

/-- **C21 fails for `bp_reg_min = 0`.**  If the factorization at the last segment keeps failing and the regularization is
zero, multiplying it never raises it and the loop never ends. -/
theorem C21_zero_regularization_diverges (P : Kernel X U K C D) (o : Opts K) (hN : 0 < P.N)
    (hfail : ∀ d, (P.gains d).2 = false) (hmin : o.regMin = 0) (hmax : 0 < o.regMax)
    (hthr : 0 < o.regFailThreshold) (fuel : ℕ) (s : St X U K C D) (hs : s.rho = 0) :
    backwardPass P o fuel s = none := by
  have key : ∀ fuel (s : St X U K C D), s.rho = 0 → bpLoop P o fuel 0 s = none := by
    intro fuel
    induction fuel with
    | zero => intro _ _; rfl
    | succ fuel ih =>
      intro s hs
      unfold bpLoop
      extract_lets r s1 s2 count'
      have hr : r.2 = false := by
        show (bpSweep P s.rho P.N s.kd (s.dV0, s.dV1)).2 = false
        obtain ⟨n, hn⟩ : ∃ n, P.N = n + 1 := ⟨P.N - 1, by omega⟩
        rw [hn]; simp [bpSweep, hfail]
      have hrho : s2.rho = 0 := by
        show Arith.smin (Arith.smax (s.rho * _) o.regMin) o.regMax = 0
        rw [hs, hmin]; simp [hmax.le]
      have hc : count' = 0 := by
        show (if Arith.ge s2.rho o.regMax = true then 0 + 1 else 0) = 0
        rw [hrho]; simp [hmax]
      rw [if_neg (by simp [hr]), hc, if_neg (by simpa using hthr)]
      exact ih _ hrho
  unfold backwardPass
  rw [key]
  exact hs

/-- Once the regularization is at its maximum every further failure is counted. -/
theorem bpLoop_at_max (P : Kernel X U K C D) (o : Opts K) (hN : 0 < P.N) (hf : 1 ≤ o.regFactor)
    (h0 : 0 ≤ o.regMax) (fuel count : ℕ) (s : St X U K C D)
    (hs : o.regMax ≤ s.rho) (hfuel : o.regFailThreshold - count < fuel) (hpos : 0 < fuel) :
    bpLoop P o fuel count s ≠ none := by
  induction fuel generalizing count s with
  | zero => omega
  | succ fuel ih =>
    unfold bpLoop
    extract_lets r s1 s2 count'
    have hrho : s2.rho = o.regMax := by
      show Arith.smin (Arith.smax (s.rho * Arith.smax (s.drho * o.regFactor) o.regFactor) o.regMin) o.regMax = _
      simp only [Arith.smax_eq, Arith.smin_eq]
      refine min_eq_right (le_max_of_le_left ?_)
      calc o.regMax ≤ s.rho * 1 := by rw [mul_one]; exact hs
        _ ≤ s.rho * max (s.drho * o.regFactor) o.regFactor :=
          mul_le_mul_of_nonneg_left (le_max_of_le_right hf) (h0.trans hs)
    have hc : count' = count + 1 := if_pos (by rw [hrho]; simp)
    split
    · rw [if_neg (by omega)]; simp
    · split
      · simp
      · rename_i hlt
        rw [hc] at hlt ⊢
        have : (count : ℤ) + 1 < o.regFailThreshold := by push_cast at hlt; omega
        refine ih _ _ (by rw [hrho]) ?_ ?_ <;> push_cast <;> omega

/-- While the regularization is below its maximum every failure multiplies it by at least the factor. -/
theorem bpLoop_below_max (P : Kernel X U K C D) (o : Opts K) (hN : 0 < P.N) (hf : 1 ≤ o.regFactor)
    (h0 : 0 ≤ o.regMax) (j fuel count : ℕ) (s : St X U K C D) (hs0 : 0 ≤ s.rho)
    (hs : o.regMax ≤ s.rho * o.regFactor ^ j) (hfuel : j + o.regFailThreshold.toNat + 1 ≤ fuel) :
    bpLoop P o fuel count s ≠ none := by
  induction j generalizing fuel count s with
  | zero => exact bpLoop_at_max P o hN hf h0 fuel count s (by simpa using hs) (by omega) (by omega)
  | succ j ih =>
    obtain ⟨fuel, rfl⟩ : ∃ n, fuel = n + 1 := ⟨fuel - 1, by omega⟩
    unfold bpLoop
    extract_lets r s1 s2 count'
    have hfac : (0 : K) < o.regFactor := lt_of_lt_of_le one_pos hf
    have hstep : min (s.rho * o.regFactor) o.regMax ≤ s2.rho := by
      show _ ≤ Arith.smin (Arith.smax (s.rho * Arith.smax (s.drho * o.regFactor) o.regFactor) o.regMin) o.regMax
      simp only [Arith.smax_eq, Arith.smin_eq]
      exact min_le_min (le_max_of_le_left (mul_le_mul_of_nonneg_left (le_max_right _ _) hs0)) le_rfl
    split
    · rw [if_neg (by omega)]; simp
    · split
      · simp
      · refine ih _ _ _ ?_ ?_ (by omega)
        · exact (le_min (mul_nonneg hs0 hfac.le) h0).trans hstep
        · have hpow : (1 : K) ≤ o.regFactor ^ j := one_le_pow₀ hf
          rcases le_total (s.rho * o.regFactor) o.regMax with hle | hle
          · rw [min_eq_left hle] at hstep
            calc o.regMax ≤ s.rho * o.regFactor ^ (j + 1) := hs
              _ = s.rho * o.regFactor * o.regFactor ^ j := by ring
              _ ≤ s2.rho * o.regFactor ^ j := mul_le_mul_of_nonneg_right hstep (by positivity)
          · rw [min_eq_right hle] at hstep
            calc o.regMax = o.regMax * 1 := (mul_one _).symm
              _ ≤ s2.rho * o.regFactor ^ j := mul_le_mul hstep hpow zero_le_one (h0.trans hstep)

/-- **C21, explicit bound.**  With at least one segment, `0 < bp_reg_min <= bp_reg_max` and a factor of at least one
whose `j`-th power spans the range, the backward pass ends within `j + threshold + 2` rounds, whatever the
factorizations do.  Missing for the full claim: the divergent settings `N = 0` and `bp_reg_min = 0` above, and a factor
of one with `bp_reg_min < bp_reg_max`. -/
theorem C21_terminates_bound_partial (P : Kernel X U K C D) (o : Opts K) (hN : 0 < P.N) (hf : 1 ≤ o.regFactor)
    (hmin : 0 < o.regMin) (hmax : o.regMin ≤ o.regMax) (j : ℕ) (hj : o.regMax ≤ o.regMin * o.regFactor ^ j)
    (s : St X U K C D) : backwardPass P o (j + o.regFailThreshold.toNat + 2) s ≠ none := by
  have h0 : 0 ≤ o.regMax := hmin.le.trans hmax
  have key : ∀ s : St X U K C D, bpLoop P o (j + o.regFailThreshold.toNat + 2) 0 s ≠ none := by
    intro s
    unfold bpLoop
    extract_lets r s1 s2 count'
    have hstep : o.regMin ≤ s2.rho := by
      show _ ≤ Arith.smin (Arith.smax (s.rho * Arith.smax (s.drho * o.regFactor) o.regFactor) o.regMin) o.regMax
      simp only [Arith.smax_eq, Arith.smin_eq]
      exact le_min (le_max_right _ _) hmax
    split
    · rw [if_neg (by omega)]; simp
    · split
      · simp
      · refine bpLoop_below_max P o hN hf h0 j _ _ s2 (hmin.le.trans hstep) ?_ (by omega)
        exact hj.trans (mul_le_mul_of_nonneg_right hstep (by positivity))
  unfold backwardPass
  split
  · rename_i h; exact absurd h (key _)
  · simp

/-- **C21.**  With at least one segment, `0 < bp_reg_min <= bp_reg_max` and a factor above one (the defaults satisfy
all three) the backward pass always ends. -/
theorem C21_terminates_partial [Archimedean K] (P : Kernel X U K C D) (o : Opts K) (hN : 0 < P.N)
    (hf : 1 < o.regFactor) (hmin : 0 < o.regMin) (hmax : o.regMin ≤ o.regMax) :
    ∃ fuel, ∀ s : St X U K C D, backwardPass P o fuel s ≠ none := by
  obtain ⟨j, hj⟩ := pow_unbounded_of_one_lt (o.regMax / o.regMin) hf
  refine ⟨_, fun s => C21_terminates_bound_partial P o hN hf.le hmin hmax j ?_ s⟩
  rw [div_lt_iff₀ hmin] at hj
  rw [mul_comm]; exact hj.le

/-- **C21.**  Hence the whole solve returns. -/
theorem C21_solve_returns_partial [Archimedean K] (P : Kernel X U K C D) (o : Opts K) (hN : 0 < P.N)
    (hf : 1 < o.regFactor) (hmin : 0 < o.regMin) (hmax : o.regMin ≤ o.regMax) :
    ∃ fuel, ∀ s : St X U K C D, solve P o fuel s ≠ none := by
  obtain ⟨fuel, h⟩ := C21_terminates_partial P o hN hf hmin hmax
  refine ⟨fuel, fun s => ?_⟩
  unfold solve
  generalize start P o s = a
  generalize o.maxInner.toNat = r
  induction r generalizing a with
  | zero => simp [solveLoop]
  | succ r ih =>
    unfold solveLoop
    split
    · rename_i hn
      unfold iterate at hn
      split at hn
      · rename_i hb; exact absurd hb (h _)
      · cases hn
    · simp only
      split
      · simp
      · exact ih _

end field

/-- A problem whose control Hessian is too negative for any allowed regularization. -/
abbrev hopelessK : Kernel ℚ ℚ ℚ Unit SD := scalarKernel 2 0 1 1 1 (fun _ => -20)

/-- The hypotheses of the termination theorem hold for the example options, also when every factorization fails. -/
example : backwardPass hopelessK scalarOpts (3 + 2 + 2) scalarState ≠ none :=
  C21_terminates_bound_partial hopelessK scalarOpts (by decide) (by decide +kernel) (by decide +kernel)
    (by decide +kernel) 3 (by decide +kernel) scalarState

/-- The two divergence theorems apply to concrete problems: no segments, or a failing factorization without minimal
regularization. -/
example (fuel : ℕ) : backwardPass (scalarKernel 0 1 1 1 1 fun _ => 1) scalarOpts fuel scalarState = none :=
  C21_no_segments_diverges _ _ rfl fuel scalarState

example (fuel : ℕ) :
    backwardPass { hopelessK with gains := fun d => (d, false) } { scalarOpts with regMin := 0 } fuel scalarState
      = none :=
  C21_zero_regularization_diverges _ _ (by decide) (fun _ => rfl) rfl (by decide +kernel) (by decide) fuel _ rfl

/-! ## C22: expected decrease -/

/-- Sum of the predicted changes of the stored policies at knot points `0..k-1`, from the last to the first. -/
def deltaSum (P : Kernel X U F C D) (kd : ℕ → D) : ℕ → F × F → F × F
  | 0, acc => acc
  | k + 1, acc => deltaSum P kd k (acc.1 + (P.delta (kd k)).1, acc.2 + (P.delta (kd k)).2)

theorem deltaSum_congr (P : Kernel X U F C D) (kd kd' : ℕ → D) (k : ℕ) (acc : F × F) (h : ∀ j < k, kd j = kd' j) :
    deltaSum P kd k acc = deltaSum P kd' k acc := by
  induction k generalizing acc with
  | zero => rfl
  | succ k ih =>
    simp only [deltaSum]
    rw [h k (by omega), ih _ fun j hj => h j (by omega)]

theorem bpSweep_deltas (rho : F) (k : ℕ) (kd : ℕ → D) (dV : F × F) (h : (bpSweep P rho k kd dV).2 = true) :
    (bpSweep P rho k kd dV).1.2 = deltaSum P (bpSweep P rho k kd dV).1.1 k dV ∧
    ∀ j, k ≤ j → (bpSweep P rho k kd dV).1.1 j = kd j := by
  induction k generalizing kd dV with
  | zero => exact ⟨rfl, fun _ _ => rfl⟩
  | succ k ih =>
    unfold bpSweep at h ⊢
    extract_lets g d at h ⊢
    split at h
    · rename_i hg
      rw [if_pos hg]
      obtain ⟨i1, i2⟩ := ih _ _ h
      refine ⟨?_, fun j hj => ?_⟩
      · rw [i1]
        simp only [deltaSum]
        have : (bpSweep P rho k (upd kd k d) (dV.1 + (P.delta d).1, dV.2 + (P.delta d).2)).1.1 k = d := by
          rw [i2 k le_rfl, upd_self]
        rw [this]
      · rw [i2 j (by omega), upd_of_ne (by omega)]
    · cases h

/-- **C22 (partial).**  If the first sweep of a backward pass succeeds, the stored expected decrease is the sum of the
predicted changes of the stored policies.  Missing for the full claim: passes with a failed factorization, where the
code keeps the contributions of the aborted sweeps (`C22_counterexample`). -/
theorem C22_expected_decrease_partial (fuel : ℕ) (s s' : St X U F C D)
    (h : backwardPass P o (fuel + 1) s = some s') (hN : P.N ≠ 0)
    (hok : (bpSweep P s.rho P.N (upd s.kd P.N (P.term (s.kd P.N))) (0, 0)).2 = true) :
    (s'.dV0, s'.dV1) = deltaSum P s'.kd P.N (0, 0) := by
  unfold backwardPass bpLoop at h
  extract_lets r s1 s2 count' at h
  have hr : r.2 = true := hok
  rw [if_pos hr, if_neg hN] at h
  simp only at h
  injection h with h
  subst h
  exact (bpSweep_deltas P s.rho P.N _ (0, 0) hok).1

/-- The first sweep succeeds for the convex problem, so the hypotheses above are satisfiable; the prediction is not
zero. -/
example : ∃ s', backwardPass convexK scalarOpts 1 (updateExpansions convexK (start convexK scalarOpts scalarState))
      = some s' ∧ (s'.dV0, s'.dV1) = deltaSum convexK s'.kd 2 (0, 0) ∧ s'.dV0 = -7 / 5 := by
  have hd : ((backwardPass convexK scalarOpts 1
      (updateExpansions convexK (start convexK scalarOpts scalarState))).map fun s => s.dV0) = some (-7 / 5) := by
    decide +kernel
  cases hb : backwardPass convexK scalarOpts 1
      (updateExpansions convexK (start convexK scalarOpts scalarState)) with
  | none => rw [hb] at hd; cases hd
  | some s' =>
    rw [hb] at hd
    refine ⟨s', rfl, ?_, by simpa using hd⟩
    exact C22_expected_decrease_partial convexK scalarOpts 0 _ s' hb (by decide) (by decide +kernel)

/-- A problem whose first control needs regularization. -/
abbrev mixedK : Kernel ℚ ℚ ℚ Unit SD := scalarKernel 2 1 1 1 1 (fun k => if k = 0 then -3 else 1)

/-- **C22 is false.**  With a failed factorization the expected decrease also contains the contributions of the aborted
sweeps: the stored numbers differ from the sum over the policies that are used. -/
theorem C22_counterexample :
    ∃ s', backwardPass mixedK scalarOpts 5 (updateExpansions mixedK (start mixedK scalarOpts scalarState)) = some s' ∧
      s'.status = .kUnsolved ∧ (s'.dV0, s'.dV1) ≠ deltaSum mixedK s'.kd 2 (0, 0) := by
  have hd : ((backwardPass mixedK scalarOpts 5 (updateExpansions mixedK (start mixedK scalarOpts scalarState))).map
      fun s => (decide (s.status = .kUnsolved), decide ((s.dV0, s.dV1) = deltaSum mixedK s.kd 2 (0, 0))))
      = some (true, false) := by decide +kernel
  cases hb : backwardPass mixedK scalarOpts 5
      (updateExpansions mixedK (start mixedK scalarOpts scalarState)) with
  | none => rw [hb] at hd; cases hd
  | some s' =>
    rw [hb] at hd
    simp only [Option.map_some, Option.some.injEq, Prod.mk.injEq, decide_eq_true_eq, decide_eq_false_iff_not] at hd
    exact ⟨s', rfl, hd.1, hd.2⟩

/-! ## C23: regularization failure -/

/-- **C23 is false.**  As soon as the line search may try a step, no solve ever ends with
`kBackwardPassRegularizationFailed`: the closed-loop rollout overwrites the status. -/
theorem C23_failure_never_reported (ol : OrderLaws F) (fuel : ℕ) (s s' : St X U F C D) (hls : 1 ≤ o.lsMax)
    (h : solve P o fuel s = some s') : s'.status ≠ .kBackwardPassRegularizationFailed := by
  by_cases hmax : 1 ≤ o.maxInner
  · have := (C19_status P o ol fuel s s' hmax h).1.cases
    rcases this with e | e | e | e | e | ⟨hl, e⟩
    · rw [e]; decide
    · rw [e]; decide
    · rw [e]; decide
    · rw [e]; decide
    · rw [e]; decide
    · omega
  · have : o.maxInner.toNat = 0 := by omega
    unfold solve at h
    rw [this] at h
    simp only [solveLoop] at h
    injection h with h
    subst h
    rw [(start_facts P o s).2.1]; decide

/-- **C23 is false, concretely.**  Every factorization of this problem fails, the backward pass gives up, and the solve
still reports `kSolved` (the initial controls are a stationary point that is not a minimum). -/
theorem C23_counterexample :
    (∃ s1, backwardPass hopelessK scalarOpts 9 (updateExpansions hopelessK (start hopelessK scalarOpts scalarState))
        = some s1 ∧ s1.status = .kBackwardPassRegularizationFailed) ∧
    ∃ s', solve hopelessK scalarOpts 9 scalarState = some s' ∧ s'.status = .kSolved := by
  constructor
  · have hd : ((backwardPass hopelessK scalarOpts 9
        (updateExpansions hopelessK (start hopelessK scalarOpts scalarState))).map fun s => s.status)
        = some .kBackwardPassRegularizationFailed := by decide +kernel
    cases hb : backwardPass hopelessK scalarOpts 9
        (updateExpansions hopelessK (start hopelessK scalarOpts scalarState)) with
    | none => rw [hb] at hd; cases hd
    | some s1 => rw [hb] at hd; exact ⟨s1, rfl, by simpa using hd⟩
  · have hd : ((solve hopelessK scalarOpts 9 scalarState).map fun s => s.status) = some .kSolved := by
      decide +kernel
    cases hb : solve hopelessK scalarOpts 9 scalarState with
    | none => rw [hb] at hd; cases hd
    | some s1 => rw [hb] at hd; exact ⟨s1, rfl, by simpa using hd⟩

/-- **C23 (partial).**  What does hold: with no line-search steps, a backward pass that gives up ends the solve in that
iteration, and the status is the failure unless the convergence or limit tests fire first.  Missing: every setting with
`line_search_max_iterations >= 1`, where the claim is false. -/
theorem C23_reported_without_line_search_partial (ol : OrderLaws F) (fuel r : ℕ) (s s1 s' : St X U F C D)
    (hls : o.lsMax ≤ 0) (hb : backwardPass P o fuel (updateExpansions P s) = some s1)
    (hfail : s1.status = .kBackwardPassRegularizationFailed)
    (h : solveLoop P o fuel (r + 1) s = some s') :
    s'.stats.inner = s.stats.inner + 1 ∧
    (s'.status = .kBackwardPassRegularizationFailed ∨ s'.status = .kSolved ∨ s'.status = .kMaxInnerIterations ∨
      s'.status = .kMaxIterations) := by
  have hit : iterate P o fuel s = some (updateConvergence P (forwardPass P o s1)) := by
    unfold iterate; rw [hb]
  have hst : (updateConvergence P (forwardPass P o s1)).status = .kBackwardPassRegularizationFailed := by
    rw [updateConvergence_status, forwardPass_eq P o ol]
    have : o.lsMax.toNat = 0 := by omega
    rw [this]
    simp [lineSearch, hfail]
  unfold solveLoop at h
  rw [hit] at h
  simp only at h
  have hd : (isDone o (updateConvergence P (forwardPass P o s1))).2 = true := by
    by_contra hne
    have := (isDone_false o _ (by simpa using hne)).2.1
    rw [hst] at this; cases this
  rw [if_pos hd] at h
  injection h with h
  subst h
  refine ⟨?_, ?_⟩
  · rw [isDone_frame]; exact (iterate_counters P o fuel s _ hit).1
  · rcases (isDone_meaning o _ (.inr (.inr (.inr ⟨hls, hst⟩))) hd).cases with e | e | e | e | e | ⟨_, e⟩
    · exact .inr (.inl e)
    · exact .inr (.inr (.inl e))
    · exact .inr (.inr (.inr e))
    · exfalso
      unfold isDone at e
      split at e
      · cases e
      · split at e
        · cases e
        · split at e
          · cases e
          · simp only at e; rw [hst] at e; cases e
    · exfalso
      unfold isDone at e
      split at e
      · cases e
      · split at e
        · cases e
        · split at e
          · cases e
          · simp only at e; rw [hst] at e; cases e
    · exact .inl e

example : ((solve hopelessK { scalarOpts with lsMax := 0, gradTol := -1 } 9 scalarState).map fun s => s.status)
    = some .kBackwardPassRegularizationFailed := by decide +kernel

end Altro.Props
