import Verif.Proofs.Solve
import Verif.Props.Stats

/-!
# C17-C20, C24: the iLQR solve

All theorems hold for every number type with the operations of `double` (`Arith F`), every problem and every option
setting, unless a hypothesis says otherwise.
-/

namespace Altro.Props
open Altro.Spec Altro.ILQR
variable {X U F C D : Type} [Arith F]
variable (P : Kernel X U F C D) (o : Opts F)

/-! ## C17: dynamic feasibility -/

/-- **C17.**  Whatever the initial guess, the trajectory after a solve obeys the dynamics from the initial state,
and its times and steps are the user's. -/
theorem C17_dynamically_feasible (fuel : ℕ) (s s' : St X U F C D) (h : solve P o fuel s = some s') :
    DynFeasible P s'.Z ∧ SameTimes P s'.Z s.Z := by
  have key : DynFeasible P s'.Z ∧ SameTimes P s'.Z s.Z ∧ SameTimes P s'.Zbar s.Z := by
    refine solveLoop_inv P o (fun a => DynFeasible P a.Z ∧ SameTimes P a.Z s.Z ∧ SameTimes P a.Zbar s.Z) fuel
      ?_ (fun a st ha => ha) _ _ _ ?_ h
    · rintro a a' ⟨h1, h2, h3⟩ hit
      obtain ⟨b, hb, rfl⟩ := iterate_some P o hit
      obtain ⟨bZ, bZbar, -, -, -, -⟩ := backwardPass_frame P o _ _ _ hb
      rw [updateExpansions_Z] at bZ
      rw [updateExpansions_Zbar] at bZbar
      obtain ⟨-, -, -, ft, fh, ftraj, -, -, -, -⟩ := forwardPass_frame P o b
      simp only [updateConvergence_Z, updateConvergence_Zbar]
      have hbar : SameTimes P (forwardPass P o b).Zbar s.Z :=
        ⟨fun k hk => by rw [ft, bZbar]; exact h3.t k hk, fun k hk => by rw [fh, bZbar]; exact h3.h k hk⟩
      refine ⟨?_, ?_, hbar⟩
      · rcases ftraj with e | ⟨_, e⟩
        · rw [e, bZ]; exact h1
        · exact e
      · rcases ftraj with e | ⟨e, _⟩
        · rw [e, bZ]; exact h2
        · rw [e]; exact hbar
    · obtain ⟨e1, _, _, _, _, _, _, e2, _⟩ := start_facts P o s
      refine ⟨e1 ▸ rollout_feasible P s, ?_, e2⟩
      rw [e1]
      obtain ⟨_, r2, r3, _, _⟩ := rolloutTo_spec P s.Z P.N
      exact ⟨fun k _ => congrFun r2 k, fun k _ => congrFun r3 k⟩
  exact ⟨key.1, key.2.1⟩

/-- A dynamically feasible trajectory is determined by its controls, times and steps. -/
theorem dynFeasible_unique {P : Kernel X U F C D} {Z Z' : Traj X U F} (h : DynFeasible P Z)
    (h' : DynFeasible P Z') (hu : ∀ k < P.N, Z.u k = Z'.u k) (ht : SameTimes P Z Z') :
    ∀ k ≤ P.N, Z.x k = Z'.x k := by
  intro k
  induction k with
  | zero => intro _; rw [h.init, h'.init]
  | succ k ih =>
    intro hk
    rw [h.step k hk, h'.step k hk, ih (by omega), hu k hk, ht.t k (by omega), ht.h k hk]

/-! ## C18: the cost never increases -/

variable {P}

/-- **C18.**  One iteration either leaves the trajectory alone or strictly lowers its total cost. -/
theorem C18_iteration (L : CostLaw P) (ol : OrderLaws F) (fuel : ℕ) (s s' : St X U F C D)
    (h : iterate P o fuel s = some s') :
    s'.Z = s.Z ∨ Arith.lt (L.total s'.cs s'.Z) (L.total s.cs s.Z) = true := by
  obtain ⟨h1, h2⟩ := iterate_cost o L ol h
  rcases h2 with h2 | h2
  · exact .inl h2
  · right
    rw [total_congr L s'.cs s.cs s'.Z s'.Z (fun j _ => h1 j) (fun _ _ => rfl) (fun _ _ => rfl)]
    exact h2

/-- **C18.**  `initial_cost` is the cost of the trajectory simulated from the given controls, and the returned
trajectory costs the same or strictly less. -/
theorem C18_cost_never_increases (L : CostLaw P) (ol : OrderLaws F) (fuel : ℕ) (s s' : St X U F C D)
    (h : solve P o fuel s = some s') (Z0 : Traj X U F) (hZ0 : DynFeasible P Z0)
    (hu : ∀ k ≤ P.N, Z0.u k = s.Z.u k) (ht : SameTimes P Z0 s.Z) :
    s'.stats.initialCost = L.total s.cs Z0 ∧
    (L.total s.cs s'.Z = L.total s.cs Z0 ∨ Arith.lt (L.total s.cs s'.Z) (L.total s.cs Z0) = true) := by
  have hroll : L.total s.cs (rollout P s).Z = L.total s.cs Z0 := by
    obtain ⟨r1, r2, r3, _, _⟩ := rolloutTo_spec P s.Z P.N
    refine total_congr L _ _ _ _ (fun _ _ => rfl) ?_ ?_
    · refine dynFeasible_unique (rollout_feasible P s) hZ0 (fun k hk => ?_) ⟨fun k hk => ?_, fun k hk => ?_⟩
      · rw [hu k (by omega)]; exact congrFun r1 k
      · rw [ht.t k hk]; exact congrFun r2 k
      · rw [ht.h k hk]; exact congrFun r3 k
    · intro k hk; rw [hu k hk]; exact congrFun r1 k
  have key : (∀ j, L.inv (s'.cs j) = L.inv (s.cs j)) ∧ s'.stats.initialCost = L.total s.cs Z0 ∧
      (L.total s.cs s'.Z = L.total s.cs Z0 ∨ Arith.lt (L.total s.cs s'.Z) (L.total s.cs Z0) = true) := by
    refine solveLoop_inv P o (fun a => (∀ j, L.inv (a.cs j) = L.inv (s.cs j)) ∧
      a.stats.initialCost = L.total s.cs Z0 ∧
      (L.total s.cs a.Z = L.total s.cs Z0 ∨ Arith.lt (L.total s.cs a.Z) (L.total s.cs Z0) = true))
      fuel ?_ (fun a st ha => ha) _ _ _ ?_ h
    · rintro a a' ⟨i1, i2, i3⟩ hit
      obtain ⟨c1, c2⟩ := iterate_cost o L ol hit
      refine ⟨fun j => (c1 j).trans (i1 j), ?_, ?_⟩
      · obtain ⟨b, hb, rfl⟩ := iterate_some P o hit
        obtain ⟨-, -, -, -, ⟨r, hst⟩, -⟩ := backwardPass_frame P o _ _ _ hb
        rw [(updateConvergence_counters P _).2.2.2, (forwardPass_frame P o b).initialCost, hst,
          (log_counters _ _ _).2.2.2, updateExpansions_stats]
        exact i2
      · rcases c2 with c2 | c2
        · rw [c2]; exact i3
        · right
          have e : ∀ Z, L.total a.cs Z = L.total s.cs Z := fun Z =>
            total_congr L _ _ _ _ (fun j _ => i1 j) (fun _ _ => rfl) (fun _ _ => rfl)
          rw [e, e] at c2
          rcases i3 with i3 | i3
          · rw [i3] at c2; exact c2
          · exact ol.trans _ _ _ c2 i3
    · unfold start
      extract_lets s1 c
      obtain ⟨l1, l2⟩ := cost_law L s1.Z s1
      have e : c.2.Z = (rollout P s).Z := cost_Z ..
      refine ⟨l2, ?_, .inl ?_⟩
      · rw [← hroll]; exact l1
      · show L.total s.cs c.2.Z = _
        rw [e]; exact hroll
  exact key.2

/-- **C18**, exact arithmetic: the returned cost is at most the cost of the initial rollout. -/
theorem C18_cost_le {K : Type} [Field K] [LinearOrder K] {P : Kernel X U K C D} (o : Opts K) (L : CostLaw P)
    (fuel : ℕ) (s s' : St X U K C D) (h : solve P o fuel s = some s') (Z0 : Traj X U K)
    (hZ0 : DynFeasible P Z0) (hu : ∀ k ≤ P.N, Z0.u k = s.Z.u k) (ht : SameTimes P Z0 s.Z) :
    L.total s.cs s'.Z ≤ L.total s.cs Z0 := by
  rcases (C18_cost_never_increases o L OrderLaws.ofField fuel s s' h Z0 hZ0 hu ht).2 with e | e
  · exact e.le
  · rw [Arith.lt_iff] at e; exact e.le

variable (P)

/-- Statuses an iteration can produce, given that it starts with `kUnsolved`. -/
theorem iterate_status (ol : OrderLaws F) (fuel : ℕ) (s s' : St X U F C D) (hs : s.status = .kUnsolved)
    (h : iterate P o fuel s = some s') :
    s'.status = .kUnsolved ∨ s'.status = .kStateLimit ∨ s'.status = .kControlLimit ∨
    (o.lsMax ≤ 0 ∧ s'.status = .kBackwardPassRegularizationFailed) := by
  obtain ⟨b, hb, rfl⟩ := iterate_some P o h
  obtain ⟨-, -, -, -, -, bst⟩ := backwardPass_frame P o _ _ _ hb
  rw [updateExpansions_status, hs] at bst
  rw [updateConvergence_status, forwardPass_eq P o ol]
  simp only
  have hst : ((if (lineSearch P o (costSum P b) o.lsMax.toNat 1 (costSum P b) b).2 = true then
      { (lineSearch P o (costSum P b) o.lsMax.toNat 1 (costSum P b) b).1.1 with
        Z := (lineSearch P o (costSum P b) o.lsMax.toNat 1 (costSum P b) b).1.1.Zbar }
      else increaseReg o (lineSearch P o (costSum P b) o.lsMax.toNat 1 (costSum P b) b).1.1)).status
      = (lineSearch P o (costSum P b) o.lsMax.toNat 1 (costSum P b) b).1.1.status := by
    split <;> rfl
  rw [hst]
  by_cases hl : o.lsMax ≤ 0
  · have : o.lsMax.toNat = 0 := by omega
    rw [this]
    simp only [lineSearch]
    rcases bst with e | e
    · exact .inl e
    · exact .inr (.inr (.inr ⟨hl, e⟩))
  · have hpos : o.lsMax.toNat ≠ 0 := by omega
    rcases lineSearch_status P o (costSum P b) o.lsMax.toNat 1 (costSum P b) b (fun h => absurd h hpos) with
      e | e | e
    · exact .inl e
    · exact .inr (.inl e)
    · exact .inr (.inr (.inl e))

/-! ## C19: what the status means -/

/-- The documented meaning of the status on return. -/
structure StatusMeaning (s' : St X U F C D) : Prop where
  solved_iff : s'.status = .kSolved ↔
    (Arith.lt (Stats.back (s'.stats.col .dJ)) o.costTol = true ∧
     Arith.lt (Stats.back (s'.stats.col .grad)) o.gradTol = true)
  inner_iff : s'.status = .kMaxInnerIterations ↔
    (s'.status ≠ .kSolved ∧ (s'.stats.inner : ℤ) ≥ o.maxInner)
  total_iff : s'.status = .kMaxIterations ↔
    (s'.status ≠ .kSolved ∧ (s'.stats.inner : ℤ) < o.maxInner ∧ (s'.stats.total : ℤ) ≥ o.maxTotal)
  cases : s'.status = .kSolved ∨ s'.status = .kMaxInnerIterations ∨ s'.status = .kMaxIterations ∨
    s'.status = .kStateLimit ∨ s'.status = .kControlLimit ∨
    (o.lsMax ≤ 0 ∧ s'.status = .kBackwardPassRegularizationFailed)

theorem isDone_meaning (s : St X U F C D)
    (hst : s.status = .kUnsolved ∨ s.status = .kStateLimit ∨ s.status = .kControlLimit ∨
      (o.lsMax ≤ 0 ∧ s.status = .kBackwardPassRegularizationFailed))
    (hd : (isDone o s).2 = true) : StatusMeaning o (isDone o s).1 := by
  have hf : (isDone o s).1.stats = s.stats := by rw [isDone_frame]
  unfold isDone at hd hf ⊢
  by_cases h1 : (Arith.lt (Stats.back (s.stats.col .dJ)) o.costTol &&
      Arith.lt (Stats.back (s.stats.col .grad)) o.gradTol) = true
  · simp only [h1, if_true]
    rw [Bool.and_eq_true] at h1
    exact ⟨by simp [h1], by simp, by simp, .inl rfl⟩
  · simp only [h1, if_false] at hd ⊢
    rw [Bool.and_eq_true] at h1
    by_cases h2 : (s.stats.inner : ℤ) ≥ o.maxInner
    · simp only [h2, if_true]
      exact ⟨by simpa using h1, by simp [h2], by simp; omega, .inr (.inl rfl)⟩
    · simp only [h2, if_false] at hd ⊢
      by_cases h3 : (s.stats.total : ℤ) ≥ o.maxTotal
      · simp only [h3, if_true]
        exact ⟨by simpa using h1, by simp; omega, by simp; omega, .inr (.inr (.inl rfl))⟩
      · simp only [h3, if_false] at hd ⊢
        have hne : s.status ≠ .kUnsolved := by simpa using hd
        rcases hst with e | e | e | ⟨e', e⟩
        · exact absurd e hne
        · exact ⟨by simpa [e] using h1, by simp [e]; omega, by simp [e]; omega, by simp [e]⟩
        · exact ⟨by simpa [e] using h1, by simp [e]; omega, by simp [e]; omega, by simp [e]⟩
        · exact ⟨by simpa [e] using h1, by simp [e]; omega, by simp [e]; omega, by simp [e, e']⟩

theorem iterate_counters (fuel : ℕ) (s s' : St X U F C D) (h : iterate P o fuel s = some s') :
    s'.stats.inner = s.stats.inner + 1 ∧ s'.stats.total = s.stats.total + 1 ∧
    s'.stats.outer = s.stats.outer ∧ s'.stats.initialCost = s.stats.initialCost := by
  obtain ⟨b, hb, rfl⟩ := iterate_some P o h
  obtain ⟨-, -, -, -, ⟨r, hst⟩, -⟩ := backwardPass_frame P o _ _ _ hb
  obtain ⟨a1, a2, a3, a4⟩ := updateConvergence_counters P (forwardPass P o b)
  obtain ⟨-, -, -, -, -, -, f1, f2, f3, f4⟩ := forwardPass_frame P o b
  obtain ⟨l1, l2, l3, l4⟩ := log_counters (updateExpansions P s).stats (some .reg) r
  rw [updateExpansions_stats] at l1 l2 l3 l4 hst
  rw [a1, a2, a3, a4, f1, f2, f3, f4, hst, l1, l2, l3, l4]
  exact ⟨rfl, rfl, rfl, rfl⟩

theorem solveLoop_status (ol : OrderLaws F) (fuel r : ℕ) (s s' : St X U F C D) (hs : s.status = .kUnsolved)
    (hr : (s.stats.inner : ℤ) + r = o.maxInner) (hpos : 0 < r) (h : solveLoop P o fuel r s = some s') :
    StatusMeaning o s' ∧ s.stats.inner < s'.stats.inner ∧ (s'.stats.inner : ℤ) ≤ o.maxInner ∧
    s'.stats.total + s.stats.inner = s.stats.total + s'.stats.inner := by
  induction r generalizing s with
  | zero => omega
  | succ r ih =>
    unfold solveLoop at h
    split at h
    · cases h
    · rename_i s1 h1
      have hst := iterate_status P o ol fuel s s1 hs h1
      obtain ⟨c1, c2, -, -⟩ := iterate_counters P o fuel s s1 h1
      have hstats : (isDone o s1).1.stats = s1.stats := by rw [isDone_frame]
      simp only at h
      split at h
      · rename_i hd
        injection h with h
        subst h
        refine ⟨isDone_meaning o s1 hst hd, ?_, ?_, ?_⟩ <;> rw [hstats] <;> omega
      · rename_i hd
        obtain ⟨d1, d2, d3⟩ := isDone_false o s1 (by simpa using hd)
        rw [d1] at h
        have hr' : 0 < r := by omega
        obtain ⟨k1, k2, k3, k4⟩ := ih s1 d2 (by omega) hr' h
        exact ⟨k1, by omega, k3, by omega⟩

/-- **C19.**  With at least one iteration allowed, the solve performs between 1 and `max_iterations_inner`
iterations and the status means what the documentation says. -/
theorem C19_status (ol : OrderLaws F) (fuel : ℕ) (s s' : St X U F C D) (hmax : 1 ≤ o.maxInner)
    (h : solve P o fuel s = some s') :
    StatusMeaning o s' ∧ 1 ≤ s'.stats.inner ∧ (s'.stats.inner : ℤ) ≤ o.maxInner ∧
    s'.stats.total = s.stats.total + s'.stats.inner := by
  obtain ⟨_, e1, e2, e3, _, _, _, _, _⟩ := start_facts P o s
  obtain ⟨k1, k2, k3, k4⟩ := solveLoop_status P o ol fuel o.maxInner.toNat (start P o s) s' e1
    (by rw [e2]; omega) (by omega) h
  exact ⟨k1, by omega, k3, by omega⟩

/-- **C19.**  The status is never `kUnsolved`. -/
theorem C19_never_unsolved (ol : OrderLaws F) (fuel : ℕ) (s s' : St X U F C D) (hmax : 1 ≤ o.maxInner)
    (h : solve P o fuel s = some s') : s'.status ≠ .kUnsolved := by
  have := (C19_status P o ol fuel s s' hmax h).1.cases
  rcases this with e | e | e | e | e | ⟨-, e⟩ <;> rw [e] <;> decide

/-- **C18.**  `kCostIncrease` is never reported, for every number of iterations. -/
theorem C18_no_cost_increase_status (ol : OrderLaws F) (fuel : ℕ) (s s' : St X U F C D)
    (h : solve P o fuel s = some s') : s'.status ≠ .kCostIncrease := by
  by_cases hmax : 1 ≤ o.maxInner
  · have := (C19_status P o ol fuel s s' hmax h).1.cases
    rcases this with e | e | e | e | e | ⟨-, e⟩ <;> rw [e] <;> decide
  · have : o.maxInner.toNat = 0 := by omega
    unfold solve at h
    rw [this] at h
    simp only [solveLoop] at h
    injection h with h
    subst h
    rw [(start_facts P o s).2.1]; decide

/-! ## C20: regularization -/

section reg
variable {K : Type} [Field K] [LinearOrder K] [IsStrictOrderedRing K]

/-- A sequence of regularization changes, `true` = increase. -/
def regSeq (o : Opts K) (s : St X U K C D) (l : List Bool) : St X U K C D :=
  l.foldl (fun a b => if b then increaseReg o a else decreaseReg o a) s

/-- **C20.**  After any nonempty sequence of increases and decreases the regularization is within bounds. -/
theorem C20_bounds (o : Opts K) (hb : o.regMin ≤ o.regMax) (s : St X U K C D) (l : List Bool) (hl : l ≠ []) :
    o.regMin ≤ (regSeq o s l).rho ∧ (regSeq o s l).rho ≤ o.regMax := by
  induction l using List.reverseRecOn with
  | nil => exact absurd rfl hl
  | append_singleton l b _ =>
    unfold regSeq
    rw [List.foldl_append]
    simp only [List.foldl_cons, List.foldl_nil]
    cases b <;> simp [increaseReg, decreaseReg, hb]

/-- **C20.**  An increase never lowers the regularization, and never lowers the step factor below the
configured factor; from `rho > 0` an increase below the cap is at least by that factor. -/
theorem C20_increase (o : Opts K) (s : St X U K C D) (hf : 1 ≤ o.regFactor) (h0 : 0 ≤ s.rho)
    (hmax : s.rho ≤ o.regMax) :
    s.rho ≤ (increaseReg o s).rho ∧ min (s.rho * o.regFactor) o.regMax ≤ (increaseReg o s).rho := by
  have h1 : o.regFactor ≤ max (s.drho * o.regFactor) o.regFactor := le_max_right _ _
  have h2 : s.rho * o.regFactor ≤ s.rho * max (s.drho * o.regFactor) o.regFactor :=
    mul_le_mul_of_nonneg_left h1 h0
  have h3 : s.rho ≤ s.rho * o.regFactor := le_mul_of_one_le_right h0 hf
  simp only [increaseReg, Arith.smax_eq, Arith.smin_eq]
  refine ⟨le_min (le_max_of_le_left (h3.trans h2)) hmax, ?_⟩
  exact min_le_min (le_max_of_le_left h2) le_rfl

/-- **C20.**  A decrease never raises the regularization, except up to `bp_reg_min`; above the minimum it goes down
at least by the configured factor. -/
theorem C20_decrease (o : Opts K) (s : St X U K C D) (hf : 1 ≤ o.regFactor) (h0 : 0 ≤ s.rho) :
    (decreaseReg o s).rho ≤ max (s.rho / o.regFactor) o.regMin ∧
    (decreaseReg o s).rho ≤ max s.rho o.regMin := by
  have hpos : 0 < o.regFactor := lt_of_lt_of_le one_pos hf
  have h1 : min (s.drho / o.regFactor) (1 / o.regFactor) ≤ 1 / o.regFactor := min_le_right _ _
  have h2 : s.rho * min (s.drho / o.regFactor) (1 / o.regFactor) ≤ s.rho / o.regFactor := by
    calc _ ≤ s.rho * (1 / o.regFactor) := mul_le_mul_of_nonneg_left h1 h0
      _ = _ := by ring
  have h3 : s.rho / o.regFactor ≤ s.rho := div_le_self h0 hf
  simp only [decreaseReg, Arith.smax_eq, Arith.smin_eq]
  exact ⟨(min_le_left _ _).trans (max_le_max h2 le_rfl),
    (min_le_left _ _).trans (max_le_max (h2.trans h3) le_rfl)⟩

/-- **C20.**  After every solve with at least one iteration the regularization is within its bounds. -/
theorem C20_after_solve (P : Kernel X U K C D) (o : Opts K) (hb : o.regMin ≤ o.regMax) (fuel : ℕ)
    (s s' : St X U K C D) (hmax : 1 ≤ o.maxInner) (h : solve P o fuel s = some s') :
    o.regMin ≤ s'.rho ∧ s'.rho ≤ o.regMax := by
  have hinc : ∀ a : St X U K C D, o.regMin ≤ (increaseReg o a).rho ∧ (increaseReg o a).rho ≤ o.regMax := by
    intro a; simp [increaseReg, hb]
  have hdec : ∀ a : St X U K C D, o.regMin ≤ (decreaseReg o a).rho ∧ (decreaseReg o a).rho ≤ o.regMax := by
    intro a; simp [decreaseReg, hb]
  have hit : ∀ a a' : St X U K C D, iterate P o fuel a = some a' → o.regMin ≤ a'.rho ∧ a'.rho ≤ o.regMax := by
    intro a a' ha
    obtain ⟨b, hbk, rfl⟩ := iterate_some P o ha
    have hbr : o.regMin ≤ b.rho ∧ b.rho ≤ o.regMax := by
      unfold backwardPass at hbk
      split at hbk
      · cases hbk
      · injection hbk with hbk; rw [← hbk]; exact hdec _
    rw [updateConvergence_rho, forwardPass_eq P o OrderLaws.ofField]
    simp only
    split
    · show o.regMin ≤ (lineSearch P o _ _ _ _ b).1.1.rho ∧ (lineSearch P o _ _ _ _ b).1.1.rho ≤ _
      rw [(lineSearch_LSFrame P o _ _ _ _ b).rho]; exact hbr
    · exact hinc _
  obtain ⟨r, hr⟩ : ∃ r, o.maxInner.toNat = r + 1 := ⟨o.maxInner.toNat - 1, by omega⟩
  unfold solve at h
  rw [hr] at h
  unfold solveLoop at h
  split at h
  · cases h
  · rename_i s1 h1
    have hs1 := hit _ _ h1
    have hs1' : o.regMin ≤ (isDone o s1).1.rho ∧ (isDone o s1).1.rho ≤ o.regMax := by
      rw [isDone_frame]; exact hs1
    simp only at h
    split at h
    · injection h with h; exact h ▸ hs1'
    · exact solveLoop_inv P o (fun a => o.regMin ≤ a.rho ∧ a.rho ≤ o.regMax) fuel
        (fun a a' _ ha => hit a a' ha) (fun a st ha => ha) r _ _ hs1' h

end reg

/-! ## C24: the line search -/

variable {P}

/-- **C24.**  At the forward pass of an iteration the reference cost is the cost of the current trajectory. -/
theorem C24_reference_cost (L : CostLaw P) (fuel : ℕ) (s s1 : St X U F C D)
    (h : backwardPass P o fuel (updateExpansions P s) = some s1) :
    costSum P s1 = L.total s1.cs s1.Z ∧ s1.Z = s.Z := by
  obtain ⟨hZ, -, hcs, hcosts, -, -⟩ := backwardPass_frame P o _ _ _ h
  obtain ⟨u1, u2⟩ := updateExpansions_law L s
  rw [updateExpansions_Z] at hZ
  refine ⟨?_, hZ⟩
  have : costSum P s1 = L.total s.cs s.Z := by unfold costSum at *; rw [hcosts]; exact u1
  rw [this, hZ]
  exact total_congr L _ _ _ _ (fun j _ => by rw [hcs]; exact (u2 j).symm) (fun _ _ => rfl) (fun _ _ => rfl)

/-- **C24.**  If some of the allowed step lengths qualifies, the forward pass takes the first one: the new
trajectory is its candidate, the status is cleared, and cost and step length are recorded. -/
theorem C24_accepts_first (L : CostLaw P) (ol : OrderLaws F) (s : St X U F C D)
    (hJ : costSum P s = L.total s.cs s.Z) (i : ℕ) (hi : (i : ℤ) < o.lsMax)
    (hq : Qualifies L o s (L.total s.cs s.Z) (stepLength o.lsFactor i))
    (hfirst : ∀ j < i, ¬ Qualifies L o s (L.total s.cs s.Z) (stepLength o.lsFactor j)) :
    TrajEq P (forwardPass P o s).Z (candidateTraj P s.kd s.Z s.Zbar (stepLength o.lsFactor i)) ∧
    (forwardPass P o s).status = .kUnsolved ∧ (forwardPass P o s).rho = s.rho ∧
    ∃ z, (forwardPass P o s).stats =
      ((s.stats.log (some .cost) (L.total s.cs (forwardPass P o s).Z)).log (some .alpha)
        (stepLength o.lsFactor i)).log (some .z) z := by
  have hbase : SameBase L s s := ⟨LSFrame.refl P s, fun _ => rfl⟩
  obtain ⟨l1, l2⟩ := lineSearch_spec o L s (costSum P s) o.lsMax.toNat 0 (costSum P s) s hbase rfl
  rw [← hJ] at hq hfirst
  have hs : (lineSearch P o (costSum P s) o.lsMax.toNat 1 (costSum P s) s).2 = true := by
    by_contra hne
    have hne' : (lineSearch P o (costSum P s) o.lsMax.toNat 1 (costSum P s) s).2 = false := by simpa using hne
    exact (l2 hne').1 i (by omega) (by omega) hq
  obtain ⟨⟨i', a, b, c, d, e, f, g, z, hz⟩, hB⟩ := l1 hs
  have hii : i' = i := by
    rcases lt_trichotomy i' i with hlt | heq | hgt
    · exact absurd c (hfirst i' hlt)
    · exact heq
    · exact absurd hq (d i (by omega) hgt)
  subst hii
  rw [forwardPass_eq P o ol]
  simp only [hs, if_true]
  refine ⟨f, g, hB.frame.rho, z, ?_⟩
  refine hz.trans ?_
  have : L.total s.cs (lineSearch P o (costSum P s) o.lsMax.toNat 1 (costSum P s) s).1.1.Zbar
      = (lineSearch P o (costSum P s) o.lsMax.toNat (stepLength o.lsFactor 0) (costSum P s) s).1.2 :=
    (total_congr L _ _ _ _ (fun _ _ => rfl) f.x f.u).trans e.symm
  rw [this]

/-- **C24.**  If none of the allowed step lengths qualifies, the trajectory is unchanged and the regularization is
increased. -/
theorem C24_rejects (L : CostLaw P) (ol : OrderLaws F) (s : St X U F C D)
    (hJ : costSum P s = L.total s.cs s.Z)
    (hnone : ∀ i : ℕ, (i : ℤ) < o.lsMax → ¬ Qualifies L o s (L.total s.cs s.Z) (stepLength o.lsFactor i)) :
    (forwardPass P o s).Z = s.Z ∧ (forwardPass P o s).rho = (increaseReg o s).rho ∧
    (forwardPass P o s).drho = (increaseReg o s).drho ∧ (forwardPass P o s).stats = s.stats := by
  have hbase : SameBase L s s := ⟨LSFrame.refl P s, fun _ => rfl⟩
  obtain ⟨l1, l2⟩ := lineSearch_spec o L s (costSum P s) o.lsMax.toNat 0 (costSum P s) s hbase rfl
  rw [← hJ] at hnone
  have hs : (lineSearch P o (costSum P s) o.lsMax.toNat 1 (costSum P s) s).2 = false := by
    by_contra hne
    have hne' : (lineSearch P o (costSum P s) o.lsMax.toNat 1 (costSum P s) s).2 = true := by simpa using hne
    obtain ⟨⟨i', a, b, c, _⟩, _⟩ := l1 hne'
    exact hnone i' (by omega) c
  obtain ⟨-, hB, hst⟩ := l2 hs
  rw [forwardPass_eq P o ol]
  simp only [hs, Bool.false_eq_true, if_false]
  refine ⟨hB.frame.Z, ?_, ?_, hst⟩
  · unfold increaseReg; simp only
    rw [show (lineSearch P o (costSum P s) o.lsMax.toNat 1 (costSum P s) s).1.1.rho = s.rho from hB.frame.rho,
      show (lineSearch P o (costSum P s) o.lsMax.toNat 1 (costSum P s) s).1.1.drho = s.drho from hB.frame.drho]
  · unfold increaseReg; simp only
    rw [show (lineSearch P o (costSum P s) o.lsMax.toNat 1 (costSum P s) s).1.1.drho = s.drho from hB.frame.drho]

/-- **C24.**  With a lower bound above `-1` (the default is `1e-8`) a qualifying step has positive predicted
improvement, and its actual improvement is within the configured multiples of the predicted one. -/
theorem C24_sufficient_decrease {K : Type} [Field K] [LinearOrder K] [IsStrictOrderedRing K]
    {P : Kernel X U K C D} (o : Opts K) (L : CostLaw P) (s : St X U K C D) (J0 alpha : K)
    (hlow : -1 < o.lsLower) (h : Qualifies L o s J0 alpha) :
    0 < predicted s.dV0 s.dV1 alpha ∧
    o.lsLower * predicted s.dV0 s.dV1 alpha ≤ J0 - L.total s.cs (candidateTraj P s.kd s.Z s.Zbar alpha) ∧
    J0 - L.total s.cs (candidateTraj P s.kd s.Z s.Zbar alpha) ≤ o.lsUpper * predicted s.dV0 s.dV1 alpha := by
  obtain ⟨-, ⟨z, z1, z2, z3, z4⟩, -⟩ := h
  rw [Arith.le_iff] at z3 z4
  have hp : 0 < predicted s.dV0 s.dV1 alpha := by
    by_contra hn
    have := z2 (by rw [← Bool.not_eq_true, Arith.gt_iff]; exact hn)
    subst this
    exact absurd z3 (not_le.mpr hlow)
  have hz := z1 (by rw [Arith.gt_iff]; exact hp)
  have hm : z * predicted s.dV0 s.dV1 alpha = J0 - L.total s.cs (candidateTraj P s.kd s.Z s.Zbar alpha) := by
    rw [hz]; field_simp
  rw [← hm]
  exact ⟨hp, mul_le_mul_of_nonneg_right z3 hp.le, mul_le_mul_of_nonneg_right z4 hp.le⟩

end Altro.Props
