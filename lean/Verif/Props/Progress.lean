import Verif.Proofs.Progress
import Verif.Props.LQExamples

/-!
# C85: the number of iterations that change the trajectory
-/

namespace Altro.Props
open Altro.Spec Matrix ILQR
variable {K : Type} [Field K] [LinearOrder K] [IsStrictOrderedRing K] {n m : ℕ}
variable {p : DynProblem n m K} {o : Opts K} {fuel : ℕ} {μ : K}
  {s s' : St (Fin n → K) (Fin m → K) K (ALCost n m K) (KP n m K)}

/-- **C85, one iteration.**  Once the records agree with the trajectory, an iteration keeps the trajectory, or passes the convergence
test, or lowers the augmented cost by at least `unitDecrease`. -/
theorem C85_iteration (h : CurvedObjective p s.cs μ) (hμ : 0 < μ) (hN : p.N ≠ 0) (hr : 0 ≤ s.rho) (hl : 0 < o.lsLower)
    (hf : 1 ≤ o.lsFactor) (hg : 0 < o.gradTol) (hrec : CostRecorded (alCostLaw p) s)
    (hit : iterate (alKernel p) o (fuel + 1) s = some s') :
    s'.Z = s.Z ∨ Converged o s' ∨ trajCost p s.cs s'.Z + unitDecrease o μ ≤ trajCost p s.cs s.Z := by
  rcases h.curved.iterate_progress hμ hN hr hl hf hit with e | ⟨-, e⟩
  · exact .inl e
  right
  by_cases hc : Converged o s'
  · exact .inl hc
  right
  obtain ⟨-, hdJ⟩ := C25_step_partial o (alCostLaw p) OrderLaws.ofField hrec hit
  obtain ⟨hinv, -⟩ := iterate_cost o (alCostLaw p) OrderLaws.ofField hit
  have hcs : trajCost p s'.cs s'.Z = trajCost p s.cs s'.Z := trajCost_congr p _ _ _ _ hinv (fun _ _ => rfl) (fun _ _ => rfl)
  rw [total_eq_trajCost, total_eq_trajCost, hcs] at hdJ
  have hgr := iterate_gradRecord hrec.aligned hit
  unfold Converged at hc
  rw [hdJ, hgr] at hc
  unfold unitDecrease
  by_cases hg2 : normalizedGain (alKernel p) s' < o.gradTol
  · have h1 : ¬ trajCost p s.cs s.Z - trajCost p s.cs s'.Z < o.costTol := fun h' => hc ⟨h', hg2⟩
    have h2 := min_le_left o.costTol (o.lsLower * stepLength o.lsFactor (o.lsMax.toNat - 1) * μ / 2 * o.gradTol ^ 2)
    linarith
  · have g1 := gain_large hN hg (not_lt.mp hg2)
    have hs := (stepLength_pos hf (o.lsMax.toNat - 1)).1
    have g2 := mul_le_mul_of_nonneg_left g1 (show 0 ≤ o.lsLower * stepLength o.lsFactor (o.lsMax.toNat - 1) * μ / 2 by positivity)
    have h2 := min_le_right o.costTol (o.lsLower * stepLength o.lsFactor (o.lsMax.toNat - 1) * μ / 2 * o.gradTol ^ 2)
    linarith

theorem accepted_zero (st : ℕ → St (Fin n → K) (Fin m → K) K (ALCost n m K) (KP n m K)) : accepted 0 st = 0 := by
  simp [accepted]

theorem accepted_succ (st : ℕ → St (Fin n → K) (Fin m → K) K (ALCost n m K) (KP n m K)) (i : ℕ) :
    ((st (i + 1)).Z = (st i).Z → accepted (i + 1) st = accepted i st) ∧
    ((st (i + 1)).Z ≠ (st i).Z → accepted (i + 1) st = accepted i st + 1) := by
  classical
  unfold accepted
  rw [Finset.range_add_one, Finset.filter_insert]
  constructor
  · intro h; rw [if_neg (by simpa using h)]
  · intro h; rw [if_pos h, Finset.card_insert_of_notMem (by simp)]

/-- What holds between the iterations. -/
theorem _root_.Altro.Spec.Iterations.base (h : CurvedObjective p s.cs μ) (hr : 0 ≤ o.regInitial) (hmin : 0 ≤ o.regMin)
    (hmax : 0 ≤ o.regMax) (hal : Aligned s.stats) {r : ℕ}
    {st : ℕ → St (Fin n → K) (Fin m → K) K (ALCost n m K) (KP n m K)}
    (hst : Iterations p o fuel (start (alKernel p) o s) r st) :
    ∀ i ≤ r, (∀ k, ((st i).cs k).core = (s.cs k).core) ∧ 0 ≤ (st i).rho ∧ Aligned (st i).stats ∧
      (∀ Z, trajCost p (st i).cs Z = trajCost p s.cs Z) ∧ CurvedObjective p (st i).cs μ ∧
      (st i).stats.inner = i ∧ (st i).stats.total = s.stats.total + i := by
  obtain ⟨hrun, e1, e2, e3⟩ := start_running (p := p) (o := o) (rb := o.regInitial) hal hr le_rfl
  have hbase : ∀ i ≤ r, (∀ k, ((st i).cs k).core = (s.cs k).core) ∧ 0 ≤ (st i).rho ∧ Aligned (st i).stats ∧
      (st i).stats.inner = i ∧ (st i).stats.total = s.stats.total + i := by
    intro i hi
    induction i with
    | zero => rw [hst.init]; exact ⟨hrun.core, hrun.rho0, hrun.aligned, e2, e3⟩
    | succ i ih =>
      obtain ⟨i1, i2, i3, i4, i5⟩ := ih (by omega)
      have hit := hst.next i hi
      obtain ⟨hinv, -⟩ := iterate_cost o (alCostLaw p) OrderLaws.ofField hit
      obtain ⟨c1, c2, -, -⟩ := iterate_counters (alKernel p) o _ _ _ hit
      exact ⟨fun k => (hinv k).trans (i1 k), iterate_reg_nonneg hmin hmax hit,
        (iterate_records o (alCostLaw p) OrderLaws.ofField i3 hit).1, by rw [c1, i4], by rw [c2, i5]; omega⟩
  intro i hi
  obtain ⟨hcore, b2, b3, b4, b5⟩ := hbase i hi
  refine ⟨hcore, b2, b3, fun Z => trajCost_congr p _ _ _ _ hcore (fun _ _ => rfl) (fun _ _ => rfl), ?_, b4, b5⟩
  have hco : ∀ k, ((st i).cs k).cost = (s.cs k).cost := fun k =>
    show ((st i).cs k).core.cost = (s.cs k).core.cost by rw [hcore k]
  refine ⟨fun k hk x u => ?_, fun k hk x u δx δu => ?_, fun k hk => mem_core_pen (congrArg ALCost.eq (hcore k)) (h.penEq k hk),
    fun k hk => mem_core_pen (congrArg ALCost.ineq (hcore k)) (h.penIneq k hk)⟩
  · rw [hco]; exact h.psd k hk x u
  · rw [hco]; exact h.strong k hk x u δx δu

/-- **C85, any number of iterations.**  Of the iterations of a solve those that change the trajectory are at most two more than the
decrease of the augmented cost divided by `unitDecrease`. -/
theorem C85_count (h : CurvedObjective p s.cs μ) (hμ : 0 < μ) (hN : p.N ≠ 0) (hr : 0 ≤ o.regInitial) (hmin : 0 ≤ o.regMin)
    (hmax : 0 ≤ o.regMax) (hl : 0 < o.lsLower) (hf : 1 ≤ o.lsFactor) (hc : 0 < o.costTol) (hg : 0 < o.gradTol)
    (hal : Aligned s.stats) {r : ℕ} {st : ℕ → St (Fin n → K) (Fin m → K) K (ALCost n m K) (KP n m K)}
    (hst : Iterations p o (fuel + 1) (start (alKernel p) o s) r st) :
    ((accepted r st : K) - 2) * unitDecrease o μ
      ≤ trajCost p s.cs (rollout (alKernel p) s).Z - trajCost p s.cs (st r).Z := by
  obtain ⟨hrun, e1, e2, e3⟩ := start_running (p := p) (o := o) (rb := o.regInitial) hal hr le_rfl
  set J := trajCost p s.cs with hJ
  set δ := unitDecrease o μ with hδ
  have hδ0 : 0 < δ := by
    have hs := (stepLength_pos hf (o.lsMax.toNat - 1)).1
    rw [hδ]; unfold unitDecrease
    exact lt_min hc (by positivity)
  have hbase := hst.base h hr hmin hmax hal
  have htot : ∀ i ≤ r, ∀ Z, trajCost p (st i).cs Z = J Z := fun i hi => (hbase i hi).2.2.2.1
  have hdown : ∀ i < r, J (st (i + 1)).Z ≤ J (st i).Z := fun i hi => by
    rcases (iterate_cost o (alCostLaw p) OrderLaws.ofField (hst.next i hi)).2 with e | e
    · rw [e]
    · rw [Arith.lt_iff, total_eq_trajCost, total_eq_trajCost, htot i hi.le, htot i hi.le] at e; exact e.le
  -- before the last iteration
  have key : ∀ i < r, (accepted i st = 0 ∧ J (st i).Z ≤ J (rollout (alKernel p) s).Z) ∨
      (CostRecorded (alCostLaw p) (st i) ∧ ((accepted i st : K) - 1) * δ ≤ J (rollout (alKernel p) s).Z - J (st i).Z) := by
    intro i hi
    induction i with
    | zero => rw [hst.init, e1]; exact .inl ⟨accepted_zero st, le_rfl⟩
    | succ i ih =>
      have hit := hst.next i (by omega)
      obtain ⟨i1, i2, i3, -, hcurv, -, -⟩ := hbase i (by omega)
      obtain ⟨a1, a2⟩ := accepted_succ st i
      have hd := hdown i (by omega)
      rcases ih (by omega) with ⟨c1, c2⟩ | ⟨c1, c2⟩
      · by_cases hz : (st (i + 1)).Z = (st i).Z
        · exact .inl ⟨(a1 hz).trans c1, hd.trans c2⟩
        · right
          obtain ⟨b1, b2, b3⟩ := iterate_records o (alCostLaw p) OrderLaws.ofField i3 hit
          rcases b3 with ⟨-, d1, d2, -⟩ | ⟨d1, -⟩
          · refine ⟨⟨b1, b2, ?_, ?_, ?_⟩, ?_⟩
            · rw [(iterate_counters (alKernel p) o _ _ _ hit).1]; omega
            · rw [d1, total_eq_trajCost, total_eq_trajCost, htot i (by omega), htot (i + 1) (by omega)]
            · rw [d2, total_eq_trajCost, total_eq_trajCost, htot i (by omega), htot (i + 1) (by omega)]
            · rw [a2 hz, c1, zero_add, Nat.cast_one, sub_self, zero_mul]; linarith
          · exact absurd d1 hz
      · right
        refine ⟨(C25_step_partial o (alCostLaw p) OrderLaws.ofField c1 hit).1, ?_⟩
        by_cases hz : (st (i + 1)).Z = (st i).Z
        · rw [a1 hz, hz]; exact c2
        · rcases C85_iteration hcurv hμ hN i2 hl hf hg c1 hit with e | e | e
          · exact absurd e hz
          · exact absurd e (hst.open_ (i + 1) (by omega) hi)
          · rw [htot i (by omega), htot i (by omega)] at e
            rw [a2 hz]
            push_cast
            linarith
  -- the last iteration
  rcases Nat.eq_zero_or_pos r with hr0 | hr0
  · rw [hr0, accepted_zero, hst.init, e1, sub_self]
    push_cast
    linarith
  · obtain ⟨i, rfl⟩ : ∃ i, r = i + 1 := ⟨r - 1, by omega⟩
    obtain ⟨a1, a2⟩ := accepted_succ st i
    have hd := hdown i (by omega)
    have ha : (accepted (i + 1) st : K) ≤ accepted i st + 1 := by
      by_cases hz : (st (i + 1)).Z = (st i).Z
      · rw [a1 hz]; linarith
      · rw [a2 hz]; push_cast; exact le_rfl
    have hm := mul_le_mul_of_nonneg_right ha hδ0.le
    rcases key i (by omega) with ⟨c1, c2⟩ | ⟨-, c2⟩
    · rw [c1] at hm
      push_cast at hm
      linarith
    · linarith

/-- **C85.**  A solve is a sequence of iterations, as many as its iteration count says, of which at most
`2 + (decrease of the augmented cost) / unitDecrease` change the trajectory. -/
theorem C85_solve (h : CurvedObjective p s.cs μ) (hμ : 0 < μ) (hN : p.N ≠ 0) (hr : 0 ≤ o.regInitial) (hmin : 0 ≤ o.regMin)
    (hmax : 0 ≤ o.regMax) (hl : 0 < o.lsLower) (hf : 1 ≤ o.lsFactor) (hc : 0 < o.costTol) (hg : 0 < o.gradTol)
    (hal : Aligned s.stats) (hs : solve (alKernel p) o (fuel + 1) s = some s') :
    ∃ r st, Iterations p o (fuel + 1) (start (alKernel p) o s) r st ∧ r = s'.stats.inner ∧ s'.Z = (st r).Z ∧
      ((accepted r st : K) - 2) * unitDecrease o μ ≤ trajCost p s.cs (rollout (alKernel p) s).Z - trajCost p s.cs s'.Z := by
  obtain ⟨l, st, a1, a2, a3, a4, a5, -⟩ := solveLoop_iterations _ hs
  have hcnt : ∀ i ≤ l, (st i).stats.inner = i := fun i hi => (a2.base h hr hmin hmax hal i hi).2.2.2.2.2.1
  have hfr : s'.Z = (st l).Z ∧ s'.stats = (st l).stats := by
    rcases Nat.eq_zero_or_pos l with rfl | hl
    · rw [a2.init, a5 rfl]; exact ⟨rfl, rfl⟩
    · rw [a4 hl, isDone_frame]; exact ⟨rfl, rfl⟩
  refine ⟨l, st, a2, ?_, hfr.1, ?_⟩
  · rw [hfr.2, hcnt l le_rfl]
  · rw [hfr.1]; exact C85_count h hμ hN hr hmin hmax hl hf hc hg hal a2

/-- **C85, convergence.**  If no augmented cost is below `L` and the iteration limits leave room for `(J - L) / unitDecrease + 3`
iterations, then the solve ends with `kSolved`, unless one of its line searches failed. -/
theorem C85_solved (h : CurvedObjective p s.cs μ) (hμ : 0 < μ) (hN : p.N ≠ 0) (hr : 0 ≤ o.regInitial) (hmin : 0 ≤ o.regMin)
    (hmax : 0 ≤ o.regMax) (hl : 0 < o.lsLower) (hf : 1 ≤ o.lsFactor) (hc : 0 < o.costTol) (hg : 0 < o.gradTol)
    (hal : Aligned s.stats) (T : ℕ)
    (hT : ∀ Y, Alternative p s.Z Y → trajCost p s.cs (rollout (alKernel p) s).Z ≤ trajCost p s.cs Y + T * unitDecrease o μ)
    (hi : (T : ℤ) + 2 < o.maxInner) (ht : (s.stats.total : ℤ) + T + 2 < o.maxTotal)
    (hs : solve (alKernel p) o (fuel + 1) s = some s') :
    (s'.status = .kSolved ∧ s'.stats.inner ≤ T + 2) ∨
      ∃ r st, Iterations p o (fuel + 1) (start (alKernel p) o s) r st ∧ r = s'.stats.inner ∧ ∃ i < r, (st (i + 1)).Z = (st i).Z := by
  obtain ⟨l, st, a1, a2, a3, a4, a5, a6⟩ := solveLoop_iterations _ hs
  have hδ0 : 0 < unitDecrease o μ := by
    have hs := (stepLength_pos hf (o.lsMax.toNat - 1)).1
    unfold unitDecrease
    exact lt_min hc (by positivity)
  have hl0 : 0 < l := a3 (by omega)
  have hbase := a2.base h hr hmin hmax hal
  have hcnt : ∀ i ≤ l, (st i).stats.inner = i ∧ (st i).stats.total = s.stats.total + i := fun i hi => (hbase i hi).2.2.2.2.2
  have hin : s'.stats.inner = l := by rw [a4 hl0, isDone_frame]; exact (hcnt l le_rfl).1
  by_cases hex : ∃ i < l, (st (i + 1)).Z = (st i).Z
  · exact .inr ⟨l, st, a2, hin.symm, hex⟩
  left
  push Not at hex
  have hacc : ∀ i ≤ l, accepted i st = i := by
    intro i hi
    induction i with
    | zero => exact accepted_zero st
    | succ i ih => rw [(accepted_succ st i).2 (hex i hi), ih (by omega)]
  have hcount := C85_count h hμ hN hr hmin hmax hl hf hc hg hal a2
  rw [hacc l le_rfl] at hcount
  have hZ : s'.Z = (st l).Z := by rw [a4 hl0, isDone_frame]
  obtain ⟨f1, f2⟩ := C17_dynamically_feasible (alKernel p) o _ s s' hs
  rw [hZ] at f1 f2
  have hlow := hT (st l).Z ((alternative_same f2 _).mp ⟨f1.init, f1.step⟩)
  have hlT : l ≤ T + 2 := by
    have : ((l : K) - 2) * unitDecrease o μ ≤ T * unitDecrease o μ := by linarith
    have := le_of_mul_le_mul_right this hδ0
    have : (l : K) ≤ ((T + 2 : ℕ) : K) := by push_cast; linarith
    exact_mod_cast this
  refine ⟨?_, by omega⟩
  have hdone := a6 (by omega)
  obtain ⟨c1, c2⟩ := hcnt l le_rfl
  have hst : (st l).status = .kUnsolved := by
    obtain ⟨i, rfl⟩ : ∃ i, l = i + 1 := ⟨l - 1, by omega⟩
    obtain ⟨-, b2, -, -, b5, -, -⟩ := hbase i (by omega)
    rcases b5.curved.iterate_progress hμ hN b2 hl hf (a2.next i (by omega)) with e | ⟨e, -⟩
    · exact absurd e (hex i (by omega))
    · exact e
  rcases isDone_converged (o := o) (st l) hst (by rw [c1]; omega) (by rw [c2]; push_cast; omega) with ⟨-, -, e⟩ | ⟨-, e⟩
  · rw [a4 hl0, e]
  · rw [e] at hdone; cases hdone

/-! ## A concrete problem -/

namespace ProgressDemo

/-- One segment with dynamics `x' = x + u + u²`, from `0`. -/
def problem : DynProblem 1 1 ℚ where
  N := 1
  x0 := ![0]
  f _ x u _ _ := ![x 0 + u 0 + u 0 ^ 2]
  jac _ _ u _ _ := (!![1], !![1 + 2 * u 0])
  normX x := |x 0|
  normU u := |u 0|

/-- `u² / 2`. -/
def stage : CostFun 1 1 ℚ where
  eval _ u := u 0 ^ 2 / 2
  grad _ u := (![0], ![u 0])
  hess _ _ := { dxdx := !![0], dxdu := !![0], dudu := !![1] }

/-- `(x - 1)² / 2`. -/
def terminal : CostFun 1 1 ℚ where
  eval x _ := (x 0 - 1) ^ 2 / 2
  grad x _ := (![x 0 - 1], ![0])
  hess _ _ := { dxdx := !![1], dxdu := !![0], dudu := !![0] }

/-- `u ≤ 1/4` -/
def bound : Con 1 1 ℚ where
  p := 1
  hp := by decide
  label := "bound"
  eval _ u := ![u 0 - 1 / 4]
  jac _ _ := Matrix.fromCols !![0] !![1]

def costs : ℕ → ALCost 1 1 ℚ := fun k => if k = 1 then ALCost.new terminal [] [] else ALCost.new stage [] [bound]

def opts : Opts ℚ :=
  { scalarOpts with
    checkBounds := false, costTol := 1 / 10, gradTol := 1 / 10, lsMax := 2, lsLower := 1 / 10, maxInner := 5000, maxTotal := 5000 }

def state : St (Fin 1 → ℚ) (Fin 1 → ℚ) ℚ (ALCost 1 1 ℚ) (KP 1 1 ℚ) where
  Z := { x := fun _ => 0, u := fun _ => 0, t := fun k => k / 10, h := fun _ => 1 / 10 }
  Zbar := { x := fun _ => 0, u := fun _ => 0, t := fun _ => 0, h := fun _ => 0 }
  kd := fun _ => KP.new
  cs := costs
  costs := fun _ => 0
  status := .kUnsolved
  rho := 0
  drho := 0
  dV0 := 0
  dV1 := 0
  stats := Stats.new

def run := solve (alKernel problem) opts 3 state

theorem curved : CurvedObjective problem state.cs 1 where
  psd k _ x u := by
    show BlockPSD ((costs k).cost.hess x u)
    by_cases hk : k = 1
    · have e : (costs k).cost = terminal := by simp [costs, hk, ALCost.new]
      rw [e]
      refine ⟨by ext i j; fin_cases i; fin_cases j; rfl, by ext i j; fin_cases i; fin_cases j; rfl, fun dx du => ?_⟩
      simp [terminal, quadForm, dotProduct, mulVec]
      nlinarith [sq_nonneg (dx 0)]
    · have e : (costs k).cost = stage := by simp [costs, hk, ALCost.new]
      rw [e]
      refine ⟨by ext i j; fin_cases i; fin_cases j; rfl, by ext i j; fin_cases i; fin_cases j; rfl, fun dx du => ?_⟩
      simp [stage, quadForm, dotProduct, mulVec]
      nlinarith [sq_nonneg (du 0)]
  strong k hk x u δx δu := by
    have e : (costs k).cost = stage := by simp [costs, (show k ≠ 1 from Nat.ne_of_lt hk), ALCost.new]
    show _ ≤ quadForm ((costs k).cost.hess x u) δx δu
    rw [e]
    simp [stage, quadForm, dotProduct, mulVec]
  penEq k _ v hv i := by
    have e : (costs k).eq = [] := by by_cases hk : k = 1 <;> simp [costs, hk, ALCost.new]
    rw [show state.cs k = costs k from rfl, e] at hv
    cases hv
  penIneq k _ v hv i := by
    rw [show state.cs k = costs k from rfl] at hv
    by_cases hk : k = 1
    · simp [costs, hk, ALCost.new] at hv
    · simp [costs, hk, ALCost.new] at hv
      subst hv
      exact zero_le_one

/-- No trajectory has a negative augmented cost. -/
theorem cost_nonneg (Y : Traj (Fin 1 → ℚ) (Fin 1 → ℚ) ℚ) : 0 ≤ trajCost problem state.cs Y := by
  have h0 : 0 ≤ ((costs 0).evaluate (Y.x 0) (Y.u 0)).1 := by
    simp [costs, ALCost.new, ALCost.evaluate, stage, ConVal.augLag, ConVal.augLagVal, ConVal.evalC, ConVal.new, ConVal.rho]
    refine add_nonneg (by positivity) (div_nonneg ?_ (by norm_num))
    exact sub_nonneg.mpr ((zero_dotProduct _).le.trans (nsq_nonneg _))
  have h1 : 0 ≤ ((costs 1).evaluate (Y.x 1) (Y.u 1)).1 := by
    simp [costs, ALCost.new, ALCost.evaluate, terminal]
    positivity
  show 0 ≤ ∑ k ∈ Finset.range 2, ((costs k).evaluate (Y.x k) (Y.u k)).1
  rw [Finset.sum_range_succ, Finset.sum_range_succ, Finset.sum_range_zero]
  linarith

/-- The solve ends in two iterations. -/
theorem run_report : (run.map fun s => (s.status, s.stats.inner)) = some (.kSolved, 2) := by decide +kernel

/-- The hypotheses of C85. -/
example : ∃ s', run = some s' ∧ ∃ r st, Iterations problem opts 3 (start (alKernel problem) opts state) r st ∧ r = 2 ∧
    s'.Z = (st r).Z ∧ ((accepted r st : ℚ) - 2) * (1 / 4000) ≤ 1 / 2 - trajCost problem state.cs s'.Z := by
  have h := run_report
  cases hb : run with
  | none => rw [hb] at h; cases h
  | some s' =>
    rw [hb] at h
    simp only [Option.map_some, Option.some.injEq, Prod.mk.injEq] at h
    obtain ⟨r, st, a1, a2, a3, a4⟩ := C85_solve (fuel := 2) curved one_pos (by decide) (by decide) (by decide) (by decide)
      (by decide +kernel) (by decide +kernel) (by decide +kernel) (by decide +kernel) aligned_new hb
    rw [show unitDecrease opts 1 = 1 / 4000 by decide +kernel,
      show trajCost problem state.cs (rollout (alKernel problem) state).Z = 1 / 2 by decide +kernel] at a4
    exact ⟨s', rfl, r, st, a1, a2.trans h.2, a3, a4⟩

/-- The bound of C85 on the number of iterations is 2002. -/
example (s') (hb : run = some s') : (s'.status = .kSolved ∧ s'.stats.inner ≤ 2000 + 2) ∨
    ∃ r st, Iterations problem opts 3 (start (alKernel problem) opts state) r st ∧ r = s'.stats.inner ∧
      ∃ i < r, (st (i + 1)).Z = (st i).Z :=
  C85_solved (fuel := 2) curved one_pos (by decide) (by decide) (by decide) (by decide)
    (by decide +kernel) (by decide +kernel) (by decide +kernel) (by decide +kernel) aligned_new 2000
    (fun Y _ => by
      rw [show unitDecrease opts 1 = 1 / 4000 by decide +kernel,
        show trajCost problem state.cs (rollout (alKernel problem) state).Z = 1 / 2 by decide +kernel]
      have := cost_nonneg Y
      push_cast
      linarith) (by decide) (by decide) hb

end ProgressDemo

end Altro.Props
