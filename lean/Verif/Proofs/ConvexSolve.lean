import Verif.Proofs.ConvexIter
import Verif.Spec.LQInequality
import Mathlib.Algebra.Order.BigOperators.Group.Finset

/-!
# The inner solve on a problem whose augmented cost is convex with bounded curvature
-/

namespace Altro.Props
open Altro.Spec Matrix ILQR
variable {K : Type} [Field K] [LinearOrder K] [IsStrictOrderedRing K] {n m : ℕ}

variable {p : DynProblem n m K} {o : Opts K} {fuel : ℕ} {μ M a C rb β : K}
  {s0 s s1 s' : St (Fin n → K) (Fin m → K) K (ALCost n m K) (KP n m K)}

/-! ## Bounds on matrices -/

theorem nsq_mulVec {q r : ℕ} (A : Matrix (Fin q) (Fin r) K) : ∃ c : K, 0 ≤ c ∧ ∀ v, nsq (A *ᵥ v) ≤ c * nsq v := by
  refine ⟨∑ i, ∑ j, A i j ^ 2, Finset.sum_nonneg fun i _ => Finset.sum_nonneg fun j _ => sq_nonneg _, fun v => ?_⟩
  unfold nsq dotProduct
  rw [Finset.sum_mul]
  refine Finset.sum_le_sum fun i _ => ?_
  have := Finset.sum_mul_sq_le_sq_mul_sq Finset.univ (fun j => A i j) v
  calc (A *ᵥ v) i * (A *ᵥ v) i = (∑ j, A i j * v j) ^ 2 := by rw [sq]; rfl
    _ ≤ _ := this
    _ = _ := by simp only [sq]

/-- The Jacobians of affine dynamics are bounded. -/
theorem dynBound_exists (hd : ∀ k < p.N, ∀ x u t h δx δu,
      p.f k (x + δx) (u + δu) t h = p.f k x u t h + (p.jac k x u t h).1 *ᵥ δx + (p.jac k x u t h).2 *ᵥ δu)
    (Z : Traj (Fin n → K) (Fin m → K) K) : ∃ a : K, 0 ≤ a ∧ DynBound p Z a := by
  have hconst : ∀ k < p.N, ∀ x u δx δu, (p.jac k x u (Z.t k) (Z.h k)).1 *ᵥ δx + (p.jac k x u (Z.t k) (Z.h k)).2 *ᵥ δu
      = (p.jac k 0 0 (Z.t k) (Z.h k)).1 *ᵥ δx + (p.jac k 0 0 (Z.t k) (Z.h k)).2 *ᵥ δu := by
    intro k hk x u δx δu
    have h1 := hd k hk x u (Z.t k) (Z.h k) δx δu
    have h2 := hd k hk 0 0 (Z.t k) (Z.h k) (x + δx) (u + δu)
    have h3 := hd k hk 0 0 (Z.t k) (Z.h k) x u
    rw [zero_add, zero_add] at h2 h3
    rw [h1, h3, mulVec_add, mulVec_add] at h2
    have : ∀ a b c d e f g : Fin n → K, a + b + c + d + e = a + (b + f) + (c + g) → d + e = f + g := by
      intro a b c d e f g h
      have h' : (a + b + c) + (d + e) = (a + b + c) + (f + g) := by
        rw [← add_assoc, h]; abel
      exact add_left_cancel h'
    exact this _ _ _ _ _ _ _ h2
  have hk : ∀ k, ∃ a : K, 0 ≤ a ∧ ∀ δx δu, nsq ((p.jac k 0 0 (Z.t k) (Z.h k)).1 *ᵥ δx
      + (p.jac k 0 0 (Z.t k) (Z.h k)).2 *ᵥ δu) ≤ a * (nsq δx + nsq δu) := by
    intro k
    obtain ⟨c1, h1, b1⟩ := nsq_mulVec (p.jac k 0 0 (Z.t k) (Z.h k)).1
    obtain ⟨c2, h2, b2⟩ := nsq_mulVec (p.jac k 0 0 (Z.t k) (Z.h k)).2
    refine ⟨2 * c1 + 2 * c2, by positivity, fun δx δu => (nsq_add_le _ _).trans ?_⟩
    have := b1 δx
    have := b2 δu
    have := mul_nonneg h1 (nsq_nonneg δu)
    have := mul_nonneg h2 (nsq_nonneg δx)
    linarith
  choose f hf0 hf using hk
  refine ⟨∑ k ∈ Finset.range p.N, f k, Finset.sum_nonneg fun k _ => hf0 k, fun k hk x u δx δu => ?_⟩
  rw [hconst k hk]
  refine (hf k δx δu).trans (mul_le_mul_of_nonneg_right ?_ (add_nonneg (nsq_nonneg _) (nsq_nonneg _)))
  exact Finset.single_le_sum (fun i _ => hf0 i) (Finset.mem_range.mpr hk)

/-! ## At an optimum the policy vanishes -/

theorem ConvLQ.still (h : ConvLQ p s.cs μ M) (hμ : 0 < μ) (hM : 0 ≤ M) : CoreConv p s.cs where
  toCoreBase := h.toCoreBase
  still q e hZ hb r rho hr := by
    have hq := h.congr fun k _ => e k
    obtain ⟨a, ha0, ha⟩ := dynBound_exists hq.dyn q.Z
    obtain ⟨C, hC0, hC⟩ := sweep_bounds n m p.N hμ hM ha0
    obtain ⟨-, h0⟩ := hq.toCoreBase.sweep (rho := 0) le_rfl
    set r0 := (bpSweep (alKernel p) 0 p.N
      (upd (updateExpansions (alKernel p) q).kd p.N ((updateExpansions (alKernel p) q).kd p.N).term) (0, 0)).1.1
    have hB := hC _ _ _ (hq.bounded ha le_rfl h0) zero_le_one
    refine hr.ff_iff_grad.mpr (h0.ff_iff_grad.mp (ffsq_zero ?_))
    by_contra hne
    have hS : 0 < ffsq p.N r0 := lt_of_le_of_ne (ffsq_nonneg _ _) (Ne.symm hne)
    -- a short step would lower the cost
    have ht : SameTimes (alKernel p) q.Z q.Z := ⟨fun _ _ => rfl, fun _ _ => rfl⟩
    have hcl := (hB.closed _ _ (cl_admissible p.N _ r0) (fun k hk => by unfold clu; rw [if_pos hk])).2
    rw [zero_mul, abs_nonpos_iff, sub_eq_zero] at hcl
    have hD : firstOrder p.N (updateExpansions (alKernel p) q).kd (clx (updateExpansions (alKernel p) q).kd r0)
        (clu p.N (updateExpansions (alKernel p) q).kd r0) ≤ -(μ * ffsq p.N r0) := by rw [hcl]; linarith [hB.dV0]
    have hcost := (hq.candidate_cost hμ.le hM hZ ht hB (μ / (M * C + 1))).2
    have hbest := hb _ (candidate_alternative p r0 q.Z q.Z ⟨fun _ _ => rfl, fun _ _ => rfl⟩ (μ / (M * C + 1)))
    have hMC : 0 ≤ M * C := mul_nonneg hM hC0.le
    have hα : 0 < μ / (M * C + 1) := by positivity
    have h1 : trajCost p q.cs (candidateTraj (alKernel p) r0 q.Z q.Z (μ / (M * C + 1)))
        ≤ trajCost p q.cs q.Z + μ / (M * C + 1) * firstOrder p.N (updateExpansions (alKernel p) q).kd
          (clx (updateExpansions (alKernel p) q).kd r0) (clu p.N (updateExpansions (alKernel p) q).kd r0)
          + (μ / (M * C + 1)) ^ 2 * (M / 2 * (C * ffsq p.N r0)) := hcost
    have h2 := mul_le_mul_of_nonneg_left hD hα.le
    have h3 : (μ / (M * C + 1)) ^ 2 * (M / 2 * (C * ffsq p.N r0)) ≤ μ / (M * C + 1) * (μ * ffsq p.N r0 / 2) := by
      have : μ / (M * C + 1) * (M * C) ≤ μ := by
        rw [div_mul_eq_mul_div, div_le_iff₀ (by positivity)]
        nlinarith
      have := mul_le_mul_of_nonneg_left this (show 0 ≤ μ / (M * C + 1) * (ffsq p.N r0 / 2) by positivity)
      linarith
    have h4 : 0 < μ / (M * C + 1) * (μ * ffsq p.N r0) := by positivity
    linarith

/-! ## The normalized gain -/

theorem ctrlSize_nonneg (N : ℕ) (Z : Traj (Fin n → K) (Fin m → K) K) : 0 ≤ ctrlSize N Z :=
  Finset.sum_nonneg fun _ _ => Finset.sum_nonneg fun _ _ => sq_nonneg _

theorem foldl_max_le {l : List K} {c b : K} (hb : b ≤ c) (h : ∀ x ∈ l, x ≤ c) : l.foldl max b ≤ c := by
  induction l generalizing b with
  | nil => exact hb
  | cons x l ih => exact ih (max_le hb (h x (by simp))) fun y hy => h y (by simp [hy])

theorem foldl_max_lt {l : List K} {c b : K} (hb : b < c) (h : ∀ x ∈ l, x < c) : l.foldl max b < c := by
  induction l generalizing b with
  | nil => exact hb
  | cons x l ih => exact ih (max_lt hb (h x (by simp))) fun y hy => h y (by simp [hy])

theorem le_foldl_max (l : List K) (b : K) : b ≤ l.foldl max b ∧ ∀ x ∈ l, x ≤ l.foldl max b := by
  induction l generalizing b with
  | nil => exact ⟨le_rfl, by simp⟩
  | cons x l ih =>
    obtain ⟨h1, h2⟩ := ih (max b x)
    refine ⟨(le_max_left _ _).trans h1, fun y hy => ?_⟩
    rcases List.mem_cons.mp hy with rfl | hy
    · exact (le_max_right _ _).trans h1
    · exact h2 y hy

theorem normalizedGain_eq (q : St (Fin n → K) (Fin m → K) K (ALCost n m K) (KP n m K)) :
    normalizedGain (alKernel p) q = (∑ k ∈ Finset.range p.N, (q.kd k).gradTerm (q.Z.u k)) / p.N := by
  unfold normalizedGain
  rw [sumTo_eq_sum]; rfl

theorem convGradTerm_nonneg (d : KP n m K) (u : Fin m → K) : 0 ≤ d.gradTerm u := (le_foldl_max _ _).1

/-- A normalized gain of at least `γ` means feedforward terms of at least `γ`. -/
theorem gain_large {q : St (Fin n → K) (Fin m → K) K (ALCost n m K) (KP n m K)} {γ : K} (hN : p.N ≠ 0) (hγ : 0 < γ)
    (h : γ ≤ normalizedGain (alKernel p) q) : γ ^ 2 ≤ ffsq p.N q.kd := by
  by_contra hlt
  push Not at hlt
  have hN' : (0 : K) < p.N := by exact_mod_cast Nat.pos_of_ne_zero hN
  have hff : ∀ k < p.N, ∀ i, |(q.kd k).ff i| < γ := by
    intro k hk i
    have h1 : (q.kd k).ff i ^ 2 ≤ ffsq p.N q.kd := by
      have h2 : nsq (q.kd k).ff ≤ ffsq p.N q.kd :=
        Finset.single_le_sum (f := fun k => nsq (q.kd k).ff) (fun _ _ => nsq_nonneg _) (Finset.mem_range.mpr hk)
      have h3 : (q.kd k).ff i ^ 2 ≤ nsq (q.kd k).ff := by
        unfold nsq dotProduct
        rw [sq]
        exact Finset.single_le_sum (f := fun i => (q.kd k).ff i * (q.kd k).ff i) (fun _ _ => mul_self_nonneg _) (Finset.mem_univ i)
      exact h3.trans h2
    exact abs_lt_of_sq_lt_sq (lt_of_le_of_lt h1 hlt) hγ.le
  have hterm : ∀ k ∈ Finset.range p.N, (q.kd k).gradTerm (q.Z.u k) < γ := by
    intro k hk
    have hk := Finset.mem_range.mp hk
    refine foldl_max_lt hγ fun x hx => ?_
    obtain ⟨i, rfl⟩ := List.mem_ofFn.mp hx
    have h1 : (1 : K) ≤ |q.Z.u k i| + 1 := by linarith [abs_nonneg (q.Z.u k i)]
    rw [div_lt_iff₀ (by linarith)]
    have := hff k hk i
    nlinarith
  rw [normalizedGain_eq, le_div_iff₀ hN'] at h
  have hsum := Finset.sum_lt_sum_of_nonempty (s := Finset.range p.N) ⟨0, Finset.mem_range.mpr (Nat.pos_of_ne_zero hN)⟩ hterm
  rw [Finset.sum_const, Finset.card_range, nsmul_eq_mul] at hsum
  linarith

/-- A normalized gain below `γ` means small feedforward terms. -/
theorem gain_small {q : St (Fin n → K) (Fin m → K) K (ALCost n m K) (KP n m K)} {γ : K} (hN : p.N ≠ 0)
    (h : normalizedGain (alKernel p) q < γ) : ffsq p.N q.kd ≤ (p.N * γ) ^ 2 * ctrlSize p.N q.Z := by
  have hN' : (0 : K) < p.N := by exact_mod_cast Nat.pos_of_ne_zero hN
  rw [normalizedGain_eq, div_lt_iff₀ hN'] at h
  unfold ffsq ctrlSize
  rw [Finset.mul_sum]
  refine Finset.sum_le_sum fun k hk => ?_
  have h1 : (q.kd k).gradTerm (q.Z.u k) ≤ p.N * γ := by
    have := Finset.single_le_sum (f := fun k => (q.kd k).gradTerm (q.Z.u k)) (fun _ _ => convGradTerm_nonneg _ _) hk
    linarith
  unfold nsq dotProduct
  rw [Finset.mul_sum]
  refine Finset.sum_le_sum fun i _ => ?_
  have h2 : |(q.kd k).ff i| / (|q.Z.u k i| + 1) ≤ p.N * γ :=
    ((le_foldl_max _ 0).2 _ (List.mem_ofFn.mpr ⟨i, rfl⟩)).trans h1
  have h3 : (0 : K) < |q.Z.u k i| + 1 := by linarith [abs_nonneg (q.Z.u k i)]
  rw [div_le_iff₀ h3] at h2
  have h4 := mul_self_le_mul_self (abs_nonneg _) h2
  rw [abs_mul_abs_self] at h4
  refine h4.trans (le_of_eq ?_)
  ring

/-! ## The loop -/

/-- The loop has not finished: trajectory and records. -/
structure Running (p : DynProblem n m K) (rb : K) (s0 b : St (Fin n → K) (Fin m → K) K (ALCost n m K) (KP n m K)) : Prop where
  core : ∀ k, (b.cs k).core = (s0.cs k).core
  feas : DynFeasible (alKernel p) b.Z
  times : SameTimes (alKernel p) b.Z s0.Z
  timesb : SameTimes (alKernel p) b.Zbar s0.Z
  rho0 : 0 ≤ b.rho
  rho1 : b.rho ≤ rb
  aligned : Aligned b.stats
  status : b.status = .kUnsolved
  recorded : (if b.stats.inner = 0 then b.stats.initialCost
    else if b.stats.len = 0 then Stats.back [] else Stats.back2 (b.stats.col .cost)) = trajCost p s0.cs b.Z

/-- The error of the inner solve. -/
def innerError (N : ℕ) (C γ : K) (Z : Traj (Fin n → K) (Fin m → K) K) : K := C * ((N * γ) ^ 2 * ctrlSize N Z)

theorem innerError_nonneg (N : ℕ) {C : K} (hC : 0 ≤ C) (γ : K) (Z : Traj (Fin n → K) (Fin m → K) K) : 0 ≤ innerError N C γ Z :=
  mul_nonneg hC (mul_nonneg (sq_nonneg _) (ctrlSize_nonneg N Z))

theorem AtOptimum.near (h : AtOptimum p s0 s) {ε : K} (hε : 0 ≤ ε) : NearSolve p s0 s ε :=
  ⟨h.exactSolve.core, h.exactSolve.fresh, h.exactSolve.alt, fun Z' hZ' => by linarith [h.exactSolve.best Z' hZ'], h.exactSolve.times⟩

theorem isDone_converged (q : St (Fin n → K) (Fin m → K) K (ALCost n m K) (KP n m K)) (hs : q.status = .kUnsolved)
    (hi : (q.stats.inner : ℤ) < o.maxInner) (ht : (q.stats.total : ℤ) < o.maxTotal) :
    (Stats.back (q.stats.col .dJ) < o.costTol ∧ Stats.back (q.stats.col .grad) < o.gradTol ∧
      ILQR.isDone o q = ({ q with status := .kSolved }, true)) ∨
    (¬ (Stats.back (q.stats.col .dJ) < o.costTol ∧ Stats.back (q.stats.col .grad) < o.gradTol) ∧ ILQR.isDone o q = (q, false)) := by
  unfold ILQR.isDone
  by_cases hc : (Arith.lt (Stats.back (q.stats.col .dJ)) o.costTol && Arith.lt (Stats.back (q.stats.col .grad)) o.gradTol) = true
  · rw [if_pos hc]
    rw [Bool.and_eq_true, Arith.lt_iff, Arith.lt_iff] at hc
    exact .inl ⟨hc.1, hc.2, rfl⟩
  · rw [if_neg hc, if_neg (by omega), if_neg (by omega), hs]
    rw [Bool.and_eq_true, Arith.lt_iff, Arith.lt_iff] at hc
    exact .inr ⟨hc, rfl⟩

theorem Running.sameTimes (hb : Running p rb s0 s) : SameTimes (alKernel p) s.Zbar s.Z :=
  ⟨fun k hk => (hb.timesb.t k hk).trans (hb.times.t k hk).symm, fun k hk => (hb.timesb.h k hk).trans (hb.times.h k hk).symm⟩

/-- From an optimum the loop finishes after one or two iterations. -/
theorem Running.optimal (h : CoreConv p s0.cs) (hb : Running p rb s0 s) (hopt : Optimal p s0.cs s.Z) (hN : p.N ≠ 0)
    (hmin : 0 ≤ o.regMin) (hmax : 0 ≤ o.regMax) (hlim : o.checkBounds = false) (hJ : 0 < o.costTol) (hg : 0 < o.gradTol)
    (hi : (s.stats.inner : ℤ) + 1 < o.maxInner) (ht : (s.stats.total : ℤ) + 1 < o.maxTotal) (r : ℕ) :
    ∃ t, solveLoop (alKernel p) o (fuel + 1) (r + 2) s = some t ∧ AtOptimum p s0 t ∧ t.status = .kSolved ∧
      t.stats.total ≤ s.stats.total + 2 ∧ t.Z = s.Z ∧ Aligned t.stats := by
  obtain ⟨q, a1, a2, a3, a4, a5, a6, a7, a8, a9⟩ := (h.toCoreBase.congr fun k _ => hb.core k).iterate_optimal (o := o) (fuel := fuel)
    hN hb.rho0 hmin hmax hb.feas hb.sameTimes
    (fun r => h.still s hb.core hb.feas (optimal_core hb.core hopt) r s.rho)
  have hq : AtOptimum p s0 q := ⟨fun k => (a3 k).trans (hb.core k), by rw [a2]; exact hb.feas, by rw [a2]; exact hb.times,
    ⟨fun k hk => (a6.t k hk).trans (hb.times.t k hk), fun k hk => (a6.h k hk).trans (hb.times.h k hk)⟩,
    by rw [a2]; exact hopt, by rw [a2]; exact a4, a5⟩
  obtain ⟨n1, n2, -, -⟩ := updateConvergence_counters (alKernel p) q
  obtain ⟨b1, b2, b3⟩ := converged_stats (p := p) q
  have hin : q.stats.inner = s.stats.inner := by rw [a7, (log_counters _ _ _).1]
  have hto : q.stats.total = s.stats.total := by rw [a7, (log_counters _ _ _).2.1]
  unfold solveLoop
  rw [a1]
  simp only
  rcases isDone_converged (o := o) (updateConvergence (alKernel p) q) (a9 hlim hb.status) (by rw [n1, hin]; push_cast; omega)
    (by rw [n2, hto]; push_cast; omega) with ⟨-, -, e⟩ | ⟨-, e⟩
  · rw [e]
    refine ⟨_, rfl, hq.conv.done _, rfl, ?_, a2, b1⟩
    show (updateConvergence (alKernel p) q).stats.total ≤ _
    rw [n2, hto]; omega
  · rw [e]
    obtain ⟨t, e1, e2, e3, e4, e5, e6⟩ := hq.conv.solved (o := o) (fuel := fuel) h hN hmin hmax hJ hg b1 b2 (by rw [n1]; omega) b3 r
    exact ⟨t, e1, e2, e3, by rw [e4, n2, hto], e5.trans a2, e6⟩

/-- An iteration from a trajectory that is not optimal: the loop finishes with a small error, or the cost drops by `δ`. -/
theorem Running.step (h : ConvLQ p s0.cs μ M) (hμ : 0 < μ) (hM : 0 ≤ M)
    (hC : ∀ (kd r : ℕ → KP n m K) (rho : K), BoundedSweep p.N μ M a kd r rho → rho ≤ 1 → SweepBounds p.N μ C kd r rho)
    (hC0 : 0 < C) (ha : DynBound p s0.Z a) (ho : Tuned o μ M C rb β) (hN : p.N ≠ 0) (hg : 0 < o.gradTol)
    {δ : K} (hδ1 : δ ≤ o.costTol) (hδ2 : δ ≤ o.lsLower * β * μ / 2 * o.gradTol ^ 2)
    (hb : Running p rb s0 s) (hopt : ¬ Optimal p s0.cs s.Z)
    (hi : (s.stats.inner : ℤ) + 1 < o.maxInner) (ht : (s.stats.total : ℤ) + 1 < o.maxTotal) :
    ∃ q, iterate (alKernel p) o (fuel + 1) s = some q ∧ q.stats.inner = s.stats.inner + 1 ∧ q.stats.total = s.stats.total + 1 ∧
      ((ILQR.isDone o q = ({ q with status := .kSolved }, true) ∧ Aligned q.stats ∧
          NearSolve p s0 q (innerError p.N C o.gradTol q.Z) ∧ trajCost p s0.cs q.Z ≤ trajCost p s0.cs s.Z) ∨
        (ILQR.isDone o q = (q, false) ∧ Running p rb s0 q ∧ trajCost p s0.cs q.Z + δ ≤ trajCost p s0.cs s.Z)) := by
  have hcs : ∀ Z, trajCost p s.cs Z = trajCost p s0.cs Z := fun Z =>
    trajCost_congr p _ _ _ _ hb.core (fun _ _ => rfl) (fun _ _ => rfl)
  have hopt' : ¬ Optimal p s.cs s.Z := fun hh => hopt (optimal_core (fun k => (hb.core k).symm) hh)
  obtain ⟨q, hit, hd, hgap⟩ := (h.congr fun k _ => hb.core k).iterate_descends (o := o) (fuel := fuel) hμ hM hC hC0
    (ha.congr hb.times) ho hN hb.rho0 hb.rho1 hb.feas hb.sameTimes hopt'
  obtain ⟨n1, n2, -, -⟩ := updateConvergence_counters (alKernel p) q
  obtain ⟨r1, r2, hc⟩ := iterate_records o (alCostLaw p) OrderLaws.ofField hb.aligned hit
  have hdrop := hd.drop
  have hpos := mul_pos (div_pos (mul_pos (mul_pos ho.low ho.pos) hμ) (show (0 : K) < 2 by norm_num)) hd.pos
  rw [hcs, hcs] at hdrop
  have hZne : trajCost p s0.cs q.Z < trajCost p s0.cs s.Z := by linarith
  have hrec : Stats.back2 ((updateConvergence (alKernel p) q).stats.col .cost) = trajCost p s0.cs q.Z ∧
      Stats.back ((updateConvergence (alKernel p) q).stats.col .dJ) = trajCost p s0.cs s.Z - trajCost p s0.cs q.Z := by
    rcases hc with ⟨-, -, c2, c3⟩ | ⟨c0, -⟩
    · rw [total_eq_trajCost, hcs] at c2
      rw [hb.recorded, total_eq_trajCost, hcs] at c3
      exact ⟨c2, c3⟩
    · have : q.Z = s.Z := c0
      rw [this] at hZne
      exact absurd hZne (lt_irrefl _)
  have htq : SameTimes (alKernel p) q.Z s0.Z :=
    ⟨fun k hk => (hd.times.t k hk).trans (hb.times.t k hk), fun k hk => (hd.times.h k hk).trans (hb.times.h k hk)⟩
  have hcore : ∀ k, (q.cs k).core = (s0.cs k).core := fun k => (hd.core k).trans (hb.core k)
  have hgrad : Stats.back ((updateConvergence (alKernel p) q).stats.col .grad) = normalizedGain (alKernel p) q :=
    (updateConvergence_cols (P := alKernel p) q (hd.aligned hb.aligned) hd.len).2.2.2.1
  refine ⟨_, hit, by rw [n1, hd.inner], by rw [n2, hd.total], ?_⟩
  rcases isDone_converged (o := o) (updateConvergence (alKernel p) q) hd.status (by rw [n1, hd.inner]; push_cast; omega)
    (by rw [n2, hd.total]; push_cast; omega) with ⟨d1, d2, e⟩ | ⟨d, e⟩
  · refine .inl ⟨e, r1, ⟨fun k _ => hcore k, hd.fresh, (alternative_same htq _).mp ⟨hd.feas.init, hd.feas.step⟩, fun Y hY => ?_,
      fun k hk => ⟨htq.t k (Nat.le_of_lt hk), htq.h k hk⟩⟩, hZne.le⟩
    rw [hgrad] at d2
    have g1 := gain_small hN d2
    have g2 := hgap Y ((alternative_same hb.times Y).mpr hY)
    rw [hcs, hcs] at g2
    have g3 : 0 ≤ μ / 4 * ∑ k ∈ Finset.range p.N, nsq (Y.u k - s.Z.u k) :=
      mul_nonneg (by positivity) (Finset.sum_nonneg fun _ _ => nsq_nonneg _)
    have g4 := mul_le_mul_of_nonneg_left g1 hC0.le
    show trajCost p s0.cs q.Z ≤ trajCost p s0.cs Y + C * ((p.N * o.gradTol) ^ 2 * ctrlSize p.N q.Z)
    linarith
  · refine .inr ⟨e, ⟨hcore, hd.feas, htq, ?_, hd.rho0, hd.rho1, r1, hd.status, ?_⟩, ?_⟩
    · exact ⟨fun k hk => (hd.timesb.t k hk).trans (hb.times.t k hk), fun k hk => (hd.timesb.h k hk).trans (hb.times.h k hk)⟩
    · rw [if_neg (by rw [n1]; omega), if_neg r2]; exact hrec.1
    · rw [hrec.2, hgrad] at d
      show trajCost p s0.cs q.Z + δ ≤ _
      by_cases hg2 : normalizedGain (alKernel p) q < o.gradTol
      · have : ¬ trajCost p s0.cs s.Z - trajCost p s0.cs q.Z < o.costTol := fun h' => d ⟨h', hg2⟩
        linarith
      · have g1 := gain_large hN hg (not_lt.mp hg2)
        have g2 := mul_le_mul_of_nonneg_left g1 (div_pos (mul_pos (mul_pos ho.low ho.pos) hμ) (show (0 : K) < 2 by norm_num)).le
        linarith

theorem ConvLQ.loop (h : ConvLQ p s0.cs μ M) (hμ : 0 < μ) (hM : 0 ≤ M)
    (hC : ∀ (kd r : ℕ → KP n m K) (rho : K), BoundedSweep p.N μ M a kd r rho → rho ≤ 1 → SweepBounds p.N μ C kd r rho)
    (hC0 : 0 < C) (ha : DynBound p s0.Z a) (ho : Tuned o μ M C rb β) (hN : p.N ≠ 0) (hJ : 0 < o.costTol) (hg : 0 < o.gradTol)
    {δ L : K} (hδ0 : 0 < δ) (hδ1 : δ ≤ o.costTol) (hδ2 : δ ≤ o.lsLower * β * μ / 2 * o.gradTol ^ 2)
    (hL : ∀ Y, Alternative p s0.Z Y → L ≤ trajCost p s0.cs Y) :
    ∀ (T r : ℕ) (b : St (Fin n → K) (Fin m → K) K (ALCost n m K) (KP n m K)), Running p rb s0 b →
      trajCost p s0.cs b.Z ≤ L + T * δ → T + 2 ≤ r → (b.stats.inner : ℤ) + T + 1 < o.maxInner →
      (b.stats.total : ℤ) + T + 1 < o.maxTotal →
      ∃ t, solveLoop (alKernel p) o (fuel + 1) r b = some t ∧ t.status = .kSolved ∧ t.stats.total ≤ b.stats.total + T + 2 ∧
        NearSolve p s0 t (innerError p.N C o.gradTol t.Z) ∧ trajCost p s0.cs t.Z ≤ trajCost p s0.cs b.Z ∧ Aligned t.stats := by
  have hconv := h.still hμ hM
  intro T
  induction T with
  | zero =>
    intro r b hb hT hr hi ht
    obtain ⟨r, rfl⟩ : ∃ r', r = r' + 2 := ⟨r - 2, by omega⟩
    push_cast at hT hi ht
    by_cases hopt : Optimal p s0.cs b.Z
    · obtain ⟨t, e1, e2, e3, e4, e5, e6⟩ := hb.optimal (o := o) (fuel := fuel) hconv hopt hN ho.regMin ho.regMax ho.lim hJ hg
        (by omega) (by omega) r
      exact ⟨t, e1, e3, by omega, e2.near (innerError_nonneg _ hC0.le _ _), by rw [e5], e6⟩
    · exfalso
      refine hopt fun Y hY => ?_
      have := hL Y ((alternative_same hb.times Y).mp hY)
      linarith
  | succ T ih =>
    intro r b hb hT hr hi ht
    obtain ⟨r, rfl⟩ : ∃ r', r = r' + 2 := ⟨r - 2, by omega⟩
    push_cast at hT hi ht
    by_cases hopt : Optimal p s0.cs b.Z
    · obtain ⟨t, e1, e2, e3, e4, e5, e6⟩ := hb.optimal (o := o) (fuel := fuel) hconv hopt hN ho.regMin ho.regMax ho.lim hJ hg
        (by omega) (by omega) r
      exact ⟨t, e1, e3, by omega, e2.near (innerError_nonneg _ hC0.le _ _), by rw [e5], e6⟩
    · obtain ⟨q, e1, e2, e3, hcase⟩ := hb.step (o := o) (fuel := fuel) h hμ hM hC hC0 ha ho hN hg hδ1 hδ2 hopt (by omega) (by omega)
      unfold solveLoop
      rw [e1]
      simp only
      rcases hcase with ⟨d1, d2, d3, d4⟩ | ⟨d1, d2, d3⟩
      · rw [d1]
        refine ⟨_, rfl, rfl, ?_, ⟨d3.core, d3.fresh, d3.alt, d3.best, d3.times⟩, d4, d2⟩
        show q.stats.total ≤ _
        omega
      · rw [d1]
        obtain ⟨t, f1, f2, f3, f4, f5, f6⟩ := ih (r + 1) q d2 (by linarith) (by omega) (by rw [e2]; push_cast; omega)
          (by rw [e3]; push_cast; omega)
        exact ⟨t, f1, f2, by omega, f4, by linarith, f6⟩

/-! ## The solve -/

theorem start_running (hal : Aligned s.stats) (h0 : 0 ≤ o.regInitial) (h1 : o.regInitial ≤ rb) :
    Running p rb s (start (alKernel p) o s) ∧ (start (alKernel p) o s).Z = (rollout (alKernel p) s).Z ∧
      (start (alKernel p) o s).stats.inner = 0 ∧ (start (alKernel p) o s).stats.total = s.stats.total := by
  set b := start (alKernel p) o s with hb
  obtain ⟨f1, f2, f3, f4, f5, f6, f7, f8, f9⟩ := start_facts (alKernel p) o s
  rw [← hb] at f1 f2 f3 f4 f5 f6 f7 f8 f9
  obtain ⟨r1, r2, r3, r4, r5⟩ := rolloutTo_spec (alKernel p) s.Z p.N
  have hcs : ∀ k, (b.cs k).core = (s.cs k).core := fun k => by
    rw [hb]; unfold start; extract_lets w c
    exact (cost_law (alCostLaw p) w.Z w).2 k
  have hic : b.stats.initialCost = trajCost p s.cs b.Z := by
    rw [f1, ← total_eq_trajCost, hb]
    unfold start
    extract_lets w c
    exact (cost_law (alCostLaw p) w.Z w).1
  have hZt : b.Z.t = s.Z.t := by rw [f1]; exact r2
  have hZh : b.Z.h = s.Z.h := by rw [f1]; exact r3
  refine ⟨⟨hcs, by rw [f1]; exact rollout_feasible _ _, ⟨fun k _ => by rw [hZt], fun k _ => by rw [hZh]⟩, f8, by rw [f9]; exact h0,
    by rw [f9]; exact h1, fun c => by rw [f7, f6]; exact hal c, f2, ?_⟩, f1, f3, f4⟩
  rw [if_pos f3, hic]

/-- A whole inner solve. -/
theorem ConvLQ.solves (h : ConvLQ p s.cs μ M) (hμ : 0 < μ) (hM : 0 ≤ M)
    (hC : ∀ (kd r : ℕ → KP n m K) (rho : K), BoundedSweep p.N μ M a kd r rho → rho ≤ 1 → SweepBounds p.N μ C kd r rho)
    (hC0 : 0 < C) (ha : DynBound p s.Z a) (ho : Tuned o μ M C rb β) (hN : p.N ≠ 0) (hJ : 0 < o.costTol) (hg : 0 < o.gradTol)
    (hal : Aligned s.stats) {δ : K} (hδ0 : 0 < δ) (hδ1 : δ ≤ o.costTol) (hδ2 : δ ≤ o.lsLower * β * μ / 2 * o.gradTol ^ 2) (T : ℕ)
    (hT : ∀ Y, Alternative p s.Z Y → trajCost p s.cs (rollout (alKernel p) s).Z ≤ trajCost p s.cs Y + T * δ)
    (hi : (T : ℤ) + 1 < o.maxInner) (ht : (s.stats.total : ℤ) + T + 1 < o.maxTotal) :
    ∃ t, ILQR.solve (alKernel p) o (fuel + 1) s = some t ∧ t.status = .kSolved ∧ t.stats.total ≤ s.stats.total + T + 2 ∧
      NearSolve p s t (innerError p.N C o.gradTol t.Z) ∧ trajCost p s.cs t.Z ≤ trajCost p s.cs (rollout (alKernel p) s).Z ∧
      Aligned t.stats := by
  obtain ⟨hr, e1, e2, e3⟩ := start_running (p := p) (o := o) (rb := rb) hal ho.reg0 ho.reg1
  obtain ⟨t, f1, f2, f3, f4, f5, f6⟩ := h.loop (o := o) (fuel := fuel) hμ hM hC hC0 ha ho hN hJ hg hδ0 hδ1 hδ2
    (L := trajCost p s.cs (rollout (alKernel p) s).Z - T * δ) (fun Y hY => by linarith [hT Y hY]) T o.maxInner.toNat
    (start (alKernel p) o s) hr (by rw [e1]; linarith) (by omega) (by rw [e2]; push_cast; omega) (by rw [e3]; omega)
  rw [e1] at f5
  rw [e3] at f3
  exact ⟨t, f1, f2, f3, f4, f5, f6⟩

end Altro.Props
