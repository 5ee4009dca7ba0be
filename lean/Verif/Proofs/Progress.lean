import Verif.Proofs.AffineKnot
import Verif.Proofs.ConvexSolve
import Verif.Spec.Progress
import Verif.Props.Descent

/-!
# Progress of the iterations
-/

namespace Altro.Props
open Altro.Spec Matrix ILQR
variable {K : Type} [Field K] [LinearOrder K] [IsStrictOrderedRing K] {n m : ℕ}

/-- Convex expansions of the augmented costs, with curvature at least `μ` in the controls, whatever the stored values. -/
structure Curved (p : DynProblem n m K) (cs : ℕ → ALCost n m K) (μ : K) : Prop where
  conv : ∀ k ≤ p.N, ∀ c : ALCost n m K, c.core = (cs k).core → ∀ x u, ConvexExp (expOf c x u)
  low : ∀ k < p.N, ∀ c : ALCost n m K, c.core = (cs k).core → ∀ x u δx δu, μ * nsq δu ≤ form (expOf c x u) δx δu

variable {p : DynProblem n m K} {o : Opts K} {fuel : ℕ} {μ : K}
  {s0 s s1 s' : St (Fin n → K) (Fin m → K) K (ALCost n m K) (KP n m K)}

theorem Curved.congr {cs cs' : ℕ → ALCost n m K} (h : Curved p cs μ) (e : ∀ k ≤ p.N, (cs' k).core = (cs k).core) :
    Curved p cs' μ where
  conv k hk c hc := h.conv k hk c (hc.trans (e k hk))
  low k hk c hc := h.low k hk c (hc.trans (e k hk.le))

theorem Curved.convBase {cs : ℕ → ALCost n m K} (h : Curved p cs μ) (hμ : 0 < μ) : CoreConvex p cs where
  conv := h.conv
  pos k hk c hc x u z hz := by
    have h1 := h.low k hk c hc x u 0 z
    have h2 : 0 < nsq z := lt_of_le_of_ne (nsq_nonneg z) fun e => hz (nsq_eq_zero e.symm)
    have h3 : form (expOf c x u) 0 z = z ⬝ᵥ (expOf c x u).dudu *ᵥ z := by simp [form]
    rw [h3] at h1
    exact lt_of_lt_of_le (mul_pos hμ h2) h1

theorem mem_core_pen {κ : ConKind} {l l' : List (ConVal κ n m K)} (e : l.map ConVal.core = l'.map ConVal.core)
    (h : ∀ v ∈ l', ∀ i, 0 ≤ v.pen i) : ∀ v ∈ l, ∀ i, 0 ≤ v.pen i := by
  intro v hv
  have : v.core ∈ l'.map ConVal.core := by rw [← e]; exact List.mem_map_of_mem hv
  obtain ⟨w, hw, ew⟩ := List.mem_map.mp this
  have hc : ∀ i, 0 ≤ w.core.pen i := h w hw
  rw [ew] at hc
  exact hc

theorem _root_.Altro.Spec.CurvedObjective.curved {cs : ℕ → ALCost n m K} (h : CurvedObjective p cs μ) : Curved p cs μ where
  conv k hk c hc x u := by
    have e : c.cost = (cs k).cost := show c.core.cost = (cs k).core.cost by rw [hc]
    have p1 := mem_core_pen (congrArg ALCost.eq hc) (h.penEq k hk)
    have p2 := mem_core_pen (congrArg ALCost.ineq hc) (h.penIneq k hk)
    have := C04_augmented_hessian_psd (c.gradient x u).2 x u (by
      have := h.psd k hk x u; rw [← e] at this; exact this) (by
      intro v hv
      obtain ⟨r, hr, rfl⟩ := List.mem_map.mp hv
      obtain ⟨w, hw, rfl⟩ := List.mem_map.mp hr
      exact p1 w hw _) (by
      intro v hv
      obtain ⟨r, hr, rfl⟩ := List.mem_map.mp hv
      obtain ⟨w, hw, rfl⟩ := List.mem_map.mp hr
      exact p2 w hw _)
    exact ⟨this.symx, this.symu, fun δx δu => this.nonneg δx δu⟩
  low k hk c hc x u δx δu := by
    have e : c.cost = (cs k).cost := show c.core.cost = (cs k).core.cost by rw [hc]
    have p1 := mem_core_pen (congrArg ALCost.eq hc) (h.penEq k hk.le)
    have p2 := mem_core_pen (congrArg ALCost.ineq hc) (h.penIneq k hk.le)
    have e2 : form (expOf c x u) δx δu = quadForm (c.cost.hess x u) δx δu
        + (c.eq.map fun v => quadForm ((v.evalProjJac x u).augLagHessian x u).1 δx δu).sum
        + (c.ineq.map fun v => quadForm ((v.evalProjJac x u).augLagHessian x u).1 δx δu).sum := by
      show quadForm ((c.gradient x u).2.hessian x u).1 δx δu = _
      simp only [ALCost.gradient, ALCost.hessian, List.map_map, List.foldl_map]
      exact (foldl_hess_form c.ineq (fun v => ((v.evalProjJac x u).augLagHessian x u).1) δx δu _).trans
        (by rw [← foldl_hess_form c.eq (fun v => ((v.evalProjJac x u).augLagHessian x u).1)]; rfl)
    have a1 := sum_map_nonneg c.eq (fun v => quadForm ((v.evalProjJac x u).augLagHessian x u).1 δx δu)
      fun v hv => (C04_hessian_psd (v.evalProjJac x u) x u (p1 v hv _)).nonneg δx δu
    have a2 := sum_map_nonneg c.ineq (fun v => quadForm ((v.evalProjJac x u).augLagHessian x u).1 δx δu)
      fun v hv => (C04_hessian_psd (v.evalProjJac x u) x u (p2 v hv _)).nonneg δx δu
    have h1 := h.strong k hk x u δx δu
    rw [← e] at h1
    rw [e2]
    show μ * (δu ⬝ᵥ δu) ≤ _
    linarith

/-! ## Sweeps -/

/-- Lower bounds on a sweep over convex expansions. -/
theorem swept_low {N : ℕ} {kd r : ℕ → KP n m K} {rho : K} (h : Swept N kd r rho) (hμ : 0 ≤ μ) (hr : 0 ≤ rho)
    (low : ∀ k < N, ∀ δx δu, μ * nsq δu ≤ form (kd k).cost δx δu) (lowN : ∀ δx, 0 ≤ δx ⬝ᵥ (kd N).cost.dxdx *ᵥ δx) :
    ∀ k < N, (r k).delta.1 ≤ -(μ * nsq (r k).ff) ∧ (r k).delta.2 ≤ -(1 / 2) * (r k).delta.1 := by
  have hS : ∀ k ≤ N, ∀ δx, 0 ≤ δx ⬝ᵥ (r k).Sxx *ᵥ δx := by
    refine down_induct ?_ fun k hk ih δx => ?_
    · intro δx; rw [h.term.2]; exact lowN δx
    · rw [(h.step k hk).Sxx_form, (h.step k hk).form_q (h.Sxx_symm (k + 1) hk)]
      have := low k hk δx ((r k).gain *ᵥ δx)
      have := ih ((kd k).A *ᵥ δx + (kd k).B *ᵥ ((r k).gain *ᵥ δx))
      have := mul_nonneg hμ (nsq_nonneg ((r k).gain *ᵥ δx))
      linarith
  intro k hk
  obtain ⟨-, -, e3⟩ := h.eqs hk
  have e4 := congrArg ((r k).ff ⬝ᵥ ·) e3
  simp only [add_mulVec, smul_mulVec, one_mulVec, dotProduct_add, dotProduct_smul, smul_eq_mul, dotProduct_neg] at e4
  have e : (r k).ff ⬝ᵥ (r k).q.dudu *ᵥ (r k).ff = form (r k).q 0 (r k).ff := by simp [form]
  have e5 := (h.step k hk).form_q (h.Sxx_symm (k + 1) hk) 0 (r k).ff
  rw [← e] at e5
  have h1 := low k hk 0 (r k).ff
  have h2 := hS (k + 1) hk ((kd k).A *ᵥ 0 + (kd k).B *ᵥ (r k).ff)
  have h3 := mul_nonneg hr (nsq_nonneg (r k).ff)
  rw [(h.step k hk).ctg.2.1]
  unfold nsq at h1 h3 ⊢
  simp only
  constructor <;> linarith

/-- The step lengths of the line search do not go below the last one. -/
theorem last_step_le {f : K} (hf : 1 ≤ f) {j : ℕ} {l : ℤ} (h : (j : ℤ) < l) : stepLength f (l.toNat - 1) ≤ stepLength f j :=
  stepLength_anti hf (by omega)

/-- One iteration: the trajectory is kept, or the cost drops in proportion to the feedforward terms. -/
theorem Curved.iterate_progress (h : Curved p s.cs μ) (hμ : 0 < μ) (hN : p.N ≠ 0) (hr : 0 ≤ s.rho) (hl : 0 < o.lsLower)
    (hf : 1 ≤ o.lsFactor) (hit : iterate (alKernel p) o (fuel + 1) s = some s') :
    s'.Z = s.Z ∨ s'.status = .kUnsolved ∧ trajCost p s.cs s'.Z
      + o.lsLower * stepLength o.lsFactor (o.lsMax.toNat - 1) * μ / 2 * ffsq p.N s'.kd ≤ trajCost p s.cs s.Z := by
  classical
  obtain ⟨s1, hb, b1, b2, b3, hd0, hd1, b6⟩ := (h.convBase hμ).backward (o := o) (fuel := fuel) hN hr
  obtain ⟨s1', hb', rfl⟩ := iterate_some _ _ hit
  rw [hb] at hb'
  obtain rfl := Option.some.inj hb'
  obtain ⟨hbZ, hbZb, hbcs, -, -, -⟩ := backwardPass_frame _ _ _ _ _ hb
  rw [updateExpansions_Z] at hbZ
  rw [updateExpansions_Zbar] at hbZb
  have hcore : ∀ k, (s1.cs k).core = (s.cs k).core := fun k => by
    rw [hbcs]; exact (updateExpansions_law (alCostLaw p) s).2 k
  have hJ : costSum (alKernel p) s1 = (alCostLaw p).total s1.cs s1.Z :=
    (C24_reference_cost o (alCostLaw p) (fuel + 1) s s1 hb).1
  have hlow := swept_low b3 hμ.le hr
    (fun k hk => by rw [(expansion_core p s k hk.le).1]; exact h.low k hk _ rfl _ _)
    (fun δx => by
      rw [(expansion_core p s p.N le_rfl).1]
      simpa using (h.conv p.N le_rfl _ rfl (s.Z.x p.N) (s.Z.u p.N)).psd δx 0)
  have hfp := forwardPass_frame (alKernel p) o s1
  have hkd : (updateConvergence (alKernel p) (forwardPass (alKernel p) o s1)).kd = s1.kd := hfp.kd
  rw [hkd, updateConvergence_Z]
  by_cases hex : ∃ j : ℕ, (j : ℤ) < o.lsMax ∧ Qualifies (alCostLaw p) o s1 ((alCostLaw p).total s1.cs s1.Z) (stepLength o.lsFactor j)
  · right
    obtain ⟨hi, hq⟩ := Nat.find_spec hex
    have hfirst : ∀ l < Nat.find hex, ¬ Qualifies (alCostLaw p) o s1 ((alCostLaw p).total s1.cs s1.Z) (stepLength o.lsFactor l) :=
      fun l hl hql => Nat.find_min hex hl ⟨by omega, hql⟩
    generalize Nat.find hex = j at hi hq hfirst
    obtain ⟨hT, hst, -, -, -⟩ := C24_accepts_first o (alCostLaw p) OrderLaws.ofField s1 hJ j hi hq hfirst
    obtain ⟨q1, q2, -⟩ := C24_sufficient_decrease o (alCostLaw p) s1 _ _ (by linarith) hq
    obtain ⟨p0, p1⟩ := stepLength_pos hf j
    have hv : μ * ffsq p.N s1.kd ≤ -s1.dV0 := by
      rw [hd0, ffsq, Finset.mul_sum, ← Finset.sum_neg_distrib]
      exact Finset.sum_le_sum fun k hk => by linarith [(hlow k (Finset.mem_range.mp hk)).1]
    have hV1 : s1.dV1 ≤ 1 / 2 * -s1.dV0 := by
      rw [hd0, hd1, mul_neg, ← neg_mul, Finset.mul_sum]
      exact Finset.sum_le_sum fun k hk => (hlow k (Finset.mem_range.mp hk)).2
    have hpred : stepLength o.lsFactor j * -s1.dV0 / 2 ≤ predicted s1.dV0 s1.dV1 (stepLength o.lsFactor j) := by
      have e : predicted s1.dV0 s1.dV1 (stepLength o.lsFactor j)
          = stepLength o.lsFactor j * -s1.dV0 - stepLength o.lsFactor j ^ 2 * s1.dV1 := by unfold predicted; ring
      have hα2 : stepLength o.lsFactor j ^ 2 ≤ stepLength o.lsFactor j := by nlinarith
      have hα0 : 0 ≤ stepLength o.lsFactor j ^ 2 := sq_nonneg _
      have hv0 : 0 ≤ -s1.dV0 := le_trans (mul_nonneg hμ.le (ffsq_nonneg _ _)) hv
      have m1 := mul_le_mul_of_nonneg_left hV1 hα0
      have m2 := mul_le_mul_of_nonneg_right hα2 (show 0 ≤ 1 / 2 * -s1.dV0 by linarith)
      rw [e]; linarith
    have hcost : trajCost p s.cs (forwardPass (alKernel p) o s1).Z
        = (alCostLaw p).total s1.cs (candidateTraj (alKernel p) s1.kd s1.Z s1.Zbar (stepLength o.lsFactor j)) := by
      rw [total_eq_trajCost]
      exact trajCost_congr p _ _ _ _ (fun k => (hcore k).symm) hT.x hT.u
    have hJ0 : (alCostLaw p).total s1.cs s1.Z = trajCost p s.cs s.Z := by
      rw [total_eq_trajCost, hbZ]; exact trajCost_congr p _ _ _ _ hcore (fun _ _ => rfl) (fun _ _ => rfl)
    rw [hcost]
    rw [hJ0] at q2
    have m1 := mul_le_mul_of_nonneg_left hpred hl.le
    have m2 := mul_le_mul (last_step_le hf hi) hv (mul_nonneg hμ.le (ffsq_nonneg _ _)) p0.le
    have m3 := mul_le_mul_of_nonneg_left m2 hl.le
    exact ⟨hst, by linarith⟩
  · left
    push Not at hex
    exact (C24_rejects o (alCostLaw p) OrderLaws.ofField s1 hJ hex).1.trans hbZ

/-- The gradient measure recorded by an iteration. -/
theorem iterate_gradRecord (ha : Aligned s.stats) (hit : iterate (alKernel p) o fuel s = some s') :
    Stats.back (s'.stats.col .grad) = normalizedGain (alKernel p) s' := by
  obtain ⟨s1, hb, rfl⟩ := iterate_some _ _ hit
  obtain ⟨-, -, -, -, ⟨r, hst⟩, -⟩ := backwardPass_frame _ _ _ _ _ hb
  rw [updateExpansions_stats] at hst
  have a1 : Aligned s1.stats := by rw [hst]; exact aligned_log _ _ _ ha
  have n1 : s1.stats.len ≠ 0 := by rw [hst]; exact log_len_ne _ _ _
  have hq : Aligned (forwardPass (alKernel p) o s1).stats ∧ (forwardPass (alKernel p) o s1).stats.len ≠ 0 := by
    have hbase : SameBase (alCostLaw p) s1 s1 := ⟨LSFrame.refl _ s1, fun _ => rfl⟩
    obtain ⟨l1, l2⟩ := lineSearch_spec o (alCostLaw p) s1 (costSum _ s1) o.lsMax.toNat 0 (costSum _ s1) s1 hbase rfl
    rw [forwardPass_eq _ o OrderLaws.ofField]
    by_cases hq : (lineSearch (alKernel p) o (costSum (alKernel p) s1) o.lsMax.toNat 1 (costSum (alKernel p) s1) s1).2 = true
    · simp only [hq, if_true]
      obtain ⟨⟨i', -, -, -, -, -, -, -, z, hz⟩, -⟩ := l1 hq
      have hz' : (lineSearch (alKernel p) o (costSum (alKernel p) s1) o.lsMax.toNat 1 (costSum (alKernel p) s1) s1).1.1.stats = _ := hz
      rw [hz']
      exact ⟨aligned_log _ _ _ (aligned_log _ _ _ (aligned_log _ _ _ a1)), log_len_ne _ _ _⟩
    · have hq' : (lineSearch (alKernel p) o (costSum (alKernel p) s1) o.lsMax.toNat 1 (costSum (alKernel p) s1) s1).2 = false := by
        simpa using hq
      simp only [hq', if_false, Bool.false_eq_true]
      obtain ⟨-, -, hst2⟩ := l2 hq'
      have : (increaseReg o (lineSearch (alKernel p) o (costSum (alKernel p) s1) o.lsMax.toNat 1 (costSum (alKernel p) s1) s1).1.1).stats
        = s1.stats := hst2
      rw [this]
      exact ⟨a1, n1⟩
  exact (updateConvergence_cols (P := alKernel p) _ hq.1 hq.2).2.2.2.1

/-- The regularization stays nonnegative. -/
theorem iterate_reg_nonneg (hmin : 0 ≤ o.regMin) (hmax : 0 ≤ o.regMax) (hit : iterate (alKernel p) o fuel s = some s') :
    0 ≤ s'.rho := by
  obtain ⟨s1, hb, rfl⟩ := iterate_some _ _ hit
  have h1 : 0 ≤ s1.rho := by
    unfold backwardPass at hb
    split at hb
    · cases hb
    · injection hb with hb; rw [← hb]; exact (reg_nonneg hmin hmax _).2
  have hbase : SameBase (alCostLaw p) s1 s1 := ⟨LSFrame.refl _ s1, fun _ => rfl⟩
  obtain ⟨l1, l2⟩ := lineSearch_spec o (alCostLaw p) s1 (costSum _ s1) o.lsMax.toNat 0 (costSum _ s1) s1 hbase rfl
  show 0 ≤ (forwardPass (alKernel p) o s1).rho
  rw [forwardPass_eq _ o OrderLaws.ofField]
  by_cases hq : (lineSearch (alKernel p) o (costSum (alKernel p) s1) o.lsMax.toNat 1 (costSum (alKernel p) s1) s1).2 = true
  · simp only [hq, if_true]
    obtain ⟨-, hB⟩ := l1 hq
    have : (lineSearch (alKernel p) o (costSum (alKernel p) s1) o.lsMax.toNat 1 (costSum (alKernel p) s1) s1).1.1.rho = s1.rho :=
      hB.frame.rho
    show 0 ≤ (lineSearch (alKernel p) o (costSum (alKernel p) s1) o.lsMax.toNat 1 (costSum (alKernel p) s1) s1).1.1.rho
    rw [this]; exact h1
  · have hq' : (lineSearch (alKernel p) o (costSum (alKernel p) s1) o.lsMax.toNat 1 (costSum (alKernel p) s1) s1).2 = false := by
      simpa using hq
    simp only [hq', if_false, Bool.false_eq_true]
    exact (reg_nonneg hmin hmax _).1

/-! ## The loop as a sequence of states -/

theorem not_converged_of_not_done {X U C D : Type} {q : St X U K C D} (h : (ILQR.isDone o q).2 = false) : ¬ Converged o q := by
  unfold ILQR.isDone at h
  rintro ⟨h1, h2⟩
  rw [if_pos (by rw [Bool.and_eq_true, Arith.lt_iff, Arith.lt_iff]; exact ⟨h1, h2⟩)] at h
  cases h

theorem solveLoop_iterations (r : ℕ) (h : solveLoop (alKernel p) o fuel r s = some s') :
    ∃ l st, l ≤ r ∧ Iterations p o fuel s l st ∧
      (0 < r → 0 < l) ∧ (0 < l → s' = (ILQR.isDone o (st l)).1) ∧ (l = 0 → s' = s) ∧
      (l < r → (ILQR.isDone o (st l)).2 = true) := by
  induction r generalizing s with
  | zero =>
    simp only [solveLoop] at h
    injection h with h
    exact ⟨0, fun _ => s, le_rfl, ⟨rfl, by simp, by omega⟩, by omega, by omega, fun _ => h.symm, by omega⟩
  | succ r ih =>
    unfold solveLoop at h
    split at h
    · cases h
    · rename_i s1 h1
      simp only at h
      by_cases hd : (ILQR.isDone o s1).2 = true
      · rw [if_pos hd] at h
        injection h with h
        refine ⟨1, fun i => if i = 0 then s else s1, by omega, ⟨rfl, fun i hi => ?_, by omega⟩, by omega, fun _ => h.symm, by omega,
          fun _ => hd⟩
        obtain rfl : i = 0 := by omega
        exact h1
      · rw [if_neg hd] at h
        have hd' : (ILQR.isDone o s1).2 = false := by simpa using hd
        obtain ⟨e1, e2, -⟩ := isDone_false o s1 hd'
        rw [e1] at h
        obtain ⟨l, st, a1, a2, a3, a4, a5, a6⟩ := ih h
        refine ⟨l + 1, fun i => if i = 0 then s else st (i - 1), by omega, ⟨rfl, fun i hi => ?_, fun i hi0 hi => ?_⟩, by omega,
          fun _ => ?_, by omega, fun hl => ?_⟩
        · rcases Nat.eq_zero_or_pos i with rfl | hi0
          · show iterate _ _ _ s = some (st 0); rw [a2.init]; exact h1
          · obtain ⟨i, rfl⟩ : ∃ i', i = i' + 1 := ⟨i - 1, by omega⟩
            exact a2.next i (by omega)
        · obtain ⟨i, rfl⟩ : ∃ i', i = i' + 1 := ⟨i - 1, by omega⟩
          show ¬ Converged o (st i)
          rcases Nat.eq_zero_or_pos i with rfl | hi0
          · rw [a2.init]; exact not_converged_of_not_done hd'
          · exact a2.open_ i hi0 (by omega)
        · show s' = (ILQR.isDone o (st l)).1
          rcases Nat.eq_zero_or_pos l with rfl | hl
          · rw [a2.init, a5 rfl, e1]
          · exact a4 hl
        · exact a6 (by omega)

end Altro.Props
