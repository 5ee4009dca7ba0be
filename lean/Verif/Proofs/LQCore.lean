import Verif.Props.LQSolve
import Verif.Proofs.Descent
import Verif.Proofs.ALSolver
import Verif.Spec.Convex
import Verif.Props.ILQRRecords

/-!
# iLQR on problems whose augmented cost is a convex quadratic
-/

namespace Altro.Props
open Altro.Spec Matrix ILQR
variable {K : Type} [Field K] [LinearOrder K] [IsStrictOrderedRing K] {n m : ℕ}

/-- The expansion `CalcCostExpansion` stores for a cost object at `(x, u)`. -/
def expOf (c : ALCost n m K) (x : Fin n → K) (u : Fin m → K) : Expansion n m K :=
  ⟨((c.gradient x u).2.hessian x u).1.dxdx, ((c.gradient x u).2.hessian x u).1.dxdu,
   ((c.gradient x u).2.hessian x u).1.dudu, (c.gradient x u).1.1, (c.gradient x u).1.2⟩

theorem expansion_core (p : DynProblem n m K) (s : St (Fin n → K) (Fin m → K) K (ALCost n m K) (KP n m K)) (k : ℕ)
    (hk : k ≤ p.N) :
    ((updateExpansions (alKernel p) s).kd k).cost = expOf (s.cs k) (s.Z.x k) (s.Z.u k) ∧
    ((updateExpansions (alKernel p) s).kd k).A = (p.jac k (s.Z.x k) (s.Z.u k) (s.Z.t k) (s.Z.h k)).1 ∧
    ((updateExpansions (alKernel p) s).kd k).B = (p.jac k (s.Z.x k) (s.Z.u k) (s.Z.t k) (s.Z.h k)).2 := by
  rw [updateExpansions_at (alKernel p) s k hk]
  exact ⟨rfl, rfl, rfl⟩

/-- Affine dynamics, and augmented costs whose expansions are convex, whatever the stored values. -/
structure CoreBase (p : DynProblem n m K) (cs : ℕ → ALCost n m K) : Prop where
  dyn : ∀ k < p.N, ∀ x u t h δx δu,
    p.f k (x + δx) (u + δu) t h = p.f k x u t h + (p.jac k x u t h).1 *ᵥ δx + (p.jac k x u t h).2 *ᵥ δu
  conv : ∀ k ≤ p.N, ∀ c : ALCost n m K, c.core = (cs k).core → ∀ x u, ConvexExp (expOf c x u)
  pos : ∀ k < p.N, ∀ c : ALCost n m K, c.core = (cs k).core → ∀ x u, PosDef (expOf c x u).dudu
  term : ∀ x u u', ((cs p.N).evaluate x u).1 = ((cs p.N).evaluate x u').1
  con : ∀ x u u', (cs p.N).static.valuesAt x u = (cs p.N).static.valuesAt x u'

/-- ... and the augmented costs are the quadratics given by these expansions. -/
structure CoreLQ (p : DynProblem n m K) (cs : ℕ → ALCost n m K) : Prop extends CoreBase p cs where
  quad : ∀ k ≤ p.N, ∀ c : ALCost n m K, c.core = (cs k).core → ∀ x u δx δu,
    (c.evaluate (x + δx) (u + δu)).1 = (c.evaluate x u).1 + quadModel (expOf c x u) δx δu

theorem CoreBase.congr {p : DynProblem n m K} {cs cs' : ℕ → ALCost n m K} (h : CoreBase p cs)
    (e : ∀ k ≤ p.N, (cs' k).core = (cs k).core) : CoreBase p cs' where
  dyn := h.dyn
  conv k hk c hc := h.conv k hk c (hc.trans (e k hk))
  pos k hk c hc := h.pos k hk c (hc.trans (e k hk.le))
  term x u u' := by
    rw [← ALCost.evaluate_of_core, ← (cs' p.N).evaluate_of_core, e _ le_rfl, ALCost.evaluate_of_core,
      ALCost.evaluate_of_core]
    exact h.term x u u'
  con x u u' := by
    rw [← ALCost.static_of_core, e _ le_rfl, ALCost.static_of_core]
    exact h.con x u u'

theorem CoreLQ.congr {p : DynProblem n m K} {cs cs' : ℕ → ALCost n m K} (h : CoreLQ p cs)
    (e : ∀ k ≤ p.N, (cs' k).core = (cs k).core) : CoreLQ p cs' where
  toCoreBase := h.toCoreBase.congr e
  quad k hk c hc := h.quad k hk c (hc.trans (e k hk))

variable {p : DynProblem n m K} {o : Opts K} {fuel : ℕ}
  {s0 s s1 s' : St (Fin n → K) (Fin m → K) K (ALCost n m K) (KP n m K)}

theorem CoreLQ.exact (h : CoreLQ p s.cs) : ExactExpansion p s.cs s.Z (updateExpansions (alKernel p) s).kd where
  dyn k hk δx δu := by
    obtain ⟨_, e2, e3⟩ := expansion_core p s k hk.le
    rw [e2, e3]; exact h.dyn k hk _ _ _ _ _ _
  cost k hk δx δu := by
    rw [(expansion_core p s k hk.le).1]
    exact h.quad k hk.le _ rfl _ _ _ _
  term δx u := by
    rw [(expansion_core p s p.N le_rfl).1, h.term _ u (s.Z.u p.N + 0), h.quad _ le_rfl _ rfl]
    simp [quadModel, ctgModel]

/-- Augmented costs whose expansions are convex, strictly in the control, whatever the stored values. -/
structure CoreConvex (p : DynProblem n m K) (cs : ℕ → ALCost n m K) : Prop where
  conv : ∀ k ≤ p.N, ∀ c : ALCost n m K, c.core = (cs k).core → ∀ x u, ConvexExp (expOf c x u)
  pos : ∀ k < p.N, ∀ c : ALCost n m K, c.core = (cs k).core → ∀ x u, PosDef (expOf c x u).dudu

theorem CoreBase.toCoreConvex {cs : ℕ → ALCost n m K} (h : CoreBase p cs) : CoreConvex p cs := ⟨h.conv, h.pos⟩

/-- The sweep of a backward pass with regularization `s.rho ≥ 0`. -/
theorem CoreConvex.sweep (h : CoreConvex p s.cs) {rho : K} (hr : 0 ≤ rho) :
    (bpSweep (alKernel p) rho p.N (upd (updateExpansions (alKernel p) s).kd p.N
      ((updateExpansions (alKernel p) s).kd p.N).term) (0, 0)).2 = true ∧
    Swept p.N (updateExpansions (alKernel p) s).kd (bpSweep (alKernel p) rho p.N
      (upd (updateExpansions (alKernel p) s).kd p.N ((updateExpansions (alKernel p) s).kd p.N).term) (0, 0)).1.1 rho := by
  have hC : ∀ k ≤ p.N, ConvexExp ((updateExpansions (alKernel p) s).kd k).cost := fun k hk => by
    rw [(expansion_core p s k hk).1]; exact h.conv k hk _ rfl _ _
  have hP : ∀ k < p.N, PosDef ((updateExpansions (alKernel p) s).kd k).cost.dudu := fun k hk => by
    rw [(expansion_core p s k hk.le).1]; exact h.pos k hk _ rfl _ _
  have hok := (C30_sweep p rho hr p.N (upd (updateExpansions (alKernel p) s).kd p.N
      ((updateExpansions (alKernel p) s).kd p.N).term) (0, 0)
    (fun k hk => by rw [upd_of_ne (by omega)]; exact hC k hk.le)
    (fun k hk => by rw [upd_of_ne (by omega)]; exact .inr (hP k hk))
    (by rw [upd_self]; exact (hC p.N le_rfl).symx)
    (by
      rw [upd_self]
      intro x
      have h2 : 0 ≤ x ⬝ᵥ ((updateExpansions (alKernel p) s).kd p.N).cost.dxdx *ᵥ x := by
        simpa using (hC p.N le_rfl).psd x 0
      exact h2)).1
  obtain ⟨i1, i2, -, -⟩ := bpSweep_spec (alKernel p) rho p.N _ _ hok
  refine ⟨hok, ⟨?_, (hC _ le_rfl).symx, fun k hk => (hC k hk.le).symx, fun k hk => (hC k hk.le).symu, fun k hk => ?_⟩⟩
  · rw [i1 p.N le_rfl, upd_self]; exact ⟨rfl, rfl⟩
  · have := i2 k hk
    rw [upd_of_ne (by omega)] at this
    exact ⟨this.1, this.2⟩

/-- The backward pass: one sweep, with the current regularization. -/
theorem CoreConvex.backward (h : CoreConvex p s.cs) (hN : p.N ≠ 0) (hr : 0 ≤ s.rho) :
    ∃ s1, backwardPass (alKernel p) o (fuel + 1) (updateExpansions (alKernel p) s) = some s1 ∧
      s1.status = s.status ∧ s1.rho = (decreaseReg o s).rho ∧
      Swept p.N (updateExpansions (alKernel p) s).kd s1.kd s.rho ∧
      s1.dV0 = ∑ k ∈ Finset.range p.N, (s1.kd k).delta.1 ∧ s1.dV1 = ∑ k ∈ Finset.range p.N, (s1.kd k).delta.2 ∧
      s1.stats = s.stats.log (some .reg) s.rho := by
  set q := updateExpansions (alKernel p) s with hq
  have hqr : q.rho = s.rho := by rw [hq, updateExpansions_rho]
  obtain ⟨hok, hsw⟩ := h.sweep hr
  rw [← hq] at hok hsw
  unfold backwardPass bpLoop
  extract_lets r w w2 count'
  have hr' : r = bpSweep (alKernel p) s.rho p.N (upd q.kd p.N (q.kd p.N).term) (0, 0) := by
    show bpSweep (alKernel p) q.rho p.N _ _ = _
    rw [hqr]; rfl
  have hr2 : r.2 = true := by rw [hr']; exact hok
  rw [if_pos hr2, if_neg (show ¬(alKernel p).N = 0 from hN)]
  obtain ⟨-, -, i3, i4⟩ := bpSweep_spec (alKernel p) s.rho p.N _ _ hok
  rw [← hr'] at i3 i4 hsw
  refine ⟨_, rfl, ?_, ?_, hsw, ?_, ?_, ?_⟩
  · show q.status = _
    rw [hq, updateExpansions_status]
  · show (decreaseReg o q).rho = _
    unfold decreaseReg
    simp only [hqr]
    rw [hq, updateExpansions_drho]
  · show r.1.2.1 = _
    rw [i3]; simp only [zero_add]; rfl
  · show r.1.2.2 = _
    rw [i4]; simp only [zero_add]; rfl
  · show q.stats.log (some .reg) q.rho = _
    rw [hqr, hq, updateExpansions_stats]

theorem CoreBase.sweep (h : CoreBase p s.cs) {rho : K} (hr : 0 ≤ rho) :
    (bpSweep (alKernel p) rho p.N (upd (updateExpansions (alKernel p) s).kd p.N
      ((updateExpansions (alKernel p) s).kd p.N).term) (0, 0)).2 = true ∧
    Swept p.N (updateExpansions (alKernel p) s).kd (bpSweep (alKernel p) rho p.N
      (upd (updateExpansions (alKernel p) s).kd p.N ((updateExpansions (alKernel p) s).kd p.N).term) (0, 0)).1.1 rho :=
  h.toCoreConvex.sweep hr

theorem CoreBase.backward (h : CoreBase p s.cs) (hN : p.N ≠ 0) (hr : 0 ≤ s.rho) :
    ∃ s1, backwardPass (alKernel p) o (fuel + 1) (updateExpansions (alKernel p) s) = some s1 ∧
      s1.status = s.status ∧ s1.rho = (decreaseReg o s).rho ∧
      Swept p.N (updateExpansions (alKernel p) s).kd s1.kd s.rho ∧
      s1.dV0 = ∑ k ∈ Finset.range p.N, (s1.kd k).delta.1 ∧ s1.dV1 = ∑ k ∈ Finset.range p.N, (s1.kd k).delta.2 ∧
      s1.stats = s.stats.log (some .reg) s.rho :=
  h.toCoreConvex.backward hN hr

/-! ## At an optimum -/

/-- No alternative is better. -/
def Optimal (p : DynProblem n m K) (cs : ℕ → ALCost n m K) (Z : Traj (Fin n → K) (Fin m → K) K) : Prop :=
  ∀ Z', Alternative p Z Z' → trajCost p cs Z ≤ trajCost p cs Z'

/-- At an optimum the feedforward terms vanish, whatever the regularization. -/
theorem CoreLQ.ff_zero (h : CoreLQ p s.cs) (hZ : DynFeasible (alKernel p) s.Z) (hbest : Optimal p s.cs s.Z)
    {r : ℕ → KP n m K} {rho : K} (hsw : Swept p.N (updateExpansions (alKernel p) s).kd r rho) :
    ∀ k < p.N, (r k).ff = 0 := by
  obtain ⟨-, h0⟩ := h.sweep (rho := 0) le_rfl
  set r0 := (bpSweep (alKernel p) 0 p.N
      (upd (updateExpansions (alKernel p) s).kd p.N ((updateExpansions (alKernel p) s).kd p.N).term) (0, 0)).1.1
  have hS : SweepOk p.N (updateExpansions (alKernel p) s).kd r0 := ⟨h0.term, h0.symN, h0.symx, h0.symu, h0.step⟩
  have hA : Alternative p s.Z s.Z := ⟨hZ.init, hZ.step⟩
  have ht : SameTimes (alKernel p) s.Z s.Z := ⟨fun _ _ => rfl, fun _ _ => rfl⟩
  obtain ⟨c1, c2⟩ := C32_full_step_optimal p s.cs s.Z s.Z s.Z _ r0 h.exact hS hA ht hA
  have c3 := hbest _ (candidate_alternative p r0 s.Z s.Z ht 1)
  have c4 := c2 (le_antisymm c1 c3)
  refine hsw.ff_iff_grad.mpr (h0.ff_iff_grad.mp fun k hk => ?_)
  have e := candidate_policyError p r0 s.Z s.Z 1 k hk
  rw [sub_self, zero_smul, policyError, ← (c4 k hk).1, ← (c4 k hk).2, sub_self, sub_self, mulVec_zero, zero_add,
    zero_sub, neg_eq_zero] at e
  exact e

/-- With vanishing feedforward terms every candidate is the trajectory itself. -/
theorem candidate_still {Z Zbar : Traj (Fin n → K) (Fin m → K) K} {r : ℕ → KP n m K} (hZ : DynFeasible (alKernel p) Z)
    (ht : SameTimes (alKernel p) Zbar Z) (hff : ∀ k < p.N, (r k).ff = 0) (a : K) :
    ∀ k ≤ p.N, candidate (alKernel p) r Z Zbar.t Zbar.h a k = Z.x k ∧
      (k < p.N → candidateU (alKernel p) r Z Zbar.t Zbar.h a k = Z.u k) := by
  have hu : ∀ k < p.N, candidate (alKernel p) r Z Zbar.t Zbar.h a k = Z.x k →
      candidateU (alKernel p) r Z Zbar.t Zbar.h a k = Z.u k := by
    intro k hk e
    show Z.u k + (r k).gain *ᵥ (candidate (alKernel p) r Z Zbar.t Zbar.h a k - Z.x k) + a • (r k).ff = _
    rw [e, hff k hk, sub_self, mulVec_zero, smul_zero, add_zero, add_zero]
  intro k hk
  induction k with
  | zero => exact ⟨hZ.init.symm, fun h0 => hu 0 h0 hZ.init.symm⟩
  | succ k ih =>
    obtain ⟨i1, i2⟩ := ih (by omega)
    have e : candidate (alKernel p) r Z Zbar.t Zbar.h a (k + 1) = Z.x (k + 1) := by
      show p.f k (candidate (alKernel p) r Z Zbar.t Zbar.h a k) (candidateU (alKernel p) r Z Zbar.t Zbar.h a k)
        (Zbar.t k) (Zbar.h k) = _
      rw [i1, i2 (by omega), ht.t k (Nat.le_of_lt hk), ht.h k hk]
      exact (hZ.step k hk).symm
    exact ⟨e, fun hk' => hu _ hk' e⟩

theorem reg_nonneg (hmin : 0 ≤ o.regMin) (hmax : 0 ≤ o.regMax) (s : St (Fin n → K) (Fin m → K) K (ALCost n m K) (KP n m K)) :
    0 ≤ (increaseReg o s).rho ∧ 0 ≤ (decreaseReg o s).rho := by
  constructor
  · show 0 ≤ Arith.smin (Arith.smax _ o.regMin) o.regMax
    rw [Arith.smin_eq, Arith.smax_eq]
    exact le_min (le_max_of_le_right hmin) hmax
  · show 0 ≤ Arith.smin (Arith.smax _ o.regMin) o.regMax
    rw [Arith.smin_eq, Arith.smax_eq]
    exact le_min (le_max_of_le_right hmin) hmax

/-- With the limits switched off the line search leaves the status alone. -/
theorem lineSearch_status_off (hlim : o.checkBounds = false) (J0 : K) (r : ℕ) (a J : K)
    (s : St (Fin n → K) (Fin m → K) K (ALCost n m K) (KP n m K)) (hs : s.status = .kUnsolved) :
    (lineSearch (alKernel p) o J0 r a J s).1.1.status = .kUnsolved := by
  have hcl : ∀ (k : ℕ) (a : K) (s : St (Fin n → K) (Fin m → K) K (ALCost n m K) (KP n m K)),
      (closedLoopTo (alKernel p) o a s k).2 = none := by
    intro k a s
    induction k with
    | zero => rfl
    | succ k ih =>
      unfold closedLoopTo
      split
      · rename_i st e; rw [e] at ih; cases ih
      · unfold limitStatus; rw [hlim]; rfl
  have hrc : ∀ (a : K) (s : St (Fin n → K) (Fin m → K) K (ALCost n m K) (KP n m K)),
      (rolloutClosedLoop (alKernel p) o a s).1.status = .kUnsolved := by
    intro a s
    have h1 := hcl (alKernel p).N a s
    unfold rolloutClosedLoop
    split
    · rename_i st e; rw [e] at h1; cases h1
    · rfl
  induction r generalizing a J s with
  | zero => exact hs
  | succ r ih =>
    simp only [lineSearch]
    split
    · split
      · show (ILQR.cost _ _ _).2.status = _
        rw [cost_status]; exact hrc a s
      · exact ih _ _ _ (by rw [cost_status]; exact hrc a s)
    · exact ih _ _ _ (hrc a s)

theorem forwardPass_status_off (hlim : o.checkBounds = false)
    (s : St (Fin n → K) (Fin m → K) K (ALCost n m K) (KP n m K)) (hs : s.status = .kUnsolved) :
    (forwardPass (alKernel p) o s).status = .kUnsolved := by
  rw [forwardPass_eq (alKernel p) o OrderLaws.ofField]
  have := lineSearch_status_off (p := p) hlim (costSum (alKernel p) s) o.lsMax.toNat 1 (costSum (alKernel p) s) s hs
  simp only
  split
  · exact this
  · exact this

/-- The augmented cost of a trajectory depends on the last control only through the last cost object, which ignores it. -/
theorem CoreBase.trajCost_eq {cs cs' : ℕ → ALCost n m K} (h : CoreBase p cs) (e : ∀ k, (cs' k).core = (cs k).core)
    {Z Z' : Traj (Fin n → K) (Fin m → K) K} (hx : ∀ k ≤ p.N, Z'.x k = Z.x k) (hu : ∀ k < p.N, Z'.u k = Z.u k) :
    trajCost p cs' Z' = trajCost p cs Z := by
  have e1 : ∀ k x u, ((cs' k).evaluate x u).1 = ((cs k).evaluate x u).1 := fun k x u => by
    rw [← ALCost.evaluate_of_core, e k, ALCost.evaluate_of_core]
  unfold trajCost
  rw [Finset.sum_range_succ, Finset.sum_range_succ]
  congr 1
  · refine Finset.sum_congr rfl fun k hk => ?_
    have hk := Finset.mem_range.mp hk
    rw [e1, hx k hk.le, hu k hk]
  · rw [e1, hx _ le_rfl]; exact h.term _ _ _

/-- One iteration with vanishing feedforward terms: the trajectory stays, the stored constraint values are its own. -/
theorem CoreBase.iterate_optimal (h : CoreBase p s.cs) (hN : p.N ≠ 0) (hr : 0 ≤ s.rho) (hmin : 0 ≤ o.regMin)
    (hmax : 0 ≤ o.regMax) (hZ : DynFeasible (alKernel p) s.Z) (ht : SameTimes (alKernel p) s.Zbar s.Z)
    (hz : ∀ r, Swept p.N (updateExpansions (alKernel p) s).kd r s.rho → ∀ k < p.N, (r k).ff = 0) :
    ∃ q, iterate (alKernel p) o (fuel + 1) s = some (updateConvergence (alKernel p) q) ∧ q.Z = s.Z ∧
      (∀ k, (q.cs k).core = (s.cs k).core) ∧ (alLaw p).Fresh q.cs s.Z ∧ 0 ≤ q.rho ∧
      SameTimes (alKernel p) q.Zbar s.Z ∧ q.stats = s.stats.log (some .reg) s.rho ∧
      (∀ k < p.N, (q.kd k).ff = 0) ∧ (o.checkBounds = false → s.status = .kUnsolved → q.status = .kUnsolved) := by
  obtain ⟨s1, hb, b1, b2, b3, -, -, b6⟩ := h.backward (o := o) (fuel := fuel) hN hr
  have hff := hz _ b3
  obtain ⟨hbZ, hbZb, hbcs, -, -, -⟩ := backwardPass_frame _ _ _ _ _ hb
  rw [updateExpansions_Z] at hbZ
  rw [updateExpansions_Zbar] at hbZb
  have hcore : ∀ k, (s1.cs k).core = (s.cs k).core := fun k => by
    rw [hbcs]; exact (updateExpansions_law (alCostLaw p) s).2 k
  have hit : iterate (alKernel p) o (fuel + 1) s
      = some (updateConvergence (alKernel p) (forwardPass (alKernel p) o s1)) := by
    unfold iterate; rw [hb]
  have hJ : costSum (alKernel p) s1 = (alCostLaw p).total s1.cs s1.Z :=
    (C24_reference_cost o (alCostLaw p) (fuel + 1) s s1 hb).1
  have hst := fun a => candidate_still (Zbar := s1.Zbar) (r := s1.kd) (Z := s1.Z) (by rw [hbZ]; exact hZ)
    (by rw [hbZ, hbZb]; exact ht) hff a
  have hsame : ∀ a, trajCost p s1.cs (candidateTraj (alKernel p) s1.kd s1.Z s1.Zbar a) = trajCost p s1.cs s1.Z := fun a =>
    (h.congr fun k _ => hcore k).trajCost_eq (fun _ => rfl) (fun k hk => (hst a k hk).1) (fun k hk => by
      show (if k < p.N then _ else _) = _
      rw [if_pos hk]; exact (hst a k hk.le).2 hk)
  obtain ⟨f1, f2, -, f4⟩ := C24_rejects o (alCostLaw p) OrderLaws.ofField s1 hJ (fun i _ hq => by
    have := hq.lower
    rw [Arith.lt_iff, total_eq_trajCost, total_eq_trajCost, hsame] at this
    exact lt_irrefl _ this)
  have hfp := forwardPass_frame (alKernel p) o s1
  obtain ⟨c1, -⟩ := iterate_cost o (alCostLaw p) OrderLaws.ofField hit
  refine ⟨_, hit, f1.trans hbZ, c1, ?_, ?_, ?_, ?_, ?_, ?_⟩
  · obtain ⟨s2, hb2, hcase⟩ := iterate_stored o (alLaw p).toViolLaw hit
    have e12 : s2 = s1 := by rw [hb] at hb2; injection hb2 with e; exact e.symm
    subst e12
    have hZ' : (updateConvergence (alKernel p) (forwardPass (alKernel p) o s2)).Z = s.Z := f1.trans hbZ
    rcases hcase with ⟨_, hf⟩ | ⟨_, _, ⟨hf, _⟩ | ⟨i', hl⟩⟩
    · rw [hZ'] at hf; exact hf
    · rw [hZ'] at hf; exact hf
    · intro k hk
      have e := hl.fresh k hk
      refine e.trans ?_
      have hx := (hst (stepLength o.lsFactor i') k hk).1
      rcases Nat.lt_or_eq_of_le hk with hk' | rfl
      · have e1 : (candidateTraj (alKernel p) s2.kd s2.Z s2.Zbar (stepLength o.lsFactor i')).u k = s2.Z.u k := by
          show (if k < (alKernel p).N then _ else _) = _
          rw [if_pos hk']; exact (hst _ k hk).2 hk'
        have e2 : (candidateTraj (alKernel p) s2.kd s2.Z s2.Zbar (stepLength o.lsFactor i')).x k = s2.Z.x k := hx
        rw [e1, e2, hbZ]; rfl
      · have e2 : (candidateTraj (alKernel p) s2.kd s2.Z s2.Zbar (stepLength o.lsFactor i')).x (alKernel p).N
            = s2.Z.x (alKernel p).N := hx
        rw [e2, hbZ]
        exact (h.congr fun k _ => c1 k).con _ _ _
  · rw [f2]; exact (reg_nonneg hmin hmax s1).1
  · exact ⟨fun k hk => by rw [hfp.Zbar_t, hbZb]; exact ht.t k hk, fun k hk => by rw [hfp.Zbar_h, hbZb]; exact ht.h k hk⟩
  · rw [f4, b6]
  · rw [hfp.kd]; exact hff
  · exact fun hl hu => forwardPass_status_off hl s1 (b1.trans hu)

theorem alternative_same {Z Z1 : Traj (Fin n → K) (Fin m → K) K} (h : SameTimes (alKernel p) Z1 Z) :
    ∀ Y, Alternative p Z1 Y ↔ Alternative p Z Y := fun Y =>
  ⟨fun q => ⟨q.init, fun k hk => by rw [← h.t k (Nat.le_of_lt hk), ← h.h k hk]; exact q.step k hk⟩,
   fun q => ⟨q.init, fun k hk => by rw [h.t k (Nat.le_of_lt hk), h.h k hk]; exact q.step k hk⟩⟩

/-- One iteration without regularization: the optimum is reached. -/
theorem CoreLQ.iterate_reaches (h : CoreLQ p s.cs) (hN : p.N ≠ 0) (hr : s.rho = 0) (hmin : 0 ≤ o.regMin)
    (hmax : 0 ≤ o.regMax) (hls : 1 ≤ o.lsMax) (hlow : o.lsLower ≤ 1) (hup : 1 ≤ o.lsUpper) (hlim : o.checkBounds = false)
    (hZ : DynFeasible (alKernel p) s.Z) (ht : SameTimes (alKernel p) s.Zbar s.Z) :
    ∃ q, iterate (alKernel p) o (fuel + 1) s = some (updateConvergence (alKernel p) q) ∧
      DynFeasible (alKernel p) q.Z ∧ SameTimes (alKernel p) q.Z s.Z ∧ Optimal p s.cs q.Z ∧
      (∀ k, (q.cs k).core = (s.cs k).core) ∧ (alLaw p).Fresh q.cs q.Z ∧ 0 ≤ q.rho ∧
      SameTimes (alKernel p) q.Zbar s.Z ∧ (s.status = .kUnsolved → q.status = .kUnsolved) ∧
      q.stats.inner = s.stats.inner ∧ q.stats.total = s.stats.total := by
  by_cases hopt : Optimal p s.cs s.Z
  · obtain ⟨q, a1, a2, a3, a4, a5, a6, a7, a8, a9⟩ := h.toCoreBase.iterate_optimal (o := o) (fuel := fuel) hN hr.ge hmin hmax hZ ht
      fun r => h.ff_zero hZ hopt
    obtain ⟨l1, l2, -, -⟩ := log_counters s.stats (some .reg) s.rho
    exact ⟨q, a1, by rw [a2]; exact hZ, by rw [a2]; exact ⟨fun _ _ => rfl, fun _ _ => rfl⟩, by rw [a2]; exact hopt, a3,
      by rw [a2]; exact a4, a5, a6, a9 hlim, by rw [a7, l1], by rw [a7, l2]⟩
  · have hnot : ∃ Z', Alternative p s.Z Z' ∧ trajCost p s.cs Z' < trajCost p s.cs s.Z := by
      unfold Optimal at hopt
      push Not at hopt
      exact hopt
    obtain ⟨s1, hb, b1, b2, b3, hd0, hd1, b6⟩ := h.backward (o := o) (fuel := fuel) hN hr.ge
    rw [hr] at b3
    have hS : SweepOk p.N (updateExpansions (alKernel p) s).kd s1.kd := ⟨b3.term, b3.symN, b3.symx, b3.symu, b3.step⟩
    have hE := h.exact
    have hA : Alternative p s.Z s.Z := ⟨hZ.init, hZ.step⟩
    have hfull := fun Z' hZ' => (C32_full_step_optimal p s.cs s.Z s.Zbar Z' _ _ hE hS hA ht hZ').1
    have hpred := C32_exact_prediction p s.cs s.Z s.Zbar _ _ hE hS hA ht 1
    rw [← hd0, ← hd1] at hpred
    obtain ⟨Z0, hZ0, hlt⟩ := hnot
    have hpos : 0 < predicted s1.dV0 s1.dV1 1 := by
      rw [← hpred]; have := hfull Z0 hZ0; linarith
    obtain ⟨hbZ, hbZb, hbcs, -, -, -⟩ := backwardPass_frame _ _ _ _ _ hb
    rw [updateExpansions_Z] at hbZ
    rw [updateExpansions_Zbar] at hbZb
    have hcore : ∀ k, (s1.cs k).core = (s.cs k).core := fun k => by
      rw [hbcs]; exact (updateExpansions_law (alCostLaw p) s).2 k
    have hcand : trajCost p s1.cs (candidateTraj (alKernel p) s1.kd s1.Z s1.Zbar 1)
        = trajCost p s.cs (candidateTraj (alKernel p) s1.kd s.Z s.Zbar 1) := by
      rw [hbZ, hbZb]; exact trajCost_congr p _ _ _ _ hcore (fun _ _ => rfl) (fun _ _ => rfl)
    have hJ : costSum (alKernel p) s1 = (alCostLaw p).total s1.cs s1.Z :=
      (C24_reference_cost o (alCostLaw p) (fuel + 1) s s1 hb).1
    have hJ0 : (alCostLaw p).total s1.cs s1.Z = trajCost p s.cs s.Z := by
      rw [total_eq_trajCost, hbZ]; exact trajCost_congr p _ _ _ _ hcore (fun _ _ => rfl) (fun _ _ => rfl)
    have hq : Qualifies (alCostLaw p) o s1 ((alCostLaw p).total s1.cs s1.Z) 1 := by
      refine ⟨fun k _ hcb => absurd hcb (by rw [hlim]; decide), ⟨1, fun _ => ?_, fun hn => ?_, ?_, ?_⟩, ?_⟩
      · rw [hJ0, total_eq_trajCost, hcand, hpred, div_self hpos.ne']
      · rw [← Bool.not_eq_true, Arith.gt_iff] at hn; exact absurd hpos hn
      · rw [Arith.le_iff]; exact hlow
      · rw [Arith.le_iff]; exact hup
      · rw [Arith.lt_iff, hJ0, total_eq_trajCost, hcand]; linarith
    obtain ⟨hT, hstat, hrho, -⟩ := C24_accepts_first o (alCostLaw p) OrderLaws.ofField s1 hJ 0 (by omega) hq
      (fun j hj => absurd hj (by omega))
    have hit : iterate (alKernel p) o (fuel + 1) s
        = some (updateConvergence (alKernel p) (forwardPass (alKernel p) o s1)) := by
      unfold iterate; rw [hb]
    have hT' : TrajEq (alKernel p) (forwardPass (alKernel p) o s1).Z
        (candidateTraj (alKernel p) s1.kd s.Z s.Zbar 1) := by
      rw [← hbZ, ← hbZb]; exact hT
    have hcost : trajCost p s.cs (forwardPass (alKernel p) o s1).Z
        = trajCost p s.cs (candidateTraj (alKernel p) s1.kd s.Z s.Zbar 1) :=
      trajCost_congr p _ _ _ _ (fun _ => rfl) hT'.x hT'.u
    have htimes : SameTimes (alKernel p) (forwardPass (alKernel p) o s1).Z s.Z :=
      ⟨fun k hk => (hT'.times.t k hk).trans (ht.t k hk), fun k hk => (hT'.times.h k hk).trans (ht.h k hk)⟩
    have hbest : Optimal p s.cs (forwardPass (alKernel p) o s1).Z := fun Z' hZ' => by
      rw [hcost]; exact hfull Z' ((alternative_same htimes Z').mp hZ')
    have hfp := forwardPass_frame (alKernel p) o s1
    obtain ⟨c1, -⟩ := iterate_cost o (alCostLaw p) OrderLaws.ofField hit
    have hne : (forwardPass (alKernel p) o s1).Z ≠ s.Z := fun e => hopt (e ▸ hbest)
    obtain ⟨l1, l2, -, -⟩ := log_counters s.stats (some .reg) s.rho
    refine ⟨_, hit, ?_, htimes, hbest, c1, ?_, ?_, ?_, fun hu => hstat, ?_, ?_⟩
    · rcases hfp.traj with e | ⟨_, e⟩
      · exact absurd (e.trans hbZ) hne
      · exact e
    · obtain ⟨s2, hb2, hcase⟩ := iterate_stored o (alLaw p).toViolLaw hit
      rcases hcase with ⟨_, hf⟩ | ⟨_, hZ', _⟩
      · exact hf
      · exact absurd hZ' hne
    · rw [hrho, b2]; exact (reg_nonneg hmin hmax s).2
    · exact ⟨fun k hk => by rw [hfp.Zbar_t, hbZb]; exact ht.t k hk,
        fun k hk => by rw [hfp.Zbar_h, hbZb]; exact ht.h k hk⟩
    · rw [hfp.inner, b6, l1]
    · rw [hfp.total, b6, l2]

/-! ## The inner solve -/

/-- The loop has reached the optimum of the problem `s0` started from. -/
structure AtOptimum (p : DynProblem n m K) (s0 q : St (Fin n → K) (Fin m → K) K (ALCost n m K) (KP n m K)) : Prop where
  core : ∀ k, (q.cs k).core = (s0.cs k).core
  feas : DynFeasible (alKernel p) q.Z
  times : SameTimes (alKernel p) q.Z s0.Z
  timesb : SameTimes (alKernel p) q.Zbar s0.Z
  best : Optimal p s0.cs q.Z
  fresh : (alLaw p).Fresh q.cs q.Z
  rho : 0 ≤ q.rho

theorem AtOptimum.exactSolve (h : AtOptimum p s0 s) : ExactSolve p s0 s where
  core k _ := h.core k
  fresh := h.fresh
  alt := (alternative_same h.times _).mp ⟨h.feas.init, h.feas.step⟩
  best Z' hZ' := h.best Z' ((alternative_same h.times _).mpr hZ')
  times k hk := ⟨h.times.t k (Nat.le_of_lt hk), h.times.h k hk⟩

theorem optimal_core {cs cs' : ℕ → ALCost n m K} {Z : Traj (Fin n → K) (Fin m → K) K}
    (e : ∀ k, (cs' k).core = (cs k).core) (h : Optimal p cs Z) : Optimal p cs' Z := fun Z' hZ' => by
  rw [trajCost_congr p cs' cs Z Z e (fun _ _ => rfl) (fun _ _ => rfl),
    trajCost_congr p cs' cs Z' Z' e (fun _ _ => rfl) (fun _ _ => rfl)]
  exact h Z' hZ'

/-- Problems on which the policy vanishes at every optimum. -/
structure CoreConv (p : DynProblem n m K) (cs : ℕ → ALCost n m K) : Prop extends CoreBase p cs where
  still : ∀ s : St (Fin n → K) (Fin m → K) K (ALCost n m K) (KP n m K), (∀ k, (s.cs k).core = (cs k).core) →
    DynFeasible (alKernel p) s.Z → Optimal p s.cs s.Z → ∀ r rho, Swept p.N (updateExpansions (alKernel p) s).kd r rho →
    ∀ k < p.N, (r k).ff = 0

theorem CoreLQ.still {cs : ℕ → ALCost n m K} (h : CoreLQ p cs) : CoreConv p cs where
  toCoreBase := h.toCoreBase
  still _ e hZ hb _ _ hs := (h.congr fun k _ => e k).ff_zero hZ hb hs

/-- What one iteration from the optimum does. -/
structure StaysAt (p : DynProblem n m K) (o : Opts K) (s q : St (Fin n → K) (Fin m → K) K (ALCost n m K) (KP n m K)) : Prop where
  Z : q.Z = s.Z
  stats : q.stats = s.stats.log (some .reg) s.rho
  ff : ∀ k < p.N, (q.kd k).ff = 0
  status : o.checkBounds = false → s.status = .kUnsolved → q.status = .kUnsolved

theorem AtOptimum.step (h : CoreConv p s0.cs) (hN : p.N ≠ 0) (hmin : 0 ≤ o.regMin) (hmax : 0 ≤ o.regMax)
    (hs : AtOptimum p s0 s) :
    ∃ q, iterate (alKernel p) o (fuel + 1) s = some (updateConvergence (alKernel p) q) ∧ AtOptimum p s0 q ∧
      StaysAt p o s q := by
  have ht : SameTimes (alKernel p) s.Zbar s.Z :=
    ⟨fun k hk => (hs.timesb.t k hk).trans (hs.times.t k hk).symm, fun k hk => (hs.timesb.h k hk).trans (hs.times.h k hk).symm⟩
  obtain ⟨q, a1, a2, a3, a4, a5, a6, a7, a8, a9⟩ := (h.toCoreBase.congr fun k _ => hs.core k).iterate_optimal (o := o) (fuel := fuel)
    hN hs.rho hmin hmax hs.feas ht (fun r => h.still s hs.core hs.feas (optimal_core hs.core hs.best) r s.rho)
  refine ⟨q, a1, ⟨fun k => (a3 k).trans (hs.core k), by rw [a2]; exact hs.feas, by rw [a2]; exact hs.times,
    ⟨fun k hk => (a6.t k hk).trans (hs.times.t k hk), fun k hk => (a6.h k hk).trans (hs.times.h k hk)⟩,
    by rw [a2]; exact hs.best, by rw [a2]; exact a4, a5⟩, ⟨a2, a7, a8, a9⟩⟩

theorem AtOptimum.conv {q : St (Fin n → K) (Fin m → K) K (ALCost n m K) (KP n m K)} (h : AtOptimum p s0 q) :
    AtOptimum p s0 (updateConvergence (alKernel p) q) := ⟨h.core, h.feas, h.times, h.timesb, h.best, h.fresh, h.rho⟩

theorem AtOptimum.done {q : St (Fin n → K) (Fin m → K) K (ALCost n m K) (KP n m K)} (h : AtOptimum p s0 q) (st : Status) :
    AtOptimum p s0 { q with status := st } := ⟨h.core, h.feas, h.times, h.timesb, h.best, h.fresh, h.rho⟩

theorem AtOptimum.isDone {q : St (Fin n → K) (Fin m → K) K (ALCost n m K) (KP n m K)} (h : AtOptimum p s0 q) :
    AtOptimum p s0 (ILQR.isDone o q).1 := by rw [isDone_frame]; exact h.done _

/-- The first iteration of a solve reaches the optimum. -/
theorem CoreLQ.first (h : CoreLQ p s.cs) (hN : p.N ≠ 0) (hreg : o.regInitial = 0) (hmin : 0 ≤ o.regMin)
    (hmax : 0 ≤ o.regMax) (hls : 1 ≤ o.lsMax) (hlow : o.lsLower ≤ 1) (hup : 1 ≤ o.lsUpper) (hlim : o.checkBounds = false) :
    ∃ q, iterate (alKernel p) o (fuel + 1) (start (alKernel p) o s) = some (updateConvergence (alKernel p) q) ∧
      AtOptimum p s q ∧ q.status = .kUnsolved ∧ q.stats.inner = 0 ∧ q.stats.total = s.stats.total := by
  set a := start (alKernel p) o s with ha
  obtain ⟨f1, f2, f3, f4, _, _, _, f8, f9⟩ := start_facts (alKernel p) o s
  rw [← ha] at f1 f2 f3 f4 f8 f9
  obtain ⟨r1, r2, r3, r4, r5⟩ := rolloutTo_spec (alKernel p) s.Z p.N
  have hcs : ∀ k, (a.cs k).core = (s.cs k).core := fun k => by
    rw [ha]; unfold start; extract_lets w c
    exact (cost_law (alCostLaw p) w.Z w).2 k
  have hfeas : DynFeasible (alKernel p) a.Z := by rw [f1]; exact rollout_feasible _ _
  have hZt : a.Z.t = s.Z.t := by rw [f1]; exact r2
  have hZh : a.Z.h = s.Z.h := by rw [f1]; exact r3
  have htimes : SameTimes (alKernel p) a.Zbar a.Z :=
    ⟨fun k hk => by rw [hZt]; exact f8.t k hk, fun k hk => by rw [hZh]; exact f8.h k hk⟩
  obtain ⟨q, q1, q2, q3, q4, q5, q6, q7, q8, q9, q10, q11⟩ := (h.congr fun k _ => hcs k).iterate_reaches (o := o) (fuel := fuel)
    hN (f9.trans hreg) hmin hmax hls hlow hup hlim hfeas htimes
  refine ⟨q, q1, ⟨fun k => (q5 k).trans (hcs k), q2, ⟨fun k hk => by rw [q3.t k hk, hZt], fun k hk => by rw [q3.h k hk, hZh]⟩,
    ⟨fun k hk => by rw [q8.t k hk, hZt], fun k hk => by rw [q8.h k hk, hZh]⟩,
    optimal_core (fun k => (hcs k).symm) q4, q6, q7⟩, q9 f2, q10.trans f3, q11.trans f4⟩

/-- A whole inner solve: it returns, and at the optimum. -/
theorem CoreLQ.solve (h : CoreLQ p s.cs) (hN : p.N ≠ 0) (hreg : o.regInitial = 0) (hmin : 0 ≤ o.regMin)
    (hmax : 0 ≤ o.regMax) (hls : 1 ≤ o.lsMax) (hlow : o.lsLower ≤ 1) (hup : 1 ≤ o.lsUpper) (hlim : o.checkBounds = false)
    (hin : 1 ≤ o.maxInner) :
    ∃ t, ILQR.solve (alKernel p) o (fuel + 1) s = some t ∧ AtOptimum p s t := by
  obtain ⟨q, q1, q2, -⟩ := h.first (o := o) (fuel := fuel) hN hreg hmin hmax hls hlow hup hlim
  have hloop : ∀ (r : ℕ) (b : St (Fin n → K) (Fin m → K) K (ALCost n m K) (KP n m K)), AtOptimum p s b →
      ∃ t, solveLoop (alKernel p) o (fuel + 1) r b = some t ∧ AtOptimum p s t := by
    intro r
    induction r with
    | zero => exact fun b hb => ⟨b, rfl, hb⟩
    | succ r ih =>
      intro b hb
      obtain ⟨b1, e1, e2, -⟩ := hb.step (o := o) (fuel := fuel) h.still hN hmin hmax
      unfold solveLoop
      rw [e1]
      simp only
      split
      · exact ⟨_, rfl, e2.conv.isDone⟩
      · exact ih _ e2.conv.isDone
  obtain ⟨r, hr⟩ : ∃ r, o.maxInner.toNat = r + 1 := ⟨o.maxInner.toNat - 1, by omega⟩
  unfold ILQR.solve
  rw [hr]
  unfold solveLoop
  rw [q1]
  simp only
  split
  · exact ⟨_, rfl, q2.conv.isDone⟩
  · exact hloop r _ q2.conv.isDone

/-! ## ... and reports success -/

theorem newIteration_aligned (st : Stats K) : Aligned st.newIteration := by
  intro c
  show (Stats.setBack (Stats.resize (st.len + 1) (st.col c)) _).length = st.len + 1
  have hl : (Stats.resize (st.len + 1) (st.col c)).length = st.len + 1 := by
    unfold Stats.resize
    rw [List.length_append, List.length_take, List.length_replicate]
    omega
  rw [setBack_length _ _ (by intro h; rw [h] at hl; simp at hl), hl]

theorem newIteration_twice (st : Stats K) (h : st.len ≠ 0) (c : Col) :
    Stats.back2 (st.newIteration.col c) = Stats.back (st.newIteration.col c) := by
  have h1 : st.len + 1 > 1 := by omega
  show Stats.back2 (Stats.setBack (Stats.resize (st.len + 1) (st.col c)) (if st.len + 1 > 1 then _ else _))
    = Stats.back (Stats.setBack (Stats.resize (st.len + 1) (st.col c)) (if st.len + 1 > 1 then _ else _))
  rw [if_pos h1, back2_setBack, back_setBack]
  rfl

/-- What the statistics are after an iteration, whatever they were before. -/
theorem converged_stats (q : St (Fin n → K) (Fin m → K) K (ALCost n m K) (KP n m K)) :
    Aligned (updateConvergence (alKernel p) q).stats ∧ (updateConvergence (alKernel p) q).stats.len ≠ 0 ∧
    Stats.back2 ((updateConvergence (alKernel p) q).stats.col .cost)
      = Stats.back ((updateConvergence (alKernel p) q).stats.col .cost) := by
  unfold updateConvergence
  extract_lets dgrad dJ src st1 st2 st3 st4 st5
  exact ⟨newIteration_aligned st5, by show st5.len + 1 ≠ 0; omega, newIteration_twice st5 (log_len_ne _ _ _) _⟩

theorem lq_normalizedGain_zero (q : St (Fin n → K) (Fin m → K) K (ALCost n m K) (KP n m K)) (h : ∀ k < p.N, (q.kd k).ff = 0) :
    normalizedGain (alKernel p) q = 0 := by
  unfold normalizedGain
  rw [sumTo_eq_sum, Finset.sum_eq_zero fun k hk => ?_, zero_div]
  show (List.ofFn fun i => |(q.kd k).ff i| / (|q.Z.u k i| + 1)).foldl max 0 = 0
  rw [h k (Finset.mem_range.mp hk)]
  have : ∀ l : List K, (∀ x ∈ l, x = 0) → l.foldl max 0 = 0 := by
    intro l
    induction l with
    | nil => intro _; rfl
    | cons a l ih =>
      intro hl
      rw [List.foldl_cons, hl a (by simp), max_self]
      exact ih fun x hx => hl x (by simp [hx])
  refine this _ fun x hx => ?_
  obtain ⟨i, rfl⟩ := List.mem_ofFn.mp hx
  simp

/-- An iteration from the optimum that is not the first one of its solve reports success. -/
theorem AtOptimum.solved (h : CoreConv p s0.cs) (hN : p.N ≠ 0) (hmin : 0 ≤ o.regMin) (hmax : 0 ≤ o.regMax)
    (hJ : 0 < o.costTol) (hg : 0 < o.gradTol)
    (hs : AtOptimum p s0 s) (ha : Aligned s.stats) (hl : s.stats.len ≠ 0) (hi : s.stats.inner ≠ 0)
    (hb : Stats.back2 (s.stats.col .cost) = Stats.back (s.stats.col .cost)) (r : ℕ) :
    ∃ t, solveLoop (alKernel p) o (fuel + 1) (r + 1) s = some t ∧ AtOptimum p s0 t ∧ t.status = .kSolved ∧
      t.stats.total = s.stats.total + 1 ∧ t.Z = s.Z ∧ Aligned t.stats := by
  obtain ⟨q, e1, e2, e3⟩ := hs.step (o := o) (fuel := fuel) h hN hmin hmax
  have aq : Aligned q.stats := by rw [e3.stats]; exact aligned_log _ _ _ ha
  have lq : q.stats.len ≠ 0 := by rw [e3.stats]; exact log_len_ne _ _ _
  obtain ⟨-, -, c3, c4, -, -, -⟩ := updateConvergence_cols (P := alKernel p) q aq lq
  have hcol : q.stats.col .cost = s.stats.col .cost := by
    rw [e3.stats, (log_col _ _ _ hl).2, if_neg (by simp)]
  have hin : q.stats.inner = s.stats.inner := by rw [e3.stats, (log_counters _ _ _).1]
  have hdj : recordedDJ q = 0 := by
    unfold recordedDJ
    rw [if_neg (by rw [hin]; exact hi), hcol, hb, sub_self]
  have hdone : ILQR.isDone o (updateConvergence (alKernel p) q)
      = ({ updateConvergence (alKernel p) q with status := .kSolved }, true) := by
    unfold ILQR.isDone
    rw [c3, c4, hdj, lq_normalizedGain_zero q e3.ff]
    have h1 : Arith.lt (0 : K) o.costTol = true := (Arith.lt_iff _ _).mpr hJ
    have h2 : Arith.lt (0 : K) o.gradTol = true := (Arith.lt_iff _ _).mpr hg
    rw [h1, h2]; rfl
  refine ⟨{ updateConvergence (alKernel p) q with status := .kSolved }, ?_, e2.conv.done _, rfl, ?_, e3.Z,
    (converged_stats (p := p) q).1⟩
  · unfold solveLoop
    rw [e1]
    simp only
    rw [hdone]; rfl
  · show (updateConvergence (alKernel p) q).stats.total = _
    rw [(updateConvergence_counters (alKernel p) q).2.1, e3.stats, (log_counters _ _ _).2.1]

/-- A whole inner solve reports success after one or two iterations. -/
theorem CoreLQ.solves (h : CoreLQ p s.cs) (hN : p.N ≠ 0) (hreg : o.regInitial = 0) (hmin : 0 ≤ o.regMin)
    (hmax : 0 ≤ o.regMax) (hls : 1 ≤ o.lsMax) (hlow : o.lsLower ≤ 1) (hup : 1 ≤ o.lsUpper) (hlim : o.checkBounds = false)
    (hin : 2 ≤ o.maxInner) (hJ : 0 < o.costTol) (hg : 0 < o.gradTol) (htot : (s.stats.total : ℤ) + 1 < o.maxTotal) :
    ∃ t, ILQR.solve (alKernel p) o (fuel + 1) s = some t ∧ AtOptimum p s t ∧ t.status = .kSolved ∧
      t.stats.total ≤ s.stats.total + 2 := by
  obtain ⟨q, q1, q2, q3, q4, q5⟩ := h.first (o := o) (fuel := fuel) hN hreg hmin hmax hls hlow hup hlim
  obtain ⟨r, hr⟩ : ∃ r, o.maxInner.toNat = r + 1 + 1 := ⟨o.maxInner.toNat - 2, by omega⟩
  obtain ⟨n1, n2, -, -⟩ := updateConvergence_counters (alKernel p) q
  obtain ⟨a1, a2, a3⟩ := converged_stats (p := p) q
  unfold ILQR.solve
  rw [hr]
  unfold solveLoop
  rw [q1]
  simp only
  split
  · rename_i hd
    refine ⟨_, rfl, q2.conv.isDone, ?_, ?_⟩
    · unfold ILQR.isDone at hd ⊢
      split
      · rfl
      · rename_i hns
        rw [if_neg hns] at hd
        rw [if_neg (by rw [n1]; omega), if_neg (by rw [n2, q5]; push_cast; omega)] at hd
        simp [q3] at hd
    · rw [isDone_frame]
      show (updateConvergence (alKernel p) q).stats.total ≤ _
      rw [n2, q5]; omega
  · rename_i hd
    have hd : (ILQR.isDone o (updateConvergence (alKernel p) q)).2 = false := Bool.eq_false_iff.mpr hd
    rw [(isDone_false o _ hd).1]
    obtain ⟨t, e1, e2, e3, e4, -⟩ := q2.conv.solved (o := o) (fuel := fuel) h.still hN hmin hmax hJ hg a1 a2 (by rw [n1]; omega) a3 r
    exact ⟨t, e1, e2, e3, by rw [e4, n2, q5]⟩

end Altro.Props
