import Verif.Props.LQ

/-!
# C32 for the solver: one iteration, and a whole solve
-/

namespace Altro.Props
open Altro.Spec Matrix ILQR

section generic
variable {X U F C D : Type} [Arith F] (P : Kernel X U F C D)

theorem expandBlock_at (s : St X U F C D) (j k : ℕ) :
    (k < j → (expandBlock P 0 s j).kd k
      = (P.expand k (s.cs k) (s.Z.x k) (s.Z.u k) (s.Z.t k) (s.Z.h k) (s.kd k)).1) ∧
    (j ≤ k → (expandBlock P 0 s j).kd k = s.kd k ∧ (expandBlock P 0 s j).cs k = s.cs k) := by
  induction j with
  | zero => exact ⟨fun h => absurd h (by omega), fun _ => ⟨rfl, rfl⟩⟩
  | succ j ih =>
    have hZ : (expandBlock P 0 s j).Z = s.Z := expandBlock_Z ..
    simp only [expandBlock, Nat.zero_add]
    refine ⟨fun h => ?_, fun h => ?_⟩
    · rcases Nat.lt_succ_iff_lt_or_eq.mp h with h | rfl
      · rw [upd_of_ne (by omega)]; exact ih.1 h
      · rw [upd_self, (ih.2 le_rfl).1, (ih.2 le_rfl).2, hZ]
    · rw [upd_of_ne (by omega), upd_of_ne (by omega)]; exact ih.2 (by omega)

theorem updateExpansions_at (s : St X U F C D) (k : ℕ) (hk : k ≤ P.N) :
    (updateExpansions P s).kd k
      = (P.expand k (s.cs k) (s.Z.x k) (s.Z.u k) (s.Z.t k) (s.Z.h k) (s.kd k)).1 :=
  (expandBlock_at P s (P.N + 1) k).1 (by omega)

end generic

variable {K : Type} [Field K] [LinearOrder K] [IsStrictOrderedRing K] {n m : ℕ}

/-- The expansion stored for an unconstrained knot point. -/
theorem expansion_free (p : DynProblem n m K) (s : St (Fin n → K) (Fin m → K) K (ALCost n m K) (KP n m K)) (k : ℕ)
    (hk : k ≤ p.N) (hf : (s.cs k).eq = [] ∧ (s.cs k).ineq = []) :
    ((updateExpansions (alKernel p) s).kd k).cost =
      ⟨((s.cs k).cost.hess (s.Z.x k) (s.Z.u k)).dxdx, ((s.cs k).cost.hess (s.Z.x k) (s.Z.u k)).dxdu,
       ((s.cs k).cost.hess (s.Z.x k) (s.Z.u k)).dudu, ((s.cs k).cost.grad (s.Z.x k) (s.Z.u k)).1,
       ((s.cs k).cost.grad (s.Z.x k) (s.Z.u k)).2⟩ ∧
    ((updateExpansions (alKernel p) s).kd k).A = (p.jac k (s.Z.x k) (s.Z.u k) (s.Z.t k) (s.Z.h k)).1 ∧
    ((updateExpansions (alKernel p) s).kd k).B = (p.jac k (s.Z.x k) (s.Z.u k) (s.Z.t k) (s.Z.h k)).2 := by
  rw [updateExpansions_at (alKernel p) s k hk]
  simp only [alKernel, KP.setExpansion, ALCost.gradient, ALCost.hessian, hf.1, hf.2, List.map_nil, List.foldl_nil,
    and_self]

theorem evaluate_free (c : ALCost n m K) (hf : c.eq = [] ∧ c.ineq = []) (x : Fin n → K) (u : Fin m → K) :
    (c.evaluate x u).1 = c.cost.eval x u := by
  simp only [ALCost.evaluate, hf.1, hf.2, List.map_nil, List.foldl_nil]

/-- For a linear-quadratic problem the expansions computed by the solver are exact. -/
theorem C32_expansions_exact (p : DynProblem n m K) (s : St (Fin n → K) (Fin m → K) K (ALCost n m K) (KP n m K))
    (h : LQProblem p s.cs) : ExactExpansion p s.cs s.Z (updateExpansions (alKernel p) s).kd where
  dyn k hk δx δu := by
    obtain ⟨_, e2, e3⟩ := expansion_free p s k hk.le (h.free k hk.le)
    rw [e2, e3]; exact h.dyn k hk _ _ _ _ _ _
  cost k hk δx δu := by
    obtain ⟨e1, _, _⟩ := expansion_free p s k hk.le (h.free k hk.le)
    rw [e1, evaluate_free _ (h.free k hk.le), evaluate_free _ (h.free k hk.le)]
    exact (h.quad k hk.le).exact _ _ _ _
  term δx u := by
    obtain ⟨e1, _, _⟩ := expansion_free p s p.N le_rfl (h.free _ le_rfl)
    rw [e1, evaluate_free _ (h.free _ le_rfl), evaluate_free _ (h.free _ le_rfl), h.term _ u (s.Z.u p.N + 0),
      (h.quad _ le_rfl).exact]
    simp [quadModel, ctgModel]

/-- What a backward pass whose first sweep succeeds leaves behind, for a linear-quadratic problem and zero
regularization. -/
theorem C32_sweep (p : DynProblem n m K) (o : Opts K) (fuel : ℕ)
    (s s1 : St (Fin n → K) (Fin m → K) K (ALCost n m K) (KP n m K)) (h : LQProblem p s.cs) (hN : p.N ≠ 0)
    (hr : s.rho = 0)
    (hok : (bpSweep (alKernel p) 0 p.N (upd (updateExpansions (alKernel p) s).kd p.N
      ((updateExpansions (alKernel p) s).kd p.N).term) (0, 0)).2 = true)
    (hb : backwardPass (alKernel p) o (fuel + 1) (updateExpansions (alKernel p) s) = some s1) :
    SweepOk p.N (updateExpansions (alKernel p) s).kd s1.kd ∧
    s1.dV0 = ∑ k ∈ Finset.range p.N, (s1.kd k).delta.1 ∧ s1.dV1 = ∑ k ∈ Finset.range p.N, (s1.kd k).delta.2 := by
  set q := updateExpansions (alKernel p) s with hq
  have hqr : q.rho = 0 := by rw [hq, updateExpansions_rho, hr]
  unfold backwardPass bpLoop at hb
  extract_lets r w w2 count' at hb
  have hr' : r = bpSweep (alKernel p) 0 p.N (upd q.kd p.N (q.kd p.N).term) (0, 0) := by
    show bpSweep (alKernel p) q.rho p.N _ _ = _
    rw [hqr]; rfl
  have hr2 : r.2 = true := by rw [hr']; exact hok
  rw [if_pos hr2, if_neg (show ¬(alKernel p).N = 0 from hN)] at hb
  simp only at hb
  injection hb with hb
  have hkd : s1.kd = r.1.1 := by rw [← hb]; rfl
  have hd0 : s1.dV0 = r.1.2.1 := by rw [← hb]; rfl
  have hd1 : s1.dV1 = r.1.2.2 := by rw [← hb]; rfl
  obtain ⟨i1, i2, i3, i4⟩ := bpSweep_spec (alKernel p) 0 p.N _ _ hok
  rw [← hr'] at i1 i2 i3 i4
  rw [hkd, hd0, hd1]
  have hsx : ∀ k ≤ p.N, (q.kd k).cost.dxdx.IsSymm := fun k hk => by
    rw [hq, (expansion_free p s k hk (h.free k hk)).1]; exact h.symx k hk _ _
  refine ⟨⟨?_, hsx p.N le_rfl, fun k hk => hsx k hk.le, fun k hk => ?_, fun k hk => ?_⟩, ?_, ?_⟩
  · rw [i1 p.N le_rfl, upd_self]; exact ⟨rfl, rfl⟩
  · rw [hq, (expansion_free p s k hk.le (h.free k hk.le)).1]; exact h.symu k hk _ _
  · have := i2 k hk
    rw [upd_of_ne (by omega)] at this
    exact ⟨this.1, this.2⟩
  · rw [i3]; simp only [zero_add]; rfl
  · rw [i4]; simp only [zero_add]; rfl

theorem trajCost_congr (p : DynProblem n m K) (cs cs' : ℕ → ALCost n m K) (Z Z' : Traj (Fin n → K) (Fin m → K) K)
    (h : ∀ k, (cs k).core = (cs' k).core) (hx : ∀ k ≤ p.N, Z.x k = Z'.x k) (hu : ∀ k ≤ p.N, Z.u k = Z'.u k) :
    trajCost p cs Z = trajCost p cs' Z' := by
  rw [← total_eq_trajCost, ← total_eq_trajCost]
  exact total_congr (alCostLaw p) _ _ _ _ (fun k _ => h k) hx hu

/-- One iteration on a linear-quadratic problem, without regularization, from any dynamically feasible trajectory that
is not optimal: if the first sweep succeeds and the full step respects the limits, the full step qualifies with
improvement ratio one, is accepted, and the new trajectory is the global optimum among all control sequences. -/
theorem C32_one_iteration (p : DynProblem n m K) (o : Opts K) (fuel : ℕ)
    (s s1 s' : St (Fin n → K) (Fin m → K) K (ALCost n m K) (KP n m K)) (h : LQProblem p s.cs) (hN : p.N ≠ 0)
    (hr : s.rho = 0) (hZ : DynFeasible (alKernel p) s.Z) (ht : SameTimes (alKernel p) s.Zbar s.Z)
    (hok : (bpSweep (alKernel p) 0 p.N (upd (updateExpansions (alKernel p) s).kd p.N
      ((updateExpansions (alKernel p) s).kd p.N).term) (0, 0)).2 = true)
    (hb : backwardPass (alKernel p) o (fuel + 1) (updateExpansions (alKernel p) s) = some s1)
    (hit : iterate (alKernel p) o (fuel + 1) s = some s')
    (hls : 1 ≤ o.lsMax) (hlow : o.lsLower ≤ 1) (hup : 1 ≤ o.lsUpper)
    (hlim : withinLimits o (alKernel p) s1.kd s.Z s.Zbar.t s.Zbar.h 1)
    (hnot : ∃ Z', Alternative p s.Z Z' ∧ trajCost p s.cs Z' < trajCost p s.cs s.Z) :
    (trajCost p s.cs s.Z - trajCost p s.cs s'.Z) / predicted s1.dV0 s1.dV1 1 = 1 ∧
    0 < predicted s1.dV0 s1.dV1 1 ∧
    TrajEq (alKernel p) s'.Z (candidateTraj (alKernel p) s1.kd s.Z s.Zbar 1) ∧
    ∀ Z', Alternative p s.Z Z' → trajCost p s.cs s'.Z ≤ trajCost p s.cs Z' := by
  obtain ⟨hS, hd0, hd1⟩ := C32_sweep p o fuel s s1 h hN hr hok hb
  have hE := C32_expansions_exact p s h
  have hA : Alternative p s.Z s.Z := ⟨hZ.init, hZ.step⟩
  have hopt := fun Z' hZ' => (C32_full_step_optimal p s.cs s.Z s.Zbar Z' _ _ hE hS hA ht hZ').1
  have hpred := C32_exact_prediction p s.cs s.Z s.Zbar _ _ hE hS hA ht 1
  rw [← hd0, ← hd1] at hpred
  obtain ⟨Z0, hZ0, hlt⟩ := hnot
  have hpos : 0 < predicted s1.dV0 s1.dV1 1 := by
    rw [← hpred]; have := hopt Z0 hZ0; linarith
  -- the state at the forward pass
  obtain ⟨hbZ, hbZb, hbcs, -, -, -⟩ := backwardPass_frame _ _ _ _ _ hb
  rw [updateExpansions_Z] at hbZ
  rw [updateExpansions_Zbar] at hbZb
  have hcore : ∀ k, (s1.cs k).core = (s.cs k).core := fun k => by
    rw [hbcs]; exact (updateExpansions_law (alCostLaw p) s).2 k
  have hcand : trajCost p s1.cs (candidateTraj (alKernel p) s1.kd s1.Z s1.Zbar 1)
      = trajCost p s.cs (candidateTraj (alKernel p) s1.kd s.Z s.Zbar 1) := by
    rw [hbZ, hbZb]; exact trajCost_congr p _ _ _ _ hcore (fun _ _ => rfl) (fun _ _ => rfl)
  have hJ : costSum (alKernel p) s1 = (alCostLaw p).total s1.cs s1.Z :=
    (C24_reference_cost o (alCostLaw p) (fuel + 1) s s1 hb).1
  have hJ0 : (alCostLaw p).total s1.cs s1.Z = trajCost p s.cs s.Z := by
    rw [total_eq_trajCost, hbZ]; exact trajCost_congr p _ _ _ _ hcore (fun _ _ => rfl) (fun _ _ => rfl)
  have hq : Qualifies (alCostLaw p) o s1 ((alCostLaw p).total s1.cs s1.Z) 1 := by
    refine ⟨by rw [hbZ, hbZb]; exact hlim, ⟨1, fun _ => ?_, fun hn => ?_, ?_, ?_⟩, ?_⟩
    · rw [hJ0, total_eq_trajCost, hcand, hpred, div_self hpos.ne']
    · rw [← Bool.not_eq_true, Arith.gt_iff] at hn; exact absurd hpos hn
    · rw [Arith.le_iff]; exact hlow
    · rw [Arith.le_iff]; exact hup
    · rw [Arith.lt_iff, hJ0, total_eq_trajCost, hcand]; linarith
  obtain ⟨hT, _⟩ := C24_accepts_first o (alCostLaw p) OrderLaws.ofField s1 hJ 0 (by omega) hq
    (fun j hj => absurd hj (by omega))
  obtain ⟨s2, hb2, rfl⟩ := iterate_some _ _ hit
  have e12 : s2 = s1 := by rw [hb] at hb2; injection hb2 with e; exact e.symm
  subst e12
  have hT' : TrajEq (alKernel p) (updateConvergence (alKernel p) (forwardPass (alKernel p) o s2)).Z
      (candidateTraj (alKernel p) s2.kd s.Z s.Zbar 1) := by
    rw [updateConvergence_Z, ← hbZ, ← hbZb]; exact hT
  have hcost : trajCost p s.cs (updateConvergence (alKernel p) (forwardPass (alKernel p) o s2)).Z
      = trajCost p s.cs (candidateTraj (alKernel p) s2.kd s.Z s.Zbar 1) :=
    trajCost_congr p _ _ _ _ (fun _ => rfl) hT'.x hT'.u
  refine ⟨?_, hpos, hT', fun Z' hZ' => ?_⟩
  · rw [hcost, hpred, div_self hpos.ne']
  · rw [hcost]; exact hopt Z' hZ'

/-- A whole solve of a convex linear-quadratic problem with the default settings of the regularization
(`bp_reg_initial = 0`) and the limits switched off: whatever the iteration limits (at least one iteration), the
returned trajectory is a global optimum among all control sequences. -/
theorem C32_solve (p : DynProblem n m K) (o : Opts K) (fuel : ℕ)
    (s s' : St (Fin n → K) (Fin m → K) K (ALCost n m K) (KP n m K)) (h : LQProblem p s.cs) (hN : p.N ≠ 0)
    (hconv : ∀ k ≤ p.N, ∀ x u, ConvexExp ⟨((s.cs k).cost.hess x u).dxdx, ((s.cs k).cost.hess x u).dxdu,
       ((s.cs k).cost.hess x u).dudu, ((s.cs k).cost.grad x u).1, ((s.cs k).cost.grad x u).2⟩)
    (hR : ∀ k < p.N, ∀ x u, PosDef ((s.cs k).cost.hess x u).dudu)
    (hreg : o.regInitial = 0) (hmax : 1 ≤ o.maxInner) (hls : 1 ≤ o.lsMax) (hlow : o.lsLower ≤ 1) (hup : 1 ≤ o.lsUpper)
    (hlim : o.checkBounds = false) (hs : solve (alKernel p) o (fuel + 1) s = some s') :
    ∀ Z', Alternative p s.Z Z' → trajCost p s.cs s'.Z ≤ trajCost p s.cs Z' := by
  intro Z' hZ'
  set a := start (alKernel p) o s with ha
  obtain ⟨f1, _, _, _, _, _, _, f8, f9⟩ := start_facts (alKernel p) o s
  rw [← ha] at f1 f8 f9
  obtain ⟨r1, r2, r3, r4, r5⟩ := rolloutTo_spec (alKernel p) s.Z p.N
  have hcs : ∀ k, (a.cs k).core = (s.cs k).core := fun k => by
    rw [ha]; unfold start; extract_lets w c
    exact (cost_law (alCostLaw p) w.Z w).2 k
  have hcst : ∀ k, k ≤ p.N → a.cs k = s.cs k := fun k hk => by
    have h1 := hcs k
    have hf := h.free k hk
    generalize a.cs k = c at *
    generalize s.cs k = c' at *
    obtain ⟨c1, c2, c3⟩ := c
    obtain ⟨d1, d2, d3⟩ := c'
    obtain ⟨e1, e2⟩ := hf
    simp only at e1 e2
    subst e1 e2
    simp only [ALCost.core, List.map_nil, ALCost.mk.injEq, List.map_eq_nil_iff] at h1
    obtain ⟨g1, g2, g3⟩ := h1
    rw [g1, g2, g3]
  have hLQa : LQProblem p a.cs := by
    refine ⟨h.dyn, fun k hk => ?_, fun k hk => ?_, ?_, fun k hk => ?_, fun k hk => ?_⟩
    · rw [hcst k hk]; exact h.free k hk
    · rw [hcst k hk]; exact h.quad k hk
    · rw [hcst _ le_rfl]; exact h.term
    · rw [hcst k hk]; exact h.symx k hk
    · rw [hcst k hk.le]; exact h.symu k hk
  have hfeas : DynFeasible (alKernel p) a.Z := by rw [f1]; exact rollout_feasible _ _
  have hZt : a.Z.t = s.Z.t := by rw [f1]; exact r2
  have hZh : a.Z.h = s.Z.h := by rw [f1]; exact r3
  have htimes : SameTimes (alKernel p) a.Zbar a.Z :=
    ⟨fun k hk => by rw [hZt]; exact f8.t k hk, fun k hk => by rw [hZh]; exact f8.h k hk⟩
  have halt : ∀ Y, Alternative p s.Z Y ↔ Alternative p a.Z Y := fun Y =>
    ⟨fun q => ⟨q.init, fun k hk => by rw [hZt, hZh]; exact q.step k hk⟩,
     fun q => ⟨q.init, fun k hk => by rw [← hZt, ← hZh]; exact q.step k hk⟩⟩
  have hcost : ∀ Y, trajCost p a.cs Y = trajCost p s.cs Y := fun Y =>
    trajCost_congr p _ _ _ _ hcs (fun _ _ => rfl) (fun _ _ => rfl)
  have hexp : ∀ k ≤ p.N, ((updateExpansions (alKernel p) a).kd k).cost =
      ⟨((s.cs k).cost.hess (a.Z.x k) (a.Z.u k)).dxdx, ((s.cs k).cost.hess (a.Z.x k) (a.Z.u k)).dxdu,
       ((s.cs k).cost.hess (a.Z.x k) (a.Z.u k)).dudu, ((s.cs k).cost.grad (a.Z.x k) (a.Z.u k)).1,
       ((s.cs k).cost.grad (a.Z.x k) (a.Z.u k)).2⟩ := fun k hk => by
    rw [(expansion_free p a k hk (hLQa.free k hk)).1, hcst k hk]
  have hC : ∀ k ≤ p.N, ConvexExp ((updateExpansions (alKernel p) a).kd k).cost := fun k hk => by
    rw [hexp k hk]; exact hconv k hk _ _
  have hrho : (updateExpansions (alKernel p) a).rho = 0 := by rw [updateExpansions_rho, f9, hreg]
  have hsweep := (C30_sweep p 0 le_rfl p.N (upd (updateExpansions (alKernel p) a).kd p.N
      ((updateExpansions (alKernel p) a).kd p.N).term) (0, 0)
    (fun k hk => by rw [upd_of_ne (by omega)]; exact hC k hk.le)
    (fun k hk => by rw [upd_of_ne (by omega), hexp k hk.le]; exact .inr (hR k hk _ _))
    (by rw [upd_self]; exact (hC p.N le_rfl).symx)
    (by
      rw [upd_self]
      intro x
      have := (hC p.N le_rfl).psd x 0
      have h2 : 0 ≤ x ⬝ᵥ ((updateExpansions (alKernel p) a).kd p.N).cost.dxdx *ᵥ x := by simpa using this
      exact h2)).1
  obtain ⟨s1, hb, _⟩ := C30_backward_pass p o fuel (updateExpansions (alKernel p) a) hN hrho.ge
    (fun k hk => hC k hk) (fun k hk => by rw [hexp k hk.le]; exact .inr (hR k hk _ _))
  -- the loop: the first iteration reaches the optimum, later ones do not increase the cost
  unfold solve at hs
  rw [← ha] at hs
  obtain ⟨r, hr⟩ : ∃ r, o.maxInner.toNat = r + 1 := ⟨o.maxInner.toNat - 1, by omega⟩
  rw [hr] at hs
  unfold solveLoop at hs
  cases hit : iterate (alKernel p) o (fuel + 1) a with
  | none => rw [hit] at hs; cases hs
  | some a1 =>
    simp only [hit] at hs
    obtain ⟨c1, c2⟩ := iterate_cost o (alCostLaw p) OrderLaws.ofField hit
    have hbest : trajCost p s.cs a1.Z ≤ trajCost p s.cs Z' := by
      by_cases hnot : ∃ Y, Alternative p a.Z Y ∧ trajCost p a.cs Y < trajCost p a.cs a.Z
      · have := (C32_one_iteration p o fuel a s1 a1 hLQa hN (by rw [f9, hreg]) hfeas htimes hsweep hb hit hls hlow hup
          (fun k hk hcb => by rw [hlim] at hcb; cases hcb) hnot).2.2.2 Z' ((halt Z').mp hZ')
        rwa [hcost, hcost] at this
      · have h1 : trajCost p s.cs a1.Z ≤ trajCost p s.cs a.Z := by
          rcases c2 with c2 | c2
          · rw [c2]
          · rw [Arith.lt_iff, total_eq_trajCost, total_eq_trajCost, hcost, hcost] at c2; exact c2.le
        refine h1.trans (le_of_not_gt fun hlt => hnot ⟨Z', (halt Z').mp hZ', by rw [hcost, hcost]; exact hlt⟩)
    have hinv : (∀ k, (s'.cs k).core = (s.cs k).core) ∧ trajCost p s.cs s'.Z ≤ trajCost p s.cs a1.Z := by
      have I0 : (∀ k, (a1.cs k).core = (s.cs k).core) ∧ trajCost p s.cs a1.Z ≤ trajCost p s.cs a1.Z :=
        ⟨fun k => (c1 k).trans (hcs k), le_rfl⟩
      have hloop : ∀ (r : ℕ) (b b' : St (Fin n → K) (Fin m → K) K (ALCost n m K) (KP n m K)),
          ((∀ k, (b.cs k).core = (s.cs k).core) ∧ trajCost p s.cs b.Z ≤ trajCost p s.cs a1.Z) →
          solveLoop (alKernel p) o (fuel + 1) r b = some b' →
          ((∀ k, (b'.cs k).core = (s.cs k).core) ∧ trajCost p s.cs b'.Z ≤ trajCost p s.cs a1.Z) := by
        intro r b b' hb0 hb1
        refine solveLoop_inv (alKernel p) o (fun b => (∀ k, (b.cs k).core = (s.cs k).core) ∧
          trajCost p s.cs b.Z ≤ trajCost p s.cs a1.Z) (fuel + 1) ?_ (fun _ _ hq => hq) r b b' hb0 hb1
        rintro b b' ⟨i1, i2⟩ hbi
        obtain ⟨d1, d2⟩ := iterate_cost o (alCostLaw p) OrderLaws.ofField hbi
        refine ⟨fun k => (d1 k).trans (i1 k), ?_⟩
        rcases d2 with d2 | d2
        · rw [d2]; exact i2
        · have e : ∀ Y, trajCost p b.cs Y = trajCost p s.cs Y := fun Y =>
            trajCost_congr p _ _ _ _ i1 (fun _ _ => rfl) (fun _ _ => rfl)
          rw [Arith.lt_iff, total_eq_trajCost, total_eq_trajCost, e, e] at d2
          exact d2.le.trans i2
      split at hs
      · injection hs with hs
        rw [← hs, isDone_frame]
        exact I0
      · refine hloop r _ s' ?_ hs
        rw [isDone_frame]
        exact I0
    exact hinv.2.trans hbest

end Altro.Props
