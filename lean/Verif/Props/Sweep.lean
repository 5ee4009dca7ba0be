import Verif.Proofs.Sweep

/-!
# C30, C31: convex problems never fail, and the predicted improvement is positive
-/

namespace Altro.Props
open Altro.Spec Matrix ILQR
variable {K : Type} [Field K] [LinearOrder K] [IsStrictOrderedRing K] {n m : ℕ}

/-- One knot point: a convex cost and a convex cost-to-go of the next knot point make the factorization succeed and
the new cost-to-go convex. -/
theorem C30_step (d nxt : KP n m K) (rho : K) (hc : ConvexExp d.cost) (hn : nxt.Sxx.IsSymm)
    (hp : PosSemidef nxt.Sxx) (hr : 0 ≤ rho) (hpos : 0 < rho ∨ PosDef d.cost.dudu) :
    (((d.actionValue nxt).regularize rho).gains).2 = true ∧
    (((d.actionValue nxt).regularize rho).gains).1.costToGo.Sxx.IsSymm ∧
    PosSemidef (((d.actionValue nxt).regularize rho).gains).1.costToGo.Sxx := by
  have hqu : (d.actionValue nxt).q.dudu.IsSymm := hc.symu.add (symm_sandwich hn _)
  have hs : (((d.actionValue nxt).regularize rho).qreg.dudu).IsSymm :=
    hqu.add (by unfold IsSymm; rw [transpose_smul, transpose_one])
  have hform : ∀ (δx : Fin n → K) (δu : Fin m → K),
      0 ≤ δx ⬝ᵥ (d.actionValue nxt).q.dxdx *ᵥ δx + 2 * (δx ⬝ᵥ (d.actionValue nxt).q.dxdu *ᵥ δu)
        + δu ⬝ᵥ (d.actionValue nxt).q.dudu *ᵥ δu := by
    intro δx δu
    have h1 := hc.psd δx δu
    have h2 := hp (d.A *ᵥ δx + d.B *ᵥ δu)
    have h3 := dot_symm hn (d.B *ᵥ δu) (d.A *ᵥ δx)
    simp only [mulVec_add, dotProduct_add, add_dotProduct] at h2
    simp only [KP.actionValue, add_mulVec, dotProduct_add, dot_tmul]
    linarith
  have hpd : PosDef ((d.actionValue nxt).regularize rho).qreg.dudu := by
    intro δu hne
    have h1 := hc.psd 0 δu
    have h2 := hp (d.B *ᵥ δu)
    have h3 : 0 < δu ⬝ᵥ δu := by
      rw [dotProduct]
      have hnn : ∀ i ∈ Finset.univ, 0 ≤ δu i * δu i := fun i _ => mul_self_nonneg _
      obtain ⟨i, hi⟩ := Function.ne_iff.mp hne
      exact Finset.sum_pos' hnn ⟨i, Finset.mem_univ _, mul_self_pos.mpr hi⟩
    simp only [mulVec_zero, dotProduct_zero, zero_dotProduct, mul_zero, zero_add] at h1
    show 0 < δu ⬝ᵥ (d.cost.dudu + d.Bᵀ * nxt.Sxx * d.B + rho • (1 : Matrix (Fin m) (Fin m) K)) *ᵥ δu
    simp only [add_mulVec, dotProduct_add, dot_tmul, smul_mulVec, one_mulVec, dotProduct_smul, smul_eq_mul]
    rcases hpos with h | h
    · nlinarith
    · have := h δu hne
      nlinarith
  have hok : (((d.actionValue nxt).regularize rho).gains).2 = true := (C28_success_iff _ hs).1.mpr hpd
  have st : StepOk d nxt _ rho := ⟨hok, rfl⟩
  refine ⟨hok, st.Sxx_symm hc.symx hc.symu hn, fun δx => ?_⟩
  rw [st.ctg.1, st.q]
  set G := (((d.actionValue nxt).regularize rho).gains).1.costToGo.gain
  have h1 := hform δx (G *ᵥ δx)
  simp only [add_mulVec, dotProduct_add, dot_tmul, ← mulVec_mulVec, dot_t]
  have h2 : (G *ᵥ δx) ⬝ᵥ ((d.actionValue nxt).q.dxduᵀ *ᵥ δx) = δx ⬝ᵥ (d.actionValue nxt).q.dxdu *ᵥ (G *ᵥ δx) := by
    rw [dotProduct_comm, t_dot]
  have h3 : ((d.actionValue nxt).q.dxdu *ᵥ (G *ᵥ δx)) ⬝ᵥ δx = δx ⬝ᵥ (d.actionValue nxt).q.dxdu *ᵥ (G *ᵥ δx) :=
    dotProduct_comm _ _
  linarith

/-- A whole sweep over any horizon: convex costs, convex terminal cost-to-go and positive regularization (or positive
definite control Hessians) make every factorization succeed; every cost-to-go Hessian is symmetric positive
semidefinite. -/
theorem C30_sweep (p : DynProblem n m K) (rho : K) (hr : 0 ≤ rho) (N : ℕ) (kd : ℕ → KP n m K) (dV : K × K)
    (hc : ∀ k < N, ConvexExp (kd k).cost) (hpos : ∀ k < N, 0 < rho ∨ PosDef (kd k).cost.dudu)
    (hs : (kd N).Sxx.IsSymm) (hp : PosSemidef (kd N).Sxx) :
    (bpSweep (alKernel p) rho N kd dV).2 = true ∧
    ∀ k ≤ N, ((bpSweep (alKernel p) rho N kd dV).1.1 k).Sxx.IsSymm ∧
      PosSemidef ((bpSweep (alKernel p) rho N kd dV).1.1 k).Sxx := by
  induction N generalizing kd dV with
  | zero => exact ⟨rfl, fun k hk => by obtain rfl := Nat.le_zero.mp hk; exact ⟨hs, hp⟩⟩
  | succ N ih =>
    obtain ⟨g1, g2, g3⟩ := C30_step (kd N) (kd (N + 1)) rho (hc N (by omega)) hs hp hr (hpos N (by omega))
    unfold bpSweep
    extract_lets g d
    have hg : g.2 = true := g1
    rw [if_pos hg]
    obtain ⟨i1, i2⟩ := ih (upd kd N d) (dV.1 + ((alKernel p).delta d).1, dV.2 + ((alKernel p).delta d).2)
      (fun k hk => by rw [upd_of_ne (by omega)]; exact hc k (by omega))
      (fun k hk => by rw [upd_of_ne (by omega)]; exact hpos k (by omega))
      (by rw [upd_self]; exact g2) (by rw [upd_self]; exact g3)
    refine ⟨i1, fun k hk => ?_⟩
    rcases Nat.le_succ_iff.mp hk with hk | rfl
    · exact i2 k hk
    · have := (bpSweep_spec (alKernel p) rho N _ _ i1).1 (N + 1) (by omega)
      rw [this, upd_of_ne (by omega)]
      exact ⟨hs, hp⟩

/-- The backward pass of a convex problem finishes in its first sweep, whatever the options: it returns with one
round, keeps the status, and the regularization is the decreased one.  Of the terminal cost only the state part has to
be convex. -/
theorem C30_backward_pass_terminal (p : DynProblem n m K) (o : Opts K) (fuel : ℕ)
    (s : St (Fin n → K) (Fin m → K) K (ALCost n m K) (KP n m K)) (hN : p.N ≠ 0) (hr : 0 ≤ s.rho)
    (hc : ∀ k < p.N, ConvexExp (s.kd k).cost) (hs : (s.kd p.N).cost.dxdx.IsSymm)
    (hp : PosSemidef (s.kd p.N).cost.dxdx) (hpos : ∀ k < p.N, 0 < s.rho ∨ PosDef (s.kd k).cost.dudu) :
    ∃ s', backwardPass (alKernel p) o (fuel + 1) s = some s' ∧ s'.status = s.status ∧
      s'.rho = (decreaseReg o s).rho ∧ (∀ k ≤ p.N, (s'.kd k).Sxx.IsSymm ∧ PosSemidef (s'.kd k).Sxx) := by
  obtain ⟨h1, h2⟩ := C30_sweep p s.rho hr p.N (upd s.kd p.N ((alKernel p).term (s.kd p.N))) (0, 0)
    (fun k hk => by rw [upd_of_ne (by omega)]; exact hc k (by omega))
    (fun k hk => by rw [upd_of_ne (by omega)]; exact hpos k (by omega))
    (by rw [upd_self]; exact hs)
    (by rw [upd_self]; exact hp)
  unfold backwardPass bpLoop
  extract_lets r s1 s2 count'
  have hr2 : r.2 = true := h1
  rw [if_pos hr2, if_neg (show ¬(alKernel p).N = 0 from hN)]
  exact ⟨_, rfl, rfl, rfl, h2⟩

/-- The same with the terminal cost convex in state and control. -/
theorem C30_backward_pass (p : DynProblem n m K) (o : Opts K) (fuel : ℕ)
    (s : St (Fin n → K) (Fin m → K) K (ALCost n m K) (KP n m K)) (hN : p.N ≠ 0) (hr : 0 ≤ s.rho)
    (hc : ∀ k ≤ p.N, ConvexExp (s.kd k).cost) (hpos : ∀ k < p.N, 0 < s.rho ∨ PosDef (s.kd k).cost.dudu) :
    ∃ s', backwardPass (alKernel p) o (fuel + 1) s = some s' ∧ s'.status = s.status ∧
      s'.rho = (decreaseReg o s).rho ∧ (∀ k ≤ p.N, (s'.kd k).Sxx.IsSymm ∧ PosSemidef (s'.kd k).Sxx) :=
  C30_backward_pass_terminal p o fuel s hN hr (fun k hk => hc k hk.le) (hc p.N le_rfl).symx
    (fun x => by simpa using (hc p.N le_rfl).psd x 0) hpos

/-- After a successful sweep with nonnegative regularization the predicted improvement of every step in `(0, 1]` is
nonnegative, and zero exactly when all feedforward terms vanish. -/
theorem C31_predicted (p : DynProblem n m K) (rho : K) (hr : 0 ≤ rho) (N : ℕ) (kd : ℕ → KP n m K)
    (hx : ∀ k < N, (kd k).cost.dxdx.IsSymm) (hu : ∀ k < N, (kd k).cost.dudu.IsSymm) (hs : (kd N).Sxx.IsSymm)
    (hok : (bpSweep (alKernel p) rho N kd (0, 0)).2 = true) (alpha : K) (ha : 0 < alpha) (ha1 : alpha ≤ 1) :
    0 ≤ predicted (bpSweep (alKernel p) rho N kd (0, 0)).1.2.1 (bpSweep (alKernel p) rho N kd (0, 0)).1.2.2 alpha ∧
    (predicted (bpSweep (alKernel p) rho N kd (0, 0)).1.2.1 (bpSweep (alKernel p) rho N kd (0, 0)).1.2.2 alpha = 0 ↔
      ∀ k < N, ((bpSweep (alKernel p) rho N kd (0, 0)).1.1 k).ff = 0) := by
  obtain ⟨i1, i2, i3, i4⟩ := bpSweep_spec (alKernel p) rho N kd (0, 0) hok
  set r := (bpSweep (alKernel p) rho N kd (0, 0)).1.1 with hrdef
  have st : ∀ k < N, StepOk (kd k) (r (k + 1)) (r k) rho := fun k hk => ⟨(i2 k hk).1, (i2 k hk).2⟩
  have sym : ∀ j, j ≤ N → (r (N - j)).Sxx.IsSymm := by
    intro j
    induction j with
    | zero => intro _; rw [Nat.sub_zero, i1 N le_rfl]; exact hs
    | succ j ih =>
      intro hj
      have hk : N - (j + 1) < N := by omega
      refine (st _ hk).Sxx_symm (hx _ hk) (hu _ hk) ?_
      have := ih (by omega)
      rwa [show N - j = N - (j + 1) + 1 by omega] at this
  have sym' : ∀ k ≤ N, (r k).Sxx.IsSymm := fun k hk => by
    have := sym (N - k) (by omega)
    rwa [show N - (N - k) = k by omega] at this
  -- the contribution of one knot point
  let t (k : ℕ) : K := -(alpha * ((alKernel p).delta (r k)).1 + alpha * alpha * ((alKernel p).delta (r k)).2)
  have hterm : ∀ k < N, 0 ≤ t k ∧ (t k = 0 ↔ (r k).ff = 0) := by
    intro k hk
    obtain ⟨e1, _, e3⟩ := (st k hk).eqs (hx k hk) (hu k hk) (sym' (k + 1) (by omega))
    have hdel : (alKernel p).delta (r k) = (r k).delta := rfl
    set f := (r k).ff with hf
    have h1 : f ⬝ᵥ (r k).q.du = -(f ⬝ᵥ (r k).q.dudu *ᵥ f) - rho * (f ⬝ᵥ f) := by
      have := congrArg (fun v => f ⬝ᵥ v) e3
      simp only [add_mulVec, dotProduct_add, smul_mulVec, one_mulVec, dotProduct_smul, smul_eq_mul,
        dotProduct_neg] at this
      linarith
    have ht : t k = alpha * ((1 - alpha / 2) * (f ⬝ᵥ (r k).q.dudu *ᵥ f + rho * (f ⬝ᵥ f))
        + alpha / 2 * (rho * (f ⬝ᵥ f))) := by
      simp only [t, hdel, (st k hk).ctg.2.1, ← hf, h1]
      ring
    have hff : 0 ≤ f ⬝ᵥ f := Finset.sum_nonneg fun i _ => mul_self_nonneg _
    by_cases h0 : f = 0
    · rw [ht, h0]; simp
    · have hpd := e1 f h0
      simp only [add_mulVec, dotProduct_add, smul_mulVec, one_mulVec, dotProduct_smul, smul_eq_mul] at hpd
      have hpos : 0 < t k := by
        rw [ht]
        have h2 : 0 < 1 - alpha / 2 := by linarith
        have h3 := mul_pos h2 hpd
        have h4 : 0 ≤ alpha / 2 * (rho * (f ⬝ᵥ f)) := mul_nonneg (by linarith) (mul_nonneg hr hff)
        exact mul_pos ha (by linarith)
      exact ⟨hpos.le, fun h => absurd h hpos.ne', fun h => absurd h h0⟩
  have hsum : predicted (bpSweep (alKernel p) rho N kd (0, 0)).1.2.1
      (bpSweep (alKernel p) rho N kd (0, 0)).1.2.2 alpha = ∑ k ∈ Finset.range N, t k := by
    unfold predicted
    rw [i3, i4]
    simp only [t, Finset.sum_neg_distrib, Finset.sum_add_distrib, ← Finset.mul_sum]
    ring
  rw [hsum]
  refine ⟨Finset.sum_nonneg fun k hk => (hterm k (Finset.mem_range.mp hk)).1, ?_⟩
  rw [Finset.sum_eq_zero_iff_of_nonneg fun k hk => (hterm k (Finset.mem_range.mp hk)).1]
  exact ⟨fun h k hk => (hterm k hk).2.mp (h k (Finset.mem_range.mpr hk)),
    fun h k hk => (hterm k (Finset.mem_range.mp hk)).2.mpr (h k (Finset.mem_range.mp hk))⟩

end Altro.Props
