import Verif.Proofs.SmoothIter

/-!
# The gradient with respect to the controls, and small feedforward terms
-/

namespace Altro.Props
open Altro.Spec Matrix ILQR
variable {n m : ℕ}

/-- The first-order data of the gradient depend only on these parts of the expansions. -/
theorem grad_congr {N : ℕ} {kd kd' : ℕ → KP n m ℝ} (hx : ∀ k ≤ N, (kd k).cost.dx = (kd' k).cost.dx)
    (hu : ∀ k < N, (kd k).cost.du = (kd' k).cost.du ∧ (kd k).A = (kd' k).A ∧ (kd k).B = (kd' k).B) {k : ℕ} (hk : k < N) :
    grad kd N k = grad kd' N k := by
  have ha : ∀ k ≤ N, adj kd N k = adj kd' N k := by
    refine down_induct ?_ fun k hk ih => ?_
    · rw [adj_N, adj_N]; exact hx N le_rfl
    · rw [adj_step kd hk, adj_step kd' hk, ih, hx k hk.le, (hu k hk).2.1]
  unfold grad
  rw [ha (k + 1) hk, (hu k hk).1, (hu k hk).2.2]

/-- First-order expansion along the states reached with controls `U`. -/
noncomputable def kdAt (p : DynProblem n m ℝ) (Y : Traj (Fin n → ℝ) (Fin m → ℝ) ℝ) (g : ℕ → Z n m → Z n m) (U : ℕ → Fin m → ℝ)
    (k : ℕ) : KP n m ℝ where
  cost := ⟨0, 0, 0, (g k (openLoop p Y U k, U k)).1, (g k (openLoop p Y U k, U k)).2⟩
  A := (p.jac k (openLoop p Y U k) (U k) (Y.t k) (Y.h k)).1
  B := (p.jac k (openLoop p Y U k) (U k) (Y.t k) (Y.h k)).2
  q := ⟨0, 0, 0, 0, 0⟩
  qreg := ⟨0, 0, 0, 0, 0⟩
  gain := 0
  ff := 0
  Sxx := 0
  Sx := 0
  delta := (0, 0)

/-- Squared length of the gradient of the total cost with respect to the controls. -/
noncomputable def gradSq (p : DynProblem n m ℝ) (Y : Traj (Fin n → ℝ) (Fin m → ℝ) ℝ) (g : ℕ → Z n m → Z n m) (U : ℕ → Fin m → ℝ) : ℝ :=
  ∑ k ∈ Finset.range p.N, nsq (grad (kdAt p Y g U) p.N k)

variable {p : DynProblem n m ℝ} {cs : ℕ → ALCost n m ℝ} {Y : Traj (Fin n → ℝ) (Fin m → ℝ) ℝ} {μ Jb R C rb b c β γ : ℝ}
  {ℓ : ℕ → (Fin n → ℝ) → (Fin m → ℝ) → ℝ} {g : ℕ → Z n m → Z n m} {o : Opts ℝ} {fuel : ℕ}
  {s q : St (Fin n → ℝ) (Fin m → ℝ) ℝ (ALCost n m ℝ) (KP n m ℝ)}

theorem SmoothDyn.gradSq_continuous (h : SmoothDyn p Y ℓ g) : Continuous (gradSq p Y g) := by
  have hz : ∀ k ≤ p.N, Continuous fun U : ℕ → Fin m → ℝ => ((openLoop p Y U k, U k) : Z n m) := fun k hk =>
    (h.cont_open k hk).prodMk (continuous_apply k)
  have hg : ∀ k ≤ p.N, Continuous fun U : ℕ → Fin m → ℝ => g k (openLoop p Y U k, U k) := fun k hk => (h.gcont k hk).comp (hz k hk)
  have hj : ∀ k < p.N, Continuous fun U : ℕ → Fin m → ℝ => p.jac k (openLoop p Y U k) (U k) (Y.t k) (Y.h k) := fun k hk =>
    (h.cont k hk).comp (hz k hk.le)
  have ha : ∀ k ≤ p.N, Continuous fun U => adj (kdAt p Y g U) p.N k := by
    refine down_induct ?_ fun k hk ih => ?_
    · simp only [adj_N]; exact continuous_fst.comp (hg p.N le_rfl)
    · simp only [fun U => adj_step (kdAt p Y g U) hk]
      exact (continuous_fst.comp (hg k hk.le)).add ((continuous_fst.comp (hj k hk)).matrix_transpose.matrix_mulVec ih)
  unfold gradSq
  refine continuous_finset_sum _ fun k hk => ?_
  have hk := Finset.mem_range.mp hk
  have hG : Continuous fun U => grad (kdAt p Y g U) p.N k :=
    (continuous_snd.comp (hg k hk.le)).add ((continuous_snd.comp (hj k hk)).matrix_transpose.matrix_mulVec (ha (k + 1) hk))
  exact hG.dotProduct hG

theorem SmoothDyn.loopU_continuous (h : SmoothDyn p Y ℓ g) : Continuous fun q : Loop n m × ℝ => loopU p Y q.1 q.2 := by
  refine continuous_pi fun k => ?_
  by_cases hk : k ≤ p.N
  · exact (h.cont_x k hk).2
  · unfold loopU
    simp only [if_neg (show ¬ k < p.N by omega)]
    exact continuous_const

/-- The gradient from the stored expansions. -/
theorem SmoothCore.gradSq_eq (h : SmoothCore p cs Y μ ℓ g) (e : ∀ k, (s.cs k).core = (cs k).core)
    (hZ : DynFeasible (alKernel p) s.Z) (ht : SameTimes (alKernel p) s.Z Y) :
    ∑ k ∈ Finset.range p.N, nsq (grad (updateExpansions (alKernel p) s).kd p.N k) = gradSq p Y g (ctl p.N s.Z) := by
  unfold gradSq
  have hx := openLoop_ctl hZ ht
  refine Finset.sum_congr rfl fun k hk => congrArg nsq (grad_congr (fun k hk => ?_) (fun k hk => ?_) (Finset.mem_range.mp hk))
  · rw [(expansion_core p s k hk).1, (h.grd k hk _ (e k) (s.Z.x k) (s.Z.u k)).1]
    show _ = (g k (openLoop p Y (ctl p.N s.Z) k, ctl p.N s.Z k)).1
    rw [hx k hk]
    rcases Nat.lt_or_eq_of_le hk with h1 | rfl
    · rw [ctl_of_lt _ h1]
    · exact h.grad_term _ _ _
  · obtain ⟨e1, e2, e3⟩ := expansion_core p s k hk.le
    rw [e1, e2, e3, (h.grd k hk.le _ (e k) (s.Z.x k) (s.Z.u k)).2]
    show _ = (g k (openLoop p Y (ctl p.N s.Z) k, ctl p.N s.Z k)).2 ∧ _ = (p.jac k (openLoop p Y (ctl p.N s.Z) k) (ctl p.N s.Z k) (Y.t k) (Y.h k)).1
      ∧ _ = (p.jac k (openLoop p Y (ctl p.N s.Z) k) (ctl p.N s.Z k) (Y.t k) (Y.h k)).2
    rw [hx k hk.le, ctl_of_lt _ hk, ht.t k hk.le, ht.h k hk]
    exact ⟨rfl, rfl, rfl⟩

/-- Small feedforward terms mean a small gradient. -/
theorem gradSq_le {N : ℕ} {kd r : ℕ → KP n m ℝ} {rho : ℝ} (hμ : 0 < μ) (hb : SweepBounds N μ C kd r rho) :
    ∑ k ∈ Finset.range N, nsq (grad kd N k) ≤ μ * (C * ffsq N r) := by
  let ω : ℕ → Fin m → ℝ := fun k => if k < N then -(2 / μ) • grad kd N k else 0
  have hω : ω N = 0 := if_neg (lt_irrefl N)
  have h1 := hb.any (response kd ω) ω ⟨rfl, hω, fun k _ => rfl⟩
  have h2 : firstOrder N kd (response kd ω) ω = -(2 / μ) * ∑ k ∈ Finset.range N, nsq (grad kd N k) := by
    unfold firstOrder
    rw [adjoint_sum N kd (adj kd N) (response kd ω) ω (adj_N kd N) rfl hω (fun k _ => rfl), Finset.mul_sum]
    refine Finset.sum_congr rfl fun k hk => ?_
    have hk := Finset.mem_range.mp hk
    rw [← adj_step kd hk, add_sub_cancel_left]
    show grad kd N k ⬝ᵥ (if k < N then -(2 / μ) • grad kd N k else 0) = _
    rw [if_pos hk, dotProduct_smul, smul_eq_mul]; rfl
  have h3 : ∑ k ∈ Finset.range N, nsq (ω k) = (2 / μ) ^ 2 * ∑ k ∈ Finset.range N, nsq (grad kd N k) := by
    rw [Finset.mul_sum]
    refine Finset.sum_congr rfl fun k hk => ?_
    show nsq (if k < N then -(2 / μ) • grad kd N k else 0) = _
    rw [if_pos (Finset.mem_range.mp hk), nsq_smul]; ring
  rw [h2, h3] at h1
  set Φ := ∑ k ∈ Finset.range N, nsq (grad kd N k)
  have e : μ / 4 * ((2 / μ) ^ 2 * Φ) = 1 / μ * Φ := by field_simp; ring
  rw [e] at h1
  have h4 : 1 / μ * Φ ≤ C * ffsq N r := by
    have : -(2 / μ) * Φ = -(1 / μ * Φ) - 1 / μ * Φ := by ring
    linarith
  have h5 := mul_le_mul_of_nonneg_left h4 hμ.le
  have e2 : μ * (1 / μ * Φ) = Φ := by field_simp
  linarith

/-- A loop with small feedforward terms and step `α`, as a loop with bounded feedforward terms and a small step. -/
theorem loop_scaled (hbox : loopOf p.N s.Z q.kd ∈ {e : Loop n m | (∀ k i, |e.1 k i| ≤ R) ∧ (∀ k i j, |e.2.1 k i j| ≤ b) ∧ ∀ k i, |e.2.2 k i| ≤ c})
    {σ α : ℝ} (hσ : 0 < σ) (h0 : 0 ≤ α) (hα1 : α ≤ 1) (hS1 : ffsq p.N q.kd ≤ σ ^ 2) :
    ∃ e' ∈ {e : Loop n m | (∀ k i, |e.1 k i| ≤ R) ∧ (∀ k i j, |e.2.1 k i j| ≤ b) ∧ ∀ k i, |e.2.2 k i| ≤ 1}, ∃ τ, 0 ≤ τ ∧ τ ≤ σ ∧
      loopU p Y e' τ = loopU p Y (loopOf p.N s.Z q.kd) α ∧ loopU p Y e' 0 = ctl p.N s.Z := by
  set e := loopOf p.N s.Z q.kd with he
  let e' : Loop n m := (e.1, e.2.1, fun k => σ⁻¹ • e.2.2 k)
  have hX : ∀ k, loopX p Y e' (α * σ) k = loopX p Y e α k := by
    intro k
    induction k with
    | zero => rfl
    | succ k ih =>
      show p.f k (loopX p Y e' (α * σ) k) (e.1 k + e.2.1 k *ᵥ (loopX p Y e' (α * σ) k - openLoop p Y e.1 k) + (α * σ) • (σ⁻¹ • e.2.2 k)) _ _
        = p.f k (loopX p Y e α k) (e.1 k + e.2.1 k *ᵥ (loopX p Y e α k - openLoop p Y e.1 k) + α • e.2.2 k) _ _
      rw [ih, smul_smul, mul_assoc, mul_inv_cancel₀ hσ.ne', mul_one]
  refine ⟨e', ⟨hbox.1, hbox.2.1, fun k i => ?_⟩, α * σ, by positivity, by nlinarith, ?_, ?_⟩
  · show |(σ⁻¹ • (if k < p.N then (q.kd k).ff else 0)) i| ≤ 1
    by_cases hk : k < p.N
    · rw [if_pos hk]
      have h3 : (q.kd k).ff i ^ 2 ≤ σ ^ 2 := (sq_le_nsq _ i).trans (le_trans
        (Finset.single_le_sum (f := fun k => nsq (q.kd k).ff) (fun _ _ => nsq_nonneg _) (Finset.mem_range.mpr hk)) hS1)
      have h4 := abs_le_of_sq_le_sq h3 hσ.le
      show |σ⁻¹ * (q.kd k).ff i| ≤ 1
      rw [abs_mul, abs_of_pos (inv_pos.mpr hσ), inv_mul_le_iff₀ hσ, mul_one]
      exact h4
    · rw [if_neg hk]; simp
  · funext k
    unfold loopU
    by_cases hk : k < p.N
    · rw [if_pos hk, if_pos hk, hX]
      show e.1 k + e.2.1 k *ᵥ (_ - openLoop p Y e.1 k) + (α * σ) • (σ⁻¹ • e.2.2 k) = _
      rw [smul_smul, mul_assoc, mul_inv_cancel₀ hσ.ne', mul_one]
    · rw [if_neg hk, if_neg hk]
  · funext k
    by_cases hk : k < p.N
    · rw [loopU_zero _ hk]; rfl
    · unfold loopU ctl; rw [if_neg hk, if_neg hk]

/-- Controls of a candidate. -/
theorem ctl_candidate (hs : Orbit p cs Y Jb rb s) (r : ℕ → KP n m ℝ) (α : ℝ) :
    ctl p.N (candidateTraj (alKernel p) r s.Z s.Zbar α) = loopU p Y (loopOf p.N s.Z r) α := by
  funext k
  by_cases hk : k < p.N
  · exact (loop_candidate r hs.feas hs.times hs.timesb α k hk.le).2
  · unfold loopU ctl; rw [if_neg hk, if_neg hk]

/-- The gradient after an iteration with small feedforward terms. -/
theorem SmoothCore.grad_small (h : SmoothCore p cs Y μ ℓ g) (hμ : 0 < μ) {ε σ : ℝ} (hσ : 0 < σ)
    (hu : ∀ e ∈ {e : Loop n m | (∀ k i, |e.1 k i| ≤ R) ∧ (∀ k i j, |e.2.1 k i j| ≤ b) ∧ ∀ k i, |e.2.2 k i| ≤ 1}, ∀ τ, 0 ≤ τ → τ ≤ σ →
      |gradSq p Y g (loopU p Y e τ) - gradSq p Y g (loopU p Y e 0)| ≤ ε ^ 2 / 2)
    (hs : Orbit p cs Y Jb rb s) (hi : Iterated p cs o μ C R b c γ s q) (hS1 : ffsq p.N q.kd ≤ σ ^ 2)
    (hS2 : μ * (C * ffsq p.N q.kd) ≤ ε ^ 2 / 2) : gradSq p Y g (ctl p.N q.Z) ≤ ε ^ 2 := by
  have h1 := gradSq_le hμ hi.sweep
  rw [h.gradSq_eq hs.core hs.feas hs.times] at h1
  rcases hi.outcome with ⟨hZ, -⟩ | ⟨-, α, h0, hα1, hT⟩
  · rw [hZ]; linarith [sq_nonneg ε]
  · obtain ⟨e', hbox, τ, hτ0, hτ1, hU, hU0⟩ := loop_scaled (Y := Y) hi.box hσ h0.le hα1 hS1
    have hUq : ctl p.N q.Z = ctl p.N (candidateTraj (alKernel p) q.kd s.Z s.Zbar α) := by
      funext k
      by_cases hk : k < p.N
      · rw [ctl_of_lt _ hk, ctl_of_lt _ hk]; exact hT.u k (Nat.le_of_lt hk)
      · unfold ctl; rw [if_neg hk, if_neg hk]
    have h2 := hu e' hbox τ hτ0 hτ1
    rw [hU, hU0, ← ctl_candidate hs, ← hUq] at h2
    have := (abs_le.mp h2).2
    linarith

/-- The trajectory whose constraint values are stored is close to the returned one. -/
theorem stored_close (hs : Orbit p cs Y Jb rb s) (hq : Orbit p cs Y Jb rb q) (hi : Iterated p cs o μ C R b c γ s q) {σ κ : ℝ} (hσ : 0 < σ)
    (hS1 : ffsq p.N q.kd ≤ σ ^ 2) {D : (ℕ → Fin m → ℝ) → (ℕ → Fin m → ℝ) → ℝ} (hκ : 0 ≤ κ) (hD : ∀ U, D U U = 0)
    (hv : ∀ e ∈ {e : Loop n m | (∀ k i, |e.1 k i| ≤ R) ∧ (∀ k i j, |e.2.1 k i j| ≤ b) ∧ ∀ k i, |e.2.2 k i| ≤ 1}, ∀ τ, 0 ≤ τ → τ ≤ σ →
      D (loopU p Y e τ) (loopU p Y e 0) ≤ κ) :
    ∃ Zc, (alLaw p).Fresh q.cs Zc ∧ (∀ k ≤ p.N, Zc.x k = openLoop p Y (ctl p.N Zc) k) ∧ D (ctl p.N Zc) (ctl p.N q.Z) ≤ κ := by
  rcases hi.stored with hf | ⟨hZ, α, h0, hα1, hf⟩
  · exact ⟨q.Z, hf, fun k hk => (openLoop_ctl hq.feas hq.times k hk).symm, by rw [hD]; exact hκ⟩
  · obtain ⟨e', hbox, τ, hτ0, hτ1, hU, hU0⟩ := loop_scaled (Y := Y) hi.box hσ h0.le hα1 hS1
    refine ⟨_, hf, fun k hk => ?_, ?_⟩
    · rw [ctl_candidate hs, openLoop_loopU _ _ k hk]
      exact (loop_candidate q.kd hs.feas hs.times hs.timesb α k hk).1
    · have h2 := hv e' hbox τ hτ0 hτ1
      rw [hU, hU0, ← ctl_candidate hs, ← hZ] at h2
      exact hZ ▸ h2

/-- Cauchy–Schwarz. -/
theorem sum_dot_sq_le (N : ℕ) (a v : ℕ → Fin m → ℝ) : (∑ k ∈ Finset.range N, a k ⬝ᵥ v k) ^ 2
    ≤ (∑ k ∈ Finset.range N, nsq (a k)) * ∑ k ∈ Finset.range N, v k ⬝ᵥ v k := by
  have := Finset.sum_mul_sq_le_sq_mul_sq (Finset.range N ×ˢ (Finset.univ : Finset (Fin m))) (fun x => a x.1 x.2) (fun x => v x.1 x.2)
  simp only [Finset.sum_product] at this
  simpa only [nsq, dotProduct, sq] using this

theorem SmoothCore.nearlyStationary (h : SmoothCore p cs Y μ ℓ g) {ε : ℝ} (e : ∀ k, (q.cs k).core = (cs k).core)
    (hZ : DynFeasible (alKernel p) q.Z) (ht : SameTimes (alKernel p) q.Z Y) (hg : gradSq p Y g (ctl p.N q.Z) ≤ ε ^ 2) :
    NearlyStationary p cs q.Z ε := by
  intro v hv
  have hF : FirstOrder p cs q.Z (updateExpansions (alKernel p) q).kd := by
    refine ⟨fun k hk => ?_, fun k hk => ?_⟩
    · obtain ⟨-, e2, e3⟩ := expansion_core p q k hk.le
      rw [e2, e3, ht.t k hk.le, ht.h k hk]
      exact h.dyn.jac k hk _ _
    · rw [(expansion_core p q k hk).1]
      obtain ⟨g1, g2⟩ := h.grd k hk _ (e k) (q.Z.x k) (q.Z.u k)
      rw [g1, g2]
      have := h.dyn.grad k hk (q.Z.x k) (q.Z.u k)
      have e2 : (fun x u => ((cs k).evaluate x u).1) = ℓ k := by
        funext x u; exact h.val k hk _ rfl x u
      show IsGradAt (fun x u => ((cs k).evaluate x u).1) _ _ _ _
      rw [e2]; exact this
  refine ⟨_, controlCost_deriv hF hZ v hv, (sum_dot_sq_le p.N _ v).trans (mul_le_mul_of_nonneg_right ?_ ?_)⟩
  · rw [h.gradSq_eq e hZ ht]; exact hg
  · exact Finset.sum_nonneg fun k _ => nsq_nonneg (v k)

end Altro.Props
