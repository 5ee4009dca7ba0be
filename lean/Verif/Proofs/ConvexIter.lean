import Verif.Proofs.ConvexSweep
import Verif.Proofs.LQCore

/-!
# One iteration on a problem whose augmented cost is convex with bounded curvature
-/

namespace Altro.Props
open Altro.Spec Matrix ILQR
variable {K : Type} [Field K] [LinearOrder K] [IsStrictOrderedRing K] {n m : ℕ}

/-- Affine dynamics, and augmented costs between two quadratics: they lie above their tangents by at least `μ/2 |δu|²` (by nothing at
the last knot point) and by at most `M/2 |δ|²`, and so do the reported expansions. -/
structure ConvLQ (p : DynProblem n m K) (cs : ℕ → ALCost n m K) (μ M : K) : Prop extends CoreBase p cs where
  low : ∀ k < p.N, ∀ c : ALCost n m K, c.core = (cs k).core → ∀ x u δx δu, μ * nsq δu ≤ form (expOf c x u) δx δu
  up : ∀ k ≤ p.N, ∀ c : ALCost n m K, c.core = (cs k).core → ∀ x u δx δu,
    form (expOf c x u) δx δu ≤ M * (nsq δx + nsq δu)
  below : ∀ k < p.N, ∀ c : ALCost n m K, c.core = (cs k).core → ∀ x u δx δu,
    (c.evaluate x u).1 + ((expOf c x u).dx ⬝ᵥ δx + (expOf c x u).du ⬝ᵥ δu) + μ / 2 * nsq δu ≤ (c.evaluate (x + δx) (u + δu)).1
  belowN : ∀ c : ALCost n m K, c.core = (cs p.N).core → ∀ x u δx δu,
    (c.evaluate x u).1 + ((expOf c x u).dx ⬝ᵥ δx + (expOf c x u).du ⬝ᵥ δu) ≤ (c.evaluate (x + δx) (u + δu)).1
  above : ∀ k ≤ p.N, ∀ c : ALCost n m K, c.core = (cs k).core → ∀ x u δx δu,
    (c.evaluate (x + δx) (u + δu)).1 ≤ (c.evaluate x u).1 + ((expOf c x u).dx ⬝ᵥ δx + (expOf c x u).du ⬝ᵥ δu)
      + M / 2 * (nsq δx + nsq δu)

theorem ConvLQ.congr {p : DynProblem n m K} {cs cs' : ℕ → ALCost n m K} {μ M : K} (h : ConvLQ p cs μ M)
    (e : ∀ k ≤ p.N, (cs' k).core = (cs k).core) : ConvLQ p cs' μ M where
  toCoreBase := h.toCoreBase.congr e
  low k hk c hc := h.low k hk c (hc.trans (e k hk.le))
  up k hk c hc := h.up k hk c (hc.trans (e k hk))
  below k hk c hc := h.below k hk c (hc.trans (e k hk.le))
  belowN c hc := h.belowN c (hc.trans (e _ le_rfl))
  above k hk c hc := h.above k hk c (hc.trans (e k hk))

/-- The Jacobians at the times of `Z` stretch by at most `a`. -/
def DynBound (p : DynProblem n m K) (Z : Traj (Fin n → K) (Fin m → K) K) (a : K) : Prop :=
  ∀ k < p.N, ∀ x u δx δu, nsq ((p.jac k x u (Z.t k) (Z.h k)).1 *ᵥ δx + (p.jac k x u (Z.t k) (Z.h k)).2 *ᵥ δu)
    ≤ a * (nsq δx + nsq δu)

variable {p : DynProblem n m K} {o : Opts K} {fuel : ℕ} {μ M a C rb β : K}
  {s0 s s1 s' : St (Fin n → K) (Fin m → K) K (ALCost n m K) (KP n m K)}

theorem DynBound.congr {Z Z' : Traj (Fin n → K) (Fin m → K) K} (h : DynBound p Z a) (ht : SameTimes (alKernel p) Z' Z) :
    DynBound p Z' a := fun k hk => by
  rw [ht.t k (Nat.le_of_lt hk), ht.h k hk]; exact h k hk

theorem ConvLQ.bounded (h : ConvLQ p s.cs μ M) (ha : DynBound p s.Z a) {r : ℕ → KP n m K} {rho : K} (hr : 0 ≤ rho)
    (hs : Swept p.N (updateExpansions (alKernel p) s).kd r rho) :
    BoundedSweep p.N μ M a (updateExpansions (alKernel p) s).kd r rho where
  toSwept := hs
  low k hk := by rw [(expansion_core p s k hk.le).1]; exact h.low k hk _ rfl _ _
  lowN δx := by
    rw [(expansion_core p s p.N le_rfl).1]
    simpa using (h.conv p.N le_rfl _ rfl (s.Z.x p.N) (s.Z.u p.N)).psd δx 0
  up k hk := by rw [(expansion_core p s k hk).1]; exact h.up k hk _ rfl _ _
  dyn k hk := by
    obtain ⟨-, e2, e3⟩ := expansion_core p s k hk.le
    rw [e2, e3]; exact ha k hk _ _
  rho0 := hr

/-! ## Differences of trajectories -/

/-- Difference of the states. -/
def dX (Z Y : Traj (Fin n → K) (Fin m → K) K) (k : ℕ) : Fin n → K := Y.x k - Z.x k

/-- Difference of the controls, without the last one. -/
def dU (N : ℕ) (Z Y : Traj (Fin n → K) (Fin m → K) K) (k : ℕ) : Fin m → K := if k < N then Y.u k - Z.u k else 0

theorem CoreBase.admissible (h : CoreBase p s.cs) (hZ : DynFeasible (alKernel p) s.Z) {Y : Traj (Fin n → K) (Fin m → K) K}
    (hY : Alternative p s.Z Y) :
    Admissible p.N (updateExpansions (alKernel p) s).kd (dX s.Z Y) (dU p.N s.Z Y) where
  init := by
    show Y.x 0 - s.Z.x 0 = 0
    rw [hY.init, show s.Z.x 0 = p.x0 from hZ.init, sub_self]
  last := by unfold dU; rw [if_neg (lt_irrefl _)]
  step k hk := by
    obtain ⟨-, e2, e3⟩ := expansion_core p s k hk.le
    unfold dX dU
    rw [e2, e3, if_pos hk, hY.step k hk, show s.Z.x (k + 1) = p.f k (s.Z.x k) (s.Z.u k) (s.Z.t k) (s.Z.h k) from hZ.step k hk]
    have := h.dyn k hk (s.Z.x k) (s.Z.u k) (s.Z.t k) (s.Z.h k) (Y.x k - s.Z.x k) (Y.u k - s.Z.u k)
    rw [add_sub_cancel, add_sub_cancel] at this
    rw [this]; abel

/-- The cost of another trajectory, from below. -/
theorem ConvLQ.cost_below (h : ConvLQ p s.cs μ M) (Y : Traj (Fin n → K) (Fin m → K) K) :
    trajCost p s.cs s.Z + firstOrder p.N (updateExpansions (alKernel p) s).kd (dX s.Z Y) (dU p.N s.Z Y)
      + μ / 2 * ∑ k ∈ Finset.range p.N, nsq (dU p.N s.Z Y k) ≤ trajCost p s.cs Y := by
  unfold trajCost firstOrder
  rw [Finset.sum_range_succ, Finset.sum_range_succ, Finset.sum_range_succ, Finset.mul_sum]
  have h1 : ∑ k ∈ Finset.range p.N, (((s.cs k).evaluate (s.Z.x k) (s.Z.u k)).1
      + (((updateExpansions (alKernel p) s).kd k).cost.dx ⬝ᵥ dX s.Z Y k
        + ((updateExpansions (alKernel p) s).kd k).cost.du ⬝ᵥ dU p.N s.Z Y k) + μ / 2 * nsq (dU p.N s.Z Y k))
      ≤ ∑ k ∈ Finset.range p.N, ((s.cs k).evaluate (Y.x k) (Y.u k)).1 := by
    refine Finset.sum_le_sum fun k hk => ?_
    have hk := Finset.mem_range.mp hk
    rw [(expansion_core p s k hk.le).1]
    have := h.below k hk _ rfl (s.Z.x k) (s.Z.u k) (dX s.Z Y k) (dU p.N s.Z Y k)
    rw [show s.Z.x k + dX s.Z Y k = Y.x k by unfold dX; abel,
      show s.Z.u k + dU p.N s.Z Y k = Y.u k by unfold dU; rw [if_pos hk]; abel] at this
    exact this
  have h2 := h.belowN _ rfl (s.Z.x p.N) (s.Z.u p.N) (dX s.Z Y p.N) (dU p.N s.Z Y p.N)
  rw [show s.Z.x p.N + dX s.Z Y p.N = Y.x p.N by unfold dX; abel, h.term (Y.x p.N) _ (Y.u p.N)] at h2
  rw [(expansion_core p s p.N le_rfl).1]
  rw [Finset.sum_add_distrib, Finset.sum_add_distrib] at h1
  linarith

/-- The cost of another trajectory, from above. -/
theorem ConvLQ.cost_above (h : ConvLQ p s.cs μ M) (Y : Traj (Fin n → K) (Fin m → K) K) :
    trajCost p s.cs Y ≤ trajCost p s.cs s.Z + firstOrder p.N (updateExpansions (alKernel p) s).kd (dX s.Z Y) (dU p.N s.Z Y)
      + M / 2 * ∑ k ∈ Finset.range (p.N + 1), (nsq (dX s.Z Y k) + nsq (dU p.N s.Z Y k)) := by
  unfold trajCost firstOrder
  rw [Finset.mul_sum, ← Finset.sum_add_distrib, ← Finset.sum_add_distrib]
  refine Finset.sum_le_sum fun k hk => ?_
  have hk : k ≤ p.N := by have := Finset.mem_range.mp hk; omega
  rw [(expansion_core p s k hk).1]
  have := h.above k hk _ rfl (s.Z.x k) (s.Z.u k) (dX s.Z Y k) (dU p.N s.Z Y k)
  rw [show s.Z.x k + dX s.Z Y k = Y.x k by unfold dX; abel] at this
  rcases Nat.lt_or_eq_of_le hk with hk' | rfl
  · rw [show s.Z.u k + dU p.N s.Z Y k = Y.u k by unfold dU; rw [if_pos hk']; abel] at this
    exact this
  · rw [h.term (Y.x p.N) _ (Y.u p.N)] at this
    exact this

/-! ## The candidates of the line search -/

/-- Response of the linearized closed loop to the feedforward terms: states. -/
def clx (kd r : ℕ → KP n m K) : ℕ → Fin n → K
  | 0 => 0
  | k + 1 => (kd k).A *ᵥ clx kd r k + (kd k).B *ᵥ ((r k).gain *ᵥ clx kd r k + (r k).ff)

/-- ... and controls. -/
def clu (N : ℕ) (kd r : ℕ → KP n m K) (k : ℕ) : Fin m → K := if k < N then (r k).gain *ᵥ clx kd r k + (r k).ff else 0

theorem cl_admissible (N : ℕ) (kd r : ℕ → KP n m K) : Admissible N kd (clx kd r) (clu N kd r) where
  init := rfl
  last := by unfold clu; rw [if_neg (lt_irrefl _)]
  step k hk := by unfold clu; rw [if_pos hk]; rfl

theorem CoreBase.candidate_diff (h : CoreBase p s.cs) (hZ : DynFeasible (alKernel p) s.Z)
    {Zb : Traj (Fin n → K) (Fin m → K) K} (ht : SameTimes (alKernel p) Zb s.Z) (r : ℕ → KP n m K) (α : K) :
    (∀ k ≤ p.N, dX s.Z (candidateTraj (alKernel p) r s.Z Zb α) k = α • clx (updateExpansions (alKernel p) s).kd r k) ∧
    (∀ k ≤ p.N, dU p.N s.Z (candidateTraj (alKernel p) r s.Z Zb α) k
      = α • clu p.N (updateExpansions (alKernel p) s).kd r k) := by
  set kd := (updateExpansions (alKernel p) s).kd with hkd
  have hA := h.admissible hZ (candidate_alternative p r s.Z Zb ht α)
  rw [← hkd] at hA
  have hu : ∀ k < p.N, dX s.Z (candidateTraj (alKernel p) r s.Z Zb α) k = α • clx kd r k →
      dU p.N s.Z (candidateTraj (alKernel p) r s.Z Zb α) k = α • clu p.N kd r k := by
    intro k hk e
    unfold dU clu
    rw [if_pos hk, if_pos hk]
    show (if k < p.N then candidateU (alKernel p) r s.Z Zb.t Zb.h α k else _) - _ = _
    rw [if_pos hk]
    show s.Z.u k + (r k).gain *ᵥ (dX s.Z (candidateTraj (alKernel p) r s.Z Zb α) k) + α • (r k).ff - s.Z.u k = _
    rw [e, mulVec_smul, smul_add]; abel
  have hx : ∀ k ≤ p.N, dX s.Z (candidateTraj (alKernel p) r s.Z Zb α) k = α • clx kd r k := by
    intro k hk
    induction k with
    | zero => rw [hA.init]; exact (smul_zero α).symm
    | succ k ih =>
      have ih := ih (by omega)
      rw [hA.step k hk, hu k hk ih, ih, (cl_admissible p.N kd r).step k hk, mulVec_smul, mulVec_smul, smul_add]
  refine ⟨hx, fun k hk => ?_⟩
  rcases Nat.lt_or_eq_of_le hk with hk' | rfl
  · exact hu k hk' (hx k hk)
  · rw [hA.last, (cl_admissible p.N kd r).last, smul_zero]

theorem firstOrder_smul (N : ℕ) (kd : ℕ → KP n m K) (ξ ξ' : ℕ → Fin n → K) (ω ω' : ℕ → Fin m → K) (α : K)
    (hx : ∀ k ≤ N, ξ' k = α • ξ k) (hu : ∀ k ≤ N, ω' k = α • ω k) : firstOrder N kd ξ' ω' = α * firstOrder N kd ξ ω := by
  unfold firstOrder
  rw [Finset.mul_sum]
  refine Finset.sum_congr rfl fun k hk => ?_
  have hk : k ≤ N := by have := Finset.mem_range.mp hk; omega
  rw [hx k hk, hu k hk, dotProduct_smul, dotProduct_smul, smul_eq_mul, smul_eq_mul]
  ring

/-- The cost of the candidates. -/
theorem ConvLQ.candidate_cost (h : ConvLQ p s.cs μ M) (hμ : 0 ≤ μ) (hM : 0 ≤ M) (hZ : DynFeasible (alKernel p) s.Z)
    {Zb : Traj (Fin n → K) (Fin m → K) K} (ht : SameTimes (alKernel p) Zb s.Z) {r : ℕ → KP n m K} {rho : K}
    (hb : SweepBounds p.N μ C (updateExpansions (alKernel p) s).kd r rho) (α : K) :
    trajCost p s.cs s.Z + α * firstOrder p.N (updateExpansions (alKernel p) s).kd (clx (updateExpansions (alKernel p) s).kd r)
        (clu p.N (updateExpansions (alKernel p) s).kd r)
      ≤ trajCost p s.cs (candidateTraj (alKernel p) r s.Z Zb α) ∧
    trajCost p s.cs (candidateTraj (alKernel p) r s.Z Zb α)
      ≤ trajCost p s.cs s.Z + α * firstOrder p.N (updateExpansions (alKernel p) s).kd
          (clx (updateExpansions (alKernel p) s).kd r) (clu p.N (updateExpansions (alKernel p) s).kd r)
        + α ^ 2 * (M / 2 * (C * ffsq p.N r)) := by
  obtain ⟨ex, eu⟩ := h.toCoreBase.candidate_diff hZ ht r α
  have e := firstOrder_smul p.N (updateExpansions (alKernel p) s).kd _ _ _ _ α ex eu
  have h1 := h.cost_below (candidateTraj (alKernel p) r s.Z Zb α)
  have h2 := h.cost_above (candidateTraj (alKernel p) r s.Z Zb α)
  rw [e] at h1 h2
  have h3 : 0 ≤ μ / 2 * ∑ k ∈ Finset.range p.N, nsq (dU p.N s.Z (candidateTraj (alKernel p) r s.Z Zb α) k) :=
    mul_nonneg (by positivity) (Finset.sum_nonneg fun _ _ => nsq_nonneg _)
  refine ⟨by linarith, h2.trans ?_⟩
  have e2 : ∑ k ∈ Finset.range (p.N + 1), (nsq (dX s.Z (candidateTraj (alKernel p) r s.Z Zb α) k)
      + nsq (dU p.N s.Z (candidateTraj (alKernel p) r s.Z Zb α) k))
      = α ^ 2 * ∑ k ∈ Finset.range (p.N + 1), (nsq (clx (updateExpansions (alKernel p) s).kd r k)
        + nsq (clu p.N (updateExpansions (alKernel p) s).kd r k)) := by
    rw [Finset.mul_sum]
    refine Finset.sum_congr rfl fun k hk => ?_
    have hk : k ≤ p.N := by have := Finset.mem_range.mp hk; omega
    rw [ex k hk, eu k hk, nsq_smul, nsq_smul]; ring
  have h4 := (hb.closed _ _ (cl_admissible p.N _ r) (fun k hk => by unfold clu; rw [if_pos hk])).1
  have h5 := mul_le_mul_of_nonneg_left h4 (show 0 ≤ α ^ 2 * (M / 2) by positivity)
  rw [e2]
  linarith

/-- The cost of every alternative. -/
theorem ConvLQ.gap_bound (h : ConvLQ p s.cs μ M) (hμ : 0 ≤ μ) (hZ : DynFeasible (alKernel p) s.Z) {r : ℕ → KP n m K} {rho : K}
    (hb : SweepBounds p.N μ C (updateExpansions (alKernel p) s).kd r rho) {Y : Traj (Fin n → K) (Fin m → K) K}
    (hY : Alternative p s.Z Y) :
    trajCost p s.cs s.Z + μ / 4 * ∑ k ∈ Finset.range p.N, nsq (Y.u k - s.Z.u k) ≤ trajCost p s.cs Y + C * ffsq p.N r := by
  have h1 := h.cost_below Y
  have h2 := hb.any _ _ (h.toCoreBase.admissible hZ hY)
  have e : ∑ k ∈ Finset.range p.N, nsq (dU p.N s.Z Y k) = ∑ k ∈ Finset.range p.N, nsq (Y.u k - s.Z.u k) :=
    Finset.sum_congr rfl fun k hk => by unfold dU; rw [if_pos (Finset.mem_range.mp hk)]
  rw [e] at h1 h2
  linarith

/-! ## Acceptance -/

/-- Options for which the line search succeeds. -/
structure Tuned (o : Opts K) (μ M C rb β : K) : Prop where
  rbC : rb * C ≤ μ / 2
  rb1 : rb ≤ 1
  reg0 : 0 ≤ o.regInitial
  reg1 : o.regInitial ≤ rb
  regMin : 0 ≤ o.regMin
  regMin1 : o.regMin ≤ rb
  regMax : 0 ≤ o.regMax
  regFactor : 1 ≤ o.regFactor
  lim : o.checkBounds = false
  low : 0 < o.lsLower
  low1 : o.lsLower ≤ 1 / 4
  up : 3 ≤ o.lsUpper
  factor : 1 ≤ o.lsFactor
  pos : 0 < β
  step : ∃ i : ℕ, (i : ℤ) < o.lsMax ∧ stepLength o.lsFactor i = β
  small : β * (M * C) ≤ μ / 2

theorem stepLength_pos {f : K} (hf : 1 ≤ f) : ∀ i, 0 < stepLength f i ∧ stepLength f i ≤ 1
  | 0 => ⟨one_pos, le_rfl⟩
  | i + 1 => by
    obtain ⟨h1, h2⟩ := stepLength_pos hf i
    have hf0 : 0 < f := lt_of_lt_of_le one_pos hf
    refine ⟨div_pos h1 hf0, ?_⟩
    show stepLength f i / f ≤ 1
    rw [div_le_one hf0]; linarith

theorem stepLength_anti {f : K} (hf : 1 ≤ f) {i j : ℕ} (h : i ≤ j) : stepLength f j ≤ stepLength f i := by
  have hf0 : 0 < f := lt_of_lt_of_le one_pos hf
  refine antitone_nat_of_succ_le (fun k => ?_) h
  show stepLength f k / f ≤ stepLength f k
  rw [div_le_iff₀ hf0]
  have := (stepLength_pos hf k).1
  nlinarith

/-- The arithmetic of the acceptance test. -/
theorem accept_arith {v V1 D S α J0 J : K} (hμ : 0 < μ) (hS : 0 < S) (hv : μ * S ≤ v) (hV0 : 0 ≤ V1) (hV1 : V1 ≤ 1 / 2 * v)
    (hD : |D + v| ≤ μ / 2 * S) (h0 : 0 < α) (h1 : α ≤ 1) (hlo : J0 + α * D ≤ J)
    (hup : J ≤ J0 + α * D + α ^ 2 * (M / 2 * (C * S))) :
    α * v / 2 ≤ predicted (-v) V1 α ∧ predicted (-v) V1 α ≤ α * v ∧ 0 < α * v ∧
      (α * (M * C) ≤ μ / 2 → 1 / 4 * (α * v) ≤ J0 - J) ∧ J0 - J ≤ 3 * (α * v / 2) := by
  obtain ⟨d1, d2⟩ := abs_le.mp hD
  have hv0 : 0 < v := lt_of_lt_of_le (mul_pos hμ hS) hv
  have hαv : 0 < α * v := mul_pos h0 hv0
  have e : predicted (-v) V1 α = α * v - α ^ 2 * V1 := by unfold predicted; ring
  have hα2 : 0 ≤ α ^ 2 := sq_nonneg α
  have hα2' : α ^ 2 ≤ α := by nlinarith
  have m1 : α ^ 2 * V1 ≤ α * (1 / 2 * v) := mul_le_mul hα2' hV1 hV0 h0.le
  have m2 : 0 ≤ α ^ 2 * V1 := mul_nonneg hα2 hV0
  have m3 : -(α * (3 / 2 * v)) ≤ α * D := by
    have := mul_le_mul_of_nonneg_left (show -(3 / 2 * v) ≤ D by linarith) h0.le
    linarith
  have m4 : α * D ≤ -(α * (1 / 2 * v)) := by
    have := mul_le_mul_of_nonneg_left (show D ≤ -(1 / 2 * v) by linarith) h0.le
    linarith
  refine ⟨by rw [e]; linarith, by rw [e]; linarith, hαv, fun hs => ?_, by linarith⟩
  have m5 : α ^ 2 * (M / 2 * (C * S)) ≤ α * (1 / 4 * v) := by
    have h2 := mul_le_mul_of_nonneg_right hs (show 0 ≤ α * S / 2 from div_nonneg (mul_nonneg h0.le hS.le) (by norm_num))
    have h3 := mul_le_mul_of_nonneg_left hv (show 0 ≤ α / 4 by positivity)
    nlinarith
  linarith

/-- What an accepted iteration does. -/
structure Descends (p : DynProblem n m K) (o : Opts K) (μ rb β : K)
    (s q : St (Fin n → K) (Fin m → K) K (ALCost n m K) (KP n m K)) : Prop where
  core : ∀ k, (q.cs k).core = (s.cs k).core
  feas : DynFeasible (alKernel p) q.Z
  times : SameTimes (alKernel p) q.Z s.Z
  timesb : SameTimes (alKernel p) q.Zbar s.Z
  fresh : (alLaw p).Fresh q.cs q.Z
  rho0 : 0 ≤ q.rho
  rho1 : q.rho ≤ rb
  status : q.status = .kUnsolved
  inner : q.stats.inner = s.stats.inner
  total : q.stats.total = s.stats.total
  aligned : Aligned s.stats → Aligned q.stats
  len : q.stats.len ≠ 0
  pos : 0 < ffsq p.N q.kd
  drop : trajCost p s.cs q.Z + o.lsLower * β * μ / 2 * ffsq p.N q.kd ≤ trajCost p s.cs s.Z

theorem decreaseReg_le (ht : Tuned o μ M C rb β) (h0 : 0 ≤ s.rho) (h : s.rho ≤ rb) : (decreaseReg o s).rho ≤ rb := by
  show Arith.smin (Arith.smax (s.rho * Arith.smin (s.drho / o.regFactor) (1 / o.regFactor)) o.regMin) o.regMax ≤ rb
  rw [Arith.smin_eq, Arith.smax_eq, Arith.smin_eq]
  refine (min_le_left _ _).trans (max_le ?_ ht.regMin1)
  have h1 : min (s.drho / o.regFactor) (1 / o.regFactor) ≤ 1 := by
    refine (min_le_right _ _).trans ?_
    have hf0 : 0 < o.regFactor := lt_of_lt_of_le one_pos ht.regFactor
    rw [div_le_one hf0]; exact ht.regFactor
  have := mul_le_mul_of_nonneg_left h1 h0
  linarith

/-- An iteration from a trajectory that is not optimal. -/
theorem ConvLQ.iterate_descends (h : ConvLQ p s.cs μ M) (hμ : 0 < μ) (hM : 0 ≤ M)
    (hC : ∀ (kd r : ℕ → KP n m K) (rho : K), BoundedSweep p.N μ M a kd r rho → rho ≤ 1 → SweepBounds p.N μ C kd r rho)
    (hC0 : 0 < C) (ha : DynBound p s.Z a) (ho : Tuned o μ M C rb β) (hN : p.N ≠ 0) (hr0 : 0 ≤ s.rho) (hr1 : s.rho ≤ rb)
    (hZ : DynFeasible (alKernel p) s.Z) (ht : SameTimes (alKernel p) s.Zbar s.Z) (hopt : ¬ Optimal p s.cs s.Z) :
    ∃ q, iterate (alKernel p) o (fuel + 1) s = some (updateConvergence (alKernel p) q) ∧ Descends p o μ rb β s q ∧
      ∀ Y, Alternative p s.Z Y → trajCost p s.cs s.Z + μ / 4 * ∑ k ∈ Finset.range p.N, nsq (Y.u k - s.Z.u k)
        ≤ trajCost p s.cs Y + C * ffsq p.N q.kd := by
  classical
  obtain ⟨s1, hb, b1, b2, b3, hd0, hd1, b6⟩ := h.toCoreBase.backward (o := o) (fuel := fuel) hN hr0
  have hB := hC _ _ _ (h.bounded ha hr0 b3) (hr1.trans ho.rb1)
  have hgap := fun Y hY => h.gap_bound hμ.le hZ hB (Y := Y) hY
  have hS0 := ffsq_nonneg p.N s1.kd
  have hS : 0 < ffsq p.N s1.kd := by
    rcases hS0.lt_or_eq with hS | hS
    · exact hS
    · exfalso
      refine hopt fun Y hY => ?_
      have h1 := hgap Y hY
      rw [← hS, mul_zero, add_zero] at h1
      have : 0 ≤ μ / 4 * ∑ k ∈ Finset.range p.N, nsq (Y.u k - s.Z.u k) :=
        mul_nonneg (by positivity) (Finset.sum_nonneg fun _ _ => nsq_nonneg _)
      linarith
  obtain ⟨hbZ, hbZb, hbcs, -, -, -⟩ := backwardPass_frame _ _ _ _ _ hb
  rw [updateExpansions_Z] at hbZ
  rw [updateExpansions_Zbar] at hbZb
  have hcore : ∀ k, (s1.cs k).core = (s.cs k).core := fun k => by
    rw [hbcs]; exact (updateExpansions_law (alCostLaw p) s).2 k
  have hcand : ∀ α, trajCost p s1.cs (candidateTraj (alKernel p) s1.kd s1.Z s1.Zbar α)
      = trajCost p s.cs (candidateTraj (alKernel p) s1.kd s.Z s.Zbar α) := fun α => by
    rw [hbZ, hbZb]; exact trajCost_congr p _ _ _ _ hcore (fun _ _ => rfl) (fun _ _ => rfl)
  have hJ : costSum (alKernel p) s1 = (alCostLaw p).total s1.cs s1.Z :=
    (C24_reference_cost o (alCostLaw p) (fuel + 1) s s1 hb).1
  have hJ0 : (alCostLaw p).total s1.cs s1.Z = trajCost p s.cs s.Z := by
    rw [total_eq_trajCost, hbZ]; exact trajCost_congr p _ _ _ _ hcore (fun _ _ => rfl) (fun _ _ => rfl)
  -- the numbers
  have hDv : |firstOrder p.N (updateExpansions (alKernel p) s).kd (clx (updateExpansions (alKernel p) s).kd s1.kd)
      (clu p.N (updateExpansions (alKernel p) s).kd s1.kd) + -s1.dV0| ≤ μ / 2 * ffsq p.N s1.kd := by
    have h1 := (hB.closed _ _ (cl_admissible p.N _ s1.kd) (fun k hk => by unfold clu; rw [if_pos hk])).2
    rw [← hd0] at h1
    rw [← sub_eq_add_neg]
    refine h1.trans ?_
    have h2 := mul_le_mul_of_nonneg_right hr1 (mul_nonneg hC0.le hS0)
    have h3 := mul_le_mul_of_nonneg_right ho.rbC hS0
    linarith
  have hv : μ * ffsq p.N s1.kd ≤ -s1.dV0 := by rw [hd0]; exact hB.dV0
  have hV0 : 0 ≤ s1.dV1 := by rw [hd1]; exact hB.dV1
  have hV1 : s1.dV1 ≤ 1 / 2 * -s1.dV0 := by rw [hd0, hd1]; linarith [hB.dV1']
  have nums := fun (α : K) (h0 : 0 < α) (h1 : α ≤ 1) =>
    accept_arith (M := M) (C := C) hμ hS hv hV0 hV1 hDv h0 h1 (h.candidate_cost hμ.le hM hZ ht hB α).1
      (h.candidate_cost hμ.le hM hZ ht hB α).2
  rw [neg_neg] at nums
  -- the guaranteed step
  obtain ⟨i, hi, hiβ⟩ := ho.step
  have hqi : Qualifies (alCostLaw p) o s1 ((alCostLaw p).total s1.cs s1.Z) (stepLength o.lsFactor i) := by
    obtain ⟨p0, p1⟩ := stepLength_pos ho.factor i
    obtain ⟨n1, n2, n3, n4, n5⟩ := nums _ p0 p1
    have n4 := n4 (by rw [hiβ]; exact ho.small)
    have hpos : 0 < predicted s1.dV0 s1.dV1 (stepLength o.lsFactor i) := by linarith
    refine ⟨fun k _ hcb => absurd hcb (by rw [ho.lim]; decide), ⟨_, fun _ => rfl, fun hn => ?_, ?_, ?_⟩, ?_⟩
    · rw [← Bool.not_eq_true, Arith.gt_iff] at hn; exact absurd hpos hn
    · rw [Arith.le_iff, hJ0, total_eq_trajCost, hcand, le_div_iff₀ hpos]
      have := mul_le_mul_of_nonneg_right ho.low1 hpos.le
      linarith
    · rw [Arith.le_iff, hJ0, total_eq_trajCost, hcand, div_le_iff₀ hpos]
      have := mul_le_mul_of_nonneg_right ho.up hpos.le
      linarith
    · rw [Arith.lt_iff, hJ0, total_eq_trajCost, hcand]; linarith
  -- the step that is taken
  have hex : ∃ j, Qualifies (alCostLaw p) o s1 ((alCostLaw p).total s1.cs s1.Z) (stepLength o.lsFactor j) := ⟨i, hqi⟩
  obtain ⟨j, hqj, hji, hfirst⟩ : ∃ j, Qualifies (alCostLaw p) o s1 ((alCostLaw p).total s1.cs s1.Z) (stepLength o.lsFactor j) ∧
      j ≤ i ∧ ∀ l < j, ¬ Qualifies (alCostLaw p) o s1 ((alCostLaw p).total s1.cs s1.Z) (stepLength o.lsFactor l) :=
    ⟨Nat.find hex, Nat.find_spec hex, Nat.find_min' hex hqi, fun l hl => Nat.find_min hex hl⟩
  obtain ⟨hT, hstat, hrho, z, hstats⟩ := C24_accepts_first o (alCostLaw p) OrderLaws.ofField s1 hJ j (by omega) hqj hfirst
  obtain ⟨p0, p1⟩ := stepLength_pos ho.factor j
  obtain ⟨n1, n2, n3, -, -⟩ := nums _ p0 p1
  have hit : iterate (alKernel p) o (fuel + 1) s
      = some (updateConvergence (alKernel p) (forwardPass (alKernel p) o s1)) := by
    unfold iterate; rw [hb]
  have hT' : TrajEq (alKernel p) (forwardPass (alKernel p) o s1).Z
      (candidateTraj (alKernel p) s1.kd s.Z s.Zbar (stepLength o.lsFactor j)) := by
    rw [← hbZ, ← hbZb]; exact hT
  have hcost : trajCost p s.cs (forwardPass (alKernel p) o s1).Z
      = trajCost p s.cs (candidateTraj (alKernel p) s1.kd s.Z s.Zbar (stepLength o.lsFactor j)) :=
    trajCost_congr p _ _ _ _ (fun _ => rfl) hT'.x hT'.u
  have hdrop : trajCost p s.cs (forwardPass (alKernel p) o s1).Z + o.lsLower * β * μ / 2 * ffsq p.N s1.kd
      ≤ trajCost p s.cs s.Z := by
    obtain ⟨z, hz1, -, hz3, -⟩ := hqj.ratio
    have hpos : 0 < predicted s1.dV0 s1.dV1 (stepLength o.lsFactor j) := by linarith
    have hz1 := hz1 ((Arith.gt_iff _ _).mpr hpos)
    rw [Arith.le_iff, hz1, hJ0, total_eq_trajCost, hcand, le_div_iff₀ hpos] at hz3
    have hβ : β ≤ stepLength o.lsFactor j := hiβ ▸ stepLength_anti ho.factor hji
    have m1 := mul_le_mul_of_nonneg_left n1 ho.low.le
    have m2 : o.lsLower * (β * (μ * ffsq p.N s1.kd) / 2) ≤ o.lsLower * (stepLength o.lsFactor j * -s1.dV0 / 2) := by
      refine mul_le_mul_of_nonneg_left ?_ ho.low.le
      have := mul_le_mul hβ hv (mul_nonneg hμ.le hS0) p0.le
      linarith
    rw [hcost]
    linarith
  have hfp := forwardPass_frame (alKernel p) o s1
  have hne : (forwardPass (alKernel p) o s1).Z ≠ s.Z := fun e => by
    rw [e] at hdrop
    have : 0 < o.lsLower * β * μ / 2 * ffsq p.N s1.kd :=
      mul_pos (div_pos (mul_pos (mul_pos ho.low ho.pos) hμ) (by norm_num)) hS
    linarith
  obtain ⟨c1, -⟩ := iterate_cost o (alCostLaw p) OrderLaws.ofField hit
  obtain ⟨l1, l2, -, -⟩ := log_counters s.stats (some .reg) s.rho
  have hkd : (forwardPass (alKernel p) o s1).kd = s1.kd := hfp.kd
  refine ⟨_, hit, ⟨c1, ?_, ?_, ?_, ?_, ?_, ?_, hstat, ?_, ?_, ?_, ?_, ?_, ?_⟩, ?_⟩
  · rcases hfp.traj with e | ⟨_, e⟩
    · exact absurd (e.trans hbZ) hne
    · exact e
  · exact ⟨fun k hk => (hT'.times.t k hk).trans (ht.t k hk), fun k hk => (hT'.times.h k hk).trans (ht.h k hk)⟩
  · exact ⟨fun k hk => by rw [hfp.Zbar_t, hbZb]; exact ht.t k hk, fun k hk => by rw [hfp.Zbar_h, hbZb]; exact ht.h k hk⟩
  · obtain ⟨s2, hb2, hcase⟩ := iterate_stored o (alLaw p).toViolLaw hit
    rcases hcase with ⟨_, hf⟩ | ⟨_, hZ', _⟩
    · exact hf
    · exact absurd hZ' hne
  · rw [hrho, b2]; exact (reg_nonneg ho.regMin ho.regMax s).2
  · rw [hrho, b2]; exact decreaseReg_le ho hr0 hr1
  · rw [hfp.inner, b6, l1]
  · rw [hfp.total, b6, l2]
  · intro hal
    rw [hstats, b6]
    exact aligned_log _ _ _ (aligned_log _ _ _ (aligned_log _ _ _ (aligned_log _ _ _ hal)))
  · rw [hstats]; exact log_len_ne _ _ _
  · rw [hkd]; exact hS
  · rw [hkd]; exact hdrop
  · rw [hkd]; exact hgap

end Altro.Props
