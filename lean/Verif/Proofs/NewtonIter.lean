import Verif.Proofs.NewtonStep
import Verif.Spec.Newton

/-!
# One iteration near a minimiser
-/

namespace Altro.Props
open Altro.Spec Matrix ILQR
variable {n m : ℕ}
variable {p : DynProblem n m ℝ} {o : Opts ℝ} {fuel : ℕ} {μ M L R a C rb β : ℝ} {Zs : Traj (Fin n → ℝ) (Fin m → ℝ) ℝ}
  {cs : ℕ → ALCost n m ℝ} {s0 s s1 s' : St (Fin n → ℝ) (Fin m → ℝ) ℝ (ALCost n m ℝ) (KP n m ℝ)}

theorem nsq_neg {q : ℕ} (v : Fin q → ℝ) : nsq (-v) = nsq v := by simp [nsq]

theorem nsq_sub_comm {q : ℕ} (v w : Fin q → ℝ) : nsq (v - w) = nsq (w - v) := by rw [← nsq_neg, neg_sub]

theorem gapSq_nonneg (N : ℕ) (Z Zs : Traj (Fin n → ℝ) (Fin m → ℝ) ℝ) : 0 ≤ gapSq N Z Zs :=
  Finset.sum_nonneg fun _ _ => nsq_nonneg _

theorem gapSq_eq (N : ℕ) (Z Zs : Traj (Fin n → ℝ) (Fin m → ℝ) ℝ) : usq N (dU N Z Zs) = gapSq N Z Zs :=
  Finset.sum_congr rfl fun k hk => by unfold dU; rw [if_pos (Finset.mem_range.mp hk), nsq_sub_comm]; rfl

theorem admissible_each {N : ℕ} {kd : ℕ → KP n m ℝ} (ha : 0 ≤ a)
    (hd : ∀ k < N, ∀ δx δu, nsq ((kd k).A *ᵥ δx + (kd k).B *ᵥ δu) ≤ a * (nsq δx + nsq δu)) {ξ : ℕ → Fin n → ℝ}
    {ω : ℕ → Fin m → ℝ} (hA : Admissible N kd ξ ω) {k : ℕ} (hk : k ≤ N) :
    nsq (ξ k) + nsq (ω k) ≤ (1 + growth N a) * usq N ω :=
  (Finset.single_le_sum (f := fun k => nsq (ξ k) + nsq (ω k)) (fun _ _ => add_nonneg (nsq_nonneg _) (nsq_nonneg _))
    (Finset.mem_range.mpr (Nat.lt_succ_of_le hk))).trans (admissible_all ha hd hA)

theorem kd_dyn (ha : DynBound p s.Z a) : ∀ k < p.N, ∀ δx δu, nsq (((updateExpansions (alKernel p) s).kd k).A *ᵥ δx
    + ((updateExpansions (alKernel p) s).kd k).B *ᵥ δu) ≤ a * (nsq δx + nsq δu) := fun k hk => by
  obtain ⟨-, e2, e3⟩ := expansion_core p s k hk.le
  rw [e2, e3]; exact ha k hk _ _

/-- A trajectory that differs from the reference by an admissible change is near when its controls are. -/
theorem near_of_admissible {kd : ℕ → KP n m ℝ} (ha : 0 ≤ a)
    (hd : ∀ k < p.N, ∀ δx δu, nsq ((kd k).A *ᵥ δx + (kd k).B *ᵥ δu) ≤ a * (nsq δx + nsq δu)) {ξ : ℕ → Fin n → ℝ}
    {ω : ℕ → Fin m → ℝ} (hA : Admissible p.N kd ξ ω) (hR : (1 + growth p.N a) * usq p.N ω ≤ R) {k : ℕ} (hk : k ≤ p.N) {x : Fin n → ℝ}
    {u : Fin m → ℝ} (hx : Zs.x k - x = ξ k) (hu : k < p.N → Zs.u k - u = ω k) : NearKnot p.N Zs R k x u := by
  have h1 := (admissible_each ha hd hA hk).trans hR
  unfold NearKnot
  rw [nsq_sub_comm, hx]
  split_ifs with h
  · rw [nsq_sub_comm, hu h]; exact h1
  · linarith [nsq_nonneg (ω k)]

theorem jac_const (hc : CoreBase p cs) {k : ℕ} (hk : k < p.N) (x x' : Fin n → ℝ) (u u' : Fin m → ℝ) (t h : ℝ) (δx : Fin n → ℝ)
    (δu : Fin m → ℝ) : (p.jac k x u t h).1 *ᵥ δx + (p.jac k x u t h).2 *ᵥ δu
      = (p.jac k x' u' t h).1 *ᵥ δx + (p.jac k x' u' t h).2 *ᵥ δu := by
  have h1 := hc.dyn k hk x u t h δx δu
  have h2 := hc.dyn k hk x' u' t h (x - x' + δx) (u - u' + δu)
  have h3 := hc.dyn k hk x' u' t h (x - x') (u - u')
  rw [add_sub_cancel, add_sub_cancel] at h3
  rw [← add_assoc, ← add_assoc, add_sub_cancel, add_sub_cancel, h1, h3, mulVec_add, mulVec_add] at h2
  have : ∀ a b c d e f g : Fin n → ℝ, a + b + c + d + e = a + (b + f) + (c + g) → d + e = f + g := by
    intro a b c d e f g h
    have : a + b + c + (d + e) = a + b + c + (f + g) := by rw [← add_assoc, h]; abel
    exact add_left_cancel this
  exact this _ _ _ _ _ _ _ h2

/-- Everything about a state of the loop near the reference. -/
structure NewtonAt (p : DynProblem n m ℝ) (Zs : Traj (Fin n → ℝ) (Fin m → ℝ) ℝ) (μ M L R a : ℝ)
    (s : St (Fin n → ℝ) (Fin m → ℝ) ℝ (ALCost n m ℝ) (KP n m ℝ)) : Prop where
  prob : NewtonCore p s.cs Zs μ M L R
  feas : DynFeasible (alKernel p) s.Z
  times : SameTimes (alKernel p) s.Z Zs
  timesb : SameTimes (alKernel p) s.Zbar s.Z
  dyn : DynBound p s.Z a
  near : (1 + growth p.N a) * gapSq p.N s.Z Zs ≤ R

theorem NewtonAt.alt (h : NewtonAt p Zs μ M L R a s) : Alternative p s.Z Zs :=
  (alternative_same h.times _).mpr ⟨h.prob.feas.init, h.prob.feas.step⟩

theorem NewtonAt.nearKnot (h : NewtonAt p Zs μ M L R a s) (ha : 0 ≤ a) {k : ℕ} (hk : k ≤ p.N) :
    NearKnot p.N Zs R k (s.Z.x k) (s.Z.u k) :=
  near_of_admissible ha (kd_dyn h.dyn) (h.prob.toCoreBase.admissible h.feas h.alt) (by rw [gapSq_eq]; exact h.near) hk rfl
    fun h => by unfold dU; rw [if_pos h]

theorem NewtonAt.bounded (h : NewtonAt p Zs μ M L R a s) (ha : 0 ≤ a) {r : ℕ → KP n m ℝ} {rho : ℝ} (hr : 0 ≤ rho)
    (hs : Swept p.N (updateExpansions (alKernel p) s).kd r rho) :
    BoundedSweep p.N μ M a (updateExpansions (alKernel p) s).kd r rho where
  toSwept := hs
  low k hk := by rw [(expansion_core p s k hk.le).1]; exact h.prob.low k hk _ rfl _ _
  lowN δx := by
    rw [(expansion_core p s p.N le_rfl).1]
    simpa using (h.prob.conv p.N le_rfl _ rfl (s.Z.x p.N) (s.Z.u p.N)).psd δx 0
  up k hk := by rw [(expansion_core p s k hk).1]; exact h.prob.up k hk _ rfl _ _ (h.nearKnot ha hk)
  dyn := kd_dyn h.dyn
  rho0 := hr

theorem sum_sq_le {N : ℕ} {f : ℕ → ℝ} (hf : ∀ k, 0 ≤ f k) :
    ∑ k ∈ Finset.range N, f k ^ 2 ≤ (∑ k ∈ Finset.range N, f k) ^ 2 := by
  rw [sq (∑ k ∈ Finset.range N, f k), Finset.sum_mul]
  refine Finset.sum_le_sum fun k hk => ?_
  rw [sq]
  exact mul_le_mul_of_nonneg_left (Finset.single_le_sum (fun i _ => hf i) hk) (hf k)

/-- The two constants of the error recursion. -/
noncomputable def quadRate (N : ℕ) (μ L a : ℝ) : ℝ := 4 * (1 + growth N a) ^ 3 / μ ^ 2 * L ^ 2

noncomputable def regRate (N : ℕ) (μ M a : ℝ) : ℝ := 16 * (1 + sig M a N / μ * growth N a) / μ ^ 2

/-- The closed loop of the sweep: its distance from the reference. -/
theorem NewtonAt.error (h : NewtonAt p Zs μ M L R a s) (hμ : 0 < μ) (hM : 0 ≤ M) (ha : 0 ≤ a) {r : ℕ → KP n m ℝ} {rho : ℝ}
    (hr : 0 ≤ rho) (hs : Swept p.N (updateExpansions (alKernel p) s).kd r rho) (hrho : regRate p.N μ M a * rho ^ 2 ≤ 1) :
    usq p.N (fun k => dU p.N s.Z Zs k - clu p.N (updateExpansions (alKernel p) s).kd r k)
      ≤ (quadRate p.N μ L a * gapSq p.N s.Z Zs + regRate p.N μ M a * rho ^ 2) * gapSq p.N s.Z Zs := by
  set kd := (updateExpansions (alKernel p) s).kd with hkd
  have hg := growth_nonneg p.N ha
  have hE := h.prob.toCoreBase.admissible h.feas h.alt
  rw [← hkd] at hE
  have hB := h.bounded ha hr hs
  -- the reference with the last control of the current trajectory
  let Y : Traj (Fin n → ℝ) (Fin m → ℝ) ℝ := ⟨Zs.x, upd Zs.u p.N (s.Z.u p.N), Zs.t, Zs.h⟩
  have hYu : ∀ k < p.N, Y.u k = Zs.u k := fun k hk => upd_of_ne (by omega)
  have hYN : Y.u p.N = s.Z.u p.N := upd_self _ _ _
  have hYf : DynFeasible (alKernel p) Y := ⟨h.prob.feas.init, fun k hk => by
    show Zs.x (k + 1) = p.f k (Zs.x k) (Y.u k) (Zs.t k) (Zs.h k)
    rw [hYu k hk]; exact h.prob.feas.step k hk⟩
  have hYc : trajCost p s.cs Y = trajCost p s.cs Zs := by
    unfold trajCost
    rw [Finset.sum_range_succ, Finset.sum_range_succ]
    congr 1
    · refine Finset.sum_congr rfl fun k hk => ?_
      rw [hYu k (Finset.mem_range.mp hk)]
    · exact h.prob.term _ _ _
  have hYo : Optimal p s.cs Y := fun Z' hZ' => by
    rw [hYc]
    exact h.prob.best Z' ⟨hZ'.init, hZ'.step⟩
  have hd : ∀ k ≤ p.N, s.Z.x k + dX s.Z Zs k = Y.x k ∧ s.Z.u k + dU p.N s.Z Zs k = Y.u k := fun k hk => by
    refine ⟨by show _ + (Zs.x k - s.Z.x k) = Zs.x k; abel, ?_⟩
    unfold dU
    rcases Nat.lt_or_eq_of_le hk with hk' | rfl
    · rw [if_pos hk', hYu k hk']; abel
    · rw [if_neg (lt_irrefl _), add_zero, hYN]
  let Rx : ℕ → Fin n → ℝ := fun k => (expOf (s.cs k) (Y.x k) (Y.u k)).dx - (kd k).cost.dx
    - ((kd k).cost.dxdx *ᵥ dX s.Z Zs k + (kd k).cost.dxdu *ᵥ dU p.N s.Z Zs k)
  let Ru : ℕ → Fin m → ℝ := fun k => (expOf (s.cs k) (Y.x k) (Y.u k)).du - (kd k).cost.du
    - ((kd k).cost.dxduᵀ *ᵥ dX s.Z Zs k + (kd k).cost.dudu *ᵥ dU p.N s.Z Zs k)
  have hR0 : 0 ≤ R := le_trans (mul_nonneg (by linarith) (gapSq_nonneg _ _ _)) h.near
  have hRb : ∀ k ≤ p.N, nsq (Rx k) + nsq (Ru k) ≤ (L * (nsq (dX s.Z Zs k) + nsq (dU p.N s.Z Zs k))) ^ 2 := fun k hk => by
    obtain ⟨e1, e2⟩ := hd k hk
    have := h.prob.hess k hk (s.cs k) rfl (s.Z.x k) (s.Z.u k) (dX s.Z Zs k) (dU p.N s.Z Zs k) (h.nearKnot ha hk) (by
        rw [e1, e2]
        unfold NearKnot
        rw [show Y.x k - Zs.x k = 0 from sub_self _, nsq_zero, zero_add]
        split_ifs with hk'
        · rw [hYu k hk', sub_self, nsq_zero]; exact hR0
        · exact hR0) (fun e => by unfold dU; rw [e, if_neg (lt_irrefl _)])
    rw [e1, e2, ← (expansion_core p s k hk).1] at this
    exact this
  have hres : ∀ η ν, Admissible p.N kd η ν → firstOrder p.N kd η ν
      + ∑ k ∈ Finset.range (p.N + 1), bil (kd k).cost (dX s.Z Zs k) (dU p.N s.Z Zs k) (η k) (ν k)
      + ∑ k ∈ Finset.range (p.N + 1), (Rx k ⬝ᵥ η k + Ru k ⬝ᵥ ν k) = 0 := by
    intro η ν hA
    have h1 := optimal_stationary h.prob.toCoreBase (fun k hk => h.prob.grad k hk _ rfl) hYf hYo hA.init (ν := ν) (fun k hk => by
      obtain ⟨-, e2, e3⟩ := expansion_core p s k hk.le
      rw [hA.step k hk, hkd, e2, e3, h.times.t k (Nat.le_of_lt hk), h.times.h k hk]
      exact jac_const h.prob.toCoreBase hk _ _ _ _ _ _ _ _)
    rw [firstOrder, ← Finset.sum_add_distrib, ← Finset.sum_add_distrib, ← h1]
    refine Finset.sum_congr rfl fun k _ => ?_
    show _ + _ + (((expOf (s.cs k) (Y.x k) (Y.u k)).dx - (kd k).cost.dx
      - ((kd k).cost.dxdx *ᵥ dX s.Z Zs k + (kd k).cost.dxdu *ᵥ dU p.N s.Z Zs k)) ⬝ᵥ η k
      + ((expOf (s.cs k) (Y.x k) (Y.u k)).du - (kd k).cost.du
      - ((kd k).cost.dxduᵀ *ᵥ dX s.Z Zs k + (kd k).cost.dudu *ᵥ dU p.N s.Z Zs k)) ⬝ᵥ ν k) = _
    unfold bil
    simp only [sub_dotProduct]
    ring
  have key := newton_error hB hμ hM ha (cl_admissible p.N kd r) (fun k hk => by unfold clu; rw [if_pos hk]) hE hres hrho
  rw [gapSq_eq] at key
  have hsum : ∑ k ∈ Finset.range (p.N + 1), (nsq (Rx k) + nsq (Ru k))
      ≤ L ^ 2 * ((1 + growth p.N a) * gapSq p.N s.Z Zs) ^ 2 := by
    have h1 : ∑ k ∈ Finset.range (p.N + 1), (nsq (Rx k) + nsq (Ru k))
        ≤ ∑ k ∈ Finset.range (p.N + 1), L ^ 2 * (nsq (dX s.Z Zs k) + nsq (dU p.N s.Z Zs k)) ^ 2 :=
      Finset.sum_le_sum fun k hk => (hRb k (by have := Finset.mem_range.mp hk; omega)).trans (le_of_eq (by ring))
    refine h1.trans ?_
    rw [← Finset.mul_sum]
    refine mul_le_mul_of_nonneg_left ((sum_sq_le fun k => add_nonneg (nsq_nonneg _) (nsq_nonneg _)).trans ?_) (sq_nonneg _)
    refine pow_le_pow_left₀ (Finset.sum_nonneg fun _ _ => add_nonneg (nsq_nonneg _) (nsq_nonneg _)) ?_ 2
    have := admissible_all ha hB.dyn hE
    rwa [gapSq_eq] at this
  refine key.trans ?_
  have h2 := mul_le_mul_of_nonneg_left hsum (show 0 ≤ 4 * (1 + growth p.N a) / μ ^ 2 by positivity)
  unfold quadRate regRate
  refine (add_le_add_left h2 _).trans (le_of_eq ?_)
  ring

theorem NewtonAt.optimal_of_zero (h : NewtonAt p Zs μ M L R a s) (ha : 0 ≤ a) (h0 : gapSq p.N s.Z Zs = 0) :
    Optimal p s.cs s.Z := by
  have hE := h.prob.toCoreBase.admissible h.feas h.alt
  have h1 := admissible_states ha (kd_dyn h.dyn) hE
  have h2 : usq p.N (dU p.N s.Z Zs) = 0 := by rw [gapSq_eq, h0]
  rw [show ∑ k ∈ Finset.range p.N, nsq (dU p.N s.Z Zs k) = 0 from h2, mul_zero] at h1
  have hx : ∀ k ≤ p.N, s.Z.x k = Zs.x k := fun k hk => by
    have := (Finset.sum_eq_zero_iff_of_nonneg fun i _ => nsq_nonneg (dX s.Z Zs i)).mp
      (le_antisymm h1 (Finset.sum_nonneg fun _ _ => nsq_nonneg _)) k (Finset.mem_range.mpr (Nat.lt_succ_of_le hk))
    exact (sub_eq_zero.mp (nsq_eq_zero this)).symm
  have hu : ∀ k < p.N, s.Z.u k = Zs.u k := fun k hk => by
    have := (Finset.sum_eq_zero_iff_of_nonneg fun i _ => nsq_nonneg (s.Z.u i - Zs.u i)).mp h0 k (Finset.mem_range.mpr hk)
    exact sub_eq_zero.mp (nsq_eq_zero this)
  have hc : trajCost p s.cs s.Z = trajCost p s.cs Zs := by
    unfold trajCost
    rw [Finset.sum_range_succ, Finset.sum_range_succ, hx _ le_rfl]
    congr 1
    · refine Finset.sum_congr rfl fun k hk => ?_
      have hk := Finset.mem_range.mp hk
      rw [hu k hk, hx k hk.le]
    · exact h.prob.term _ _ _
  intro Z' hZ'
  rw [hc]
  exact h.prob.best Z' ((alternative_same h.times _).mp hZ')

/-! ## Acceptance of the full step -/

/-- Constants for which full steps are accepted, for distances up to `E0`. -/
structure NewtonSmall (N : ℕ) (μ M L a C rb E0 : ℝ) : Prop where
  rb0 : 0 ≤ rb
  rb1 : rb ≤ 1
  reg : regRate N μ M a * rb ^ 2 ≤ 1 / 4
  quad : quadRate N μ L a * E0 ≤ 1 / 4
  line : rb * (3 * C + 1) ≤ μ / 2
  step : (8 * L * C) ^ 2 * (4 * (1 + growth N a) * E0) ≤ μ ^ 2

theorem regRate_nonneg (N : ℕ) (hμ : 0 < μ) (hM : 0 ≤ M) (ha : 0 ≤ a) : 0 ≤ regRate N μ M a := by
  have := growth_nonneg N ha
  have := sig_nonneg hM ha N
  unfold regRate
  positivity

theorem quadRate_nonneg (N : ℕ) (hμ : 0 < μ) (ha : 0 ≤ a) : 0 ≤ quadRate N μ L a := by
  have := growth_nonneg N ha
  unfold quadRate
  positivity

/-- Numbers of the full step. -/
theorem NewtonAt.numbers (h : NewtonAt p Zs μ M L R a s) (hμ : 0 < μ) (hM : 0 ≤ M) (hL : 0 ≤ L) (ha : 0 ≤ a) {r : ℕ → KP n m ℝ}
    {rho E0 : ℝ} (hr : 0 ≤ rho) (hr1 : rho ≤ rb) (hs : Swept p.N (updateExpansions (alKernel p) s).kd r rho) (hC0 : 0 < C)
    (hC : SweepBounds p.N μ C (updateExpansions (alKernel p) s).kd r rho) (hsm : NewtonSmall p.N μ M L a C rb E0)
    (hE0 : gapSq p.N s.Z Zs ≤ E0) :
    gapSq p.N (candidateTraj (alKernel p) r s.Z s.Zbar 1) Zs
      ≤ (quadRate p.N μ L a * gapSq p.N s.Z Zs + regRate p.N μ M a * rb ^ 2) * gapSq p.N s.Z Zs ∧
    gapSq p.N (candidateTraj (alKernel p) r s.Z s.Zbar 1) Zs ≤ 1 / 2 * gapSq p.N s.Z Zs ∧
    (ffsq p.N r = 0 → gapSq p.N s.Z Zs = 0) ∧
    ffsq p.N r ≤ 6 * (1 + sig M a p.N / μ * growth p.N a) * gapSq p.N s.Z Zs ∧
    |trajCost p s.cs s.Z - trajCost p s.cs (candidateTraj (alKernel p) r s.Z s.Zbar 1)
      - 1 / 2 * -∑ k ∈ Finset.range p.N, (r k).delta.1| ≤ μ / 4 * ffsq p.N r := by
  set kd := (updateExpansions (alKernel p) s).kd with hkd
  set E := gapSq p.N s.Z Zs with hEdef
  have hE00 : 0 ≤ E := gapSq_nonneg _ _ _
  have hg := growth_nonneg p.N ha
  have hsig := sig_nonneg hM ha p.N
  have hB := h.bounded ha hr hs
  have hreg0 := regRate_nonneg p.N hμ hM ha
  have hquad0 := quadRate_nonneg (L := L) p.N hμ ha
  have hrr : regRate p.N μ M a * rho ^ 2 ≤ regRate p.N μ M a * rb ^ 2 :=
    mul_le_mul_of_nonneg_left (pow_le_pow_left₀ hr hr1 2) hreg0
  have herr := h.error hμ hM ha hr hs (by linarith [hsm.reg])
  rw [← hkd, ← hEdef] at herr
  set Y := candidateTraj (alKernel p) r s.Z s.Zbar 1 with hY
  obtain ⟨ex, eu⟩ := h.prob.toCoreBase.candidate_diff h.feas h.timesb r 1
  rw [← hY, ← hkd] at ex eu
  have hA := cl_admissible p.N kd r
  have hcl : ∀ k < p.N, clu p.N kd r k = (r k).gain *ᵥ clx kd r k + (r k).ff := fun k hk => by unfold clu; rw [if_pos hk]
  have hE := h.prob.toCoreBase.admissible h.feas h.alt
  rw [← hkd] at hE
  have hYx : ∀ k ≤ p.N, Y.x k = s.Z.x k + clx kd r k := fun k hk => by
    have := ex k hk
    rw [one_smul] at this
    rw [← this]; unfold dX; abel
  have hYu : ∀ k < p.N, Y.u k = s.Z.u k + clu p.N kd r k := fun k hk => by
    have := eu k (Nat.le_of_lt hk)
    rw [one_smul] at this
    rw [← this]; unfold dU; rw [if_pos hk]; abel
  have hdist : gapSq p.N Y Zs = usq p.N (fun k => dU p.N s.Z Zs k - clu p.N kd r k) := by
    refine Finset.sum_congr rfl fun k hk => ?_
    have hk := Finset.mem_range.mp hk
    show nsq (Y.u k - Zs.u k) = _
    rw [hYu k hk, nsq_sub_comm]
    congr 1
    unfold dU
    beta_reduce
    rw [if_pos hk]; abel
  rw [← hdist] at herr
  have h1 : gapSq p.N Y Zs ≤ (quadRate p.N μ L a * E + regRate p.N μ M a * rb ^ 2) * E :=
    herr.trans (mul_le_mul_of_nonneg_right (by linarith) hE00)
  have h2 : gapSq p.N Y Zs ≤ 1 / 2 * E := by
    refine h1.trans (mul_le_mul_of_nonneg_right ?_ hE00)
    have := mul_le_mul_of_nonneg_left hE0 hquad0
    linarith [hsm.reg, hsm.quad]
  have hω : usq p.N (clu p.N kd r) ≤ 3 * E := by
    have : usq p.N (clu p.N kd r) ≤ 2 * usq p.N (dU p.N s.Z Zs) + 2 * usq p.N (fun k => dU p.N s.Z Zs k - clu p.N kd r k) := by
      unfold usq
      rw [Finset.mul_sum, Finset.mul_sum, ← Finset.sum_add_distrib]
      refine Finset.sum_le_sum fun k _ => ?_
      have := nsq_sub_le (dU p.N s.Z Zs k) (dU p.N s.Z Zs k - clu p.N kd r k)
      rwa [sub_sub_cancel] at this
    rw [gapSq_eq, ← hdist] at this
    linarith
  have hω0 := usq_nonneg p.N (clu p.N kd r)
  have hff0 := ffsq_nonneg p.N r
  obtain ⟨c1, c2⟩ := hC.closed _ _ hA hcl
  refine ⟨h1, h2, fun hz => ?_, ?_, ?_⟩
  · rw [hz, mul_zero] at c1
    have h3 : ∀ k < p.N, clu p.N kd r k = 0 := fun k hk => by
      have h4 := Finset.single_le_sum (f := fun k => nsq (clx kd r k) + nsq (clu p.N kd r k))
        (fun _ _ => add_nonneg (nsq_nonneg _) (nsq_nonneg _)) (Finset.mem_range.mpr (show k < p.N + 1 by omega))
      have h5 := nsq_nonneg (clx kd r k)
      have h6 := nsq_nonneg (clu p.N kd r k)
      exact nsq_eq_zero (by linarith)
    have h4 : gapSq p.N Y Zs = E := Finset.sum_congr rfl fun k hk => by
      rw [hYu k (Finset.mem_range.mp hk), h3 k (Finset.mem_range.mp hk), add_zero]
    linarith
  · have h3 := ffsq_le hB hμ hM ha hA hcl
    have h4 := mul_le_mul_of_nonneg_left hω (show 0 ≤ 2 * (1 + sig M a p.N / μ * growth p.N a) by positivity)
    linarith
  · -- the remainder of the cost
    set ε := Real.sqrt ((1 + growth p.N a) * usq p.N (clu p.N kd r)) with hε
    have hε0 : 0 ≤ ε := Real.sqrt_nonneg _
    have hε2 : ε ^ 2 = (1 + growth p.N a) * usq p.N (clu p.N kd r) := Real.sq_sqrt (by positivity)
    have hEA := admissible_sub hE hA
    have hnearY : ∀ k ≤ p.N, NearKnot p.N Zs R k (s.Z.x k + clx kd r k) (s.Z.u k + clu p.N kd r k) := fun k hk => by
      refine near_of_admissible ha hB.dyn hEA ?_ hk ?_ fun hk => ?_
      · rw [← hdist]
        refine le_trans (mul_le_mul_of_nonneg_left (show gapSq p.N Y Zs ≤ E by linarith) (by linarith)) h.near
      · unfold dX; abel
      · unfold dU; beta_reduce; rw [if_pos hk]; abel
    set S := ∑ k ∈ Finset.range (p.N + 1), (nsq (clx kd r k) + nsq (clu p.N kd r k)) with hS
    set D := firstOrder p.N kd (clx kd r) (clu p.N kd r) with hD
    set F := ∑ k ∈ Finset.range (p.N + 1), form (kd k).cost (clx kd r k) (clu p.N kd r k) with hF
    have hrem : |trajCost p s.cs Y - trajCost p s.cs s.Z - D - 1 / 2 * F| ≤ L * ε * S := by
      have e1 : trajCost p s.cs Y - trajCost p s.cs s.Z - D - 1 / 2 * F = ∑ k ∈ Finset.range (p.N + 1),
          (((s.cs k).evaluate (s.Z.x k + clx kd r k) (s.Z.u k + clu p.N kd r k)).1
            - (((s.cs k).evaluate (s.Z.x k) (s.Z.u k)).1 + ((kd k).cost.dx ⬝ᵥ clx kd r k + (kd k).cost.du ⬝ᵥ clu p.N kd r k)
              + 1 / 2 * form (kd k).cost (clx kd r k) (clu p.N kd r k))) := by
        rw [hD, hF, firstOrder, Finset.mul_sum]
        unfold trajCost
        rw [← Finset.sum_sub_distrib, ← Finset.sum_sub_distrib, ← Finset.sum_sub_distrib]
        refine Finset.sum_congr rfl fun k hk => ?_
        have hk : k ≤ p.N := by have := Finset.mem_range.mp hk; omega
        rw [hYx k hk]
        rcases Nat.lt_or_eq_of_le hk with hk' | rfl
        · rw [hYu k hk']; ring
        · rw [h.prob.term _ (Y.u p.N) (s.Z.u p.N + clu p.N kd r p.N)]; ring
      rw [e1, hS, Finset.mul_sum]
      refine (Finset.abs_sum_le_sum_abs _ _).trans (Finset.sum_le_sum fun k hk => ?_)
      have hk : k ≤ p.N := by have := Finset.mem_range.mp hk; omega
      have := h.prob.taylor hL hk (h.nearKnot ha hk) (hnearY k hk) (fun e => by rw [e]; exact hA.last) hε0
        (by rw [hε2]; exact admissible_each ha hB.dyn hA hk)
      rw [← (expansion_core p s k hk).1] at this
      exact this
    -- the model
    have hms := hs.model_stationary hA hcl hA
    have e2 : ∑ k ∈ Finset.range (p.N + 1), bil (kd k).cost (clx kd r k) (clu p.N kd r k) (clx kd r k) (clu p.N kd r k) = F :=
      Finset.sum_congr rfl fun k _ => bil_self _ _ _
    have e3 : ∑ k ∈ Finset.range p.N, clu p.N kd r k ⬝ᵥ (clu p.N kd r k - (r k).gain *ᵥ clx kd r k)
        = ∑ k ∈ Finset.range p.N, clu p.N kd r k ⬝ᵥ (r k).ff := Finset.sum_congr rfl fun k hk => by
      have := hcl k (Finset.mem_range.mp hk)
      congr 1
      rw [this]; abel
    rw [e2, e3, ← hD] at hms
    set X := ∑ k ∈ Finset.range p.N, clu p.N kd r k ⬝ᵥ (r k).ff with hX
    have hωS : usq p.N (clu p.N kd r) ≤ S := by
      rw [hS, Finset.sum_add_distrib, usq_last hA.last]
      have : 0 ≤ ∑ k ∈ Finset.range (p.N + 1), nsq (clx kd r k) := Finset.sum_nonneg fun _ _ => nsq_nonneg _
      linarith
    have hXb : |X| ≤ (C + 1) / 2 * ffsq p.N r := by
      have hb : ∀ k ∈ Finset.range p.N, |clu p.N kd r k ⬝ᵥ (r k).ff| ≤ 1 / 2 * nsq (clu p.N kd r k) + 1 / 2 * nsq (r k).ff :=
        fun k _ => by
          have y1 := dot_young (clu p.N kd r k) (r k).ff one_pos
          have y2 := dot_young (-clu p.N kd r k) (r k).ff one_pos
          rw [neg_dotProduct, nsq_neg] at y2
          rw [abs_le]
          constructor <;> linarith
      have h3 := (Finset.abs_sum_le_sum_abs _ _).trans (Finset.sum_le_sum hb)
      rw [Finset.sum_add_distrib, ← Finset.mul_sum, ← Finset.mul_sum] at h3
      have h4 : |X| ≤ 1 / 2 * usq p.N (clu p.N kd r) + 1 / 2 * ffsq p.N r := h3
      linarith
    set V := ∑ k ∈ Finset.range p.N, (r k).delta.1 with hV
    set G := ffsq p.N r with hG
    -- small terms
    have hLε : L * ε * C ≤ μ / 8 := by
      have h3 : (8 * L * C) ^ 2 * ε ^ 2 ≤ μ ^ 2 := by
        refine le_trans (mul_le_mul_of_nonneg_left ?_ (sq_nonneg _)) hsm.step
        rw [hε2]
        have := mul_le_mul_of_nonneg_left (show usq p.N (clu p.N kd r) ≤ 4 * E0 by linarith) (show 0 ≤ 1 + growth p.N a by linarith)
        linarith
      have h4 : 8 * L * C * ε ≤ μ := by
        refine le_of_sq_le_sq ?_ hμ.le
        rw [mul_pow]; exact h3
      linarith
    have b1 : L * ε * S ≤ μ / 8 * G := by
      have h3 := mul_le_mul_of_nonneg_left c1 (show 0 ≤ L * ε by positivity)
      have h4 := mul_le_mul_of_nonneg_right hLε hff0
      linarith
    have b2 : rho * ((3 * C + 1) * G) ≤ μ / 2 * G := by
      have h3 := mul_le_mul_of_nonneg_right hr1 (show 0 ≤ (3 * C + 1) * G by positivity)
      have h4 := mul_le_mul_of_nonneg_right hsm.line hff0
      linarith
    have b3 : |rho * X| ≤ rho * ((C + 1) / 2 * G) := by
      rw [abs_mul, abs_of_nonneg hr]; exact mul_le_mul_of_nonneg_left hXb hr
    obtain ⟨x1, x2⟩ := abs_le.mp hrem
    obtain ⟨y1, y2⟩ := abs_le.mp c2
    obtain ⟨z1, z2⟩ := abs_le.mp b3
    rw [abs_le]
    constructor <;> linarith

/-! ## The iteration -/

/-- What an iteration with a full step does. -/
structure NewtonDescends (p : DynProblem n m ℝ) (Zs : Traj (Fin n → ℝ) (Fin m → ℝ) ℝ) (A B Q rb : ℝ)
    (s q : St (Fin n → ℝ) (Fin m → ℝ) ℝ (ALCost n m ℝ) (KP n m ℝ)) : Prop where
  core : ∀ k, (q.cs k).core = (s.cs k).core
  feas : DynFeasible (alKernel p) q.Z
  times : SameTimes (alKernel p) q.Z s.Z
  timesb : SameTimes (alKernel p) q.Zbar s.Z
  fresh : (alLaw p).Fresh q.cs q.Z
  rho0 : 0 ≤ q.rho
  rho1 : q.rho ≤ rb
  status : q.status = .kUnsolved
  inner : q.stats.inner = s.stats.inner
  total : q.stats.total = s.stats.total
  aligned : Aligned s.stats → Aligned q.stats
  len : q.stats.len ≠ 0
  dist : gapSq p.N q.Z Zs ≤ (A * gapSq p.N s.Z Zs + B) * gapSq p.N s.Z Zs
  half : gapSq p.N q.Z Zs ≤ 1 / 2 * gapSq p.N s.Z Zs
  ff : ffsq p.N q.kd ≤ Q * gapSq p.N s.Z Zs
  drop : trajCost p s.cs q.Z < trajCost p s.cs s.Z
  dropUp : trajCost p s.cs s.Z - trajCost p s.cs q.Z ≤ Q * gapSq p.N s.Z Zs

/-- Bound for the decrease of the cost and for the feedforward terms, per squared distance. -/
noncomputable def dropRate (N : ℕ) (μ M a : ℝ) : ℝ :=
  (1 + (M + a * sig M a N + 1)) * (6 * (1 + sig M a N / μ * growth N a))

theorem _root_.Altro.Spec.FullStep.decrease (ho : FullStep o rb) (h0 : 0 ≤ s.rho) (h : s.rho ≤ rb) : (decreaseReg o s).rho ≤ rb := by
  show Arith.smin (Arith.smax (s.rho * Arith.smin (s.drho / o.regFactor) (1 / o.regFactor)) o.regMin) o.regMax ≤ rb
  rw [Arith.smin_eq, Arith.smax_eq, Arith.smin_eq]
  refine (min_le_left _ _).trans (max_le ?_ ho.regMin1)
  have h1 : min (s.drho / o.regFactor) (1 / o.regFactor) ≤ 1 := by
    refine (min_le_right _ _).trans ?_
    have hf0 : 0 < o.regFactor := lt_of_lt_of_le one_pos ho.regFactor
    rw [div_le_one hf0]; exact ho.regFactor
  have := mul_le_mul_of_nonneg_left h1 h0
  linarith

theorem NewtonAt.iterate (h : NewtonAt p Zs μ M L R a s) (hμ : 0 < μ) (hM : 0 ≤ M) (hL : 0 ≤ L) (ha : 0 ≤ a)
    (hC : ∀ (kd r : ℕ → KP n m ℝ) (rho : ℝ), BoundedSweep p.N μ M a kd r rho → rho ≤ 1 → SweepBounds p.N μ C kd r rho)
    (hC0 : 0 < C) {E0 : ℝ} (hsm : NewtonSmall p.N μ M L a C rb E0) (ho : FullStep o rb) (hN : p.N ≠ 0) (hr0 : 0 ≤ s.rho)
    (hr1 : s.rho ≤ rb) (hE0 : gapSq p.N s.Z Zs ≤ E0) (hopt : ¬ Optimal p s.cs s.Z) :
    ∃ q, ILQR.iterate (alKernel p) o (fuel + 1) s = some (updateConvergence (alKernel p) q) ∧
      NewtonDescends p Zs (quadRate p.N μ L a) (regRate p.N μ M a * rb ^ 2) (dropRate p.N μ M a) rb s q := by
  obtain ⟨s1, hb, b1, b2, b3, hd0, hd1, b6⟩ := h.prob.toCoreBase.backward (o := o) (fuel := fuel) hN hr0
  have hBS := h.bounded ha hr0 b3
  have hB := hC _ _ _ hBS (hr1.trans hsm.rb1)
  obtain ⟨u1, u2, u3, u4, u5⟩ := h.numbers hμ hM hL ha hr0 hr1 b3 hC0 hB hsm hE0
  have hS0 := ffsq_nonneg p.N s1.kd
  have hEnn := gapSq_nonneg p.N s.Z Zs
  have hS : 0 < ffsq p.N s1.kd := by
    rcases hS0.lt_or_eq with hS | hS
    · exact hS
    · exact absurd (h.optimal_of_zero ha (u3 hS.symm)) hopt
  obtain ⟨hbZ, hbZb, hbcs, -, -, -⟩ := backwardPass_frame _ _ _ _ _ hb
  rw [updateExpansions_Z] at hbZ
  rw [updateExpansions_Zbar] at hbZb
  have hcore : ∀ k, (s1.cs k).core = (s.cs k).core := fun k => by
    rw [hbcs]; exact (updateExpansions_law (alCostLaw p) s).2 k
  have hcand : ∀ α, trajCost p s1.cs (candidateTraj (alKernel p) s1.kd s1.Z s1.Zbar α)
      = trajCost p s.cs (candidateTraj (alKernel p) s1.kd s.Z s.Zbar α) := fun α => by
    rw [hbZ, hbZb]; exact trajCost_congr p _ _ _ _ hcore (fun _ _ => rfl) (fun _ _ => rfl)
  have hJ : costSum (alKernel p) s1 = (alCostLaw p).total s1.cs s1.Z :=
    (C24_reference_cost o (alCostLaw p) (fuel + 1) s s1 hb).1
  have hJ0 : (alCostLaw p).total s1.cs s1.Z = trajCost p s.cs s.Z := by
    rw [total_eq_trajCost, hbZ]; exact trajCost_congr p _ _ _ _ hcore (fun _ _ => rfl) (fun _ _ => rfl)
  have hv : μ * ffsq p.N s1.kd ≤ -s1.dV0 := by rw [hd0]; exact hB.dV0
  have hV0 : 0 ≤ s1.dV1 := by rw [hd1]; exact hB.dV1
  have hV1 : s1.dV1 ≤ 1 / 2 * -s1.dV0 := by rw [hd0, hd1]; linarith [hB.dV1']
  have hvpos : 0 < -s1.dV0 := lt_of_lt_of_le (mul_pos hμ hS) hv
  rw [← hd0] at u5
  obtain ⟨w1, w2⟩ := abs_le.mp u5
  have hpred : predicted s1.dV0 s1.dV1 1 = -s1.dV0 - s1.dV1 := by unfold predicted; ring
  have hpos : 0 < predicted s1.dV0 s1.dV1 1 := by rw [hpred]; linarith
  have hq : Qualifies (alCostLaw p) o s1 ((alCostLaw p).total s1.cs s1.Z) (stepLength o.lsFactor 0) := by
    show Qualifies (alCostLaw p) o s1 ((alCostLaw p).total s1.cs s1.Z) 1
    refine ⟨fun k _ hcb => absurd hcb (by rw [ho.lim]; decide), ⟨_, fun _ => rfl, fun hn => ?_, ?_, ?_⟩, ?_⟩
    · rw [← Bool.not_eq_true, Arith.gt_iff] at hn; exact absurd hpos hn
    · rw [Arith.le_iff, hJ0, total_eq_trajCost, hcand, le_div_iff₀ hpos]
      have := mul_le_mul_of_nonneg_right ho.low hpos.le
      rw [hpred] at this ⊢
      linarith
    · rw [Arith.le_iff, hJ0, total_eq_trajCost, hcand, div_le_iff₀ hpos]
      have := mul_le_mul_of_nonneg_right ho.up hpos.le
      rw [hpred] at this ⊢
      linarith
    · rw [Arith.lt_iff, hJ0, total_eq_trajCost, hcand]; linarith
  obtain ⟨hT, hst, hrho, z, hstats⟩ := C24_accepts_first o (alCostLaw p) OrderLaws.ofField s1 hJ 0
    (by have := ho.ls; push_cast; omega) hq (fun l hl => absurd hl (Nat.not_lt_zero l))
  have hit : ILQR.iterate (alKernel p) o (fuel + 1) s
      = some (updateConvergence (alKernel p) (forwardPass (alKernel p) o s1)) := by
    unfold ILQR.iterate; rw [hb]
  have hT' : TrajEq (alKernel p) (forwardPass (alKernel p) o s1).Z (candidateTraj (alKernel p) s1.kd s.Z s.Zbar 1) := by
    rw [← hbZ, ← hbZb]; exact hT
  have hcost : trajCost p s.cs (forwardPass (alKernel p) o s1).Z
      = trajCost p s.cs (candidateTraj (alKernel p) s1.kd s.Z s.Zbar 1) :=
    trajCost_congr p _ _ _ _ (fun _ => rfl) hT'.x hT'.u
  have hdist : gapSq p.N (forwardPass (alKernel p) o s1).Z Zs
      = gapSq p.N (candidateTraj (alKernel p) s1.kd s.Z s.Zbar 1) Zs :=
    Finset.sum_congr rfl fun k hk => by rw [hT'.u k (Nat.le_of_lt (Finset.mem_range.mp hk))]
  have hdrop : trajCost p s.cs (forwardPass (alKernel p) o s1).Z < trajCost p s.cs s.Z := by rw [hcost]; linarith
  have hfp := forwardPass_frame (alKernel p) o s1
  have hne : (forwardPass (alKernel p) o s1).Z ≠ s.Z := fun e => by
    rw [e] at hdrop
    exact lt_irrefl _ hdrop
  obtain ⟨c1, -⟩ := iterate_cost o (alCostLaw p) OrderLaws.ofField hit
  obtain ⟨l1, l2, -, -⟩ := log_counters s.stats (some .reg) s.rho
  have hkd : (forwardPass (alKernel p) o s1).kd = s1.kd := hfp.kd
  have hg := growth_nonneg p.N ha
  have hsig := sig_nonneg hM ha p.N
  have hff : ffsq p.N s1.kd ≤ dropRate p.N μ M a * gapSq p.N s.Z Zs := by
    refine u4.trans ?_
    unfold dropRate
    have h1 : 0 ≤ (M + a * sig M a p.N + 1) * (6 * (1 + sig M a p.N / μ * growth p.N a)) * gapSq p.N s.Z Zs := by positivity
    linarith
  have hvup : -s1.dV0 ≤ (M + a * sig M a p.N + 1) * ffsq p.N s1.kd := by
    rw [hd0, ffsq, Finset.mul_sum, ← Finset.sum_neg_distrib]
    refine Finset.sum_le_sum fun k hk => ?_
    have h1 := (hBS.delta_bounds hμ.le hM ha (Finset.mem_range.mp hk)).2.1
    have h2 := mul_le_mul_of_nonneg_right (hr1.trans hsm.rb1) (nsq_nonneg (s1.kd k).ff)
    linarith
  refine ⟨_, hit, ⟨c1, ?_, ?_, ?_, ?_, ?_, ?_, hst, ?_, ?_, ?_, ?_, ?_, ?_, ?_, hdrop, ?_⟩⟩
  · rcases hfp.traj with e | ⟨_, e⟩
    · exact absurd (e.trans hbZ) hne
    · exact e
  · exact ⟨fun k hk => (hT'.times.t k hk).trans (h.timesb.t k hk), fun k hk => (hT'.times.h k hk).trans (h.timesb.h k hk)⟩
  · exact ⟨fun k hk => by rw [hfp.Zbar_t, hbZb]; exact h.timesb.t k hk, fun k hk => by rw [hfp.Zbar_h, hbZb]; exact h.timesb.h k hk⟩
  · obtain ⟨s2, hb2, hcase⟩ := iterate_stored o (alLaw p).toViolLaw hit
    rcases hcase with ⟨_, hf⟩ | ⟨_, hZ', _⟩
    · exact hf
    · exact absurd hZ' hne
  · rw [hrho, b2]; exact (reg_nonneg ho.regMin ho.regMax s).2
  · rw [hrho, b2]; exact ho.decrease hr0 hr1
  · rw [hfp.inner, b6, l1]
  · rw [hfp.total, b6, l2]
  · intro hal
    rw [hstats, b6]
    exact aligned_log _ _ _ (aligned_log _ _ _ (aligned_log _ _ _ (aligned_log _ _ _ hal)))
  · rw [hstats]; exact log_len_ne _ _ _
  · rw [hdist]; exact u1
  · rw [hdist]; exact u2
  · rw [hkd]; exact hff
  · rw [hcost]
    have h1 := mul_le_mul_of_nonneg_left u4 (show 0 ≤ M + a * sig M a p.N + 1 by positivity)
    have h2 : 0 ≤ 6 * (1 + sig M a p.N / μ * growth p.N a) * gapSq p.N s.Z Zs := by positivity
    unfold dropRate
    linarith

end Altro.Props
