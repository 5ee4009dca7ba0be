import Verif.Proofs.SmoothKnot

/-!
# Bounds over a sublevel set of the cost
-/

namespace Altro.Props
open Altro.Spec Matrix ILQR
variable {n m : ℕ}

/-- Controls of the segments of a trajectory. -/
noncomputable def ctl (N : ℕ) (Z : Traj (Fin n → ℝ) (Fin m → ℝ) ℝ) (k : ℕ) : Fin m → ℝ := if k < N then Z.u k else 0

variable {p : DynProblem n m ℝ} {cs : ℕ → ALCost n m ℝ} {Y : Traj (Fin n → ℝ) (Fin m → ℝ) ℝ} {μ : ℝ}
  {ℓ : ℕ → (Fin n → ℝ) → (Fin m → ℝ) → ℝ} {g : ℕ → Z n m → Z n m}

theorem ctl_of_lt {N : ℕ} (Z : Traj (Fin n → ℝ) (Fin m → ℝ) ℝ) {k : ℕ} (hk : k < N) : ctl N Z k = Z.u k := if_pos hk

theorem openLoop_ctl {Z : Traj (Fin n → ℝ) (Fin m → ℝ) ℝ} (hZ : DynFeasible (alKernel p) Z) (ht : SameTimes (alKernel p) Z Y) :
    ∀ k ≤ p.N, openLoop p Y (ctl p.N Z) k = Z.x k := by
  intro k hk
  induction k with
  | zero => exact hZ.init.symm
  | succ k ih =>
    show p.f k (openLoop p Y (ctl p.N Z) k) (ctl p.N Z k) (Y.t k) (Y.h k) = _
    rw [ih (by omega), ctl_of_lt Z (show k < p.N from hk), ← ht.t k (show k ≤ p.N by omega), ← ht.h k hk]
    exact (hZ.step k hk).symm

theorem SmoothCore.cost_eq (h : SmoothCore p cs Y μ ℓ g) {cs' : ℕ → ALCost n m ℝ} (e : ∀ k ≤ p.N, (cs' k).core = (cs k).core)
    (Z : Traj (Fin n → ℝ) (Fin m → ℝ) ℝ) :
    trajCost p cs' Z = ∑ k ∈ Finset.range (p.N + 1), ℓ k (Z.x k) (ctl p.N Z k) := by
  unfold trajCost
  refine Finset.sum_congr rfl fun k hk => ?_
  have hk : k ≤ p.N := by have := Finset.mem_range.mp hk; omega
  rw [h.val k hk _ (e k hk)]
  rcases Nat.lt_or_eq_of_le hk with h1 | rfl
  · rw [ctl_of_lt Z h1]
  · exact h.term _ _ _

theorem abs_le_of_sq_le' {x c : ℝ} (hc : 0 ≤ c) (h : x ^ 2 ≤ c) : |x| ≤ 1 + c := by
  have : x ^ 2 ≤ (1 + c) ^ 2 := by nlinarith
  exact abs_le_of_sq_le_sq this (by linarith)

theorem sq_le_nsq {q : ℕ} (v : Fin q → ℝ) (i : Fin q) : v i ^ 2 ≤ nsq v := by
  unfold nsq dotProduct
  rw [sq]
  exact Finset.single_le_sum (f := fun i => v i * v i) (fun _ _ => mul_self_nonneg _) (Finset.mem_univ i)

/-- Costs are bounded below, and a bound on the cost bounds the controls. -/
theorem SmoothCore.sublevel_of (h : SmoothCore p cs Y μ ℓ g) {c b : ℝ} (hc : 0 < c) (hb : 0 ≤ b)
    (h1 : ∀ k < p.N, ∀ x u, c * nsq u - b ≤ ℓ k x u) (h2 : ∀ x u, -b ≤ ℓ p.N x u) : (∀ Z, -((p.N + 1) * b) ≤ trajCost p cs Z) ∧
    ∀ Jb Z, trajCost p cs Z ≤ Jb → ∀ k i, |ctl p.N Z k i| ≤ 1 + |(Jb + (p.N + 1) * b) / c| := by
  have key : ∀ Z, ∀ j, (c * if j < p.N then nsq (ctl p.N Z j) else 0) - (p.N + 1) * b ≤ trajCost p cs Z := by
    intro Z j
    rw [h.cost_eq (fun _ _ => rfl)]
    have e : (c * if j < p.N then nsq (ctl p.N Z j) else 0) - (p.N + 1) * b
        = ∑ k ∈ Finset.range (p.N + 1), ((if j = k then (c * if j < p.N then nsq (ctl p.N Z j) else 0) else 0) - b) := by
      rw [Finset.sum_sub_distrib, Finset.sum_const, Finset.card_range, nsmul_eq_mul, Finset.sum_ite_eq]
      push_cast
      congr 1
      by_cases hj : j < p.N
      · rw [if_pos (Finset.mem_range.mpr (by omega))]
      · rw [if_neg hj, mul_zero, ite_self]
    rw [e]
    refine Finset.sum_le_sum fun k hk => ?_
    have hk : k ≤ p.N := by have := Finset.mem_range.mp hk; omega
    rcases Nat.lt_or_eq_of_le hk with hk' | rfl
    · have h3 := h1 k hk' (Z.x k) (ctl p.N Z k)
      have h4 := mul_nonneg hc.le (nsq_nonneg (ctl p.N Z k))
      by_cases hj : j = k
      · subst hj; rw [if_pos rfl, if_pos hk']; exact h3
      · rw [if_neg hj]; linarith
    · have h3 := h2 (Z.x p.N) (ctl p.N Z p.N)
      by_cases hj : j = p.N
      · rw [if_pos hj, if_neg (by omega), mul_zero]; linarith
      · rw [if_neg hj]; linarith
  refine ⟨fun Z => ?_, fun Jb Z hZ k i => ?_⟩
  · have := key Z p.N
    rw [if_neg (lt_irrefl _), mul_zero] at this
    linarith
  · by_cases hk : k < p.N
    · refine abs_le_of_sq_le' (abs_nonneg _) ((sq_le_nsq _ i).trans (le_trans ?_ (le_abs_self _)))
      have := key Z k
      rw [if_pos hk] at this
      rw [le_div_iff₀ hc]
      linarith
    · unfold ctl
      rw [if_neg hk]
      simp only [Pi.zero_apply, abs_zero]
      positivity

theorem SmoothCore.sublevel (h : SmoothCore p cs Y μ ℓ g) : ∃ L : ℝ, (∀ Z, L ≤ trajCost p cs Z) ∧ ∀ Jb : ℝ, ∃ R, 0 ≤ R ∧
    ∀ Z, trajCost p cs Z ≤ Jb → ∀ k i, |ctl p.N Z k i| ≤ R := by
  obtain ⟨c, b, hc, hb, h1, h2⟩ := h.low
  obtain ⟨k1, k2⟩ := h.sublevel_of hc hb h1 h2
  exact ⟨_, k1, fun Jb => ⟨_, by positivity, k2 Jb⟩⟩

/-- A common bound for finitely many continuous functions on a compact set. -/
theorem sup_bound {E : Type} [TopologicalSpace E] {S : Set E} (hS : IsCompact S) (F : ℕ → E → ℝ) (N : ℕ)
    (hF : ∀ k ≤ N, Continuous (F k)) : ∃ b, 0 ≤ b ∧ ∀ k ≤ N, ∀ e ∈ S, F k e ≤ b := by
  have hc : Continuous fun e => ∑ k ∈ Finset.range (N + 1), |F k e| :=
    continuous_finset_sum _ fun k hk => (hF k (by have := Finset.mem_range.mp hk; omega)).abs
  obtain ⟨b, hb⟩ := hS.bddAbove_image hc.continuousOn
  refine ⟨max b 0, le_max_right _ _, fun k hk e he => ?_⟩
  have h1 : ∑ k ∈ Finset.range (N + 1), |F k e| ≤ b := hb ⟨e, he, rfl⟩
  have h2 := Finset.single_le_sum (f := fun k => |F k e|) (fun _ _ => abs_nonneg _) (Finset.mem_range.mpr (Nat.lt_succ_of_le hk))
  exact (le_abs_self _).trans (h2.trans (h1.trans (le_max_left _ _)))

theorem controls_compact (R : ℝ) : IsCompact {U : ℕ → Fin m → ℝ | ∀ k i, |U k i| ≤ R} := by
  have := (box_compact (n := 0) (m := m) R 0 0).image continuous_fst
  refine this.of_isClosed_subset ?_ fun U hU => ⟨(U, fun _ => 0, fun _ => 0), ⟨hU, by simp, by simp⟩, rfl⟩
  simp only [Set.setOf_forall]
  exact isClosed_iInter fun k => isClosed_iInter fun i =>
    isClosed_le ((continuous_apply i).comp (continuous_apply k)).abs continuous_const

/-- The closed loop of a sweep around a trajectory. -/
noncomputable def loopOf (N : ℕ) (Z : Traj (Fin n → ℝ) (Fin m → ℝ) ℝ) (r : ℕ → KP n m ℝ) : Loop n m :=
  (ctl N Z, fun k => if k < N then (r k).gain else 0, fun k => if k < N then (r k).ff else 0)

theorem SmoothCore.grad_term (h : SmoothCore p cs Y μ ℓ g) (x : Fin n → ℝ) (u u' : Fin m → ℝ) :
    (g p.N (x, u)).1 = (g p.N (x, u')).1 :=
  (grad_indep h.term (h.dyn.grad p.N le_rfl x u) (h.dyn.grad p.N le_rfl x u')).1

section state
variable {s : St (Fin n → ℝ) (Fin m → ℝ) ℝ (ALCost n m ℝ) (KP n m ℝ)} (r : ℕ → KP n m ℝ)

theorem loopX_base (hZ : DynFeasible (alKernel p) s.Z) (ht : SameTimes (alKernel p) s.Z Y) {k : ℕ} (hk : k ≤ p.N) :
    loopX p Y (loopOf p.N s.Z r) 0 k = s.Z.x k := (loopX_zero _ k).trans (openLoop_ctl hZ ht k hk)

theorem loopU_base (k : ℕ) : loopU p Y (loopOf p.N s.Z r) 0 k = ctl p.N s.Z k := by
  by_cases hk : k < p.N
  · exact loopU_zero _ hk
  · unfold loopU ctl; rw [if_neg hk, if_neg hk]

theorem loop_first (hZ : DynFeasible (alKernel p) s.Z) (ht : SameTimes (alKernel p) s.Z Y) :
    ∀ k ≤ p.N, loopXi p Y (loopOf p.N s.Z r) 0 k = clx (updateExpansions (alKernel p) s).kd r k ∧
      loopOm p Y (loopOf p.N s.Z r) 0 k = clu p.N (updateExpansions (alKernel p) s).kd r k := by
  have hu : ∀ k ≤ p.N, loopXi p Y (loopOf p.N s.Z r) 0 k = clx (updateExpansions (alKernel p) s).kd r k →
      loopOm p Y (loopOf p.N s.Z r) 0 k = clu p.N (updateExpansions (alKernel p) s).kd r k := by
    intro k _ e
    unfold loopOm clu
    by_cases h1 : k < p.N
    · rw [if_pos h1, if_pos h1, e]
      show (if k < p.N then (r k).gain else 0) *ᵥ _ + (if k < p.N then (r k).ff else 0) = _
      rw [if_pos h1, if_pos h1]
    · rw [if_neg h1, if_neg h1]
  intro k hk
  induction k with
  | zero => exact ⟨rfl, hu 0 hk rfl⟩
  | succ k ih =>
    obtain ⟨i1, i2⟩ := ih (by omega)
    have hk' : k < p.N := hk
    obtain ⟨-, e2, e3⟩ := expansion_core p s k hk'.le
    have hx : loopXi p Y (loopOf p.N s.Z r) 0 (k + 1) = clx (updateExpansions (alKernel p) s).kd r (k + 1) := by
      rw [loopXi_succ _ _ hk', i1, i2, loopX_base r hZ ht hk'.le, loopU_base, ctl_of_lt _ hk', ← ht.t k hk'.le, ← ht.h k hk', ← e2, ← e3,
        (cl_admissible p.N _ r).step k hk']
    exact ⟨hx, hu _ hk hx⟩

theorem SmoothCore.loopD_eq (h : SmoothCore p cs Y μ ℓ g) (e : ∀ k ≤ p.N, (s.cs k).core = (cs k).core)
    (hZ : DynFeasible (alKernel p) s.Z) (ht : SameTimes (alKernel p) s.Z Y) :
    loopD p Y g (loopOf p.N s.Z r) 0 = firstOrder p.N (updateExpansions (alKernel p) s).kd
      (clx (updateExpansions (alKernel p) s).kd r) (clu p.N (updateExpansions (alKernel p) s).kd r) := by
  unfold loopD firstOrder
  refine Finset.sum_congr rfl fun k hk => ?_
  have hk : k ≤ p.N := by have := Finset.mem_range.mp hk; omega
  obtain ⟨e1, e2⟩ := loop_first r hZ ht k hk
  obtain ⟨g1, g2⟩ := h.grd k hk _ (e k hk) (s.Z.x k) (s.Z.u k)
  rw [e1, e2, loopX_base r hZ ht hk, loopU_base, (expansion_core p s k hk).1, g1, g2]
  rcases Nat.lt_or_eq_of_le hk with h1 | rfl
  · rw [ctl_of_lt _ h1]
  · rw [(cl_admissible p.N (updateExpansions (alKernel p) s).kd r).last, dotProduct_zero, dotProduct_zero, h.grad_term _ _ (s.Z.u p.N)]

theorem loop_candidate {Zb : Traj (Fin n → ℝ) (Fin m → ℝ) ℝ} (hZ : DynFeasible (alKernel p) s.Z)
    (ht : SameTimes (alKernel p) s.Z Y) (hb : SameTimes (alKernel p) Zb Y) (α : ℝ) :
    ∀ k ≤ p.N, (candidateTraj (alKernel p) r s.Z Zb α).x k = loopX p Y (loopOf p.N s.Z r) α k ∧
      ctl p.N (candidateTraj (alKernel p) r s.Z Zb α) k = loopU p Y (loopOf p.N s.Z r) α k := by
  have hu : ∀ k ≤ p.N, (candidateTraj (alKernel p) r s.Z Zb α).x k = loopX p Y (loopOf p.N s.Z r) α k →
      ctl p.N (candidateTraj (alKernel p) r s.Z Zb α) k = loopU p Y (loopOf p.N s.Z r) α k := by
    intro k hk e
    unfold ctl loopU
    by_cases h1 : k < p.N
    · rw [if_pos h1, if_pos h1, ← e]
      show (if k < p.N then candidateU (alKernel p) r s.Z Zb.t Zb.h α k else _)
        = ctl p.N s.Z k + (if k < p.N then (r k).gain else 0) *ᵥ (_ - openLoop p Y (ctl p.N s.Z) k) + α • (if k < p.N then (r k).ff else 0)
      rw [if_pos h1, if_pos h1, if_pos h1, openLoop_ctl hZ ht k hk, ctl_of_lt _ h1]
      rfl
    · rw [if_neg h1, if_neg h1]
  intro k hk
  induction k with
  | zero => exact ⟨rfl, hu 0 hk rfl⟩
  | succ k ih =>
    obtain ⟨i1, i2⟩ := ih (by omega)
    have hk' : k < p.N := hk
    have hx : (candidateTraj (alKernel p) r s.Z Zb α).x (k + 1) = loopX p Y (loopOf p.N s.Z r) α (k + 1) := by
      rw [loopX_succ _ _ hk', ← i1, ← i2, ctl_of_lt _ hk', ← hb.t k hk'.le, ← hb.h k hk']
      show _ = p.f k (candidate (alKernel p) r s.Z Zb.t Zb.h α k)
        (if k < p.N then candidateU (alKernel p) r s.Z Zb.t Zb.h α k else _) (Zb.t k) (Zb.h k)
      rw [if_pos hk']
      rfl
    exact ⟨hx, hu _ hk hx⟩

theorem SmoothCore.candidate_cost (h : SmoothCore p cs Y μ ℓ g) {Zb : Traj (Fin n → ℝ) (Fin m → ℝ) ℝ}
    (hZ : DynFeasible (alKernel p) s.Z) (ht : SameTimes (alKernel p) s.Z Y) (hb : SameTimes (alKernel p) Zb Y) (α : ℝ) :
    trajCost p cs (candidateTraj (alKernel p) r s.Z Zb α) = loopJ p Y ℓ (loopOf p.N s.Z r) α := by
  rw [h.cost_eq (fun _ _ => rfl)]
  unfold loopJ
  refine Finset.sum_congr rfl fun k hk => ?_
  have hk : k ≤ p.N := by have := Finset.mem_range.mp hk; omega
  obtain ⟨e1, e2⟩ := loop_candidate r hZ ht hb α k hk
  rw [e1, e2]

theorem SmoothCore.base_cost (h : SmoothCore p cs Y μ ℓ g) (hZ : DynFeasible (alKernel p) s.Z) (ht : SameTimes (alKernel p) s.Z Y) :
    trajCost p cs s.Z = loopJ p Y ℓ (loopOf p.N s.Z r) 0 := by
  rw [h.cost_eq (fun _ _ => rfl)]
  unfold loopJ
  refine Finset.sum_congr rfl fun k hk => ?_
  have hk : k ≤ p.N := by have := Finset.mem_range.mp hk; omega
  rw [loopX_base r hZ ht hk, loopU_base]

end state

/-! ## Constants -/

theorem entry_le {q r : ℕ} (A : Matrix (Fin q) (Fin r) ℝ) {κ : ℝ} (hκ : 0 ≤ κ) (h : ∀ v, nsq (A *ᵥ v) ≤ κ * nsq v) (i : Fin q) (j : Fin r) :
    |A i j| ≤ 1 + κ := by
  refine abs_le_of_sq_le' hκ ?_
  have h1 := h (Pi.single j 1)
  have h2 : nsq (Pi.single j (1 : ℝ) : Fin r → ℝ) = 1 := by simp [nsq]
  rw [h2, mul_one] at h1
  have h3 := sq_le_nsq (A *ᵥ Pi.single j 1) i
  rw [Matrix.mulVec_single_one] at h3 h1
  exact h3.trans h1

/-- The feedforward terms are bounded in terms of the gradient. -/
theorem ff_bound {N : ℕ} {kd r : ℕ → KP n m ℝ} {rho C rb G : ℝ} (hμ : 0 < μ) (hC : 0 < C) (hrb : rb * C ≤ μ / 4) (hr1 : rho ≤ rb)
    (hb : SweepBounds N μ C kd r rho)
    (hG : ∀ k ≤ N, nsq (kd k).cost.dx + (if k < N then nsq (kd k).cost.du else 0) ≤ G) :
    ffsq N r ≤ 2 * C * ((N + 1) * G) / μ ^ 2 := by
  obtain ⟨c1, c2⟩ := hb.closed _ _ (cl_admissible N kd r) (fun k hk => by unfold clu; rw [if_pos hk])
  have hS := ffsq_nonneg N r
  have hlow : -(μ / (4 * C) * ∑ k ∈ Finset.range (N + 1), (nsq (clx kd r k) + nsq (clu N kd r k))) - C / μ * ((N + 1) * G)
      ≤ firstOrder N kd (clx kd r) (clu N kd r) := by
    have e : -(μ / (4 * C) * ∑ k ∈ Finset.range (N + 1), (nsq (clx kd r k) + nsq (clu N kd r k))) - C / μ * ((N + 1) * G)
        = ∑ k ∈ Finset.range (N + 1), (-(μ / (4 * C) * (nsq (clx kd r k) + nsq (clu N kd r k))) - C / μ * G) := by
      rw [Finset.sum_sub_distrib, Finset.sum_neg_distrib, ← Finset.mul_sum, Finset.sum_const, Finset.card_range, nsmul_eq_mul]
      push_cast
      ring
    rw [e]
    refine Finset.sum_le_sum fun k hk => ?_
    have hk : k ≤ N := by have := Finset.mem_range.mp hk; omega
    have hc : 0 < μ / (2 * C) := by positivity
    have y1 := dot_young (-clx kd r k) (kd k).cost.dx hc
    have g0 := hG k hk
    have y2 : (-clu N kd r k) ⬝ᵥ (kd k).cost.du
        ≤ μ / (2 * C) / 2 * nsq (-clu N kd r k) + 1 / (2 * (μ / (2 * C))) * (if k < N then nsq (kd k).cost.du else 0) := by
      by_cases h1 : k < N
      · rw [if_pos h1]; exact dot_young _ _ hc
      · rw [if_neg h1, show clu N kd r k = 0 by unfold clu; rw [if_neg h1]]
        simp [nsq]
    have e1 : 1 / (2 * (μ / (2 * C))) = C / μ := by field_simp
    have e2 : μ / (2 * C) / 2 = μ / (4 * C) := by field_simp; norm_num
    have e3 : ∀ {q : ℕ} (v : Fin q → ℝ), nsq (-v) = nsq v := fun v => by simp [nsq]
    rw [e1, e2, e3, neg_dotProduct, dotProduct_comm] at y1 y2
    have := mul_le_mul_of_nonneg_left g0 (show 0 ≤ C / μ by positivity)
    linarith
  have h1 := (abs_le.mp c2).2
  have h2 := hb.dV0
  have h3 : rho * (C * ffsq N r) ≤ μ / 4 * ffsq N r := by
    have := mul_le_mul_of_nonneg_right hr1 (mul_nonneg hC.le hS)
    have := mul_le_mul_of_nonneg_right hrb hS
    linarith
  have h4 : μ / (4 * C) * ∑ k ∈ Finset.range (N + 1), (nsq (clx kd r k) + nsq (clu N kd r k)) ≤ μ / 4 * ffsq N r := by
    have := mul_le_mul_of_nonneg_left c1 (show 0 ≤ μ / (4 * C) by positivity)
    refine this.trans (le_of_eq ?_)
    field_simp
  rw [le_div_iff₀ (by positivity)]
  have h5 : μ / 2 * ffsq N r ≤ C / μ * ((N + 1) * G) := by linarith
  have h6 := mul_le_mul_of_nonneg_left h5 (show 0 ≤ 2 * μ by positivity)
  have e : 2 * μ * (C / μ * ((N + 1) * G)) = 2 * C * ((N + 1) * G) := by field_simp
  rw [e] at h6
  nlinarith

/-- What holds around every trajectory of cost at most `Jb`, for sweeps with regularization at most `rb`. -/
structure Level (p : DynProblem n m ℝ) (cs : ℕ → ALCost n m ℝ) (Y : Traj (Fin n → ℝ) (Fin m → ℝ) ℝ) (μ Jb R C rb b c : ℝ) : Prop where
  R0 : 0 ≤ R
  C0 : 0 < C
  rb0 : 0 < rb
  rb1 : rb ≤ 1
  rbC : rb * C ≤ μ / 4
  controls : ∀ Z, trajCost p cs Z ≤ Jb → ∀ k i, |ctl p.N Z k i| ≤ R
  sweep : ∀ (s : St (Fin n → ℝ) (Fin m → ℝ) ℝ (ALCost n m ℝ) (KP n m ℝ)) (r : ℕ → KP n m ℝ) (rho : ℝ),
    (∀ k, (s.cs k).core = (cs k).core) → DynFeasible (alKernel p) s.Z → SameTimes (alKernel p) s.Z Y → trajCost p cs s.Z ≤ Jb →
    0 ≤ rho → rho ≤ rb → Swept p.N (updateExpansions (alKernel p) s).kd r rho →
    SweepBounds p.N μ C (updateExpansions (alKernel p) s).kd r rho ∧
      loopOf p.N s.Z r ∈ {e : Loop n m | (∀ k i, |e.1 k i| ≤ R) ∧ (∀ k i j, |e.2.1 k i j| ≤ b) ∧ ∀ k i, |e.2.2 k i| ≤ c}

/-- Pairs of states and controls along the segments. -/
theorem SmoothDyn.cont_pair (h : SmoothDyn p Y ℓ g) : ∀ k ≤ p.N, Continuous fun U : ℕ → Fin m → ℝ => ((openLoop p Y U k, U k) : Z n m) :=
  fun k hk => (h.cont_open k hk).prodMk (continuous_apply k)

/-- A bound on the dynamics over bounded controls. -/
theorem SmoothDyn.jac_bound (h : SmoothDyn p Y ℓ g) (R : ℝ) : ∃ a, 0 ≤ a ∧ ∀ k < p.N, ∀ U : ℕ → Fin m → ℝ, (∀ k i, |U k i| ≤ R) →
    2 * (frobSq (p.jac k (openLoop p Y U k) (U k) (Y.t k) (Y.h k)).1
      + frobSq (p.jac k (openLoop p Y U k) (U k) (Y.t k) (Y.h k)).2) ≤ a := by
  have hz := SmoothDyn.cont_pair h
  obtain ⟨a, ha0, ha⟩ := sup_bound (controls_compact (m := m) R) (fun k U => if k < p.N then 2 * (frobSq (p.jac k (openLoop p Y U k) (U k) (Y.t k) (Y.h k)).1
      + frobSq (p.jac k (openLoop p Y U k) (U k) (Y.t k) (Y.h k)).2) else 0) p.N fun k hk => by
    by_cases h1 : k < p.N
    · simp only [if_pos h1]
      have hj := (h.cont k h1).comp (hz k hk)
      have := (frob_continuous (continuous_fst.comp hj)).add (frob_continuous (continuous_snd.comp hj))
      exact continuous_const.mul this
    · simp only [if_neg h1]; exact continuous_const
  refine ⟨a, ha0, fun k hk U hU => ?_⟩
  have := ha k hk.le U hU
  simpa only [if_pos hk] using this

/-- The constants of a level, from bounds on controls, curvature, dynamics and gradients. -/
theorem level_constants (N : ℕ) (hμ : 0 < μ) {M a G R : ℝ} (hM0 : 0 ≤ M) (ha0 : 0 ≤ a) (hG0 : 0 ≤ G) (hR0 : 0 ≤ R) :
    ∃ C rb b c, ∀ (p : DynProblem n m ℝ) (cs : ℕ → ALCost n m ℝ) (Y : Traj (Fin n → ℝ) (Fin m → ℝ) ℝ)
      (ℓ : ℕ → (Fin n → ℝ) → (Fin m → ℝ) → ℝ) (g : ℕ → Z n m → Z n m) (B : ℕ → Z n m → ℝ) (Jb : ℝ), p.N = N →
      SmoothCore p cs Y μ ℓ g →
      (∀ k ≤ p.N, ∀ c : ALCost n m ℝ, c.core = (cs k).core → ∀ x u δx δu, form (expOf c x u) δx δu ≤ B k (x, u) * (nsq δx + nsq δu)) →
      (∀ x u u', B p.N (x, u) = B p.N (x, u')) →
      (∀ Z, trajCost p cs Z ≤ Jb → ∀ k i, |ctl p.N Z k i| ≤ R) →
      (∀ k ≤ p.N, ∀ U : ℕ → Fin m → ℝ, (∀ k i, |U k i| ≤ R) → B k (openLoop p Y U k, U k) ≤ M) →
      (∀ k < p.N, ∀ U : ℕ → Fin m → ℝ, (∀ k i, |U k i| ≤ R) → 2 * (frobSq (p.jac k (openLoop p Y U k) (U k) (Y.t k) (Y.h k)).1
        + frobSq (p.jac k (openLoop p Y U k) (U k) (Y.t k) (Y.h k)).2) ≤ a) →
      (∀ k ≤ p.N, ∀ U : ℕ → Fin m → ℝ, (∀ k i, |U k i| ≤ R) →
        nsq (g k (openLoop p Y U k, U k)).1 + nsq (g k (openLoop p Y U k, U k)).2 ≤ G) → Level p cs Y μ Jb R C rb b c := by
  obtain ⟨C, hC0, hC⟩ := sweep_bounds n m N hμ hM0 ha0
  have hκ : 0 ≤ sig M a N / μ := div_nonneg (sig_nonneg hM0 ha0 _) hμ.le
  refine ⟨C, min 1 (μ / (4 * C)), 1 + sig M a N / μ, 1 + 2 * C * ((N + 1) * G) / μ ^ 2, ?_⟩
  rintro p cs Y ℓ g B Jb rfl h hB hBN hR hM ha hG
  refine ⟨hR0, hC0, lt_min one_pos (by positivity),
    min_le_left _ _, ?_, hR, ?_⟩
  · have := mul_le_mul_of_nonneg_right (min_le_right 1 (μ / (4 * C))) hC0.le
    refine this.trans (le_of_eq ?_)
    field_simp
  intro s r rho hcore hZ ht hJ hr0 hr1 hsw
  have hU := hR s.Z hJ
  have hx := openLoop_ctl hZ ht
  have hbd : BoundedSweep p.N μ M a (updateExpansions (alKernel p) s).kd r rho := by
    refine ⟨hsw, fun k hk => ?_, fun δx => ?_, fun k hk δx δu => ?_, fun k hk δx δu => ?_, hr0⟩
    · rw [(expansion_core p s k hk.le).1]; exact h.curved.low k hk _ (hcore k) _ _
    · rw [(expansion_core p s p.N le_rfl).1]
      simpa using (h.curved.conv p.N le_rfl _ (hcore _) (s.Z.x p.N) (s.Z.u p.N)).psd δx 0
    · rw [(expansion_core p s k hk).1]
      refine (hB k hk _ (hcore k) _ _ δx δu).trans (mul_le_mul_of_nonneg_right ?_ (add_nonneg (nsq_nonneg _) (nsq_nonneg _)))
      have h1 := hM k hk (ctl p.N s.Z) hU
      simp only [hx k hk] at h1
      rcases Nat.lt_or_eq_of_le hk with h2 | rfl
      · rw [ctl_of_lt _ h2] at h1; exact h1
      · rw [hBN _ _ (ctl p.N s.Z p.N)]; exact h1
    · obtain ⟨-, e2, e3⟩ := expansion_core p s k hk.le
      rw [e2, e3]
      refine (nsq_cols _ _ δx δu).trans (mul_le_mul_of_nonneg_right ?_ (add_nonneg (nsq_nonneg _) (nsq_nonneg _)))
      have h1 := ha k hk (ctl p.N s.Z) hU
      simp only [hx k hk.le] at h1
      rw [ctl_of_lt _ hk] at h1
      rw [ht.t k hk.le, ht.h k hk]
      exact h1
  have hr1' := hr1
  have hb := hC _ _ _ hbd (hr1.trans (min_le_left _ _))
  have hrbC : min 1 (μ / (4 * C)) * C ≤ μ / 4 := by
    have := mul_le_mul_of_nonneg_right (min_le_right 1 (μ / (4 * C))) hC0.le
    refine this.trans (le_of_eq ?_)
    field_simp
  have hff := ff_bound hμ hC0 hrbC hr1 hb (G := G) fun k hk => by
    rw [(expansion_core p s k hk).1]
    obtain ⟨g1, g2⟩ := h.grd k hk _ (hcore k) (s.Z.x k) (s.Z.u k)
    rw [g1, g2]
    have h1 := hG k hk (ctl p.N s.Z) hU
    simp only [hx k hk] at h1
    rcases Nat.lt_or_eq_of_le hk with h2 | rfl
    · rw [if_pos h2]; rw [ctl_of_lt _ h2] at h1; exact h1
    · rw [if_neg (lt_irrefl _), add_zero, h.grad_term _ _ (ctl p.N s.Z p.N)]
      exact le_trans (le_add_of_nonneg_right (nsq_nonneg _)) h1
  have hG' : 0 ≤ 2 * C * ((p.N + 1) * G) / μ ^ 2 := by positivity
  refine ⟨hb, hU, fun k i j => ?_, fun k i => ?_⟩
  · show |(if k < p.N then (r k).gain else 0) i j| ≤ _
    by_cases h1 : k < p.N
    · rw [if_pos h1]; exact entry_le _ hκ (hbd.gain_bound hμ hM0 ha0 h1) i j
    · rw [if_neg h1]; simp only [Matrix.zero_apply, abs_zero]; linarith
  · show |(if k < p.N then (r k).ff else 0) i| ≤ _
    by_cases h1 : k < p.N
    · rw [if_pos h1]
      refine abs_le_of_sq_le' hG' ((sq_le_nsq _ i).trans (le_trans ?_ hff))
      exact Finset.single_le_sum (f := fun k => nsq (r k).ff) (fun _ _ => nsq_nonneg _) (Finset.mem_range.mpr h1)
    · rw [if_neg h1]; simp only [Pi.zero_apply, abs_zero]; linarith

theorem SmoothCore.level (h : SmoothCore p cs Y μ ℓ g) (hμ : 0 < μ) (Jb : ℝ) : ∃ R C rb b c, Level p cs Y μ Jb R C rb b c := by
  obtain ⟨-, -, hR⟩ := h.sublevel
  obtain ⟨R, hR0, hR⟩ := hR Jb
  obtain ⟨B, hB, hBN⟩ := h.up
  have hS := controls_compact (m := m) R
  have hz := SmoothDyn.cont_pair h.dyn
  obtain ⟨M, hM0, hM⟩ := sup_bound hS (fun k U => B k (openLoop p Y U k, U k)) p.N fun k hk => (hB k hk).1.comp (hz k hk)
  obtain ⟨a, ha0, ha⟩ := SmoothDyn.jac_bound h.dyn R
  obtain ⟨G, hG0, hG⟩ := sup_bound hS (fun k U => nsq (g k (openLoop p Y U k, U k)).1 + nsq (g k (openLoop p Y U k, U k)).2) p.N
    fun k hk => by
      have hj := (h.dyn.gcont k hk).comp (hz k hk)
      exact ((continuous_fst.comp hj).dotProduct (continuous_fst.comp hj)).add ((continuous_snd.comp hj).dotProduct (continuous_snd.comp hj))
  obtain ⟨C, rb, b, c, H⟩ := level_constants (n := n) (m := m) p.N hμ hM0 ha0 hG0 hR0
  exact ⟨R, C, rb, b, c, H p cs Y ℓ g B Jb rfl h (fun k hk => (hB k hk).2) hBN hR hM ha hG⟩

end Altro.Props
