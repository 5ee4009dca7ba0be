import Verif.Proofs.ConvexSweep

/-!
# The closed loop of a backward sweep solves the quadratic model
-/

namespace Altro
open Spec Matrix ILQR
variable {K : Type} [Field K] [LinearOrder K] [IsStrictOrderedRing K] {n m : ℕ}

/-- The bilinear form of an expansion. -/
def bil (e : Expansion n m K) (x : Fin n → K) (u : Fin m → K) (y : Fin n → K) (v : Fin m → K) : K :=
  (e.dxdx *ᵥ x + e.dxdu *ᵥ u) ⬝ᵥ y + (e.dxduᵀ *ᵥ x + e.dudu *ᵥ u) ⬝ᵥ v

theorem bil_self (e : Expansion n m K) (x : Fin n → K) (u : Fin m → K) : bil e x u x u = form e x u := by
  unfold bil form
  simp only [add_dotProduct, t_dot]
  rw [dotProduct_comm (e.dxdx *ᵥ x), dotProduct_comm (e.dxdu *ᵥ u), dotProduct_comm (e.dudu *ᵥ u)]
  ring

theorem bil_sub (e : Expansion n m K) (x x' : Fin n → K) (u u' : Fin m → K) (y : Fin n → K) (v : Fin m → K) :
    bil e (x - x') (u - u') y v = bil e x u y v - bil e x' u' y v := by
  unfold bil
  simp only [mulVec_sub, add_dotProduct, sub_dotProduct]
  ring

variable {N : ℕ} {μ M a : K} {kd r : ℕ → KP n m K} {rho : K}

/-- The derivative of the quadratic model at the closed loop, in any direction: it vanishes up to the regularization. -/
theorem Swept.model_stationary (h : Swept N kd r rho) {ξ : ℕ → Fin n → K} {ω : ℕ → Fin m → K} (hA : Admissible N kd ξ ω)
    (hcl : ∀ k < N, ω k = (r k).gain *ᵥ ξ k + (r k).ff) {η : ℕ → Fin n → K} {ν : ℕ → Fin m → K} (hB : Admissible N kd η ν) :
    firstOrder N kd η ν + ∑ k ∈ Finset.range (N + 1), bil (kd k).cost (ξ k) (ω k) (η k) (ν k)
      = -(rho * ∑ k ∈ Finset.range N, ω k ⬝ᵥ (ν k - (r k).gain *ᵥ η k)) := by
  let kd' : ℕ → KP n m K := fun k => { kd k with cost := { (kd k).cost with
    dx := (kd k).cost.dx + ((kd k).cost.dxdx *ᵥ ξ k + (kd k).cost.dxdu *ᵥ ω k)
    du := (kd k).cost.du + ((kd k).cost.dxduᵀ *ᵥ ξ k + (kd k).cost.dudu *ᵥ ω k) } }
  have e1 : firstOrder N kd η ν + ∑ k ∈ Finset.range (N + 1), bil (kd k).cost (ξ k) (ω k) (η k) (ν k)
      = ∑ k ∈ Finset.range (N + 1), ((kd' k).cost.dx ⬝ᵥ η k + (kd' k).cost.du ⬝ᵥ ν k) := by
    unfold firstOrder
    rw [← Finset.sum_add_distrib]
    refine Finset.sum_congr rfl fun k _ => ?_
    show _ = ((kd k).cost.dx + ((kd k).cost.dxdx *ᵥ ξ k + (kd k).cost.dxdu *ᵥ ω k)) ⬝ᵥ η k
      + ((kd k).cost.du + ((kd k).cost.dxduᵀ *ᵥ ξ k + (kd k).cost.dudu *ᵥ ω k)) ⬝ᵥ ν k
    unfold bil
    simp only [add_dotProduct]
    ring
  rw [e1, adjoint_sum N kd' (fun k => (r k).Sx + (r k).Sxx *ᵥ ξ k) η ν (by
    show (r N).Sx + (r N).Sxx *ᵥ ξ N = (kd N).cost.dx + ((kd N).cost.dxdx *ᵥ ξ N + (kd N).cost.dxdu *ᵥ ω N)
    rw [h.term.1, h.term.2, hA.last, mulVec_zero, add_zero]) hB.init hB.last hB.step, Finset.mul_sum, ← Finset.sum_neg_distrib]
  refine Finset.sum_congr rfl fun k hk => ?_
  have hk := Finset.mem_range.mp hk
  obtain ⟨-, e2, e3⟩ := h.eqs hk
  have hS := h.Sxx_symm (k + 1) hk
  -- the derivative with respect to the control
  have hu : (kd k).cost.du + ((kd k).cost.dxduᵀ *ᵥ ξ k + (kd k).cost.dudu *ᵥ ω k)
      + (kd k).Bᵀ *ᵥ ((r (k + 1)).Sx + (r (k + 1)).Sxx *ᵥ ξ (k + 1))
      = (r k).q.du + (r k).q.dxduᵀ *ᵥ ξ k + (r k).q.dudu *ᵥ ω k := by
    rw [(h.step k hk).q, hA.step k hk]
    simp only [KP.actionValue, transpose_add, transpose_mul, transpose_transpose, add_mulVec, mulVec_add, mulVec_mulVec, hS.eq,
      Matrix.mul_assoc]
    abel
  have hx : (kd k).cost.dx + ((kd k).cost.dxdx *ᵥ ξ k + (kd k).cost.dxdu *ᵥ ω k)
      + (kd k).Aᵀ *ᵥ ((r (k + 1)).Sx + (r (k + 1)).Sxx *ᵥ ξ (k + 1))
      = (r k).q.dx + (r k).q.dxdx *ᵥ ξ k + (r k).q.dxdu *ᵥ ω k := by
    rw [(h.step k hk).q, hA.step k hk]
    simp only [KP.actionValue, add_mulVec, mulVec_add, mulVec_mulVec, Matrix.mul_assoc]
    abel
  have hg : (r k).q.du + (r k).q.dxduᵀ *ᵥ ξ k + (r k).q.dudu *ᵥ ω k = -(rho • ω k) := by
    have e4 := e2 (ξ k)
    have e5 : ((r k).q.dudu + rho • (1 : Matrix (Fin m) (Fin m) K)) *ᵥ ω k = -((r k).q.dxduᵀ *ᵥ ξ k) + -(r k).q.du := by
      rw [hcl k hk, mulVec_add, e4, e3]
    rw [add_mulVec, smul_mulVec, one_mulVec] at e5
    rw [← sub_eq_zero] at e5 ⊢
    rw [← e5]; abel
  have hs : (r k).Sx + (r k).Sxx *ᵥ ξ k = ((r k).q.dx + (r k).q.dxdx *ᵥ ξ k + (r k).q.dxdu *ᵥ ω k)
      + (r k).gainᵀ *ᵥ ((r k).q.du + (r k).q.dxduᵀ *ᵥ ξ k + (r k).q.dudu *ᵥ ω k) := by
    rw [(h.step k hk).Sx, (h.step k hk).ctg.1, hcl k hk]
    simp only [add_mulVec, mulVec_add, mulVec_mulVec, Matrix.mul_assoc]
    abel
  show ((kd k).cost.dx + ((kd k).cost.dxdx *ᵥ ξ k + (kd k).cost.dxdu *ᵥ ω k)
      + (kd k).Aᵀ *ᵥ ((r (k + 1)).Sx + (r (k + 1)).Sxx *ᵥ ξ (k + 1))) ⬝ᵥ η k
    + ((kd k).cost.du + ((kd k).cost.dxduᵀ *ᵥ ξ k + (kd k).cost.dudu *ᵥ ω k)
      + (kd k).Bᵀ *ᵥ ((r (k + 1)).Sx + (r (k + 1)).Sxx *ᵥ ξ (k + 1))) ⬝ᵥ ν k
    - ((r k).Sx + (r k).Sxx *ᵥ ξ k) ⬝ᵥ η k = -(rho * (ω k ⬝ᵥ (ν k - (r k).gain *ᵥ η k)))
  rw [hu, hx, hs, hg, add_dotProduct _ ((r k).gainᵀ *ᵥ _), t_dot, neg_dotProduct, neg_dotProduct, smul_dotProduct,
    smul_dotProduct, dotProduct_sub, smul_eq_mul, smul_eq_mul]
  ring

/-- States of an admissible change are bounded by its controls. -/
theorem admissible_states (ha : 0 ≤ a)
    (hd : ∀ k < N, ∀ δx δu, nsq ((kd k).A *ᵥ δx + (kd k).B *ᵥ δu) ≤ a * (nsq δx + nsq δu)) {ξ : ℕ → Fin n → K} {ω : ℕ → Fin m → K}
    (hA : Admissible N kd ξ ω) :
    ∑ k ∈ Finset.range (N + 1), nsq (ξ k) ≤ (N + 1) * (a * (1 + a) ^ N) * ∑ k ∈ Finset.range N, nsq (ω k) := by
  refine seq_sum_bound (b := a) (c := a) (x := fun k => nsq (ξ k)) (e := fun k => nsq (ω k)) ha ha (fun k => nsq_nonneg _)
    (by rw [hA.init, nsq_zero]) fun k hk => ?_
  rw [hA.step k hk]
  exact (hd k hk _ _).trans (le_of_eq (by ring))

theorem admissible_sub {ξ ξ' : ℕ → Fin n → K} {ω ω' : ℕ → Fin m → K} (hA : Admissible N kd ξ ω) (hB : Admissible N kd ξ' ω') :
    Admissible N kd (fun k => ξ k - ξ' k) (fun k => ω k - ω' k) where
  init := by show ξ 0 - ξ' 0 = 0; rw [hA.init, hB.init, sub_zero]
  last := by show ω N - ω' N = 0; rw [hA.last, hB.last, sub_zero]
  step k hk := by
    show ξ (k + 1) - ξ' (k + 1) = _
    rw [hA.step k hk, hB.step k hk, mulVec_sub, mulVec_sub]; abel

/-- Sum of the squared lengths of the controls. -/
def usq (N : ℕ) (ω : ℕ → Fin m → K) : K := ∑ k ∈ Finset.range N, nsq (ω k)

theorem usq_nonneg (N : ℕ) (ω : ℕ → Fin m → K) : 0 ≤ usq N ω := Finset.sum_nonneg fun _ _ => nsq_nonneg _

theorem usq_last {ω : ℕ → Fin m → K} (h : ω N = 0) : ∑ k ∈ Finset.range (N + 1), nsq (ω k) = usq N ω := by
  rw [Finset.sum_range_succ, h, nsq_zero, add_zero]; rfl

/-- Constants of the error recursion: growth of the states and bound of the gains. -/
def growth (N : ℕ) (a : K) : K := (N + 1) * (a * (1 + a) ^ N)

theorem growth_nonneg (N : ℕ) (ha : 0 ≤ a) : 0 ≤ growth N a := by unfold growth; positivity

/-- All of an admissible change is bounded by its controls. -/
theorem admissible_all (ha : 0 ≤ a)
    (hd : ∀ k < N, ∀ δx δu, nsq ((kd k).A *ᵥ δx + (kd k).B *ᵥ δu) ≤ a * (nsq δx + nsq δu)) {ξ : ℕ → Fin n → K} {ω : ℕ → Fin m → K}
    (hA : Admissible N kd ξ ω) :
    ∑ k ∈ Finset.range (N + 1), (nsq (ξ k) + nsq (ω k)) ≤ (1 + growth N a) * usq N ω := by
  rw [Finset.sum_add_distrib, usq_last hA.last]
  have := admissible_states ha hd hA
  unfold growth
  unfold usq at *
  linarith

/-- Distance of the closed loop from a stationary point whose gradient the model predicts up to `R`. -/
theorem newton_error (h : BoundedSweep N μ M a kd r rho) (hμ : 0 < μ) (hM : 0 ≤ M) (ha : 0 ≤ a) {ξ : ℕ → Fin n → K}
    {ω : ℕ → Fin m → K} (hA : Admissible N kd ξ ω) (hcl : ∀ k < N, ω k = (r k).gain *ᵥ ξ k + (r k).ff) {ex : ℕ → Fin n → K}
    {eu : ℕ → Fin m → K} (hE : Admissible N kd ex eu) {Rx : ℕ → Fin n → K} {Ru : ℕ → Fin m → K}
    (hR : ∀ η ν, Admissible N kd η ν → firstOrder N kd η ν + ∑ k ∈ Finset.range (N + 1), bil (kd k).cost (ex k) (eu k) (η k) (ν k)
      + ∑ k ∈ Finset.range (N + 1), (Rx k ⬝ᵥ η k + Ru k ⬝ᵥ ν k) = 0)
    (hrho : 16 * (1 + sig M a N / μ * growth N a) / μ ^ 2 * rho ^ 2 ≤ 1) :
    usq N (fun k => eu k - ω k) ≤ 4 * (1 + growth N a) / μ ^ 2 * ∑ k ∈ Finset.range (N + 1), (nsq (Rx k) + nsq (Ru k))
      + 16 * (1 + sig M a N / μ * growth N a) / μ ^ 2 * rho ^ 2 * usq N eu := by
  obtain ⟨κ, hκ⟩ : ∃ κ, κ = sig M a N / μ := ⟨_, rfl⟩
  have hκ0 : 0 ≤ κ := by rw [hκ]; exact div_nonneg (sig_nonneg hM ha N) hμ.le
  have hg := growth_nonneg N ha
  rw [← hκ] at hrho ⊢
  set g := growth N a with hgdef
  have hB := admissible_sub hE hA
  set η := fun k => ex k - ξ k with hη
  set ν := fun k => eu k - ω k with hν
  have h1 := hR η ν hB
  have h2 := h.toSwept.model_stationary hA hcl hB
  have h3 : ∑ k ∈ Finset.range (N + 1), bil (kd k).cost (ex k) (eu k) (η k) (ν k)
      - ∑ k ∈ Finset.range (N + 1), bil (kd k).cost (ξ k) (ω k) (η k) (ν k)
      = ∑ k ∈ Finset.range (N + 1), form (kd k).cost (η k) (ν k) := by
    rw [← Finset.sum_sub_distrib]
    refine Finset.sum_congr rfl fun k _ => ?_
    rw [← bil_self]
    exact (bil_sub _ _ _ _ _ _ _).symm
  have h4 : μ * usq N ν ≤ ∑ k ∈ Finset.range (N + 1), form (kd k).cost (η k) (ν k) := by
    rw [Finset.sum_range_succ, hB.last, usq, Finset.mul_sum]
    have h5 : 0 ≤ form (kd N).cost (η N) 0 := by
      have := h.lowN (η N)
      simpa [form] using this
    have h6 := Finset.sum_le_sum fun k (hk : k ∈ Finset.range N) => h.low k (Finset.mem_range.mp hk) (η k) (ν k)
    linarith
  have hall := admissible_all ha h.dyn hB
  have hst := admissible_states ha h.dyn hB
  rw [← hgdef] at hall
  -- the remainder
  obtain ⟨c, hc⟩ : ∃ c, c = 2 * (1 + g) / μ := ⟨_, rfl⟩
  have hc0 : 0 < c := by rw [hc]; positivity
  have h7 : -∑ k ∈ Finset.range (N + 1), (Rx k ⬝ᵥ η k + Ru k ⬝ᵥ ν k)
      ≤ c / 2 * ∑ k ∈ Finset.range (N + 1), (nsq (Rx k) + nsq (Ru k)) + 1 / (2 * c) * ((1 + g) * usq N ν) := by
    have h8 : -∑ k ∈ Finset.range (N + 1), (Rx k ⬝ᵥ η k + Ru k ⬝ᵥ ν k)
        ≤ c / 2 * ∑ k ∈ Finset.range (N + 1), (nsq (Rx k) + nsq (Ru k))
          + 1 / (2 * c) * ∑ k ∈ Finset.range (N + 1), (nsq (η k) + nsq (ν k)) := by
      rw [Finset.mul_sum, Finset.mul_sum, ← Finset.sum_add_distrib, ← Finset.sum_neg_distrib]
      refine Finset.sum_le_sum fun k _ => ?_
      have y1 := dot_young (-(Rx k)) (η k) hc0
      have y2 := dot_young (-(Ru k)) (ν k) hc0
      rw [neg_dotProduct, show nsq (-(Rx k)) = nsq (Rx k) by simp [nsq]] at y1
      rw [neg_dotProduct, show nsq (-(Ru k)) = nsq (Ru k) by simp [nsq]] at y2
      linarith
    have h9 := mul_le_mul_of_nonneg_left hall (show 0 ≤ 1 / (2 * c) by positivity)
    exact h8.trans (by linarith)
  -- the regularization
  obtain ⟨b, hb⟩ : ∃ b, b = 4 * (1 + κ * g) / μ := ⟨_, rfl⟩
  have hκg : 0 ≤ κ * g := mul_nonneg hκ0 hg
  have hb0 : 0 < b := by rw [hb]; positivity
  have h10 : rho * ∑ k ∈ Finset.range N, ω k ⬝ᵥ (ν k - (r k).gain *ᵥ η k)
      ≤ b / 2 * (rho ^ 2 * usq N ω) + 1 / (2 * b) * (2 * (1 + κ * g) * usq N ν) := by
    have hw : ∑ k ∈ Finset.range N, nsq (ν k - (r k).gain *ᵥ η k) ≤ 2 * (1 + κ * g) * usq N ν := by
      have h11 : ∑ k ∈ Finset.range N, nsq (ν k - (r k).gain *ᵥ η k)
          ≤ ∑ k ∈ Finset.range N, (2 * nsq (ν k) + 2 * κ * nsq (η k)) := by
        refine Finset.sum_le_sum fun k hk => (nsq_sub_le _ _).trans ?_
        have := h.gain_bound hμ hM ha (Finset.mem_range.mp hk) (η k)
        rw [← hκ] at this
        linarith
      rw [Finset.sum_add_distrib, ← Finset.mul_sum, ← Finset.mul_sum] at h11
      have h12 : ∑ k ∈ Finset.range N, nsq (η k) ≤ g * usq N ν :=
        le_trans (Finset.sum_le_sum_of_subset_of_nonneg (Finset.range_mono (Nat.le_succ N)) fun i _ _ => nsq_nonneg _) hst
      have h13 := mul_le_mul_of_nonneg_left h12 (show 0 ≤ 2 * κ by positivity)
      change _ ≤ 2 * usq N ν + _ at h11
      linarith
    have h14 : rho * ∑ k ∈ Finset.range N, ω k ⬝ᵥ (ν k - (r k).gain *ᵥ η k)
        ≤ b / 2 * (rho ^ 2 * usq N ω) + 1 / (2 * b) * ∑ k ∈ Finset.range N, nsq (ν k - (r k).gain *ᵥ η k) := by
      unfold usq
      rw [Finset.mul_sum, Finset.mul_sum, Finset.mul_sum, Finset.mul_sum, ← Finset.sum_add_distrib]
      refine Finset.sum_le_sum fun k _ => ?_
      have := dot_young (rho • ω k) (ν k - (r k).gain *ᵥ η k) hb0
      rw [smul_dotProduct, smul_eq_mul, nsq_smul] at this
      exact this
    have h15 := mul_le_mul_of_nonneg_left hw (show 0 ≤ 1 / (2 * b) by positivity)
    linarith
  have h16 : usq N ω ≤ 2 * usq N eu + 2 * usq N ν := by
    unfold usq
    rw [Finset.mul_sum, Finset.mul_sum, ← Finset.sum_add_distrib]
    refine Finset.sum_le_sum fun k _ => ?_
    have := nsq_sub_le (eu k) (ν k)
    rw [show eu k - ν k = ω k by simp [hν]] at this
    exact this
  have e7 : 1 / (2 * c) * ((1 + g) * usq N ν) = μ / 4 * usq N ν := by rw [hc]; field_simp; ring
  have e8 : 1 / (2 * b) * (2 * (1 + κ * g) * usq N ν) = μ / 4 * usq N ν := by rw [hb]; field_simp
  have e9 : b / 2 * (rho ^ 2 * usq N ω) ≤ b / 2 * (rho ^ 2 * (2 * usq N eu + 2 * usq N ν)) := by
    refine mul_le_mul_of_nonneg_left (mul_le_mul_of_nonneg_left h16 (sq_nonneg _)) (by positivity)
  set Ω := usq N ν with hΩ
  set S := ∑ k ∈ Finset.range (N + 1), (nsq (Rx k) + nsq (Ru k)) with hS
  have hΩ0 : 0 ≤ Ω := usq_nonneg _ _
  -- b ρ² ≤ μ / 4
  have e10 : b * rho ^ 2 ≤ μ / 4 := by
    have : 16 * (1 + κ * g) / μ ^ 2 * rho ^ 2 = 4 / μ * (b * rho ^ 2) := by rw [hb]; field_simp; ring
    rw [this] at hrho
    have h17 := mul_le_mul_of_nonneg_left hrho (show 0 ≤ μ / 4 by positivity)
    have h18 : μ / 4 * (4 / μ * (b * rho ^ 2)) = b * rho ^ 2 := by field_simp
    linarith
  have e11 := mul_le_mul_of_nonneg_right e10 hΩ0
  have key : μ / 4 * Ω ≤ c / 2 * S + b * rho ^ 2 * usq N eu := by
    have : b / 2 * (rho ^ 2 * (2 * usq N eu + 2 * Ω)) = b * rho ^ 2 * usq N eu + b * rho ^ 2 * Ω := by ring
    linarith
  have key2 := mul_le_mul_of_nonneg_left key (show 0 ≤ 4 / μ by positivity)
  have e12 : 4 / μ * (μ / 4 * Ω) = Ω := by field_simp
  have e13 : 4 / μ * (c / 2 * S + b * rho ^ 2 * usq N eu)
      = 4 * (1 + g) / μ ^ 2 * S + 16 * (1 + κ * g) / μ ^ 2 * rho ^ 2 * usq N eu := by rw [hc, hb]; field_simp; ring
  linarith

/-- The feedforward terms are bounded by the controls of the closed loop. -/
theorem ffsq_le (h : BoundedSweep N μ M a kd r rho) (hμ : 0 < μ) (hM : 0 ≤ M) (ha : 0 ≤ a) {ξ : ℕ → Fin n → K}
    {ω : ℕ → Fin m → K} (hA : Admissible N kd ξ ω) (hcl : ∀ k < N, ω k = (r k).gain *ᵥ ξ k + (r k).ff) :
    ffsq N r ≤ 2 * (1 + sig M a N / μ * growth N a) * usq N ω := by
  have hκ0 : 0 ≤ sig M a N / μ := div_nonneg (sig_nonneg hM ha N) hμ.le
  have h1 : ffsq N r ≤ ∑ k ∈ Finset.range N, (2 * nsq (ω k) + 2 * (sig M a N / μ) * nsq (ξ k)) := by
    refine Finset.sum_le_sum fun k hk => ?_
    have hk := Finset.mem_range.mp hk
    have h2 := nsq_sub_le (ω k) ((r k).gain *ᵥ ξ k)
    rw [show ω k - (r k).gain *ᵥ ξ k = (r k).ff by rw [hcl k hk]; abel] at h2
    have := h.gain_bound hμ hM ha hk (ξ k)
    linarith
  rw [Finset.sum_add_distrib, ← Finset.mul_sum, ← Finset.mul_sum] at h1
  have h2 : ∑ k ∈ Finset.range N, nsq (ξ k) ≤ growth N a * usq N ω :=
    le_trans (Finset.sum_le_sum_of_subset_of_nonneg (Finset.range_mono (Nat.le_succ N)) fun i _ _ => nsq_nonneg _)
      (admissible_states ha h.dyn hA)
  have h3 := mul_le_mul_of_nonneg_left h2 (show 0 ≤ 2 * (sig M a N / μ) by positivity)
  change _ ≤ 2 * usq N ω + _ at h1
  linarith

end Altro
