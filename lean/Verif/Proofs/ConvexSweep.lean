import Verif.Proofs.Descent
import Mathlib.Tactic.Linarith
import Mathlib.Tactic.LinearCombination
import Mathlib.Tactic.Positivity
import Mathlib.Algebra.Order.BigOperators.Ring.Finset

/-!
# Bounds on a backward sweep that do not depend on the regularization
-/

namespace Altro
open Spec Matrix ILQR
variable {K : Type} [Field K] [LinearOrder K] [IsStrictOrderedRing K] {n m : ℕ}

/-- Squared length. -/
def nsq {q : ℕ} (v : Fin q → K) : K := v ⬝ᵥ v

theorem nsq_nonneg {q : ℕ} (v : Fin q → K) : 0 ≤ nsq v := by
  unfold nsq dotProduct
  exact Finset.sum_nonneg fun i _ => mul_self_nonneg (v i)

theorem nsq_zero {q : ℕ} : nsq (0 : Fin q → K) = 0 := by simp [nsq]

theorem nsq_smul {q : ℕ} (a : K) (v : Fin q → K) : nsq (a • v) = a ^ 2 * nsq v := by
  simp only [nsq, smul_dotProduct, dotProduct_smul, smul_eq_mul]; ring

theorem nsq_eq_zero {q : ℕ} {v : Fin q → K} (h : nsq v = 0) : v = 0 := by
  funext i
  unfold nsq dotProduct at h
  have := (Finset.sum_eq_zero_iff_of_nonneg fun i _ => mul_self_nonneg (v i)).mp h i (Finset.mem_univ i)
  exact mul_self_eq_zero.mp this

/-- `2 v · w ≤ c |v|² + |w|² / c`. -/
theorem dot_young {q : ℕ} (v w : Fin q → K) {c : K} (hc : 0 < c) : v ⬝ᵥ w ≤ c / 2 * nsq v + 1 / (2 * c) * nsq w := by
  have h := nsq_nonneg (c • v - w)
  have e : nsq (c • v - w) = c ^ 2 * nsq v - 2 * c * (v ⬝ᵥ w) + nsq w := by
    simp only [nsq, sub_dotProduct, dotProduct_sub, smul_dotProduct, dotProduct_smul, smul_eq_mul]
    rw [dotProduct_comm w v]; ring
  rw [e] at h
  have h2 : c / 2 * nsq v + 1 / (2 * c) * nsq w - v ⬝ᵥ w = 1 / (2 * c) * (c ^ 2 * nsq v - 2 * c * (v ⬝ᵥ w) + nsq w) := by
    field_simp
    ring
  have : 0 ≤ 1 / (2 * c) * (c ^ 2 * nsq v - 2 * c * (v ⬝ᵥ w) + nsq w) := mul_nonneg (by positivity) h
  linarith

theorem nsq_add_le {q : ℕ} (v w : Fin q → K) : nsq (v + w) ≤ 2 * nsq v + 2 * nsq w := by
  have h := nsq_nonneg (v - w)
  simp only [nsq, sub_dotProduct, dotProduct_sub, add_dotProduct, dotProduct_add] at h ⊢
  rw [dotProduct_comm w v] at h ⊢
  linarith

theorem nsq_sub_le {q : ℕ} (v w : Fin q → K) : nsq (v - w) ≤ 2 * nsq v + 2 * nsq w := by
  have h := nsq_nonneg (v + w)
  simp only [nsq, sub_dotProduct, dotProduct_sub, add_dotProduct, dotProduct_add] at h ⊢
  rw [dotProduct_comm w v] at h ⊢
  linarith

/-- Twice the second-order part of an expansion. -/
def form (e : Expansion n m K) (δx : Fin n → K) (δu : Fin m → K) : K :=
  δx ⬝ᵥ e.dxdx *ᵥ δx + 2 * (δx ⬝ᵥ e.dxdu *ᵥ δu) + δu ⬝ᵥ e.dudu *ᵥ δu

/-- A sweep over a convex expansion with bounds: curvature at least `μ` in the controls and at most `M`, and dynamics that stretch
by at most `a`. -/
structure BoundedSweep (N : ℕ) (μ M a : K) (kd r : ℕ → KP n m K) (rho : K) : Prop extends Swept N kd r rho where
  low : ∀ k < N, ∀ δx δu, μ * nsq δu ≤ form (kd k).cost δx δu
  lowN : ∀ δx, 0 ≤ δx ⬝ᵥ (kd N).cost.dxdx *ᵥ δx
  up : ∀ k ≤ N, ∀ δx δu, form (kd k).cost δx δu ≤ M * (nsq δx + nsq δu)
  dyn : ∀ k < N, ∀ δx δu, nsq ((kd k).A *ᵥ δx + (kd k).B *ᵥ δu) ≤ a * (nsq δx + nsq δu)
  rho0 : 0 ≤ rho

/-- Bound on the Hessian of the cost to go `j` steps before the end. -/
def sig (M a : K) : ℕ → K
  | 0 => M
  | j + 1 => M + a * sig M a j

theorem sig_nonneg {M a : K} (hM : 0 ≤ M) (ha : 0 ≤ a) : ∀ j, 0 ≤ sig M a j
  | 0 => hM
  | j + 1 => add_nonneg hM (mul_nonneg ha (sig_nonneg hM ha j))

theorem sig_mono {M a : K} (hM : 0 ≤ M) (ha : 0 ≤ a) {i j : ℕ} (h : i ≤ j) : sig M a i ≤ sig M a j := by
  have step : ∀ j, sig M a j ≤ sig M a (j + 1) := by
    intro j
    induction j with
    | zero => show M ≤ M + a * M; linarith [mul_nonneg ha hM]
    | succ j ih =>
      show M + a * sig M a j ≤ M + a * sig M a (j + 1)
      linarith [mul_le_mul_of_nonneg_left ih ha]
  exact monotone_nat_of_le_succ step h

section step
variable {d nxt r : KP n m K} {rho : K}

theorem StepOk.form_q (h : StepOk d nxt r rho) (hn : nxt.Sxx.IsSymm) (δx : Fin n → K) (δu : Fin m → K) :
    form r.q δx δu = form d.cost δx δu + (d.A *ᵥ δx + d.B *ᵥ δu) ⬝ᵥ nxt.Sxx *ᵥ (d.A *ᵥ δx + d.B *ᵥ δu) := by
  rw [h.q]
  unfold form
  simp only [KP.actionValue, add_mulVec, dotProduct_add, add_dotProduct, mulVec_add, dot_tmul]
  rw [dot_symm hn (d.B *ᵥ δu) (d.A *ᵥ δx)]
  ring

theorem StepOk.Sxx_form (h : StepOk d nxt r rho) (δx : Fin n → K) :
    δx ⬝ᵥ r.Sxx *ᵥ δx = form r.q δx (r.gain *ᵥ δx) := by
  rw [h.ctg.1]
  unfold form
  simp only [add_mulVec, dotProduct_add, dot_tmul]
  rw [← mulVec_mulVec, ← mulVec_mulVec, dot_t, dot_t, dotProduct_comm (r.q.dxdu *ᵥ _) δx]
  ring

end step

variable {N : ℕ} {μ M a : K} {kd r : ℕ → KP n m K} {rho : K}

/-- The feedback term minimises the regularized action value. -/
theorem Swept.gain_min (h : Swept N kd r rho) {k : ℕ} (hk : k < N) (δx : Fin n → K) (v : Fin m → K) :
    form (r k).q δx ((r k).gain *ᵥ δx) + rho * nsq ((r k).gain *ᵥ δx) ≤ form (r k).q δx v + rho * nsq v := by
  obtain ⟨e1, e2, -⟩ := h.eqs hk
  have hsu := ((h.step k hk).q_symm (h.symx k hk) (h.symu k hk) (h.Sxx_symm (k + 1) hk)).2
  set p := (r k).gain *ᵥ δx with hp
  have h2 : ∀ w : Fin m → K, w ⬝ᵥ (r k).q.dudu *ᵥ p + rho * (w ⬝ᵥ p) = -(δx ⬝ᵥ (r k).q.dxdu *ᵥ w) := by
    intro w
    have := congrArg (w ⬝ᵥ ·) (e2 δx)
    simp only [add_mulVec, smul_mulVec, one_mulVec, dotProduct_add, dotProduct_smul, smul_eq_mul, dotProduct_neg] at this
    rw [dot_t, dotProduct_comm ((r k).q.dxdu *ᵥ w)] at this
    exact this
  have h3 : 0 ≤ (v - p) ⬝ᵥ ((r k).q.dudu + rho • (1 : Matrix (Fin m) (Fin m) K)) *ᵥ (v - p) := by
    by_cases hz : v - p = 0
    · rw [hz, zero_dotProduct]
    · exact (e1 _ hz).le
  simp only [add_mulVec, smul_mulVec, one_mulVec, dotProduct_add, dotProduct_smul, smul_eq_mul, mulVec_sub, dotProduct_sub,
    sub_dotProduct] at h3
  have h4 := h2 v
  have h5 := h2 p
  have h6 := dot_symm hsu p v
  have h7 := dotProduct_comm p v
  unfold form nsq
  rw [h6, h7] at h3
  linarith

namespace BoundedSweep

/-- The Hessian of the cost to go is positive semidefinite and bounded. -/
theorem Sxx_bounds (h : BoundedSweep N μ M a kd r rho) (hμ : 0 ≤ μ) (hM : 0 ≤ M) (ha : 0 ≤ a) :
    ∀ k ≤ N, ∀ δx, 0 ≤ δx ⬝ᵥ (r k).Sxx *ᵥ δx ∧ δx ⬝ᵥ (r k).Sxx *ᵥ δx ≤ sig M a (N - k) * nsq δx := by
  refine down_induct ?_ fun k hk ih δx => ?_
  · intro δx
    rw [h.term.2, Nat.sub_self]
    refine ⟨h.lowN δx, ?_⟩
    have := h.up N le_rfl δx 0
    simp only [form, mulVec_zero, dotProduct_zero, zero_dotProduct, nsq_zero, add_zero, mul_zero] at this
    exact this
  · have hS := h.Sxx_symm (k + 1) hk
    rw [(h.step k hk).Sxx_form]
    constructor
    · rw [(h.step k hk).form_q hS]
      have := (h.low k hk δx ((r k).gain *ᵥ δx))
      have := (ih ((kd k).A *ᵥ δx + (kd k).B *ᵥ ((r k).gain *ᵥ δx))).1
      have := mul_nonneg hμ (nsq_nonneg ((r k).gain *ᵥ δx))
      linarith
    · have h1 := h.gain_min hk δx 0
      rw [nsq_zero, mul_zero, add_zero, (h.step k hk).form_q hS δx 0] at h1
      have h2 := h.up k hk.le δx 0
      have h3 := (ih ((kd k).A *ᵥ δx + (kd k).B *ᵥ 0)).2
      have h4 := h.dyn k hk δx 0
      rw [nsq_zero, add_zero] at h2 h4
      have h5 := mul_nonneg h.rho0 (nsq_nonneg ((r k).gain *ᵥ δx))
      have h6 := mul_le_mul_of_nonneg_left h4 (sig_nonneg hM ha (N - (k + 1)))
      obtain ⟨j, hj⟩ : ∃ j, N - k = j + 1 := ⟨N - k - 1, by omega⟩
      rw [hj]
      rw [show N - (k + 1) = j by omega] at h3 h6
      show _ ≤ (M + a * sig M a j) * nsq δx
      linarith

/-- The feedback gains are bounded. -/
theorem gain_bound (h : BoundedSweep N μ M a kd r rho) (hμ : 0 < μ) (hM : 0 ≤ M) (ha : 0 ≤ a) {k : ℕ} (hk : k < N)
    (δx : Fin n → K) : nsq ((r k).gain *ᵥ δx) ≤ sig M a N / μ * nsq δx := by
  have hS := h.Sxx_symm (k + 1) hk
  have h1 := (h.Sxx_bounds hμ.le hM ha k hk.le δx).2
  rw [(h.step k hk).Sxx_form, (h.step k hk).form_q hS] at h1
  have h2 := h.low k hk δx ((r k).gain *ᵥ δx)
  have h3 := (h.Sxx_bounds hμ.le hM ha (k + 1) hk ((kd k).A *ᵥ δx + (kd k).B *ᵥ ((r k).gain *ᵥ δx))).1
  have h4 := mul_le_mul_of_nonneg_right (sig_mono hM ha (Nat.sub_le N k)) (nsq_nonneg δx)
  rw [div_mul_eq_mul_div, le_div_iff₀ hμ]
  linarith

/-- The Hessian of the action value with respect to the control. -/
theorem quu_bounds (h : BoundedSweep N μ M a kd r rho) (hμ : 0 ≤ μ) (hM : 0 ≤ M) (ha : 0 ≤ a) {k : ℕ} (hk : k < N)
    (v : Fin m → K) : μ * nsq v ≤ v ⬝ᵥ (r k).q.dudu *ᵥ v ∧ v ⬝ᵥ (r k).q.dudu *ᵥ v ≤ (M + a * sig M a N) * nsq v := by
  have hS := h.Sxx_symm (k + 1) hk
  have e : v ⬝ᵥ (r k).q.dudu *ᵥ v = form (r k).q 0 v := by simp [form]
  rw [e, (h.step k hk).form_q hS]
  have h1 := h.low k hk 0 v
  have h2 := h.up k hk.le 0 v
  have h3 := h.Sxx_bounds hμ hM ha (k + 1) hk ((kd k).A *ᵥ 0 + (kd k).B *ᵥ v)
  have h4 := h.dyn k hk 0 v
  rw [nsq_zero, zero_add] at h2 h4
  have h5 := mul_le_mul_of_nonneg_left h4 (sig_nonneg hM ha (N - (k + 1)))
  have h6 := mul_le_mul_of_nonneg_right (sig_mono hM ha (Nat.sub_le N (k + 1))) (mul_nonneg ha (nsq_nonneg v))
  constructor
  · linarith [h3.1]
  · have := h3.2
    linarith

end BoundedSweep

/-- The squared length of the feedforward terms. -/
def ffsq (N : ℕ) (r : ℕ → KP n m K) : K := ∑ k ∈ Finset.range N, nsq (r k).ff

theorem ffsq_nonneg (N : ℕ) (r : ℕ → KP n m K) : 0 ≤ ffsq N r := Finset.sum_nonneg fun _ _ => nsq_nonneg _

theorem ffsq_zero {N : ℕ} {r : ℕ → KP n m K} (h : ffsq N r = 0) : ∀ k < N, (r k).ff = 0 := fun k hk =>
  nsq_eq_zero ((Finset.sum_eq_zero_iff_of_nonneg fun i _ => nsq_nonneg (r i).ff).mp h k (Finset.mem_range.mpr hk))

namespace BoundedSweep

/-- The stored expected changes of the cost. -/
theorem delta_bounds (h : BoundedSweep N μ M a kd r rho) (hμ : 0 ≤ μ) (hM : 0 ≤ M) (ha : 0 ≤ a) {k : ℕ} (hk : k < N) :
    (r k).delta.1 ≤ -(μ * nsq (r k).ff) ∧ -((M + a * sig M a N + rho) * nsq (r k).ff) ≤ (r k).delta.1 ∧
    0 ≤ (r k).delta.2 ∧ (r k).delta.2 ≤ -(1 / 2) * (r k).delta.1 := by
  obtain ⟨-, -, e3⟩ := h.eqs hk
  have e4 := congrArg ((r k).ff ⬝ᵥ ·) e3
  simp only [add_mulVec, smul_mulVec, one_mulVec, dotProduct_add, dotProduct_smul, smul_eq_mul, dotProduct_neg] at e4
  obtain ⟨q1, q2⟩ := h.quu_bounds hμ hM ha hk (r k).ff
  rw [(h.step k hk).ctg.2.1]
  have h1 := mul_nonneg h.rho0 (nsq_nonneg (r k).ff)
  have h2 := mul_nonneg hμ (nsq_nonneg (r k).ff)
  unfold nsq at *
  simp only
  refine ⟨by linarith, by linarith, by linarith, by linarith⟩

/-- The first-order change of the cost along any change of the trajectory. -/
theorem first_order (h : Swept N kd r rho) {ξ : ℕ → Fin n → K} {ω : ℕ → Fin m → K} (h0 : ξ 0 = 0) (hN : ω N = 0)
    (hξ : ∀ k < N, ξ (k + 1) = (kd k).A *ᵥ ξ k + (kd k).B *ᵥ ω k) :
    ∑ k ∈ Finset.range (N + 1), ((kd k).cost.dx ⬝ᵥ ξ k + (kd k).cost.du ⬝ᵥ ω k)
      = ∑ k ∈ Finset.range N, ((r k).q.du ⬝ᵥ (ω k - (r k).gain *ᵥ ξ k) + rho * ((r k).ff ⬝ᵥ (r k).gain *ᵥ ξ k)) := by
  rw [adjoint_sum N kd (fun k => (r k).Sx) ξ ω h.term.1 h0 hN hξ]
  refine Finset.sum_congr rfl fun k hk => ?_
  have hk := Finset.mem_range.mp hk
  obtain ⟨-, e2, -⟩ := h.eqs hk
  have hsu := ((h.step k hk).q_symm (h.symx k hk) (h.symu k hk) (h.Sxx_symm (k + 1) hk)).2
  rw [← (h.step k hk).qdx.1, ← (h.step k hk).qdx.2, (h.step k hk).Sx]
  have h1 := congrArg ((r k).ff ⬝ᵥ ·) (e2 (ξ k))
  simp only [add_mulVec, smul_mulVec, one_mulVec, dotProduct_add, dotProduct_smul, smul_eq_mul, dotProduct_neg] at h1
  rw [dot_t] at h1
  simp only [add_dotProduct, dotProduct_sub]
  rw [← mulVec_mulVec, t_dot, t_dot, dotProduct_comm ((r k).q.dudu *ᵥ (r k).ff), dot_symm hsu ((r k).gain *ᵥ ξ k)]
  linarith

end BoundedSweep

/-! ## Sequences -/

theorem seq_bound {x e : ℕ → K} {b c : K} {N : ℕ} (hb : 0 ≤ b) (hc : 0 ≤ c) (he : ∀ k, 0 ≤ e k) (h0 : x 0 = 0)
    (hx : ∀ k < N, x (k + 1) ≤ b * x k + c * e k) :
    ∀ k ≤ N, x k ≤ c * (1 + b) ^ k * ∑ i ∈ Finset.range k, e i := by
  intro k hk
  induction k with
  | zero => simp [h0]
  | succ k ih =>
    have h1 := hx k hk
    have h2 := mul_le_mul_of_nonneg_left (ih (by omega)) hb
    rw [Finset.sum_range_succ]
    have hE : 0 ≤ ∑ i ∈ Finset.range k, e i := Finset.sum_nonneg fun i _ => he i
    have hp : 1 ≤ (1 + b) ^ (k + 1) := one_le_pow₀ (by linarith)
    have hp' : b * (1 + b) ^ k ≤ (1 + b) ^ (k + 1) := by
      rw [pow_succ]
      have : 0 ≤ (1 + b) ^ k := pow_nonneg (by linarith) _
      linarith
    have h3 : c * e k ≤ c * (1 + b) ^ (k + 1) * e k := by
      have := mul_le_mul_of_nonneg_left hp (mul_nonneg hc (he k))
      linarith
    have h4 : b * (c * (1 + b) ^ k * ∑ i ∈ Finset.range k, e i) ≤ c * (1 + b) ^ (k + 1) * ∑ i ∈ Finset.range k, e i := by
      have := mul_le_mul_of_nonneg_left hp' (mul_nonneg hc hE)
      linarith
    rw [mul_add]
    linarith

theorem seq_sum_bound {x e : ℕ → K} {b c : K} {N : ℕ} (hb : 0 ≤ b) (hc : 0 ≤ c) (he : ∀ k, 0 ≤ e k) (h0 : x 0 = 0)
    (hx : ∀ k < N, x (k + 1) ≤ b * x k + c * e k) :
    ∑ k ∈ Finset.range (N + 1), x k ≤ (N + 1) * (c * (1 + b) ^ N) * ∑ i ∈ Finset.range N, e i := by
  have hE : 0 ≤ ∑ i ∈ Finset.range N, e i := Finset.sum_nonneg fun i _ => he i
  have : ∑ k ∈ Finset.range (N + 1), x k ≤ ∑ k ∈ Finset.range (N + 1), c * (1 + b) ^ N * ∑ i ∈ Finset.range N, e i := by
    refine Finset.sum_le_sum fun k hk => ?_
    have hk : k ≤ N := by have := Finset.mem_range.mp hk; omega
    refine (seq_bound hb hc he h0 hx k hk).trans ?_
    have h1 : (1 + b) ^ k ≤ (1 + b) ^ N := pow_le_pow_right₀ (by linarith) hk
    have h2 : ∑ i ∈ Finset.range k, e i ≤ ∑ i ∈ Finset.range N, e i :=
      Finset.sum_le_sum_of_subset_of_nonneg (Finset.range_mono hk) fun i _ _ => he i
    have h3 : 0 ≤ ∑ i ∈ Finset.range k, e i := Finset.sum_nonneg fun i _ => he i
    have h4 : 0 ≤ (1 + b) ^ N := pow_nonneg (by linarith) _
    exact mul_le_mul (mul_le_mul_of_nonneg_left h1 hc) h2 h3 (mul_nonneg hc h4)
  refine this.trans (le_of_eq ?_)
  rw [Finset.sum_const, Finset.card_range, nsmul_eq_mul]
  push_cast
  ring


/-! ## The bounds together -/

/-- The first-order change of the cost along a change of the trajectory. -/
def firstOrder (N : ℕ) (kd : ℕ → KP n m K) (ξ : ℕ → Fin n → K) (ω : ℕ → Fin m → K) : K :=
  ∑ k ∈ Finset.range (N + 1), ((kd k).cost.dx ⬝ᵥ ξ k + (kd k).cost.du ⬝ᵥ ω k)

/-- A change of the trajectory that the linearized dynamics allow. -/
structure Admissible (N : ℕ) (kd : ℕ → KP n m K) (ξ : ℕ → Fin n → K) (ω : ℕ → Fin m → K) : Prop where
  init : ξ 0 = 0
  last : ω N = 0
  step : ∀ k < N, ξ (k + 1) = (kd k).A *ᵥ ξ k + (kd k).B *ᵥ ω k

/-- What is needed of a sweep: `C` does not depend on the expansions nor on the regularization. -/
structure SweepBounds (N : ℕ) (μ C : K) (kd r : ℕ → KP n m K) (rho : K) : Prop where
  dV0 : μ * ffsq N r ≤ -∑ k ∈ Finset.range N, (r k).delta.1
  dV1 : 0 ≤ ∑ k ∈ Finset.range N, (r k).delta.2
  dV1' : ∑ k ∈ Finset.range N, (r k).delta.2 ≤ -(1 / 2) * ∑ k ∈ Finset.range N, (r k).delta.1
  closed : ∀ ξ ω, Admissible N kd ξ ω → (∀ k < N, ω k = (r k).gain *ᵥ ξ k + (r k).ff) →
    ∑ k ∈ Finset.range (N + 1), (nsq (ξ k) + nsq (ω k)) ≤ C * ffsq N r ∧
    |firstOrder N kd ξ ω - ∑ k ∈ Finset.range N, (r k).delta.1| ≤ rho * (C * ffsq N r)
  any : ∀ ξ ω, Admissible N kd ξ ω →
    -(C * ffsq N r) - μ / 4 * ∑ k ∈ Finset.range N, nsq (ω k) ≤ firstOrder N kd ξ ω

theorem psd_young {q : ℕ} {G : Matrix (Fin q) (Fin q) K} (hs : G.IsSymm) (hp : ∀ v, 0 ≤ v ⬝ᵥ G *ᵥ v) (v w : Fin q → K) {c : K}
    (hc : 0 < c) : v ⬝ᵥ G *ᵥ w ≤ c / 2 * (v ⬝ᵥ G *ᵥ v) + 1 / (2 * c) * (w ⬝ᵥ G *ᵥ w) := by
  have h := hp (c • v - w)
  have e : (c • v - w) ⬝ᵥ G *ᵥ (c • v - w) = c ^ 2 * (v ⬝ᵥ G *ᵥ v) - 2 * c * (v ⬝ᵥ G *ᵥ w) + w ⬝ᵥ G *ᵥ w := by
    simp only [mulVec_sub, mulVec_smul, sub_dotProduct, dotProduct_sub, smul_dotProduct, dotProduct_smul, smul_eq_mul]
    rw [dot_symm hs w v]; ring
  rw [e] at h
  have h2 : c / 2 * (v ⬝ᵥ G *ᵥ v) + 1 / (2 * c) * (w ⬝ᵥ G *ᵥ w) - v ⬝ᵥ G *ᵥ w
      = 1 / (2 * c) * (c ^ 2 * (v ⬝ᵥ G *ᵥ v) - 2 * c * (v ⬝ᵥ G *ᵥ w) + w ⬝ᵥ G *ᵥ w) := by
    field_simp
    ring
  have : 0 ≤ 1 / (2 * c) * (c ^ 2 * (v ⬝ᵥ G *ᵥ v) - 2 * c * (v ⬝ᵥ G *ᵥ w) + w ⬝ᵥ G *ᵥ w) := mul_nonneg (by positivity) h
  linarith

theorem sweep_bounds (n m N : ℕ) {μ M a : K} (hμ : 0 < μ) (hM : 0 ≤ M) (ha : 0 ≤ a) :
    ∃ C : K, 0 < C ∧ ∀ (kd r : ℕ → KP n m K) (rho : K), BoundedSweep N μ M a kd r rho → rho ≤ 1 →
      SweepBounds N μ C kd r rho := by
  have hsig := sig_nonneg hM ha N
  obtain ⟨κ, hκ⟩ : ∃ κ, κ = sig M a N / μ := ⟨_, rfl⟩
  have hκ0 : 0 ≤ κ := by rw [hκ]; positivity
  obtain ⟨g, hg⟩ : ∃ g, g = M + a * sig M a N := ⟨_, rfl⟩
  have hg0 : 0 ≤ g := by rw [hg]; positivity
  obtain ⟨r1, hr1⟩ : ∃ r1 : K, r1 = (N + 1) * (a * (1 + a) ^ N) := ⟨_, rfl⟩
  have hr10 : 0 ≤ r1 := by rw [hr1]; positivity
  obtain ⟨r2, hr2⟩ : ∃ r2 : K, r2 = (N + 1) * (2 * a * (1 + a * (1 + 2 * κ)) ^ N) := ⟨_, rfl⟩
  have hr20 : 0 ≤ r2 := by rw [hr2]; positivity
  obtain ⟨c, hc⟩ : ∃ c, c = 4 * ((g + 1) * (1 + κ * r1) + κ * r1 / 2) / μ := ⟨_, rfl⟩
  have hκr : 0 ≤ κ * r1 := mul_nonneg hκ0 hr10
  have hc0 : 0 < c := by
    rw [hc]
    have : 0 < (g + 1) * (1 + κ * r1) := mul_pos (by linarith) (by linarith)
    positivity
  have hκr2 : 0 ≤ κ * r2 := mul_nonneg hκ0 hr20
  have hgc : 0 ≤ (g + 2) * c / 2 := by positivity
  refine ⟨(r2 * (1 + 2 * κ) + 2) + (1 / 2 + κ * r2 / 2) + (g + 2) * c / 2, by positivity, ?_⟩
  intro kd r rho h hrho
  have hS := ffsq_nonneg N r
  have hgain : ∀ k < N, ∀ δx, nsq ((r k).gain *ᵥ δx) ≤ κ * nsq δx := fun k hk δx => by
    rw [hκ]; exact h.gain_bound hμ hM ha hk δx
  have hdel := fun k (hk : k ∈ Finset.range N) => h.delta_bounds hμ.le hM ha (Finset.mem_range.mp hk)
  refine ⟨?_, ?_, ?_, ?_, ?_⟩
  · rw [ffsq, Finset.mul_sum, ← Finset.sum_neg_distrib]
    exact Finset.sum_le_sum fun k hk => by linarith [(hdel k hk).1]
  · exact Finset.sum_nonneg fun k hk => (hdel k hk).2.2.1
  · rw [Finset.mul_sum]
    exact Finset.sum_le_sum fun k hk => (hdel k hk).2.2.2
  · intro ξ ω hA hcl
    have hω : ∀ k < N, nsq (ω k) ≤ 2 * (κ * nsq (ξ k)) + 2 * nsq (r k).ff := fun k hk => by
      rw [hcl k hk]
      exact (nsq_add_le _ _).trans (by linarith [hgain k hk (ξ k)])
    have hX : ∑ k ∈ Finset.range (N + 1), nsq (ξ k) ≤ r2 * ffsq N r := by
      rw [hr2]
      refine seq_sum_bound (b := a * (1 + 2 * κ)) (c := 2 * a) (x := fun k => nsq (ξ k)) (e := fun k => nsq (r k).ff) (by positivity)
        (by positivity) (fun k => nsq_nonneg _) (by rw [hA.init, nsq_zero]) fun k hk => ?_
      rw [hA.step k hk]
      refine (h.dyn k hk _ _).trans ?_
      have := mul_le_mul_of_nonneg_left (hω k hk) ha
      linarith
    have hX' : ∑ k ∈ Finset.range N, nsq (ξ k) ≤ r2 * ffsq N r :=
      le_trans (Finset.sum_le_sum_of_subset_of_nonneg (Finset.range_mono (Nat.le_succ N)) fun i _ _ => nsq_nonneg _) hX
    have hΩ : ∑ k ∈ Finset.range (N + 1), nsq (ω k) ≤ 2 * κ * (r2 * ffsq N r) + 2 * ffsq N r := by
      rw [Finset.sum_range_succ, hA.last, nsq_zero, add_zero]
      refine (Finset.sum_le_sum fun k hk => hω k (Finset.mem_range.mp hk)).trans ?_
      rw [Finset.sum_add_distrib, ← Finset.mul_sum, ← Finset.mul_sum, ← Finset.mul_sum]
      have := mul_le_mul_of_nonneg_left hX' hκ0
      show 2 * (κ * _) + 2 * ffsq N r ≤ _
      linarith
    have n1 := mul_nonneg hκr2 hS
    have n2 := mul_nonneg hgc hS
    have n3 := mul_nonneg (show 0 ≤ r2 * (1 + 2 * κ) + 2 by positivity) hS
    have n4 := mul_nonneg hr20 hS
    constructor
    · rw [Finset.sum_add_distrib]
      linarith
    · rw [firstOrder, BoundedSweep.first_order h.toSwept hA.init hA.last hA.step, ← Finset.sum_sub_distrib]
      have e : ∀ k ∈ Finset.range N, (r k).q.du ⬝ᵥ (ω k - (r k).gain *ᵥ ξ k) + rho * ((r k).ff ⬝ᵥ (r k).gain *ᵥ ξ k)
          - (r k).delta.1 = rho * ((r k).ff ⬝ᵥ (r k).gain *ᵥ ξ k) := fun k hk => by
        have hk := Finset.mem_range.mp hk
        rw [hcl k hk, add_sub_cancel_left, (h.step k hk).ctg.2.1, dotProduct_comm]
        ring
      rw [Finset.sum_congr rfl e, ← Finset.mul_sum, abs_mul, abs_of_nonneg h.rho0]
      refine mul_le_mul_of_nonneg_left ?_ h.rho0
      have hb : ∀ k < N, |(r k).ff ⬝ᵥ (r k).gain *ᵥ ξ k| ≤ 1 / 2 * nsq (r k).ff + κ / 2 * nsq (ξ k) := fun k hk => by
        have y1 := dot_young (r k).ff ((r k).gain *ᵥ ξ k) one_pos
        have y2 := dot_young (-(r k).ff) ((r k).gain *ᵥ ξ k) one_pos
        rw [neg_dotProduct, show nsq (-(r k).ff) = nsq (r k).ff by simp [nsq]] at y2
        have y3 := hgain k hk (ξ k)
        rw [abs_le]
        constructor <;> linarith
      refine (Finset.abs_sum_le_sum_abs _ _).trans ((Finset.sum_le_sum fun k hk => hb k (Finset.mem_range.mp hk)).trans ?_)
      rw [Finset.sum_add_distrib, ← Finset.mul_sum, ← Finset.mul_sum]
      have := mul_le_mul_of_nonneg_left hX' (show 0 ≤ κ / 2 by positivity)
      show 1 / 2 * ffsq N r + _ ≤ _
      linarith
  · intro ξ ω hA
    set Ω := ∑ k ∈ Finset.range N, nsq (ω k) with hΩ
    have hΩ0 : 0 ≤ Ω := Finset.sum_nonneg fun k _ => nsq_nonneg _
    have hX : ∑ k ∈ Finset.range N, nsq (ξ k) ≤ r1 * Ω := by
      refine le_trans (Finset.sum_le_sum_of_subset_of_nonneg (Finset.range_mono (Nat.le_succ N)) fun i _ _ => nsq_nonneg _) ?_
      rw [hr1]
      refine seq_sum_bound (b := a) (c := a) (x := fun k => nsq (ξ k)) (e := fun k => nsq (ω k)) ha ha (fun k => nsq_nonneg _)
        (by rw [hA.init, nsq_zero]) fun k hk => ?_
      rw [hA.step k hk]
      refine (h.dyn k hk _ _).trans (le_of_eq (by ring))
    rw [firstOrder, BoundedSweep.first_order h.toSwept hA.init hA.last hA.step]
    have hb : ∀ k ∈ Finset.range N, -((g + 2) * c / 2 * nsq (r k).ff + (g + 1) / c * nsq (ω k)
          + ((g + 1) * κ / c + κ / (2 * c)) * nsq (ξ k))
        ≤ (r k).q.du ⬝ᵥ (ω k - (r k).gain *ᵥ ξ k) + rho * ((r k).ff ⬝ᵥ (r k).gain *ᵥ ξ k) := fun k hk => by
      have hk := Finset.mem_range.mp hk
      obtain ⟨e1, -, e3⟩ := h.eqs hk
      have hsu := ((h.step k hk).q_symm (h.symx k hk) (h.symu k hk) (h.Sxx_symm (k + 1) hk)).2
      have hsG : ((r k).q.dudu + rho • (1 : Matrix (Fin m) (Fin m) K)).IsSymm :=
        hsu.add (by unfold IsSymm; rw [transpose_smul, transpose_one])
      set w := ω k - (r k).gain *ᵥ ξ k with hw
      have hw2 : nsq w ≤ 2 * nsq (ω k) + 2 * (κ * nsq (ξ k)) := (nsq_sub_le _ _).trans (by linarith [hgain k hk (ξ k)])
      have hGv : ∀ v, v ⬝ᵥ ((r k).q.dudu + rho • (1 : Matrix (Fin m) (Fin m) K)) *ᵥ v = v ⬝ᵥ (r k).q.dudu *ᵥ v + rho * nsq v :=
        fun v => by
          simp only [add_mulVec, smul_mulVec, one_mulVec, dotProduct_add, dotProduct_smul, smul_eq_mul, nsq]
      have hG0 : ∀ v, 0 ≤ v ⬝ᵥ ((r k).q.dudu + rho • (1 : Matrix (Fin m) (Fin m) K)) *ᵥ v := fun v => by
        rw [hGv]
        have := (h.quu_bounds hμ.le hM ha hk v).1
        have := mul_nonneg hμ.le (nsq_nonneg v)
        have := mul_nonneg h.rho0 (nsq_nonneg v)
        linarith
      have hG1 : ∀ v, v ⬝ᵥ ((r k).q.dudu + rho • (1 : Matrix (Fin m) (Fin m) K)) *ᵥ v ≤ (g + 1) * nsq v := fun v => by
        rw [hGv, hg]
        have := (h.quu_bounds hμ.le hM ha hk v).2
        have := mul_le_mul_of_nonneg_right hrho (nsq_nonneg v)
        linarith
      have y1 := psd_young hsG hG0 w (r k).ff (c := 1 / c) (by positivity)
      have e8 : w ⬝ᵥ ((r k).q.dudu + rho • (1 : Matrix (Fin m) (Fin m) K)) *ᵥ (r k).ff = -((r k).q.du ⬝ᵥ w) := by
        rw [e3, dotProduct_neg, dotProduct_comm]
      rw [e8] at y1
      have y2 := mul_le_mul_of_nonneg_left (hG1 w) (show 0 ≤ 1 / c / 2 by positivity)
      have y3 := mul_le_mul_of_nonneg_left (hG1 (r k).ff) (show 0 ≤ 1 / (2 * (1 / c)) by positivity)
      have y4 := dot_young (-(r k).ff) ((r k).gain *ᵥ ξ k) hc0
      rw [neg_dotProduct, show nsq (-(r k).ff) = nsq (r k).ff by simp [nsq]] at y4
      have y5 := mul_le_mul_of_nonneg_left (hgain k hk (ξ k)) (show 0 ≤ 1 / (2 * c) by positivity)
      have y6 := mul_le_mul_of_nonneg_left hw2 (show 0 ≤ 1 / c / 2 * (g + 1) by positivity)
      have n1 : 0 ≤ c / 2 * nsq (r k).ff + 1 / (2 * c) * (κ * nsq (ξ k)) :=
        add_nonneg (mul_nonneg (by positivity) (nsq_nonneg _)) (mul_nonneg (by positivity) (mul_nonneg hκ0 (nsq_nonneg _)))
      have y7 : -(c / 2 * nsq (r k).ff + 1 / (2 * c) * (κ * nsq (ξ k))) ≤ rho * ((r k).ff ⬝ᵥ (r k).gain *ᵥ ξ k) := by
        have h1 := mul_le_mul_of_nonneg_left (show -((r k).ff ⬝ᵥ (r k).gain *ᵥ ξ k)
          ≤ c / 2 * nsq (r k).ff + 1 / (2 * c) * (κ * nsq (ξ k)) by linarith) h.rho0
        have h2 := mul_le_mul_of_nonneg_right hrho n1
        linarith
      have e5 : 1 / (2 * (1 / c)) = c / 2 := by field_simp
      have e6 : (g + 1) / c * nsq (ω k) + (g + 1) * κ / c * nsq (ξ k)
          = 1 / c / 2 * (g + 1) * (2 * nsq (ω k) + 2 * (κ * nsq (ξ k))) := by field_simp
      have e7 : κ / (2 * c) * nsq (ξ k) = 1 / (2 * c) * (κ * nsq (ξ k)) := by field_simp
      rw [e5] at y1 y3
      linarith
    refine le_trans ?_ (Finset.sum_le_sum hb)
    rw [Finset.sum_neg_distrib, Finset.sum_add_distrib, Finset.sum_add_distrib, ← Finset.mul_sum, ← Finset.mul_sum, ← Finset.mul_sum,
      ← hΩ]
    have h1 := mul_le_mul_of_nonneg_left hX (show 0 ≤ (g + 1) * κ / c + κ / (2 * c) by positivity)
    have h2 : ((g + 1) * κ / c + κ / (2 * c)) * (r1 * Ω) + (g + 1) / c * Ω = μ / 4 * Ω := by
      have : ((g + 1) * κ / c + κ / (2 * c)) * r1 + (g + 1) / c = ((g + 1) * (1 + κ * r1) + κ * r1 / 2) / c := by
        field_simp
        ring
      have h3 : ((g + 1) * (1 + κ * r1) + κ * r1 / 2) / c = μ / 4 := by
        rw [div_eq_iff hc0.ne', hc]
        field_simp
      rw [← h3, ← this]; ring
    have n1 := mul_nonneg hκr2 hS
    have n3 := mul_nonneg (show 0 ≤ r2 * (1 + 2 * κ) + 2 by positivity) hS
    show _ ≤ -((g + 2) * c / 2 * ffsq N r + _ + _)
    linarith

end Altro
