import Verif.Proofs.NewtonSweep
import Verif.Proofs.ConvexSolve
import Verif.Spec.Calculus
import Mathlib.Analysis.Calculus.MeanValue
import Mathlib.Analysis.Calculus.LocalExtr.Basic

/-!
# One full step near a minimiser
-/

namespace Altro.Props
open Altro.Spec Matrix ILQR
variable {n m : ℕ}

/-- A point of knot `k` within squared distance `R` of the reference; the last control does not count. -/
def NearKnot (N : ℕ) (Zs : Traj (Fin n → ℝ) (Fin m → ℝ) ℝ) (R : ℝ) (k : ℕ) (x : Fin n → ℝ) (u : Fin m → ℝ) : Prop :=
  nsq (x - Zs.x k) + (if k < N then nsq (u - Zs.u k) else 0) ≤ R

/-- Affine dynamics, augmented costs that are differentiable with the reported gradients and convex expansions; near the optimal
trajectory `Zs` the reported Hessians are bounded by `M` and the gradients follow them up to `L |δ|²`. -/
structure NewtonCore (p : DynProblem n m ℝ) (cs : ℕ → ALCost n m ℝ) (Zs : Traj (Fin n → ℝ) (Fin m → ℝ) ℝ) (μ M L R : ℝ) : Prop
    extends CoreBase p cs where
  low : ∀ k < p.N, ∀ c : ALCost n m ℝ, c.core = (cs k).core → ∀ x u δx δu, μ * nsq δu ≤ form (expOf c x u) δx δu
  up : ∀ k ≤ p.N, ∀ c : ALCost n m ℝ, c.core = (cs k).core → ∀ x u, NearKnot p.N Zs R k x u → ∀ δx δu,
    form (expOf c x u) δx δu ≤ M * (nsq δx + nsq δu)
  grad : ∀ k ≤ p.N, ∀ c : ALCost n m ℝ, c.core = (cs k).core → ∀ x u,
    IsGradAt (fun x u => (c.evaluate x u).1) (expOf c x u).dx (expOf c x u).du x u
  hess : ∀ k ≤ p.N, ∀ c : ALCost n m ℝ, c.core = (cs k).core → ∀ x u δx δu, NearKnot p.N Zs R k x u →
    NearKnot p.N Zs R k (x + δx) (u + δu) → (k = p.N → δu = 0) →
    nsq ((expOf c (x + δx) (u + δu)).dx - (expOf c x u).dx - ((expOf c x u).dxdx *ᵥ δx + (expOf c x u).dxdu *ᵥ δu))
      + nsq ((expOf c (x + δx) (u + δu)).du - (expOf c x u).du - ((expOf c x u).dxduᵀ *ᵥ δx + (expOf c x u).dudu *ᵥ δu))
      ≤ (L * (nsq δx + nsq δu)) ^ 2
  feas : DynFeasible (alKernel p) Zs
  best : Optimal p cs Zs

theorem NewtonCore.congr {p : DynProblem n m ℝ} {cs cs' : ℕ → ALCost n m ℝ} {Zs : Traj (Fin n → ℝ) (Fin m → ℝ) ℝ} {μ M L R : ℝ}
    (h : NewtonCore p cs Zs μ M L R) (e : ∀ k, (cs' k).core = (cs k).core) : NewtonCore p cs' Zs μ M L R where
  toCoreBase := h.toCoreBase.congr fun k _ => e k
  low k hk c hc := h.low k hk c (hc.trans (e k))
  up k hk c hc := h.up k hk c (hc.trans (e k))
  grad k hk c hc := h.grad k hk c (hc.trans (e k))
  hess k hk c hc := h.hess k hk c (hc.trans (e k))
  feas := h.feas
  best := optimal_core e h.best

/-! ## Remainders -/

theorem dot_sq_le {q : ℕ} (v w : Fin q → ℝ) : (v ⬝ᵥ w) ^ 2 ≤ nsq v * nsq w := by
  unfold nsq dotProduct
  have := Finset.sum_mul_sq_le_sq_mul_sq Finset.univ v w
  simpa [sq] using this

/-- Cauchy's inequality for pairs. -/
theorem pair_sq_le {a b : ℕ} (v v' : Fin a → ℝ) (w w' : Fin b → ℝ) :
    (v ⬝ᵥ v' + w ⬝ᵥ w') ^ 2 ≤ (nsq v + nsq w) * (nsq v' + nsq w') := by
  have h1 := dot_sq_le v v'
  have h2 := dot_sq_le w w'
  have n1 := nsq_nonneg v
  have n2 := nsq_nonneg v'
  have n3 := nsq_nonneg w
  have n4 := nsq_nonneg w'
  -- 2xy ≤ A B' + A' B with x² ≤ A A', y² ≤ B B'
  have h3 : (v ⬝ᵥ v' * (w ⬝ᵥ w')) ^ 2 ≤ (nsq v * nsq w') * (nsq w * nsq v') := by
    rw [mul_pow]
    calc (v ⬝ᵥ v') ^ 2 * (w ⬝ᵥ w') ^ 2 ≤ (nsq v * nsq v') * (nsq w * nsq w') :=
          mul_le_mul h1 h2 (sq_nonneg _) (mul_nonneg n1 n2)
      _ = _ := by ring
  have h4 : v ⬝ᵥ v' * (w ⬝ᵥ w') ≤ (nsq v * nsq w' + nsq w * nsq v') / 2 := by
    refine le_of_sq_le_sq ?_ (by positivity)
    have := sq_nonneg (nsq v * nsq w' - nsq w * nsq v')
    nlinarith
  nlinarith

theorem nsq_convex {q : ℕ} (v w : Fin q → ℝ) {t : ℝ} (h0 : 0 ≤ t) (h1 : t ≤ 1) :
    nsq (v + t • w) ≤ (1 - t) * nsq v + t * nsq (v + w) := by
  have h := nsq_nonneg w
  unfold nsq at *
  simp only [add_dotProduct, dotProduct_add, smul_dotProduct, dotProduct_smul, smul_eq_mul]
  rw [dotProduct_comm w v]
  nlinarith [mul_nonneg h0 (sub_nonneg.mpr h1)]

variable {p : DynProblem n m ℝ} {o : Opts ℝ} {fuel : ℕ} {μ M L R a C rb β : ℝ} {Zs : Traj (Fin n → ℝ) (Fin m → ℝ) ℝ}
  {cs : ℕ → ALCost n m ℝ} {s0 s s1 s' : St (Fin n → ℝ) (Fin m → ℝ) ℝ (ALCost n m ℝ) (KP n m ℝ)}

theorem NearKnot.segment {N k : ℕ} {x δx : Fin n → ℝ} {u δu : Fin m → ℝ} (h : NearKnot N Zs R k x u)
    (h' : NearKnot N Zs R k (x + δx) (u + δu)) {t : ℝ} (h0 : 0 ≤ t) (h1 : t ≤ 1) :
    NearKnot N Zs R k (x + t • δx) (u + t • δu) := by
  unfold NearKnot at *
  have e1 := nsq_convex (x - Zs.x k) δx h0 h1
  have e2 := nsq_convex (u - Zs.u k) δu h0 h1
  rw [show x - Zs.x k + t • δx = x + t • δx - Zs.x k by abel, show x - Zs.x k + δx = x + δx - Zs.x k by abel] at e1
  rw [show u - Zs.u k + t • δu = u + t • δu - Zs.u k by abel, show u - Zs.u k + δu = u + δu - Zs.u k by abel] at e2
  have m1 := mul_le_mul_of_nonneg_left h (sub_nonneg.mpr h1)
  have m2 := mul_le_mul_of_nonneg_left h' h0
  split_ifs at * with hk <;> linarith

/-- Second-order expansion of an augmented cost near the reference. -/
theorem NewtonCore.taylor (h : NewtonCore p cs Zs μ M L R) (hL : 0 ≤ L) {k : ℕ} (hk : k ≤ p.N) {x δx : Fin n → ℝ}
    {u δu : Fin m → ℝ} (h1 : NearKnot p.N Zs R k x u) (h2 : NearKnot p.N Zs R k (x + δx) (u + δu)) (h3 : k = p.N → δu = 0)
    {ε : ℝ} (hε : 0 ≤ ε) (hS : nsq δx + nsq δu ≤ ε ^ 2) :
    |((cs k).evaluate (x + δx) (u + δu)).1 - (((cs k).evaluate x u).1 + ((expOf (cs k) x u).dx ⬝ᵥ δx + (expOf (cs k) x u).du ⬝ᵥ δu)
      + 1 / 2 * form (expOf (cs k) x u) δx δu)| ≤ L * ε * (nsq δx + nsq δu) := by
  set e := expOf (cs k) x u with he
  set S := nsq δx + nsq δu with hSdef
  have hS0 : 0 ≤ S := add_nonneg (nsq_nonneg _) (nsq_nonneg _)
  set D := e.dx ⬝ᵥ δx + e.du ⬝ᵥ δu with hD
  set F := form e δx δu with hF
  let φ : ℝ → ℝ := fun t => ((cs k).evaluate (x + t • δx) (u + t • δu)).1 - t * D - t ^ 2 * (1 / 2 * F)
  let φ' : ℝ → ℝ := fun t => ((expOf (cs k) (x + t • δx) (u + t • δu)).dx ⬝ᵥ δx
    + (expOf (cs k) (x + t • δx) (u + t • δu)).du ⬝ᵥ δu) - D - t * F
  have hd : ∀ t : ℝ, HasDerivAt φ (φ' t) t := by
    intro t
    have hX : HasDerivAt (fun t : ℝ => x + t • δx) δx t := by
      simpa using ((hasDerivAt_id t).smul_const δx).const_add x
    have hU : HasDerivAt (fun t : ℝ => u + t • δu) δu t := by
      simpa using ((hasDerivAt_id t).smul_const δu).const_add u
    have hg := h.grad k hk (cs k) rfl (x + t • δx) (u + t • δu)
    have h4 : HasDerivAt (fun t : ℝ => ((cs k).evaluate (x + t • δx) (u + t • δu)).1)
        ((expOf (cs k) (x + t • δx) (u + t • δu)).dx ⬝ᵥ δx + (expOf (cs k) (x + t • δx) (u + t • δu)).du ⬝ᵥ δu) t :=
      HasFDerivAt.comp_hasDerivAt (f := fun t : ℝ => (x + t • δx, u + t • δu)) t hg (hX.prodMk hU)
    have h5 : HasDerivAt (fun t : ℝ => t * D) D t := by simpa using (hasDerivAt_id t).mul_const D
    have h6 : HasDerivAt (fun t : ℝ => t ^ 2 * (1 / 2 * F)) (t * F) t := by
      have := (hasDerivAt_pow 2 t).mul_const (1 / 2 * F)
      refine this.congr_deriv ?_
      push_cast
      ring
    exact (h4.sub h5).sub h6
  have hb : ∀ t ∈ Set.Ico (0 : ℝ) 1, ‖φ' t‖ ≤ L * ε * S := by
    rintro t ⟨t0, t1⟩
    have hr := h.hess k hk (cs k) rfl x u (t • δx) (t • δu) h1 (h1.segment h2 t0 t1.le) (fun e => by rw [h3 e, smul_zero])
    rw [← he] at hr
    set e' := expOf (cs k) (x + t • δx) (u + t • δu) with he'
    set Rx := e'.dx - e.dx - (e.dxdx *ᵥ (t • δx) + e.dxdu *ᵥ (t • δu)) with hRx
    set Ru := e'.du - e.du - (e.dxduᵀ *ᵥ (t • δx) + e.dudu *ᵥ (t • δu)) with hRu
    have e1 : φ' t = Rx ⬝ᵥ δx + Ru ⬝ᵥ δu := by
      show e'.dx ⬝ᵥ δx + e'.du ⬝ᵥ δu - D - t * F = _
      rw [hRx, hRu, hD, hF, ← bil_self]
      unfold bil
      simp only [mulVec_smul, sub_dotProduct, add_dotProduct, smul_dotProduct, smul_eq_mul]
      ring
    rw [Real.norm_eq_abs, e1]
    refine abs_le_of_sq_le_sq ?_ (by positivity)
    refine (pair_sq_le Rx δx Ru δu).trans ?_
    rw [nsq_smul, nsq_smul, ← mul_add] at hr
    have t2 : t ^ 2 ≤ 1 := by nlinarith
    have h7 : (L * (t ^ 2 * S)) ^ 2 ≤ (L * S) ^ 2 := by
      refine pow_le_pow_left₀ (by positivity) (mul_le_mul_of_nonneg_left ?_ hL) 2
      nlinarith
    calc (nsq Rx + nsq Ru) * S ≤ (L * S) ^ 2 * S := mul_le_mul_of_nonneg_right (hr.trans h7) hS0
      _ ≤ (L * S) ^ 2 * ε ^ 2 := mul_le_mul_of_nonneg_left hS (sq_nonneg _)
      _ = (L * ε * S) ^ 2 := by ring
  have := norm_image_sub_le_of_norm_deriv_le_segment_01' (f := φ) (f' := φ') (fun t _ => (hd t).hasDerivWithinAt) hb
  rw [Real.norm_eq_abs] at this
  have e0 : φ 0 = ((cs k).evaluate x u).1 := by
    show ((cs k).evaluate (x + (0 : ℝ) • δx) (u + (0 : ℝ) • δu)).1 - 0 * D - 0 ^ 2 * (1 / 2 * F) = _
    rw [zero_smul, zero_smul, add_zero, add_zero]; ring
  have e1 : φ 1 = ((cs k).evaluate (x + δx) (u + δu)).1 - D - 1 / 2 * F := by
    show ((cs k).evaluate (x + (1 : ℝ) • δx) (u + (1 : ℝ) • δu)).1 - 1 * D - 1 ^ 2 * (1 / 2 * F) = _
    rw [one_smul, one_smul]; ring
  rw [e0, e1] at this
  refine le_trans (le_of_eq ?_) this
  congr 1
  ring

/-! ## Stationarity -/

/-- At an optimal trajectory the cost does not change to first order along the dynamics. -/
theorem optimal_stationary (hc : CoreBase p cs)
    (hg : ∀ k ≤ p.N, ∀ x u, IsGradAt (fun x u => ((cs k).evaluate x u).1) (expOf (cs k) x u).dx (expOf (cs k) x u).du x u)
    {Y : Traj (Fin n → ℝ) (Fin m → ℝ) ℝ} (hY : DynFeasible (alKernel p) Y) (hopt : Optimal p cs Y) {η : ℕ → Fin n → ℝ}
    {ν : ℕ → Fin m → ℝ} (h0 : η 0 = 0) (hs : ∀ k < p.N, η (k + 1)
      = (p.jac k (Y.x k) (Y.u k) (Y.t k) (Y.h k)).1 *ᵥ η k + (p.jac k (Y.x k) (Y.u k) (Y.t k) (Y.h k)).2 *ᵥ ν k) :
    ∑ k ∈ Finset.range (p.N + 1), ((expOf (cs k) (Y.x k) (Y.u k)).dx ⬝ᵥ η k + (expOf (cs k) (Y.x k) (Y.u k)).du ⬝ᵥ ν k) = 0 := by
  let Yt : ℝ → Traj (Fin n → ℝ) (Fin m → ℝ) ℝ := fun t => ⟨fun k => Y.x k + t • η k, fun k => Y.u k + t • ν k, Y.t, Y.h⟩
  have halt : ∀ t, Alternative p Y (Yt t) := fun t =>
    ⟨by show Y.x 0 + t • η 0 = _; rw [h0, smul_zero, add_zero]; exact hY.init, fun k hk => by
      show Y.x (k + 1) + t • η (k + 1) = p.f k (Y.x k + t • η k) (Y.u k + t • ν k) (Y.t k) (Y.h k)
      rw [hc.dyn k hk, hs k hk, show Y.x (k + 1) = p.f k (Y.x k) (Y.u k) (Y.t k) (Y.h k) from hY.step k hk, mulVec_smul,
        mulVec_smul, smul_add, add_assoc]⟩
  have hd : HasDerivAt (fun t => trajCost p cs (Yt t))
      (∑ k ∈ Finset.range (p.N + 1), ((expOf (cs k) (Y.x k) (Y.u k)).dx ⬝ᵥ η k + (expOf (cs k) (Y.x k) (Y.u k)).du ⬝ᵥ ν k)) 0 := by
    refine HasDerivAt.fun_sum fun k hk => ?_
    have hk : k ≤ p.N := by have := Finset.mem_range.mp hk; omega
    refine (hg k hk (Y.x k) (Y.u k)).along (X := fun t => Y.x k + t • η k) (U := fun t => Y.u k + t • ν k) ?_ ?_ ?_ ?_
    · simpa using ((hasDerivAt_id (0 : ℝ)).smul_const (η k)).const_add (Y.x k)
    · simpa using ((hasDerivAt_id (0 : ℝ)).smul_const (ν k)).const_add (Y.u k)
    · simp
    · simp
  refine IsLocalMin.hasDerivAt_eq_zero (Filter.Eventually.of_forall fun t => ?_) hd
  show trajCost p cs (Yt 0) ≤ trajCost p cs (Yt t)
  have e : trajCost p cs (Yt 0) = trajCost p cs Y := by
    refine trajCost_congr p _ _ _ _ (fun _ => rfl) (fun k _ => ?_) fun k _ => ?_
    · show Y.x k + (0 : ℝ) • η k = _; rw [zero_smul, add_zero]
    · show Y.u k + (0 : ℝ) • ν k = _; rw [zero_smul, add_zero]
  rw [e]
  exact hopt _ (halt t)

/-- The policy vanishes at every optimum. -/
theorem NewtonCore.still (h : NewtonCore p cs Zs μ M L R) : CoreConv p cs where
  toCoreBase := h.toCoreBase
  still q e hZ hb r rho hr := by
    refine hr.ff_iff_grad.mpr fun k hk => ?_
    set kd := (updateExpansions (alKernel p) q).kd with hkd
    set v := upd (fun _ => (0 : Fin m → ℝ)) k (Altro.grad kd p.N k) with hv
    have hvN : v p.N = 0 := upd_of_ne (by omega)
    have h1 := optimal_stationary (h.congr e).toCoreBase (fun k hk => (h.congr e).grad k hk _ rfl) hZ hb (η := response kd v)
      (ν := v) rfl (fun k hk => by
        obtain ⟨-, e2, e3⟩ := expansion_core p q k hk.le
        rw [← e2, ← e3]; rfl)
    have h2 : ∑ k ∈ Finset.range (p.N + 1), ((kd k).cost.dx ⬝ᵥ response kd v k + (kd k).cost.du ⬝ᵥ v k) = 0 := by
      rw [← h1]
      refine Finset.sum_congr rfl fun k hk => ?_
      rw [(expansion_core p q k (by have := Finset.mem_range.mp hk; omega)).1]
    rw [adjoint_sum p.N kd (adj kd p.N) (response kd v) v (adj_N kd p.N) rfl hvN (fun k _ => rfl)] at h2
    have h3 : ∑ k ∈ Finset.range p.N, Altro.grad kd p.N k ⬝ᵥ v k = 0 := by
      rw [← h2]
      refine Finset.sum_congr rfl fun k hk => ?_
      rw [← adj_step kd (Finset.mem_range.mp hk), add_sub_cancel_left]
      rfl
    rw [Finset.sum_eq_single k (fun j _ hj => by rw [hv, upd_of_ne hj, dotProduct_zero])
      (fun hn => absurd (Finset.mem_range.mpr hk) hn), hv, upd_self] at h3
    exact dotProduct_self_eq_zero.mp h3

end Altro.Props
