import Verif.Spec.Descent
import Verif.Proofs.Sweep
import Verif.Proofs.Calculus
import Mathlib.LinearAlgebra.Matrix.DotProduct
import Mathlib.Analysis.Calculus.Deriv.Prod
import Mathlib.Analysis.Calculus.Deriv.Add
import Mathlib.Analysis.Calculus.Deriv.Mul
import Mathlib.Analysis.Calculus.Deriv.Pi
import Mathlib.Analysis.Calculus.FDeriv.Const

/-!
# Derivatives along families of trajectories
-/

namespace Altro
open Spec Matrix
variable {n m : ℕ}

theorem Spec.IsGradAt.along {f : (Fin n → ℝ) → (Fin m → ℝ) → ℝ} {gx gu x u} (h : IsGradAt f gx gu x u)
    {X : ℝ → Fin n → ℝ} {U : ℝ → Fin m → ℝ} {ξ ω} (hX : HasDerivAt X ξ 0) (hU : HasDerivAt U ω 0) (hx : X 0 = x)
    (hu : U 0 = u) : HasDerivAt (fun ε => f (X ε) (U ε)) (gx ⬝ᵥ ξ + gu ⬝ᵥ ω) 0 := by
  have h' : HasFDerivAt (fun z : Z n m => f z.1 z.2) (gradCLM gx gu) (X 0, U 0) := by rw [hx, hu]; exact h
  exact h'.comp_hasDerivAt (0 : ℝ) (hX.prodMk hU)

theorem Spec.IsJacAt.along {q : ℕ} {f : (Fin n → ℝ) → (Fin m → ℝ) → Fin q → ℝ} {A : Matrix (Fin q) (Fin n) ℝ}
    {B : Matrix (Fin q) (Fin m) ℝ} {x u} (h : IsJacAt f (fromCols A B) x u)
    {X : ℝ → Fin n → ℝ} {U : ℝ → Fin m → ℝ} {ξ ω} (hX : HasDerivAt X ξ 0) (hU : HasDerivAt U ω 0) (hx : X 0 = x)
    (hu : U 0 = u) : HasDerivAt (fun ε => f (X ε) (U ε)) (A *ᵥ ξ + B *ᵥ ω) 0 := by
  rw [hasDerivAt_pi]
  intro i
  exact (h i).along hX hU hx hu

/-- A differentiable family of trajectories through `Z`, with the derivatives at `0`. -/
structure Fam (p : DynProblem n m ℝ) (Z : Traj (Fin n → ℝ) (Fin m → ℝ) ℝ) (X : ℕ → ℝ → Fin n → ℝ)
    (U : ℕ → ℝ → Fin m → ℝ) (ξ : ℕ → Fin n → ℝ) (ω : ℕ → Fin m → ℝ) : Prop where
  x0 : ∀ k ≤ p.N, X k 0 = Z.x k
  u0 : ∀ k ≤ p.N, U k 0 = Z.u k
  dx : ∀ k ≤ p.N, HasDerivAt (X k) (ξ k) 0
  du : ∀ k ≤ p.N, HasDerivAt (U k) (ω k) 0

theorem Fam.cost {p : DynProblem n m ℝ} {ℓ : ℕ → (Fin n → ℝ) → (Fin m → ℝ) → ℝ}
    {Z : Traj (Fin n → ℝ) (Fin m → ℝ) ℝ} {kd : ℕ → KP n m ℝ} {X U ξ ω} (hF : FirstOrderOf p ℓ Z kd)
    (h : Fam p Z X U ξ ω) :
    HasDerivAt (fun ε => ∑ k ∈ Finset.range (p.N + 1), ℓ k (X k ε) (U k ε))
      (∑ k ∈ Finset.range (p.N + 1), ((kd k).cost.dx ⬝ᵥ ξ k + (kd k).cost.du ⬝ᵥ ω k)) 0 := by
  refine HasDerivAt.fun_sum fun k hk => ?_
  have hk : k ≤ p.N := by have := Finset.mem_range.mp hk; omega
  exact (hF.cost k hk).along (h.dx k hk) (h.du k hk) (h.x0 k hk) (h.u0 k hk)

/-- Summation by parts with any sequence `s` that ends in the gradient of the last cost. -/
theorem adjoint_sum {K : Type} [Field K] [LinearOrder K] (N : ℕ) (kd : ℕ → KP n m K) (s ξ : ℕ → Fin n → K) (ω : ℕ → Fin m → K)
    (hs : s N = (kd N).cost.dx) (h0 : ξ 0 = 0) (hN : ω N = 0)
    (hξ : ∀ k < N, ξ (k + 1) = (kd k).A *ᵥ ξ k + (kd k).B *ᵥ ω k) :
    ∑ k ∈ Finset.range (N + 1), ((kd k).cost.dx ⬝ᵥ ξ k + (kd k).cost.du ⬝ᵥ ω k)
      = ∑ k ∈ Finset.range N, (((kd k).cost.dx + (kd k).Aᵀ *ᵥ s (k + 1)) ⬝ᵥ ξ k
          + ((kd k).cost.du + (kd k).Bᵀ *ᵥ s (k + 1)) ⬝ᵥ ω k - s k ⬝ᵥ ξ k) := by
  have hj : ∀ j ≤ N, ∑ k ∈ Finset.range j, ((kd k).cost.dx ⬝ᵥ ξ k + (kd k).cost.du ⬝ᵥ ω k) + s j ⬝ᵥ ξ j
      = ∑ k ∈ Finset.range j, (((kd k).cost.dx + (kd k).Aᵀ *ᵥ s (k + 1)) ⬝ᵥ ξ k
          + ((kd k).cost.du + (kd k).Bᵀ *ᵥ s (k + 1)) ⬝ᵥ ω k - s k ⬝ᵥ ξ k) := by
    intro j hj
    induction j with
    | zero => simp [h0]
    | succ j ih =>
      rw [Finset.sum_range_succ, Finset.sum_range_succ, ← ih (by omega), hξ j (by omega)]
      simp only [add_dotProduct, dotProduct_add, t_dot]
      ring
  rw [Finset.sum_range_succ, hN, dotProduct_zero, add_zero, ← hs]
  exact hj N le_rfl

end Altro

namespace Altro
open Spec Matrix ILQR Props
section field
variable {K : Type} [Field K] [LinearOrder K] [IsStrictOrderedRing K] {n m : ℕ}

/-- What a successful sweep with regularization `rho` leaves in `r`, for expansions `kd` with symmetric Hessian blocks. -/
structure Swept (N : ℕ) (kd r : ℕ → KP n m K) (rho : K) : Prop where
  term : (r N).Sx = (kd N).cost.dx ∧ (r N).Sxx = (kd N).cost.dxdx
  symN : (kd N).cost.dxdx.IsSymm
  symx : ∀ k < N, (kd k).cost.dxdx.IsSymm
  symu : ∀ k < N, (kd k).cost.dudu.IsSymm
  step : ∀ k < N, StepOk (kd k) (r (k + 1)) (r k) rho

/-- Downward induction from `N`. -/
theorem down_induct {N : ℕ} {P : ℕ → Prop} (hN : P N) (hs : ∀ k < N, P (k + 1) → P k) : ∀ k ≤ N, P k := by
  have : ∀ j, j ≤ N → P (N - j) := by
    intro j
    induction j with
    | zero => intro _; exact hN
    | succ j ih =>
      intro hj
      refine hs _ (by omega) ?_
      rw [show N - (j + 1) + 1 = N - j by omega]
      exact ih (by omega)
  intro k hk
  have := this (N - k) (by omega)
  rwa [show N - (N - k) = k by omega] at this

theorem Swept.Sxx_symm {N : ℕ} {kd r : ℕ → KP n m K} {rho : K} (h : Swept N kd r rho) : ∀ k ≤ N, (r k).Sxx.IsSymm :=
  down_induct (by rw [h.term.2]; exact h.symN) fun k hk ih => (h.step k hk).Sxx_symm (h.symx k hk) (h.symu k hk) ih

theorem StepOk.Sx {d nxt r : KP n m K} {rho : K} (h : StepOk d nxt r rho) :
    r.Sx = r.q.dx + (r.gainᵀ * r.q.dudu) *ᵥ r.ff + r.gainᵀ *ᵥ r.q.du + r.q.dxdu *ᵥ r.ff := by
  rw [h.eq]; rfl

theorem StepOk.qdx {d nxt r : KP n m K} {rho : K} (h : StepOk d nxt r rho) :
    r.q.dx = d.cost.dx + d.Aᵀ *ᵥ nxt.Sx ∧ r.q.du = d.cost.du + d.Bᵀ *ᵥ nxt.Sx := by
  rw [h.q]; exact ⟨rfl, rfl⟩

theorem Swept.eqs {N : ℕ} {kd r : ℕ → KP n m K} {rho : K} (h : Swept N kd r rho) {k : ℕ} (hk : k < N) :
    PosDef ((r k).q.dudu + rho • (1 : Matrix (Fin m) (Fin m) K)) ∧
    (∀ δx, ((r k).q.dudu + rho • (1 : Matrix (Fin m) (Fin m) K)) *ᵥ ((r k).gain *ᵥ δx) = -((r k).q.dxduᵀ *ᵥ δx)) ∧
    ((r k).q.dudu + rho • (1 : Matrix (Fin m) (Fin m) K)) *ᵥ (r k).ff = -(r k).q.du :=
  (h.step k hk).eqs (h.symx k hk) (h.symu k hk) (h.Sxx_symm (k + 1) hk)

/-- The feedforward term vanishes exactly when the gradient of the action value does. -/
theorem Swept.ff_zero_iff {N : ℕ} {kd r : ℕ → KP n m K} {rho : K} (h : Swept N kd r rho) {k : ℕ} (hk : k < N) :
    (r k).ff = 0 ↔ (r k).q.du = 0 := by
  obtain ⟨e1, -, e3⟩ := h.eqs hk
  constructor
  · intro h0; rw [h0, mulVec_zero] at e3; rw [← neg_eq_zero, ← e3]
  · intro h0
    by_contra hne
    have := e1 _ hne
    rw [e3, h0, neg_zero, dotProduct_zero] at this
    exact lt_irrefl _ this

/-- The costate: the gradient of the total cost with respect to the state of each knot point. -/
def costate (kd : ℕ → KP n m K) (N : ℕ) : ℕ → Fin n → K
  | 0 => (kd N).cost.dx
  | j + 1 => (kd (N - (j + 1))).cost.dx + (kd (N - (j + 1))).Aᵀ *ᵥ costate kd N j

/-- The costate at knot point `k`. -/
def adj (kd : ℕ → KP n m K) (N k : ℕ) : Fin n → K := costate kd N (N - k)

theorem adj_N (kd : ℕ → KP n m K) (N : ℕ) : adj kd N N = (kd N).cost.dx := by
  unfold adj; rw [Nat.sub_self]; rfl

theorem adj_step (kd : ℕ → KP n m K) {N k : ℕ} (hk : k < N) :
    adj kd N k = (kd k).cost.dx + (kd k).Aᵀ *ᵥ adj kd N (k + 1) := by
  unfold adj
  obtain ⟨j, hj⟩ : ∃ j, N - k = j + 1 := ⟨N - k - 1, by omega⟩
  rw [hj, show N - (k + 1) = j by omega]
  show (kd (N - (j + 1))).cost.dx + (kd (N - (j + 1))).Aᵀ *ᵥ costate kd N j = _
  rw [show N - (j + 1) = k by omega]

/-- The gradient of the total cost with respect to the control of knot point `k`. -/
def grad (kd : ℕ → KP n m K) (N k : ℕ) : Fin m → K := (kd k).cost.du + (kd k).Bᵀ *ᵥ adj kd N (k + 1)

/-- All feedforward terms vanish exactly when the gradient does. -/
theorem Swept.ff_iff_grad {N : ℕ} {kd r : ℕ → KP n m K} {rho : K} (h : Swept N kd r rho) :
    (∀ k < N, (r k).ff = 0) ↔ ∀ k < N, grad kd N k = 0 := by
  have key : ∀ k < N, (r (k + 1)).Sx = adj kd N (k + 1) → (r k).q.du = grad kd N k := by
    intro k hk e
    rw [(h.step k hk).qdx.2, e]; rfl
  have stepx : ∀ k < N, (r k).ff = 0 → (r (k + 1)).Sx = adj kd N (k + 1) → (r k).Sx = adj kd N k := by
    intro k hk h0 e
    have hq := (h.ff_zero_iff hk).mp h0
    rw [(h.step k hk).Sx, h0, hq, (h.step k hk).qdx.1, e, adj_step kd hk]
    simp
  have hN : (r N).Sx = adj kd N N := by rw [adj_N, h.term.1]
  constructor
  · intro hff
    have hS := down_induct (P := fun k => (r k).Sx = adj kd N k) hN (fun k hk e => stepx k hk (hff k hk) e)
    intro k hk
    rw [← key k hk (hS (k + 1) hk)]
    exact (h.ff_zero_iff hk).mp (hff k hk)
  · intro hg
    have hS := down_induct (P := fun k => (r k).Sx = adj kd N k) hN (fun k hk e => by
      refine stepx k hk ((h.ff_zero_iff hk).mpr ?_) e
      rw [key k hk e, hg k hk])
    intro k hk
    exact (h.ff_zero_iff hk).mpr (by rw [key k hk (hS (k + 1) hk), hg k hk])

end field

variable {n m : ℕ} {p : DynProblem n m ℝ} {cs : ℕ → ALCost n m ℝ} {Z : Traj (Fin n → ℝ) (Fin m → ℝ) ℝ}
  {kd r : ℕ → KP n m ℝ} {ℓ : ℕ → (Fin n → ℝ) → (Fin m → ℝ) → ℝ}

/-- Linear response of the states to changes `v` of the controls. -/
noncomputable def response (kd : ℕ → KP n m ℝ) (v : ℕ → Fin m → ℝ) : ℕ → Fin n → ℝ
  | 0 => 0
  | k + 1 => (kd k).A *ᵥ response kd v k + (kd k).B *ᵥ v k

theorem openLoop_self (hZ : DynFeasible (alKernel p) Z) : ∀ k ≤ p.N, openLoop p Z Z.u k = Z.x k := by
  intro k hk
  induction k with
  | zero => exact hZ.init.symm
  | succ k ih =>
    show p.f k (openLoop p Z Z.u k) (Z.u k) (Z.t k) (Z.h k) = _
    rw [ih (by omega)]
    exact (hZ.step k hk).symm

/-- The total cost as a function of the controls is differentiable along every direction, and `grad` is its gradient. -/
theorem controlCost_deriv (hF : FirstOrderOf p ℓ Z kd) (hZ : DynFeasible (alKernel p) Z) (v : ℕ → Fin m → ℝ)
    (hv : v p.N = 0) :
    HasDerivAt (fun ε : ℝ => controlCostOf p ℓ Z fun k => Z.u k + ε • v k)
      (∑ k ∈ Finset.range p.N, grad kd p.N k ⬝ᵥ v k) 0 := by
  have hU : ∀ k, HasDerivAt (fun ε : ℝ => Z.u k + ε • v k) (v k) 0 := fun k => by
    simpa using ((hasDerivAt_id (0 : ℝ)).smul_const (v k)).const_add (Z.u k)
  have hU0 : ∀ k, Z.u k + (0 : ℝ) • v k = Z.u k := fun k => by rw [zero_smul, add_zero]
  have hX0 : ∀ k ≤ p.N, openLoop p Z (fun k => Z.u k + (0 : ℝ) • v k) k = Z.x k := fun k hk => by
    simp only [hU0]; exact openLoop_self hZ k hk
  have hX : ∀ k ≤ p.N, HasDerivAt (fun ε : ℝ => openLoop p Z (fun k => Z.u k + ε • v k) k) (response kd v k) 0 := by
    intro k hk
    induction k with
    | zero => exact hasDerivAt_const _ _
    | succ k ih =>
      exact (hF.dyn k hk).along (ih (by omega)) (hU k) (hX0 k (by omega)) (hU0 k)
  have hfam : Fam p Z (fun k ε => openLoop p Z (fun k => Z.u k + ε • v k) k) (fun k ε => Z.u k + ε • v k)
      (response kd v) v := ⟨hX0, fun k _ => hU0 k, hX, fun k _ => hU k⟩
  have := hfam.cost hF
  rw [adjoint_sum p.N kd (adj kd p.N) (response kd v) v (adj_N kd p.N) rfl hv (fun k _ => rfl)] at this
  refine this.congr_deriv (Finset.sum_congr rfl fun k hk => ?_)
  rw [← adj_step kd (Finset.mem_range.mp hk), add_sub_cancel_left]
  rfl

theorem stationary_iff_grad (hF : FirstOrderOf p ℓ Z kd) (hZ : DynFeasible (alKernel p) Z) :
    StationaryOf p ℓ Z ↔ ∀ k < p.N, grad kd p.N k = 0 := by
  constructor
  · intro h k hk
    have hv : upd (fun _ => (0 : Fin m → ℝ)) k (grad kd p.N k) p.N = 0 := upd_of_ne (by omega)
    have h1 := (controlCost_deriv hF hZ _ hv).unique (h _ hv)
    rw [Finset.sum_eq_single k (fun j _ hj => by rw [upd_of_ne hj, dotProduct_zero])
      (fun hn => absurd (Finset.mem_range.mpr hk) hn), upd_self] at h1
    exact dotProduct_self_eq_zero.mp h1
  · intro h v hv
    refine (controlCost_deriv hF hZ v hv).congr_deriv (Finset.sum_eq_zero fun k hk => ?_)
    rw [h k (Finset.mem_range.mp hk), zero_dotProduct]

/-! ## The candidate trajectories of the line search -/

/-- Linear response of the closed loop. -/
noncomputable def closedResponse (kd r : ℕ → KP n m ℝ) : ℕ → Fin n → ℝ
  | 0 => 0
  | k + 1 => (kd k).A *ᵥ closedResponse kd r k + (kd k).B *ᵥ ((r k).gain *ᵥ closedResponse kd r k + (r k).ff)

/-- ... and of its controls. -/
noncomputable def closedControl (N : ℕ) (kd r : ℕ → KP n m ℝ) (k : ℕ) : Fin m → ℝ :=
  if k < N then (r k).gain *ᵥ closedResponse kd r k + (r k).ff else 0

theorem candidate_zero (hZ : DynFeasible (alKernel p) Z) {Zbar : Traj (Fin n → ℝ) (Fin m → ℝ) ℝ}
    (ht : SameTimes (alKernel p) Zbar Z) :
    ∀ k ≤ p.N, candidate (alKernel p) r Z Zbar.t Zbar.h 0 k = Z.x k ∧
      (k < p.N → candidateU (alKernel p) r Z Zbar.t Zbar.h 0 k = Z.u k) := by
  have hu : ∀ k, candidate (alKernel p) r Z Zbar.t Zbar.h 0 k = Z.x k →
      candidateU (alKernel p) r Z Zbar.t Zbar.h 0 k = Z.u k := by
    intro k hk
    show Z.u k + (r k).gain *ᵥ (candidate (alKernel p) r Z Zbar.t Zbar.h 0 k - Z.x k) + (0 : ℝ) • (r k).ff = _
    rw [hk, sub_self, mulVec_zero, zero_smul, add_zero, add_zero]
  intro k hk
  induction k with
  | zero => exact ⟨hZ.init.symm, fun _ => hu 0 hZ.init.symm⟩
  | succ k ih =>
    obtain ⟨i1, i2⟩ := ih (by omega)
    have e : candidate (alKernel p) r Z Zbar.t Zbar.h 0 (k + 1) = Z.x (k + 1) := by
      show p.f k (candidate (alKernel p) r Z Zbar.t Zbar.h 0 k) (candidateU (alKernel p) r Z Zbar.t Zbar.h 0 k)
        (Zbar.t k) (Zbar.h k) = _
      rw [i1, i2 (by omega), ht.t k (Nat.le_of_lt hk), ht.h k hk]
      exact (hZ.step k hk).symm
    exact ⟨e, fun _ => hu _ e⟩

theorem candidate_deriv (hF : FirstOrderOf p ℓ Z kd) (hZ : DynFeasible (alKernel p) Z)
    {Zbar : Traj (Fin n → ℝ) (Fin m → ℝ) ℝ} (ht : SameTimes (alKernel p) Zbar Z) :
    ∀ k ≤ p.N, HasDerivAt (fun α : ℝ => candidate (alKernel p) r Z Zbar.t Zbar.h α k) (closedResponse kd r k) 0 ∧
      HasDerivAt (fun α : ℝ => candidateU (alKernel p) r Z Zbar.t Zbar.h α k)
        ((r k).gain *ᵥ closedResponse kd r k + (r k).ff) 0 := by
  have hu : ∀ k, HasDerivAt (fun α : ℝ => candidate (alKernel p) r Z Zbar.t Zbar.h α k) (closedResponse kd r k) 0 →
      HasDerivAt (fun α : ℝ => candidateU (alKernel p) r Z Zbar.t Zbar.h α k)
        ((r k).gain *ᵥ closedResponse kd r k + (r k).ff) 0 := by
    intro k hk
    have h1 : HasDerivAt (fun α : ℝ => (r k).gain *ᵥ (candidate (alKernel p) r Z Zbar.t Zbar.h α k - Z.x k))
        ((r k).gain *ᵥ closedResponse kd r k) 0 := by
      have := (LinearMap.toContinuousLinearMap (Matrix.mulVecLin (r k).gain)).hasFDerivAt.comp_hasDerivAt (0 : ℝ)
        (hk.sub_const (Z.x k))
      exact this
    have h2 : HasDerivAt (fun α : ℝ => α • (r k).ff) (r k).ff 0 := by
      simpa using (hasDerivAt_id (0 : ℝ)).smul_const (r k).ff
    exact (h1.const_add (Z.u k)).add h2
  intro k hk
  induction k with
  | zero => exact ⟨hasDerivAt_const _ _, hu 0 (hasDerivAt_const _ _)⟩
  | succ k ih =>
    obtain ⟨i1, i2⟩ := ih (by omega)
    have h0 := candidate_zero (r := r) hZ ht k (by omega)
    have hd := (hF.dyn k hk).along i1 i2 h0.1 (h0.2 hk)
    have e : HasDerivAt (fun α : ℝ => candidate (alKernel p) r Z Zbar.t Zbar.h α (k + 1))
        (closedResponse kd r (k + 1)) 0 := by
      have hf : (fun α : ℝ => candidate (alKernel p) r Z Zbar.t Zbar.h α (k + 1)) = fun α =>
          p.f k (candidate (alKernel p) r Z Zbar.t Zbar.h α k) (candidateU (alKernel p) r Z Zbar.t Zbar.h α k)
            (Z.t k) (Z.h k) := by
        funext α
        show p.f k _ _ (Zbar.t k) (Zbar.h k) = _
        rw [ht.t k (Nat.le_of_lt hk), ht.h k hk]
        rfl
      rw [hf]
      exact hd
    exact ⟨e, hu _ e⟩

end Altro

namespace Altro
open Spec Matrix ILQR Props
section last
variable {K : Type} [Field K] [LinearOrder K] [IsStrictOrderedRing K] {n m : ℕ} (p : DynProblem n m K)

/-- Same expansions of cost and dynamics (what a sweep reads but does not write). -/
def SameInput (d d' : KP n m K) : Prop := d.cost = d'.cost ∧ d.A = d'.A ∧ d.B = d'.B

theorem bpSweep_input (rho : K) (N : ℕ) (kd : ℕ → KP n m K) (dV : K × K) :
    (∀ j, SameInput ((bpSweep (alKernel p) rho N kd dV).1.1 j) (kd j)) ∧
    ∀ j, N ≤ j → (bpSweep (alKernel p) rho N kd dV).1.1 j = kd j := by
  induction N generalizing kd dV with
  | zero => exact ⟨fun _ => ⟨rfl, rfl, rfl⟩, fun _ _ => rfl⟩
  | succ N ih =>
    have hg : ∀ d : KP n m K, SameInput d.gains.1 d := fun d => ⟨(gains_frame d).2.2.1, (gains_frame d).2.2.2⟩
    have hbase : ∀ (e : KP n m K), SameInput e (kd N) → ∀ j, SameInput (upd kd N e j) (kd j) := fun e he j => by
      by_cases hj : j = N
      · subst hj; rw [upd_self]; exact he
      · rw [upd_of_ne hj]; exact ⟨rfl, rfl, rfl⟩
    unfold bpSweep
    extract_lets g d
    have hg1 : SameInput g.1 (kd N) := hg (((kd N).actionValue (kd (N + 1))).regularize rho)
    split
    · obtain ⟨i1, i2⟩ := ih (upd kd N d) (dV.1 + ((alKernel p).delta d).1, dV.2 + ((alKernel p).delta d).2)
      have hd : SameInput d (kd N) := hg1
      refine ⟨fun j => ?_, fun j hj => ?_⟩
      · obtain ⟨a, b, c⟩ := i1 j
        obtain ⟨a', b', c'⟩ := hbase d hd j
        exact ⟨a.trans a', b.trans b', c.trans c'⟩
      · rw [i2 j (by omega), upd_of_ne (by omega)]
    · exact ⟨hbase _ hg1, fun j hj => upd_of_ne (by omega)⟩

/-- A successful step overwrites everything except the expansions. -/
theorem StepOk.input {d d' nxt r : KP n m K} {rho : K} (h : StepOk d nxt r rho) (hd : SameInput d d') :
    StepOk d' nxt r rho := by
  obtain ⟨h1, h2, h3⟩ := hd
  cases d; cases d'
  dsimp only at h1 h2 h3
  subst h1 h2 h3
  rename_i co A B q1 qr1 g1 f1 Sxx1 Sx1 de1 q2 qr2 g2 f2 Sxx2 Sx2 de2
  have hok : lltOk m (co.dudu + Bᵀ * nxt.Sxx * B + rho • (1 : Matrix (Fin m) (Fin m) K)) = true := by
    have := h.ok
    unfold KP.gains at this
    by_contra hn
    rw [if_neg (show ¬ lltOk m (KP.regularize rho
      (KP.actionValue ⟨co, A, B, q1, qr1, g1, f1, Sxx1, Sx1, de1⟩ nxt)).qreg.dudu = true from hn)] at this
    cases this
  refine ⟨?_, ?_⟩
  · unfold KP.gains
    exact (congrArg Prod.snd (if_pos (show lltOk m (KP.regularize rho
      (KP.actionValue ⟨co, A, B, q2, qr2, g2, f2, Sxx2, Sx2, de2⟩ nxt)).qreg.dudu = true from hok)))
  · rw [h.eq]
    unfold KP.gains
    rw [if_pos (show lltOk m (KP.regularize rho
        (KP.actionValue ⟨co, A, B, q2, qr2, g2, f2, Sxx2, Sx2, de2⟩ nxt)).qreg.dudu = true from hok),
      if_pos (show lltOk m (KP.regularize rho
        (KP.actionValue ⟨co, A, B, q1, qr1, g1, f1, Sxx1, Sx1, de1⟩ nxt)).qreg.dudu = true from hok)]
    rfl

/-- A backward pass that does not give up ends with a successful sweep over the expansions it was given, with the
regularization of that moment. -/
theorem bpLoop_last (o : Opts K) (fuel : ℕ) : ∀ (count : ℕ)
    (s s' : St (Fin n → K) (Fin m → K) K (ALCost n m K) (KP n m K)),
    bpLoop (alKernel p) o fuel count s = some s' → s'.status ≠ .kBackwardPassRegularizationFailed →
    ∃ (kd0 : ℕ → KP n m K) (dV : K × K), (∀ j, SameInput (kd0 j) (s.kd j)) ∧ kd0 p.N = s.kd p.N ∧
      (bpSweep (alKernel p) s'.rho p.N kd0 dV).2 = true ∧
      s'.kd = (bpSweep (alKernel p) s'.rho p.N kd0 dV).1.1 := by
  induction fuel with
  | zero => intro count s s' h; simp [bpLoop] at h
  | succ fuel ih =>
    intro count s s' h hst
    have hin := bpSweep_input p s.rho p.N s.kd (s.dV0, s.dV1)
    unfold bpLoop at h
    extract_lets r s1 s2 count' at h
    have hr : r = bpSweep (alKernel p) s.rho p.N s.kd (s.dV0, s.dV1) := rfl
    have hrec : ∀ (c : ℕ) (t : St (Fin n → K) (Fin m → K) K (ALCost n m K) (KP n m K)), t.kd = r.1.1 →
        bpLoop (alKernel p) o fuel c t = some s' →
        ∃ (kd0 : ℕ → KP n m K) (dV : K × K), (∀ j, SameInput (kd0 j) (s.kd j)) ∧ kd0 p.N = s.kd p.N ∧
          (bpSweep (alKernel p) s'.rho p.N kd0 dV).2 = true ∧
          s'.kd = (bpSweep (alKernel p) s'.rho p.N kd0 dV).1.1 := by
      intro c t ht hb
      obtain ⟨kd0, dV, a, b, c, d⟩ := ih c t s' hb hst
      rw [ht] at b
      refine ⟨kd0, dV, fun j => ?_, b.trans (hin.2 _ le_rfl), c, d⟩
      obtain ⟨a1, a2, a3⟩ := a j
      rw [ht] at a1 a2 a3
      obtain ⟨b1, b2, b3⟩ := hin.1 j
      exact ⟨a1.trans b1, a2.trans b2, a3.trans b3⟩
    by_cases hr2 : r.2 = true
    · rw [if_pos hr2] at h
      by_cases hN : (alKernel p).N = 0
      · rw [if_pos hN] at h
        exact hrec _ s1 rfl h
      · rw [if_neg hN] at h
        injection h with h
        subst h
        exact ⟨s.kd, (s.dV0, s.dV1), fun _ => ⟨rfl, rfl, rfl⟩, rfl, hr2, rfl⟩
    · rw [if_neg hr2] at h
      split at h
      · injection h with h
        exact absurd (by rw [← h]) hst
      · exact hrec _ s2 rfl h

/-- What a backward pass that does not give up leaves behind. -/
theorem backwardPass_swept (o : Opts K) (fuel : ℕ)
    (s s1 : St (Fin n → K) (Fin m → K) K (ALCost n m K) (KP n m K))
    (hsx : ∀ k ≤ p.N, (s.kd k).cost.dxdx.IsSymm) (hsu : ∀ k < p.N, (s.kd k).cost.dudu.IsSymm)
    (hb : backwardPass (alKernel p) o fuel s = some s1)
    (hst : s1.status ≠ .kBackwardPassRegularizationFailed) :
    ∃ rho, Swept p.N s.kd s1.kd rho := by
  unfold backwardPass at hb
  cases hl : bpLoop (alKernel p) o fuel 0
      { s with kd := upd s.kd (alKernel p).N ((alKernel p).term (s.kd (alKernel p).N)), dV0 := 0, dV1 := 0 } with
  | none => rw [hl] at hb; cases hb
  | some t =>
    rw [hl] at hb
    injection hb with hb
    have hkd : s1.kd = t.kd := by rw [← hb]; rfl
    have hst' : t.status = s1.status := by rw [← hb]; rfl
    obtain ⟨kd0, dV, a, b, c, d⟩ := bpLoop_last p o fuel 0 _ _ hl (by rw [hst']; exact hst)
    obtain ⟨i1, i2, -, -⟩ := bpSweep_spec (alKernel p) t.rho p.N kd0 dV c
    have hin : ∀ j, SameInput (kd0 j) (s.kd j) := fun j => by
      obtain ⟨a1, a2, a3⟩ := a j
      by_cases hj : j = p.N
      · subst hj
        dsimp only at a1 a2 a3
        rw [show (alKernel p).N = p.N from rfl, upd_self] at a1 a2 a3
        exact ⟨a1, a2, a3⟩
      · dsimp only at a1 a2 a3
        rw [upd_of_ne (show j ≠ (alKernel p).N from hj)] at a1 a2 a3
        exact ⟨a1, a2, a3⟩
    refine ⟨t.rho, ⟨?_, hsx _ le_rfl, fun k hk => hsx k hk.le, hsu, fun k hk => ?_⟩⟩
    · rw [hkd, d, i1 p.N le_rfl, b]
      dsimp only
      rw [show (alKernel p).N = p.N from rfl, upd_self]
      exact ⟨rfl, rfl⟩
    · have := i2 k hk
      rw [← d] at this
      rw [hkd]
      exact StepOk.input ⟨this.1, this.2⟩ (hin k)

end last
end Altro
