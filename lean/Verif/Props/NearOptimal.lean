import Verif.Spec.NearOptimal
import Verif.Props.KKTLimit

/-!
# C93: approximate Karush-Kuhn-Tucker points of convex problems are nearly optimal
-/

namespace Altro.Props
open Altro.Spec Matrix ILQR
variable {n m : ℕ} {p : DynProblem n m ℝ} {cs : ℕ → ALCost n m ℝ} {Z : Traj (Fin n → ℝ) (Fin m → ℝ) ℝ} {ε ν δ μ : ℝ}

theorem controlDist_sq (p : DynProblem n m ℝ) (Z Z' : Traj (Fin n → ℝ) (Fin m → ℝ) ℝ) :
    controlDist p Z Z' ^ 2 = ∑ k ∈ Finset.range p.N, (Z'.u k - Z.u k) ⬝ᵥ (Z'.u k - Z.u k) :=
  Real.sq_sqrt (Finset.sum_nonneg fun k _ => nsq_nonneg _)

theorem controlDist_comm (p : DynProblem n m ℝ) (Z Z' : Traj (Fin n → ℝ) (Fin m → ℝ) ℝ) : controlDist p Z Z' = controlDist p Z' Z := by
  unfold controlDist
  congr 1
  refine Finset.sum_congr rfl fun k _ => ?_
  rw [← neg_sub (Z.u k), neg_dotProduct_neg]

/-- Multiplier terms of one list. -/
theorem mult_terms {κ : ConKind} {l : List (ConVal κ n m ℝ)} {f : ConVal κ n m ℝ → ℝ} {a b : ℝ}
    (h : ∀ v ∈ l, -(a * ∑ i, |v.lam i|) ≤ f v ∧ f v ≤ b * ∑ i, |v.lam i|) :
    -(a * (l.map fun v => ∑ i, |v.lam i|).sum) ≤ (l.map f).sum ∧ (l.map f).sum ≤ b * (l.map fun v => ∑ i, |v.lam i|).sum := by
  induction l with
  | nil => simp
  | cons v l ih =>
    obtain ⟨h1, h2⟩ := h v (by simp)
    obtain ⟨h3, h4⟩ := ih fun w hw => h w (by simp [hw])
    simp only [List.map_cons, List.sum_cons]
    constructor <;> linarith

/-- Where the total Lagrangian of a convex problem is nearly stationary in the controls it is nearly minimal. -/
theorem lagrangian_gap (h : DerivativesAt p cs Z) (hinit : Z.x 0 = p.x0) (hstep : ∀ k < p.N, Z.x (k + 1) = p.f k (Z.x k) (Z.u k) (Z.t k) (Z.h k))
    (hst : NearlyStationaryOf p (fun k => lagrangian (cs k)) Z ε) (hdual : ∀ k ≤ p.N, ∀ v ∈ (cs k).ineq, ∀ i, v.lam i ≤ 0) (hε : 0 ≤ ε)
    (hc : ConvexFrom p cs Z) (hm : StrongFrom p cs Z μ) {Z' : Traj (Fin n → ℝ) (Fin m → ℝ) ℝ} (ha : Alternative p Z Z') (hu : Z'.u p.N = Z.u p.N) :
    ∑ k ∈ Finset.range (p.N + 1), lagrangian (cs k) (Z.x k) (Z.u k) + μ / 2 * controlDist p Z Z' ^ 2
      ≤ ∑ k ∈ Finset.range (p.N + 1), lagrangian (cs k) (Z'.x k) (Z'.u k) + ε * controlDist p Z Z' := by
  have hZ : DynFeasible (alKernel p) Z := ⟨hinit, hstep⟩
  let q : ℕ → ℝ := fun k => if k < p.N then μ / 2 * ((Z'.u k - Z.u k) ⬝ᵥ (Z'.u k - Z.u k)) else 0
  -- the Lagrangian is above its tangent
  have hlow : ∀ k ≤ p.N, lagrangian (cs k) (Z.x k) (Z.u k)
      + ((lagGrad (cs k) (Z.x k) (Z.u k)).1 ⬝ᵥ (Z'.x k - Z.x k) + (lagGrad (cs k) (Z.x k) (Z.u k)).2 ⬝ᵥ (Z'.u k - Z.u k)) + q k
      ≤ lagrangian (cs k) (Z'.x k) (Z'.u k) := by
    intro k hk
    have e1 : Z.x k + (Z'.x k - Z.x k) = Z'.x k := by abel
    have e2 : Z.u k + (Z'.u k - Z.u k) = Z'.u k := by abel
    have c0 : (cs k).cost.eval (Z.x k) (Z.u k) + ((cs k).cost.grad (Z.x k) (Z.u k)).1 ⬝ᵥ (Z'.x k - Z.x k)
        + ((cs k).cost.grad (Z.x k) (Z.u k)).2 ⬝ᵥ (Z'.u k - Z.u k) + q k ≤ (cs k).cost.eval (Z'.x k) (Z'.u k) := by
      by_cases h1 : k < p.N
      · have := hm k h1 (Z'.x k - Z.x k) (Z'.u k - Z.u k)
        rw [e1, e2] at this
        simp only [q, if_pos h1]
        exact this
      · have := hc.cost k hk (Z'.x k - Z.x k) (Z'.u k - Z.u k)
        rw [e1, e2] at this
        simp only [q, if_neg h1, add_zero]
        exact this
    have c1 : ((cs k).eq.map fun v => v.lam ⬝ᵥ v.con.eval (Z'.x k) (Z'.u k)).sum
        ≤ ((cs k).eq.map fun v => v.lam ⬝ᵥ v.con.eval (Z.x k) (Z.u k)
          + v.lam ⬝ᵥ (v.con.jac (Z.x k) (Z.u k) *ᵥ Sum.elim (Z'.x k - Z.x k) (Z'.u k - Z.u k))).sum := by
      refine List.sum_le_sum fun v hv => le_of_eq ?_
      rw [← dotProduct_add]
      congr 1
      funext i
      have := hc.eq k hk v hv (Z'.x k - Z.x k) (Z'.u k - Z.u k) i
      rwa [e1, e2] at this
    have c2 : ((cs k).ineq.map fun v => v.lam ⬝ᵥ v.con.eval (Z'.x k) (Z'.u k)).sum
        ≤ ((cs k).ineq.map fun v => v.lam ⬝ᵥ v.con.eval (Z.x k) (Z.u k)
          + v.lam ⬝ᵥ (v.con.jac (Z.x k) (Z.u k) *ᵥ Sum.elim (Z'.x k - Z.x k) (Z'.u k - Z.u k))).sum := by
      refine List.sum_le_sum fun v hv => ?_
      rw [← dotProduct_add]
      refine Finset.sum_le_sum fun i _ => ?_
      have := hc.ineq k hk v hv (Z'.x k - Z.x k) (Z'.u k - Z.u k) i
      rw [e1, e2] at this
      exact mul_le_mul_of_nonpos_left this (hdual k hk v hv i)
    rw [List.sum_map_add] at c1 c2
    rw [lagGrad_dot]
    unfold lagrangian
    linarith
  -- the first-order terms
  have hL : FirstOrderOf p (fun k => lagrangian (cs k)) Z (withGrad p Z fun k => lagGrad (cs k) (Z.x k) (Z.u k)) :=
    ⟨h.dyn, fun k hk => lagrangian_isGradAt _ _ _ (h.cost k hk) (h.eq k hk) (h.ineq k hk)⟩
  have hsum : -(ε * controlDist p Z Z') ≤ ∑ k ∈ Finset.range (p.N + 1), ((lagGrad (cs k) (Z.x k) (Z.u k)).1 ⬝ᵥ (Z'.x k - Z.x k)
      + (lagGrad (cs k) (Z.x k) (Z.u k)).2 ⬝ᵥ (Z'.u k - Z.u k)) := by
    have hv : (fun k => Z'.u k - Z.u k) p.N = 0 := by show Z'.u p.N - Z.u p.N = 0; rw [hu, sub_self]
    have key := adjoint_sum p.N (withGrad p Z fun k => lagGrad (cs k) (Z.x k) (Z.u k))
      (adj (withGrad p Z fun k => lagGrad (cs k) (Z.x k) (Z.u k)) p.N) (fun k => Z'.x k - Z.x k)
      (fun k => Z'.u k - Z.u k) (adj_N _ _) (by rw [ha.init, hinit, sub_self]) hv
      (fun k hk' => by
        have e := hc.dyn k hk' (Z'.x k - Z.x k) (Z'.u k - Z.u k)
        rw [add_sub_cancel, add_sub_cancel] at e
        rw [ha.step k hk', hstep k hk', e]
        show _ = (p.jac k (Z.x k) (Z.u k) (Z.t k) (Z.h k)).1 *ᵥ (Z'.x k - Z.x k)
          + (p.jac k (Z.x k) (Z.u k) (Z.t k) (Z.h k)).2 *ᵥ (Z'.u k - Z.u k)
        abel)
    have key2 : ∑ k ∈ Finset.range (p.N + 1), ((lagGrad (cs k) (Z.x k) (Z.u k)).1 ⬝ᵥ (Z'.x k - Z.x k)
        + (lagGrad (cs k) (Z.x k) (Z.u k)).2 ⬝ᵥ (Z'.u k - Z.u k))
        = ∑ k ∈ Finset.range p.N, grad (withGrad p Z fun k => lagGrad (cs k) (Z.x k) (Z.u k)) p.N k ⬝ᵥ (Z'.u k - Z.u k) := by
      refine key.trans (Finset.sum_congr rfl fun k hk' => ?_)
      have hk' := Finset.mem_range.mp hk'
      rw [← adj_step _ hk', add_sub_cancel_left]
      rfl
    obtain ⟨d, h1, h2⟩ := hst (fun k => Z'.u k - Z.u k) hv
    have h3 := h1.unique (controlCost_deriv hL hZ _ hv)
    rw [← controlDist_sq, ← mul_pow] at h2
    rw [key2, ← h3]
    exact (abs_le_of_sq_le_sq' h2 (mul_nonneg hε (Real.sqrt_nonneg _))).1
  have hq : ∑ k ∈ Finset.range (p.N + 1), q k = μ / 2 * controlDist p Z Z' ^ 2 := by
    rw [controlDist_sq, Finset.mul_sum, Finset.sum_range_succ]
    simp only [q, lt_irrefl, if_false, add_zero]
    exact Finset.sum_congr rfl fun k hk => if_pos (Finset.mem_range.mp hk)
  have := Finset.sum_le_sum fun k (hk : k ∈ Finset.range (p.N + 1)) => hlow k (by have := Finset.mem_range.mp hk; omega)
  rw [Finset.sum_add_distrib, Finset.sum_add_distrib, hq] at this
  linarith

/-- The value of an approximate Karush-Kuhn-Tucker point of a convex problem against any trajectory on the same time grid that obeys the
dynamics and violates the constraints by at most `ν'`.  (The control of the last knot point, which drives no segment, is held fixed.) -/
theorem C93_gap (h : DerivativesAt p cs Z) (hK : NearKKT p cs Z ε ν δ) (hε : 0 ≤ ε) (hc : ConvexFrom p cs Z) (hm : StrongFrom p cs Z μ)
    {Z' : Traj (Fin n → ℝ) (Fin m → ℝ) ℝ} {ν' : ℝ} (ha : Alternative p Z Z') (hs : SatisfiesUpTo p cs Z' ν') (hu : Z'.u p.N = Z.u p.N) :
    objective p cs Z + μ / 2 * controlDist p Z Z' ^ 2
      ≤ objective p cs Z' + ε * controlDist p Z Z' + (ν + ν') * eqMass p cs + (δ + ν') * ineqMass p cs := by
  have hgap := lagrangian_gap h hK.init hK.step hK.stationary hK.dual hε hc hm ha hu
  -- the multiplier terms
  have hterm : ∀ k ≤ p.N, (cs k).cost.eval (Z.x k) (Z.u k) - ν * ((cs k).eq.map fun v => ∑ i, |v.lam i|).sum
        - δ * ((cs k).ineq.map fun v => ∑ i, |v.lam i|).sum ≤ lagrangian (cs k) (Z.x k) (Z.u k) ∧
      lagrangian (cs k) (Z'.x k) (Z'.u k) ≤ (cs k).cost.eval (Z'.x k) (Z'.u k) + ν' * ((cs k).eq.map fun v => ∑ i, |v.lam i|).sum
        + ν' * ((cs k).ineq.map fun v => ∑ i, |v.lam i|).sum := by
    intro k hk
    have t1 : ∀ {x : Fin n → ℝ} {u : Fin m → ℝ} {a : ℝ}, (∀ v ∈ (cs k).eq, ∀ i, |v.con.eval x u i| ≤ a) → _ := fun {x u a} hx =>
      mult_terms (l := (cs k).eq) (f := fun v => v.lam ⬝ᵥ v.con.eval x u) (a := a) (b := a) fun v hv => by
        have : |v.lam ⬝ᵥ v.con.eval x u| ≤ a * ∑ i, |v.lam i| := by
          rw [Finset.mul_sum]
          refine (Finset.abs_sum_le_sum_abs _ _).trans (Finset.sum_le_sum fun i _ => ?_)
          rw [abs_mul, mul_comm]
          exact mul_le_mul_of_nonneg_right (hx v hv i) (abs_nonneg _)
        exact abs_le.mp this
    have a1 := (t1 (hK.eq k hk)).2
    have a2 := (t1 (hs.eq k hk)).1
    have a3 : ((cs k).ineq.map fun v => v.lam ⬝ᵥ v.con.eval (Z.x k) (Z.u k)).sum ≤ δ * ((cs k).ineq.map fun v => ∑ i, |v.lam i|).sum := by
      rw [← List.sum_map_mul_left]
      refine List.sum_le_sum fun v hv => ?_
      rw [Finset.mul_sum]
      refine Finset.sum_le_sum fun i _ => ?_
      rcases hK.slack k hk v hv i with h0 | h0
      · rw [h0]; simp
      · rw [abs_of_nonpos (hK.dual k hk v hv i)]
        nlinarith [hK.dual k hk v hv i]
    have a4 : -(ν' * ((cs k).ineq.map fun v => ∑ i, |v.lam i|).sum) ≤ ((cs k).ineq.map fun v => v.lam ⬝ᵥ v.con.eval (Z'.x k) (Z'.u k)).sum := by
      rw [← neg_mul, ← List.sum_map_mul_left]
      refine List.sum_le_sum fun v hv => ?_
      rw [Finset.mul_sum]
      refine Finset.sum_le_sum fun i _ => ?_
      rw [abs_of_nonpos (hK.dual k hk v hv i)]
      nlinarith [hK.dual k hk v hv i, hs.ineq k hk v hv i]
    unfold lagrangian
    constructor <;> linarith
  have t1 := Finset.sum_le_sum fun k (hk : k ∈ Finset.range (p.N + 1)) => (hterm k (by have := Finset.mem_range.mp hk; omega)).1
  have t2 := Finset.sum_le_sum fun k (hk : k ∈ Finset.range (p.N + 1)) => (hterm k (by have := Finset.mem_range.mp hk; omega)).2
  simp only [Finset.sum_add_distrib, Finset.sum_sub_distrib, ← Finset.mul_sum] at t1 t2
  unfold objective eqMass ineqMass
  linarith

/-- The objective of an approximate Karush-Kuhn-Tucker point exceeds that of no feasible trajectory by more than the errors allow. -/
theorem C93_near_optimal (h : DerivativesAt p cs Z) (hK : NearKKT p cs Z ε ν δ) (hε : 0 ≤ ε) (hc : ConvexFrom p cs Z)
    {Z' : Traj (Fin n → ℝ) (Fin m → ℝ) ℝ} (ha : Alternative p Z Z') (hs : Satisfies p cs Z') (hu : Z'.u p.N = Z.u p.N) :
    objective p cs Z ≤ objective p cs Z' + ε * controlDist p Z Z' + ν * eqMass p cs + δ * ineqMass p cs := by
  have := C93_gap (μ := 0) (ν' := 0) h hK hε hc (fun k hk δx δu => by
    rw [zero_div, zero_mul, add_zero]; exact hc.cost k hk.le δx δu) ha
    ⟨fun k hk v hv i => (abs_eq_zero.mpr (hs.eq k hk v hv i)).le, hs.ineq⟩ hu
  rw [zero_div, zero_mul, add_zero, add_zero, add_zero] at this
  exact this

theorem con_transfer {κ : ConKind} {l l' : List (ConVal κ n m ℝ)} (e : l'.map (·.con) = l.map (·.con)) (P : Con n m ℝ → Prop)
    (h : ∀ v ∈ l, P v.con) : ∀ v ∈ l', P v.con := by
  intro v hv
  have : v.con ∈ l'.map (·.con) := List.mem_map_of_mem hv
  rw [e] at this
  obtain ⟨w, hw, ew⟩ := List.mem_map.mp this
  rw [← ew]; exact h w hw

theorem SatisfiesUpTo.congr {cs' : ℕ → ALCost n m ℝ} (hs : SameProblem p cs cs') (h : SatisfiesUpTo p cs' Z ν) : SatisfiesUpTo p cs Z ν := by
  exact ⟨fun k hk => con_transfer (hs.eqCons k hk).symm (fun c => ∀ i, |c.eval (Z.x k) (Z.u k) i| ≤ ν) (h.eq k hk),
    fun k hk => con_transfer (hs.ineqCons k hk).symm (fun c => ∀ i, c.eval (Z.x k) (Z.u k) i ≤ ν) (h.ineq k hk)⟩

theorem SameProblem.symm {cs' : ℕ → ALCost n m ℝ} (hs : SameProblem p cs cs') : SameProblem p cs' cs :=
  ⟨fun k hk => (hs.cost k hk).symm, fun k hk => (hs.eqCons k hk).symm, fun k hk => (hs.ineqCons k hk).symm⟩

theorem objective_congr {cs' : ℕ → ALCost n m ℝ} (hs : SameProblem p cs cs') (Z : Traj (Fin n → ℝ) (Fin m → ℝ) ℝ) :
    objective p cs' Z = objective p cs Z :=
  Finset.sum_congr rfl fun k hk => by rw [hs.cost k (by have := Finset.mem_range.mp hk; omega)]

theorem alternative {Z' : Traj (Fin n → ℝ) (Fin m → ℝ) ℝ} (h0 : Z'.x 0 = p.x0) (h1 : ∀ k < p.N, Z'.x (k + 1) = p.f k (Z'.x k) (Z'.u k) (Z'.t k) (Z'.h k))
    (ht : SameTimes (alKernel p) Z' Z) : Alternative p Z Z' :=
  ⟨h0, fun k hk => by rw [h1 k hk, ht.t k hk.le, ht.h k hk]⟩

/-- The objective is not far below the optimum either: an approximate Karush-Kuhn-Tucker point `Z` that violates constraints by at most `ν`
gains at most `ν` times the multipliers of the optimum. -/
theorem C93_below {cs' : ℕ → ALCost n m ℝ} {Y : Traj (Fin n → ℝ) (Fin m → ℝ) ℝ} (h : DerivativesAt p cs' Y) (hY : KKT p cs' Y) (hc : ConvexFrom p cs' Y)
    (hs : SameProblem p cs cs') (hK : NearKKT p cs Z ε ν δ) (ht : SameTimes (alKernel p) Z Y) (hu : Z.u p.N = Y.u p.N) :
    objective p cs Y ≤ objective p cs Z + ν * (eqMass p cs' + ineqMass p cs') := by
  have := C93_gap (μ := 0) (ν' := ν) h ((C88_exact Y).mpr hY) le_rfl hc (fun k hk δx δu => by
    rw [zero_div, zero_mul, add_zero]; exact hc.cost k hk.le δx δu) (alternative hK.init hK.step ht)
    (SatisfiesUpTo.congr (SameProblem.symm hs) ⟨hK.eq, hK.ineq⟩) hu
  rw [objective_congr hs, objective_congr hs, zero_div, zero_mul, zero_mul, add_zero, add_zero, zero_add] at this
  linarith

/-- With curvature `μ` in the controls: the controls of an approximate Karush-Kuhn-Tucker point are close to those of the optimum. -/
theorem C93_distance {cs' : ℕ → ALCost n m ℝ} {Y : Traj (Fin n → ℝ) (Fin m → ℝ) ℝ} (hY : KKT p cs' Y) (dY : DerivativesAt p cs' Y)
    (cY : ConvexFrom p cs' Y) (mY : StrongFrom p cs' Y μ) (hs : SameProblem p cs cs') (hK : NearKKT p cs Z ε ν δ) (hε : 0 ≤ ε) (dZ : DerivativesAt p cs Z)
    (cZ : ConvexFrom p cs Z) (mZ : StrongFrom p cs Z μ) (ht : SameTimes (alKernel p) Z Y) (hu : Z.u p.N = Y.u p.N) :
    μ * controlDist p Z Y ^ 2 ≤ ε * controlDist p Z Y + ν * (eqMass p cs + eqMass p cs' + ineqMass p cs') + δ * ineqMass p cs := by
  have ht' : SameTimes (alKernel p) Y Z := ⟨fun k hk => (ht.t k hk).symm, fun k hk => (ht.h k hk).symm⟩
  have h1 := C93_gap dZ hK hε cZ mZ (alternative hY.init hY.step ht') (SatisfiesUpTo.congr hs (ν := 0)
    ⟨fun k hk v hv i => (abs_eq_zero.mpr (hY.primal.eq k hk v hv i)).le, hY.primal.ineq⟩) hu.symm
  have h2 := C93_gap dY ((C88_exact Y).mpr hY) le_rfl cY mY (alternative hK.init hK.step ht)
    (SatisfiesUpTo.congr (SameProblem.symm hs) ⟨hK.eq, hK.ineq⟩) hu
  rw [objective_congr hs, objective_congr hs, controlDist_comm p Y Z] at h2
  linarith

/-- The same bound, solved for the distance. -/
theorem C93_distance_le {cs' : ℕ → ALCost n m ℝ} {Y : Traj (Fin n → ℝ) (Fin m → ℝ) ℝ} (hμ : 0 < μ) (hY : KKT p cs' Y) (dY : DerivativesAt p cs' Y)
    (cY : ConvexFrom p cs' Y) (mY : StrongFrom p cs' Y μ) (hs : SameProblem p cs cs') (hK : NearKKT p cs Z ε ν δ) (hε : 0 ≤ ε) (dZ : DerivativesAt p cs Z)
    (cZ : ConvexFrom p cs Z) (mZ : StrongFrom p cs Z μ) (ht : SameTimes (alKernel p) Z Y) (hu : Z.u p.N = Y.u p.N) :
    controlDist p Z Y ≤ ε / μ + √((ν * (eqMass p cs + eqMass p cs' + ineqMass p cs') + δ * ineqMass p cs) / μ) := by
  have h := C93_distance hY dY cY mY hs hK hε dZ cZ mZ ht hu
  set D := controlDist p Z Y
  set C := ν * (eqMass p cs + eqMass p cs' + ineqMass p cs') + δ * ineqMass p cs
  have h0 : 0 ≤ ε / μ := div_nonneg hε hμ.le
  by_cases hD : D ≤ ε / μ
  · linarith [Real.sqrt_nonneg (C / μ)]
  · have hD : ε / μ ≤ D := (not_le.mp hD).le
    have h1 : (D - ε / μ) ^ 2 ≤ C / μ := by
      rw [le_div_iff₀ hμ]
      have e : ε = ε / μ * μ := (div_mul_cancel₀ ε hμ.ne').symm
      nlinarith [mul_nonneg h0 (sub_nonneg.mpr hD)]
    have h2 := Real.le_sqrt_of_sq_le h1
    linarith

/-- The optimum of such a problem is unique up to the control of the last knot point. -/
theorem C93_unique {cs' : ℕ → ALCost n m ℝ} {Y : Traj (Fin n → ℝ) (Fin m → ℝ) ℝ} (hμ : 0 < μ) (hY : KKT p cs' Y) (dY : DerivativesAt p cs' Y)
    (cY : ConvexFrom p cs' Y) (mY : StrongFrom p cs' Y μ) (hs : SameProblem p cs cs') (hK : KKT p cs Z) (dZ : DerivativesAt p cs Z)
    (cZ : ConvexFrom p cs Z) (mZ : StrongFrom p cs Z μ) (ht : SameTimes (alKernel p) Z Y) (hu : Z.u p.N = Y.u p.N) : ∀ k < p.N, Z.u k = Y.u k := by
  have h := C93_distance_le hμ hY dY cY mY hs ((C88_exact Z).mpr hK) le_rfl dZ cZ mZ ht hu
  rw [zero_div, zero_mul, zero_mul, add_zero, zero_div, Real.sqrt_zero, add_zero] at h
  have h0 : controlDist p Z Y ^ 2 = 0 := by
    rw [le_antisymm h (Real.sqrt_nonneg _)]; ring
  rw [controlDist_sq] at h0
  replace h0 := (Finset.sum_eq_zero_iff_of_nonneg fun k _ => nsq_nonneg (Y.u k - Z.u k)).mp h0
  intro k hk
  have := dotProduct_self_eq_zero.mp (h0 k (Finset.mem_range.mpr hk))
  exact (sub_eq_zero.mp this).symm

/-- A solve that reports success on a convex problem: the objective of the result is nearly minimal. -/
theorem C93_solved {o : Opts ℝ} {ρ Λ : ℝ} {s : ALSt (Fin n → ℝ) (Fin m → ℝ) ℝ (ALCost n m ℝ) (KP n m ℝ)} {prev : ℕ → ALCost n m ℝ}
    (h : NearSolved p o cs ρ ε s prev) (hε : 0 ≤ ε) (hst : s.status = .kSolved) (hΛ : ∀ k ≤ p.N, ∀ v ∈ (prev k).ineq, ∀ i, |v.lam i| ≤ Λ)
    (hd : DerivativesAt p s.st.cs s.st.Z) (hc : ConvexFrom p s.st.cs s.st.Z) {Z' : Traj (Fin n → ℝ) (Fin m → ℝ) ℝ} (ha : Alternative p s.st.Z Z')
    (hs : Satisfies p cs Z') (hu : Z'.u p.N = s.st.Z.u p.N) :
    objective p cs s.st.Z ≤ objective p cs Z' + ε * controlDist p s.st.Z Z' + (o.conTol + ε) * eqMass p s.st.cs
      + (Λ / ρ + ε) * ineqMass p s.st.cs := by
  have hsame := NearSolved.same h
  have h1 := SatisfiesUpTo.congr (SameProblem.symm hsame) (Z := Z') (ν := 0)
    ⟨fun k hk v hv i => (abs_eq_zero.mpr (hs.eq k hk v hv i)).le, hs.ineq⟩
  have := C93_near_optimal hd (C88_solved h hε hst hΛ) hε hc ha ⟨fun k hk v hv i => abs_nonpos_iff.mp (h1.eq k hk v hv i), h1.ineq⟩ hu
  rwa [objective_congr hsame, objective_congr hsame] at this

/-- Smooth problems report their derivatives along every trajectory. -/
theorem _root_.Altro.Spec.SmoothProblem.derivativesAt {Y : Traj (Fin n → ℝ) (Fin m → ℝ) ℝ} {cs' : ℕ → ALCost n m ℝ} (h : SmoothProblem p cs Y μ)
    (hs : SameProblem p cs cs') (ht : SameTimes (alKernel p) Z Y) : DerivativesAt p cs' Z := by
  refine ⟨fun k hk => ?_, fun k hk => ?_,
    fun k hk => con_transfer (hs.eqCons k hk) (fun c => IsJacAt c.eval (c.jac (Z.x k) (Z.u k)) (Z.x k) (Z.u k)) fun v hv => ((h.knot k hk).eq v hv).1.jac _ _,
    fun k hk => con_transfer (hs.ineqCons k hk) (fun c => IsJacAt c.eval (c.jac (Z.x k) (Z.u k)) (Z.x k) (Z.u k)) fun v hv => ((h.knot k hk).ineq v hv).1.jac _ _⟩
  · rw [ht.t k hk.le, ht.h k hk]; exact h.jac k hk _ _
  · rw [hs.cost k hk]; exact (h.knot k hk).grad _ _

end Altro.Props
