import Verif.Spec.LQ
import Verif.Props.Sweep
import Verif.Props.ILQR

/-!
# C32: linear-quadratic problems are solved by one iteration
-/

namespace Altro.Props
open Altro.Spec Matrix ILQR
variable {K : Type} [Field K] [LinearOrder K] [IsStrictOrderedRing K] {n m : ℕ}

theorem sumTo_eq_sum {K : Type} [Field K] [LinearOrder K] (N : ℕ) (f : ℕ → K) :
    Arith.sumTo N f = ∑ k ∈ Finset.range N, f k := by
  unfold Arith.sumTo
  induction N with
  | zero => simp
  | succ N ih => rw [List.range_succ, List.foldl_append, ih, Finset.sum_range_succ]; rfl

/-- The total of the cost law is the total cost. -/
theorem total_eq_trajCost (p : DynProblem n m K) (cs : ℕ → ALCost n m K) (Z : Traj (Fin n → K) (Fin m → K) K) :
    (alCostLaw p).total cs Z = trajCost p cs Z := by
  unfold CostLaw.total trajCost
  rw [sumTo_eq_sum]
  refine Finset.sum_congr rfl fun k _ => ?_
  exact ALCost.evaluate_of_core ..

/-- What a sweep with zero regularization leaves, for symmetric expansions. -/
structure SweepOk (N : ℕ) (kd r : ℕ → KP n m K) : Prop where
  term : (r N).Sx = (kd N).cost.dx ∧ (r N).Sxx = (kd N).cost.dxdx
  symN : (kd N).cost.dxdx.IsSymm
  symx : ∀ k < N, (kd k).cost.dxdx.IsSymm
  symu : ∀ k < N, (kd k).cost.dudu.IsSymm
  step : ∀ k < N, StepOk (kd k) (r (k + 1)) (r k) 0

theorem SweepOk.Sxx_symm {N : ℕ} {kd r : ℕ → KP n m K} (h : SweepOk N kd r) : ∀ k ≤ N, (r k).Sxx.IsSymm := by
  have : ∀ j, j ≤ N → (r (N - j)).Sxx.IsSymm := by
    intro j
    induction j with
    | zero => intro _; rw [Nat.sub_zero, h.term.2]; exact h.symN
    | succ j ih =>
      intro hj
      have hk : N - (j + 1) < N := by omega
      refine (h.step _ hk).Sxx_symm (h.symx _ hk) (h.symu _ hk) ?_
      have := ih (by omega)
      rwa [show N - j = N - (j + 1) + 1 by omega] at this
  intro k hk
  have := this (N - k) (by omega)
  rwa [show N - (N - k) = k by omega] at this

/-- The deviation from the policy at knot point `k`. -/
def policyError (r : ℕ → KP n m K) (Z Z' : Traj (Fin n → K) (Fin m → K) K) (k : ℕ) : Fin m → K :=
  (Z'.u k - Z.u k) - ((r k).gain *ᵥ (Z'.x k - Z.x k) + (r k).ff)

/-- The exact cost of every alternative trajectory: cost of the current one, plus the predicted change of the full
step, plus a positive definite quadratic in the deviation from the policy. -/
theorem C32_cost_identity (p : DynProblem n m K) (cs : ℕ → ALCost n m K) (Z Z' : Traj (Fin n → K) (Fin m → K) K)
    (kd r : ℕ → KP n m K) (hE : ExactExpansion p cs Z kd) (hS : SweepOk p.N kd r) (hZ : Alternative p Z Z)
    (hZ' : Alternative p Z Z') :
    trajCost p cs Z' = trajCost p cs Z + ∑ k ∈ Finset.range p.N, ((r k).delta.1 + (r k).delta.2
      + (1 / 2) * (policyError r Z Z' k ⬝ᵥ (r k).q.dudu *ᵥ policyError r Z Z' k)) := by
  set δ : ℕ → Fin n → K := fun k => Z'.x k - Z.x k with hδ
  set v : ℕ → Fin m → K := fun k => Z'.u k - Z.u k with hv
  have hxk : ∀ k, Z.x k + δ k = Z'.x k := fun k => by simp only [hδ]; abel
  have huk : ∀ k, Z.u k + v k = Z'.u k := fun k => by simp only [hv]; abel
  have hδ0 : δ 0 = 0 := by simp only [hδ]; rw [hZ'.init, hZ.init, sub_self]
  have hδs : ∀ k < p.N, δ (k + 1) = (kd k).A *ᵥ δ k + (kd k).B *ᵥ v k := by
    intro k hk
    have := hE.dyn k hk (δ k) (v k)
    rw [hxk, huk] at this
    simp only [hδ]
    rw [hZ'.step k hk, hZ.step k hk, this]
    simp only [hδ]; abel
  have hstep : ∀ k < p.N, quadModel (kd k).cost (δ k) (v k) + ctgModel (r (k + 1)).Sx (r (k + 1)).Sxx (δ (k + 1))
      = (r k).delta.1 + (r k).delta.2 + ctgModel (r k).Sx (r k).Sxx (δ k)
        + (1 / 2) * (policyError r Z Z' k ⬝ᵥ (r k).q.dudu *ᵥ policyError r Z Z' k) := by
    intro k hk
    have st := hS.step k hk
    have hn := hS.Sxx_symm (k + 1) (by omega)
    have e1 := C27_action_value (kd k) (r (k + 1)) hn (δ k) (v k)
    rw [hδs k hk, ← e1, ← st.q]
    obtain ⟨hqx, hqu⟩ := st.q_symm (hS.symx k hk) (hS.symu k hk) hn
    obtain ⟨_, e2, e3⟩ := st.eqs (hS.symx k hk) (hS.symu k hk) hn
    simp only [zero_smul, add_zero] at e2 e3
    rw [quadModel_complete (r k).q hqu (r k).gain (r k).ff e2 e3 (δ k) (v k)]
    have e4 := C29_cost_to_go (r k) hqu (δ k)
    rw [st.ctg.2.2] at e4
    rw [e4]
    rfl
  have htel : ∀ j ≤ p.N, ∑ k ∈ Finset.range j, quadModel (kd k).cost (δ k) (v k)
      + ctgModel (r j).Sx (r j).Sxx (δ j)
      = ∑ k ∈ Finset.range j, ((r k).delta.1 + (r k).delta.2
        + (1 / 2) * (policyError r Z Z' k ⬝ᵥ (r k).q.dudu *ᵥ policyError r Z Z' k)) := by
    intro j
    induction j with
    | zero => intro _; rw [hδ0]; simp [ctgModel]
    | succ j ih =>
      intro hj
      have h1 := ih (by omega)
      have h2 := hstep j (by omega)
      rw [Finset.sum_range_succ, Finset.sum_range_succ, ← h1]
      linear_combination h2
  rw [← htel p.N le_rfl, hS.term.1, hS.term.2]
  unfold trajCost
  rw [Finset.sum_range_succ, Finset.sum_range_succ, ← hxk p.N, hE.term (δ p.N) (Z'.u p.N)]
  have : ∀ k ∈ Finset.range p.N, ((cs k).evaluate (Z'.x k) (Z'.u k)).1
      = ((cs k).evaluate (Z.x k) (Z.u k)).1 + quadModel (kd k).cost (δ k) (v k) := by
    intro k hk
    rw [← hE.cost k (Finset.mem_range.mp hk), hxk, huk]
  rw [Finset.sum_congr rfl this, Finset.sum_add_distrib]
  ring

/-- The candidate for step `alpha` is an admissible alternative. -/
theorem candidate_alternative (p : DynProblem n m K) (r : ℕ → KP n m K) (Z Zbar : Traj (Fin n → K) (Fin m → K) K)
    (ht : SameTimes (alKernel p) Zbar Z) (alpha : K) :
    Alternative p Z (candidateTraj (alKernel p) r Z Zbar alpha) where
  init := rfl
  step k hk := by
    have h1 := ht.t k (le_of_lt hk)
    have h2 := ht.h k hk
    show candidate (alKernel p) r Z Zbar.t Zbar.h alpha (k + 1) = _
    simp only [candidate]
    rw [h1, h2]
    show _ = p.f k _ (if k < p.N then _ else _) _ _
    rw [if_pos hk]
    rfl

theorem candidate_policyError (p : DynProblem n m K) (r : ℕ → KP n m K) (Z Zbar : Traj (Fin n → K) (Fin m → K) K)
    (alpha : K) (k : ℕ) (hk : k < p.N) :
    policyError r Z (candidateTraj (alKernel p) r Z Zbar alpha) k = (alpha - 1) • (r k).ff := by
  have hu : (candidateTraj (alKernel p) r Z Zbar alpha).u k = (r k).policy
      ((candidateTraj (alKernel p) r Z Zbar alpha).x k) (Z.x k) (Z.u k) alpha := by
    show (if k < p.N then _ else _) = _
    rw [if_pos hk]; rfl
  unfold policyError
  rw [hu]
  unfold KP.policy
  rw [sub_smul, one_smul]
  abel

/-- The predicted change is exact for every step. -/
theorem C32_exact_prediction (p : DynProblem n m K) (cs : ℕ → ALCost n m K) (Z Zbar : Traj (Fin n → K) (Fin m → K) K)
    (kd r : ℕ → KP n m K) (hE : ExactExpansion p cs Z kd) (hS : SweepOk p.N kd r) (hZ : Alternative p Z Z)
    (ht : SameTimes (alKernel p) Zbar Z) (alpha : K) :
    trajCost p cs Z - trajCost p cs (candidateTraj (alKernel p) r Z Zbar alpha)
      = predicted (∑ k ∈ Finset.range p.N, (r k).delta.1) (∑ k ∈ Finset.range p.N, (r k).delta.2) alpha := by
  rw [C32_cost_identity p cs Z _ kd r hE hS hZ (candidate_alternative p r Z Zbar ht alpha)]
  unfold predicted
  have : ∀ k ∈ Finset.range p.N, ((r k).delta.1 + (r k).delta.2
      + (1 / 2) * (policyError r Z (candidateTraj (alKernel p) r Z Zbar alpha) k ⬝ᵥ
        (r k).q.dudu *ᵥ policyError r Z (candidateTraj (alKernel p) r Z Zbar alpha) k))
      = alpha * (r k).delta.1 + alpha * alpha * (r k).delta.2 := by
    intro k hk
    have hk := Finset.mem_range.mp hk
    have st := hS.step k hk
    obtain ⟨_, _, e3⟩ := st.eqs (hS.symx k hk) (hS.symu k hk) (hS.Sxx_symm (k + 1) (by omega))
    simp only [zero_smul, add_zero] at e3
    rw [candidate_policyError p r Z Zbar alpha k hk, st.ctg.2.1]
    simp only [mulVec_smul, dotProduct_smul, smul_dotProduct, smul_eq_mul]
    have h : (r k).ff ⬝ᵥ (r k).q.dudu *ᵥ (r k).ff = -((r k).ff ⬝ᵥ (r k).q.du) := by rw [e3, dotProduct_neg]
    rw [h]
    ring
  rw [Finset.sum_congr rfl this, Finset.sum_add_distrib, ← Finset.mul_sum, ← Finset.mul_sum]
  ring

/-- The full step is the global optimum among all control sequences, and the only one up to the controls at knot
points `0..N-1`. -/
theorem C32_full_step_optimal (p : DynProblem n m K) (cs : ℕ → ALCost n m K)
    (Z Zbar Z' : Traj (Fin n → K) (Fin m → K) K) (kd r : ℕ → KP n m K) (hE : ExactExpansion p cs Z kd)
    (hS : SweepOk p.N kd r) (hZ : Alternative p Z Z) (ht : SameTimes (alKernel p) Zbar Z) (hZ' : Alternative p Z Z') :
    trajCost p cs (candidateTraj (alKernel p) r Z Zbar 1) ≤ trajCost p cs Z' ∧
    (trajCost p cs (candidateTraj (alKernel p) r Z Zbar 1) = trajCost p cs Z' →
      ∀ k < p.N, Z'.u k = (candidateTraj (alKernel p) r Z Zbar 1).u k ∧
        Z'.x k = (candidateTraj (alKernel p) r Z Zbar 1).x k) := by
  have ha := candidate_alternative p r Z Zbar ht 1
  rw [C32_cost_identity p cs Z _ kd r hE hS hZ ha, C32_cost_identity p cs Z Z' kd r hE hS hZ hZ']
  have hzero : ∀ k ∈ Finset.range p.N, (r k).delta.1 + (r k).delta.2
      + (1 / 2) * (policyError r Z (candidateTraj (alKernel p) r Z Zbar 1) k ⬝ᵥ
        (r k).q.dudu *ᵥ policyError r Z (candidateTraj (alKernel p) r Z Zbar 1) k)
      = (r k).delta.1 + (r k).delta.2 := by
    intro k hk
    rw [candidate_policyError p r Z Zbar 1 k (Finset.mem_range.mp hk)]
    simp
  rw [Finset.sum_congr rfl hzero, Finset.sum_add_distrib (g := fun k => (1 / 2 : K) * _)]
  have hpd : ∀ k ∈ Finset.range p.N,
      0 ≤ (1 / 2) * (policyError r Z Z' k ⬝ᵥ (r k).q.dudu *ᵥ policyError r Z Z' k) ∧
      ((1 / 2) * (policyError r Z Z' k ⬝ᵥ (r k).q.dudu *ᵥ policyError r Z Z' k) = 0 → policyError r Z Z' k = 0) := by
    intro k hk
    have hk := Finset.mem_range.mp hk
    obtain ⟨e1, _, _⟩ := (hS.step k hk).eqs (hS.symx k hk) (hS.symu k hk) (hS.Sxx_symm (k + 1) (by omega))
    simp only [zero_smul, add_zero] at e1
    by_cases h0 : policyError r Z Z' k = 0
    · rw [h0]; simp
    · have := e1 _ h0
      exact ⟨by linarith, fun h => by linarith⟩
  have hnn := Finset.sum_nonneg fun k hk => (hpd k hk).1
  refine ⟨by linarith, fun heq => ?_⟩
  have hsum0 : ∑ k ∈ Finset.range p.N, (1 / 2) * (policyError r Z Z' k ⬝ᵥ (r k).q.dudu *ᵥ policyError r Z Z' k) = 0 := by
    linarith
  rw [Finset.sum_eq_zero_iff_of_nonneg fun k hk => (hpd k hk).1] at hsum0
  have herr : ∀ k < p.N, policyError r Z Z' k = 0 := fun k hk =>
    (hpd k (Finset.mem_range.mpr hk)).2 (hsum0 k (Finset.mem_range.mpr hk))
  have hx : ∀ k, k ≤ p.N → Z'.x k = (candidateTraj (alKernel p) r Z Zbar 1).x k := by
    intro k
    induction k with
    | zero => intro _; rw [hZ'.init, ha.init]
    | succ k ih =>
      intro hk
      have e := ih (by omega)
      have e1 := herr k (by omega)
      have e2 := candidate_policyError p r Z Zbar 1 k (by omega)
      rw [sub_self, zero_smul] at e2
      have hu : Z'.u k = (candidateTraj (alKernel p) r Z Zbar 1).u k := by
        have := e1.trans e2.symm
        unfold policyError at this
        rw [e] at this
        exact sub_left_injective (sub_left_injective this)
      rw [hZ'.step k (by omega), ha.step k (by omega), e, hu]
  intro k hk
  have e := hx k (by omega)
  have e2 := candidate_policyError p r Z Zbar 1 k (by omega)
  rw [sub_self, zero_smul] at e2
  have := (herr k hk).trans e2.symm
  unfold policyError at this
  rw [e] at this
  exact ⟨sub_left_injective (sub_left_injective this), e⟩

end Altro.Props
