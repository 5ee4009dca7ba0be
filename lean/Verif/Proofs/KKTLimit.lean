import Verif.Proofs.SmoothOuter

/-!
# Lagrangians and their gradients along sequences of multipliers
-/

namespace Altro.Props
open Altro.Spec Matrix ILQR Filter
variable {n m : ℕ} {κ : ConKind}

theorem mulAt_eq : ∀ (l : List (ConVal κ n m ℝ)) (j i : ℕ), mulAt l j i = getMul l j i
  | [], _, _ => rfl
  | _ :: _, 0, _ => rfl
  | _ :: l, j + 1, i => mulAt_eq l j i

theorem setMul_con (ρ : ℝ) : ∀ (θ : ℕ → ℕ → ℝ) (l : List (ConVal κ n m ℝ)), (setMul ρ θ l).map (·.con) = l.map (·.con)
  | _, [] => rfl
  | θ, v :: l => congrArg (v.con :: ·) (setMul_con ρ _ l)

theorem getMul_setMul (ρ : ℝ) : ∀ {l l' : List (ConVal κ n m ℝ)}, l'.map (·.con) = l.map (·.con) →
    ∀ j i, getMul (setMul ρ (getMul l') l) j i = getMul l' j i
  | [], [], _, _, _ => rfl
  | [], _ :: _, e, _, _ => nomatch e
  | _ :: _, [], e, _, _ => nomatch e
  | v :: l, w :: l', e, 0, i => by
    have e1 : w.con = v.con := (List.cons.inj e).1
    show (if h : i < v.con.p then (if h : i < w.con.p then w.lam ⟨i, h⟩ else 0) else 0) = if h : i < w.con.p then w.lam ⟨i, h⟩ else 0
    rw [← e1]
    by_cases h : i < w.con.p <;> simp [h]
  | v :: l, w :: l', e, j + 1, i => getMul_setMul ρ (List.cons.inj e).2 j i

theorem setMul_lag (ρ : ℝ) (x : Fin n → ℝ) (u : Fin m → ℝ) : ∀ {l l' : List (ConVal κ n m ℝ)}, l'.map (·.con) = l.map (·.con) →
    (l'.map fun v => v.lam ⬝ᵥ v.con.eval x u).sum = ((setMul ρ (getMul l') l).map fun v => v.lam ⬝ᵥ v.con.eval x u).sum
  | [], [], _ => rfl
  | [], _ :: _, e => nomatch e
  | _ :: _, [], e => nomatch e
  | v :: l, w :: l', e => by
    obtain ⟨e1, e2⟩ := List.cons.inj e
    show (_ :: _).sum = (((fun i : Fin v.con.p => getMul (w :: l') 0 i) ⬝ᵥ v.con.eval x u) :: List.map _ (setMul ρ (getMul l') l)).sum
    rw [List.sum_cons, List.sum_cons, setMul_lag ρ x u e2]
    congr 1
    have e1 : v.con = w.con := e1.symm
    rw [e1]
    refine congrArg (· ⬝ᵥ w.con.eval x u) (funext fun i => ?_)
    show _ = if h : (i : ℕ) < w.con.p then w.lam ⟨i, h⟩ else 0
    rw [dif_pos i.2]

theorem lagrangian_withMul {c c' : ALCost n m ℝ} (h0 : c'.cost = c.cost) (h1 : c'.eq.map (·.con) = c.eq.map (·.con))
    (h2 : c'.ineq.map (·.con) = c.ineq.map (·.con)) : lagrangian c' = lagrangian (withMul 1 (mulOf c') c) := by
  funext x u
  unfold lagrangian
  rw [h0, setMul_lag 1 x u h1, setMul_lag 1 x u h2]
  rfl

theorem mulOf_withMul {c c' : ALCost n m ℝ} (h1 : c'.eq.map (·.con) = c.eq.map (·.con))
    (h2 : c'.ineq.map (·.con) = c.ineq.map (·.con)) : mulOf (withMul 1 (mulOf c') c) = mulOf c' := by
  funext b j i
  cases b
  · exact getMul_setMul 1 h2 j i
  · exact getMul_setMul 1 h1 j i

theorem setMul_getMul_continuous (ρ : ℝ) : ∀ (l : List (ConVal κ n m ℝ)) (j i : ℕ), Continuous fun θ : ℕ → ℕ → ℝ => getMul (setMul ρ θ l) j i
  | [], _, _ => continuous_const
  | v :: l, 0, i => by
    show Continuous fun θ : ℕ → ℕ → ℝ => if h : i < v.con.p then θ 0 i else 0
    split
    · exact (continuous_apply i).comp (continuous_apply 0)
    · exact continuous_const
  | v :: l, j + 1, i =>
    (setMul_getMul_continuous ρ l j i).comp (continuous_pi fun a => continuous_apply (a + 1))

variable {p : DynProblem n m ℝ} {cs : ℕ → ALCost n m ℝ} {Y : Traj (Fin n → ℝ) (Fin m → ℝ) ℝ} {μ : ℝ}

/-- The bound on the derivative in every direction bounds the gradient. -/
theorem gradSq_le_of_near {ℓ : ℕ → (Fin n → ℝ) → (Fin m → ℝ) → ℝ} {g : ℕ → Z n m → Z n m} (h : SmoothDyn p Y ℓ g)
    (hterm : ∀ x u u', ℓ p.N x u = ℓ p.N x u') {Z : Traj (Fin n → ℝ) (Fin m → ℝ) ℝ} (hZ : DynFeasible (alKernel p) Z)
    (ht : SameTimes (alKernel p) Z Y) {ε : ℝ} (hn : NearlyStationaryOf p ℓ Z ε) : gradSq p Y g (ctl p.N Z) ≤ ε ^ 2 := by
  let kd : ℕ → KP n m ℝ := fun k => { kdAt p Y g (ctl p.N Z) k with cost := ⟨0, 0, 0, (g k (Z.x k, Z.u k)).1, (g k (Z.x k, Z.u k)).2⟩ }
  have hx := openLoop_ctl hZ ht
  have hF : FirstOrderOf p ℓ Z kd := by
    refine ⟨fun k hk => ?_, fun k hk => h.grad k hk _ _⟩
    show IsJacAt (fun x u => p.f k x u (Z.t k) (Z.h k)) (fromCols (p.jac k (openLoop p Y (ctl p.N Z) k) (ctl p.N Z k) (Y.t k) (Y.h k)).1
      (p.jac k (openLoop p Y (ctl p.N Z) k) (ctl p.N Z k) (Y.t k) (Y.h k)).2) _ _
    rw [hx k hk.le, ctl_of_lt _ hk, ht.t k hk.le, ht.h k hk]
    exact h.jac k hk _ _
  have hg : ∀ k < p.N, grad kd p.N k = grad (kdAt p Y g (ctl p.N Z)) p.N k := fun k hk => grad_congr (fun k hk => by
      show (g k (Z.x k, Z.u k)).1 = (g k (openLoop p Y (ctl p.N Z) k, ctl p.N Z k)).1
      rw [hx k hk]
      rcases Nat.lt_or_eq_of_le hk with h1 | rfl
      · rw [ctl_of_lt _ h1]
      · exact (grad_indep hterm (h.grad p.N le_rfl _ _) (h.grad p.N le_rfl _ _)).1) (fun k hk => by
      refine ⟨?_, rfl, rfl⟩
      show (g k (Z.x k, Z.u k)).2 = (g k (openLoop p Y (ctl p.N Z) k, ctl p.N Z k)).2
      rw [hx k hk.le, ctl_of_lt _ hk]) hk
  let v : ℕ → Fin m → ℝ := fun k => if k < p.N then grad kd p.N k else 0
  have hv : v p.N = 0 := if_neg (lt_irrefl _)
  obtain ⟨d, h1, h2⟩ := hn v hv
  have h3 := h1.unique (controlCost_deriv hF hZ v hv)
  have e1 : ∑ k ∈ Finset.range p.N, grad kd p.N k ⬝ᵥ v k = gradSq p Y g (ctl p.N Z) := by
    refine Finset.sum_congr rfl fun k hk => ?_
    have hk := Finset.mem_range.mp hk
    rw [show v k = grad kd p.N k from if_pos hk, hg k hk]
    rfl
  have e2 : ∑ k ∈ Finset.range p.N, v k ⬝ᵥ v k = gradSq p Y g (ctl p.N Z) := by
    rw [← e1]
    refine Finset.sum_congr rfl fun k hk => ?_
    rw [show v k = grad kd p.N k from if_pos (Finset.mem_range.mp hk)]
  rw [h3, e1, e2] at h2
  have h0 : 0 ≤ gradSq p Y g (ctl p.N Z) := Finset.sum_nonneg fun k _ => nsq_nonneg _
  rcases h0.eq_or_lt with h0 | h0
  · rw [← h0]; positivity
  · rw [sq] at h2
    exact le_of_mul_le_mul_right h2 h0

/-- The squared length of the gradient of the Lagrangian, in the multipliers and the controls. -/
noncomputable def lagSq (p : DynProblem n m ℝ) (cs : ℕ → ALCost n m ℝ) (Y : Traj (Fin n → ℝ) (Fin m → ℝ) ℝ) (θ : Mults) (U : ℕ → Fin m → ℝ) : ℝ :=
  gradSq p Y (fun k z => mulLagGrad (θ k) (cs k) z) U

theorem lagSq_continuous (h : SmoothProblem p cs Y μ) : Continuous fun q : Mults × (ℕ → Fin m → ℝ) => lagSq p cs Y q.1 q.2 := by
  have hg : ∀ k ≤ p.N, Continuous fun q : Mults × Z n m => mulLagGrad (q.1 k) (cs k) q.2 := fun k hk => by
    have hp : Continuous fun q : Mults × Z n m => (q.1 k, q.2) := ((continuous_apply k).comp continuous_fst).prodMk continuous_snd
    exact (mulLagGrad_continuous (h.knot k hk)).comp hp
  exact SmoothDyn.gradSq_continuous_of (g := fun (θ : Mults) k z => mulLagGrad (θ k) (cs k) z) h.base hg

/-- The multipliers of the knot points. -/
def multsOf (p : DynProblem n m ℝ) (cs : ℕ → ALCost n m ℝ) : Mults := fun k => if k ≤ p.N then mulOf (cs k) else 0

theorem lagSq_iff (h : SmoothProblem p cs Y μ) {cs' : ℕ → ALCost n m ℝ} (hs : SameProblem p cs cs') {Z : Traj (Fin n → ℝ) (Fin m → ℝ) ℝ}
    (hZ : DynFeasible (alKernel p) Z) (ht : SameTimes (alKernel p) Z Y) {ε : ℝ} :
    NearlyStationaryOf p (fun k => lagrangian (cs' k)) Z ε ↔ lagSq p cs Y (multsOf p cs') (ctl p.N Z) ≤ ε ^ 2 := by
  let ds : ℕ → ALCost n m ℝ := fun k => withMul 1 (mulOf (cs' k)) (cs k)
  obtain ⟨h1, h2⟩ := lagrangian_smooth h (cs' := ds) (fun k _ => withMul_static 1 _ (cs k)) one_pos fun k _ => withMul_pen 1 _ (cs k)
  have e1 : ∀ k ≤ p.N, lagrangian (ds k) = lagrangian (cs' k) := fun k hk =>
    (lagrangian_withMul (hs.cost k hk) (hs.eqCons k hk) (hs.ineqCons k hk)).symm
  have e2 : gradSq p Y (fun k z => mulLagGrad (mulOf (ds k)) (cs k) z) (ctl p.N Z) = lagSq p cs Y (multsOf p cs') (ctl p.N Z) :=
    gradSq_congr fun k hk => by
      show mulLagGrad (mulOf (withMul 1 (mulOf (cs' k)) (cs k))) _ _ = mulLagGrad (if k ≤ p.N then mulOf (cs' k) else 0) _ _
      rw [mulOf_withMul (hs.eqCons k hk) (hs.ineqCons k hk), if_pos hk]
  have e3 : NearlyStationaryOf p (fun k => lagrangian (cs' k)) Z ε ↔ NearlyStationaryOf p (fun k => lagrangian (ds k)) Z ε := by
    have : controlCostOf p (fun k => lagrangian (cs' k)) Z = controlCostOf p (fun k => lagrangian (ds k)) Z := by
      funext U
      refine Finset.sum_congr rfl fun k hk => ?_
      exact (congrFun (congrFun (e1 k (by have := Finset.mem_range.mp hk; omega)) _) _).symm
    unfold NearlyStationaryOf
    rw [this]
  rw [e3, ← e2]
  exact ⟨gradSq_le_of_near h1 h2 hZ ht, nearlyStationaryOf h1 h2 hZ ht⟩

end Altro.Props
