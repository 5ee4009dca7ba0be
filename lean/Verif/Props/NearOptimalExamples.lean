import Verif.Props.KKTLimitExamples
import Verif.Props.NearOptimal

/-!
# C93: the bounds on a concrete problem

One segment, dynamics `x' = x + u`, objective `½ (u - 1)²`, constraint `u ≤ 0` (Props.KKTLimitExamples).
-/

namespace Altro.Props
open Altro.Spec Matrix ILQR

theorem tiny_cases {P : ℕ → Prop} (h0 : P 0) (h1 : P 1) : ∀ k ≤ tinyP.N, P k := by
  intro k hk
  have : k ≤ 1 := hk
  interval_cases k
  · exact h0
  · exact h1

theorem stage_strong (x u δx δu : Fin 1 → ℝ) : (QuadCost.lqr (0 : Matrix (Fin 1) (Fin 1) ℝ) 1 0 1).costFun.eval x u
    + ((QuadCost.lqr (0 : Matrix (Fin 1) (Fin 1) ℝ) 1 0 1).costFun.grad x u).1 ⬝ᵥ δx
    + ((QuadCost.lqr (0 : Matrix (Fin 1) (Fin 1) ℝ) 1 0 1).costFun.grad x u).2 ⬝ᵥ δu + 1 / 2 * (δu ⬝ᵥ δu)
    = (QuadCost.lqr (0 : Matrix (Fin 1) (Fin 1) ℝ) 1 0 1).costFun.eval (x + δx) (u + δu) := by
  rw [stage_eval, stage_eval]
  simp [QuadCost.lqr, QuadCost.costFun, dotProduct, mulVec]
  ring

theorem tinyIneq_convex (lam a : ℝ) : ConvexFrom tinyP (tinyIneq lam) (tinyZ a) where
  dyn k _ δx δu := by funext i; simp [tinyP, one_mulVec]; ring
  cost := tiny_cases (fun δx δu => by
      have := stage_strong ((tinyZ a).x 0) ((tinyZ a).u 0) δx δu
      have h0 : 0 ≤ δu ⬝ᵥ δu := nsq_nonneg δu
      refine le_trans ?_ this.le
      exact le_add_of_nonneg_right (by linarith)) (fun δx δu => by
      show (QuadCost.lqr (0 : Matrix (Fin 1) (Fin 1) ℝ) 0 0 1).costFun.eval _ _ + _ + _ ≤ (QuadCost.lqr (0 : Matrix (Fin 1) (Fin 1) ℝ) 0 0 1).costFun.eval _ _
      rw [term_eval, term_eval]
      simp [tinyIneq, ALCost.new, QuadCost.lqr, QuadCost.costFun])
  eq := tiny_cases (fun v hv => absurd hv List.not_mem_nil) (fun v hv => absurd hv List.not_mem_nil)
  ineq := tiny_cases (fun v hv δx δu i => by
      obtain rfl := List.mem_singleton.mp hv
      have : (tinyCon (fun a => a) fun _ => 1).jac ((tinyZ a).x 0) ((tinyZ a).u 0) *ᵥ Sum.elim δx δu = fun _ => δu 0 := by
        funext j
        simp [tinyCon, mulVec, dotProduct]
      show (tinyZ a).u 0 0 + ((tinyCon (fun a => a) fun _ => 1).jac ((tinyZ a).x 0) ((tinyZ a).u 0) *ᵥ Sum.elim δx δu) i ≤ (tinyZ a).u 0 0 + δu 0
      rw [this]) (fun v hv => absurd hv List.not_mem_nil)

theorem tinyIneq_strong (lam a : ℝ) : StrongFrom tinyP (tinyIneq lam) (tinyZ a) 1 := by
  intro k hk δx δu
  have : k < 1 := hk
  obtain rfl : k = 0 := by omega
  exact (stage_strong ((tinyZ a).x 0) ((tinyZ a).u 0) δx δu).le

theorem tinyIneq_derivs (lam a : ℝ) : DerivativesAt tinyP (tinyIneq lam) (tinyZ a) :=
  (tiny_smooth (eqs := []) (ineqs := [tinyCon (fun a => a) (fun _ => 1)]) (fun c hc => absurd hc List.not_mem_nil) (fun c hc => by
      obtain rfl := List.mem_singleton.mp hc
      exact tinyCon_smooth (fun a => hasDerivAt_id a) continuous_const) (tinyZ a)).derivativesAt (tinyIneq_same lam) ⟨fun _ _ => rfl, fun _ _ => rfl⟩

theorem tinyIneq_mass (lam : ℝ) : eqMass tinyP (tinyIneq lam) = 0 ∧ ineqMass tinyP (tinyIneq lam) = |lam| := by
  constructor
  · show ∑ k ∈ Finset.range 2, _ = _
    rw [Finset.sum_range_succ, Finset.sum_range_one]
    show (0 : ℝ) + 0 = 0
    rw [zero_add]
  · show ∑ k ∈ Finset.range 2, _ = _
    rw [Finset.sum_range_succ, Finset.sum_range_one]
    show ((∑ _i : Fin 1, |lam|) + 0) + 0 = |lam|
    simp

/-- The approximate solution `u = a` with multiplier `a - 1` is within `√a` of the solution. -/
example {a : ℝ} (h0 : 0 ≤ a) (h1 : a ≤ 1) : controlDist tinyP (tinyZ a) (tinyZ 0) ≤ √a := by
  have hk : KKT tinyP (tinyIneq (-1)) (tinyZ 0) := by
    have := tinyIneq_near (a := 0) le_rfl zero_le_one
    rw [zero_sub] at this
    exact (C88_exact _).mp this
  have hs : SameProblem tinyP (tinyIneq (a - 1)) (tinyIneq (-1)) := by
    refine ⟨tiny_cases rfl rfl, tiny_cases rfl rfl, tiny_cases rfl rfl⟩
  have := C93_distance_le one_pos hk (tinyIneq_derivs (-1) 0) (tinyIneq_convex (-1) 0) (tinyIneq_strong (-1) 0) hs (tinyIneq_near h0 h1) le_rfl
    (tinyIneq_derivs (a - 1) a) (tinyIneq_convex (a - 1) a) (tinyIneq_strong (a - 1) a) ⟨fun _ _ => rfl, fun _ _ => rfl⟩ rfl
  simpa [tinyIneq_mass] using this

/-- No feasible control gives a smaller objective than `u = a`, which is not feasible. -/
example {a : ℝ} (h0 : 0 ≤ a) (h1 : a ≤ 1) (Z' : Traj (Fin 1 → ℝ) (Fin 1 → ℝ) ℝ) (ha : Alternative tinyP (tinyZ a) Z')
    (hs : Satisfies tinyP (tinyIneq (a - 1)) Z') (hu : Z'.u 1 = (tinyZ a).u 1) :
    objective tinyP (tinyIneq (a - 1)) (tinyZ a) ≤ objective tinyP (tinyIneq (a - 1)) Z' := by
  have := C93_near_optimal (tinyIneq_derivs (a - 1) a) (tinyIneq_near h0 h1) le_rfl (tinyIneq_convex (a - 1) a) ha hs hu
  simpa [tinyIneq_mass] using this

end Altro.Props
