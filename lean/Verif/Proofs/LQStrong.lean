import Verif.Proofs.AffineKnot
import Verif.Proofs.Inexact

/-!
# Linear-quadratic problems with affine constraints are strongly convex in the controls
-/

namespace Altro.Props
open Altro.Spec Matrix ILQR
variable {K : Type} [Field K] [LinearOrder K] [IsStrictOrderedRing K] {n m : ℕ}

/-- Squared distance of the controls of two trajectories. -/
def ctrlDist (N : ℕ) (Z Z' : Traj (Fin n → K) (Fin m → K) K) : K := ∑ k ∈ Finset.range N, nsq (Z'.u k - Z.u k)

theorem ctrlDist_nonneg (N : ℕ) (Z Z' : Traj (Fin n → K) (Fin m → K) K) : 0 ≤ ctrlDist N Z Z' :=
  Finset.sum_nonneg fun _ _ => nsq_nonneg _

theorem ctrlSize_le (N : ℕ) (Z Z' : Traj (Fin n → K) (Fin m → K) K) :
    ctrlSize N Z' ≤ 2 * ctrlDist N Z Z' + 2 * ctrlSize N Z := by
  unfold ctrlSize ctrlDist
  rw [Finset.mul_sum, Finset.mul_sum, ← Finset.sum_add_distrib]
  refine Finset.sum_le_sum fun k _ => ?_
  unfold nsq dotProduct
  rw [Finset.mul_sum, Finset.mul_sum, ← Finset.sum_add_distrib]
  refine Finset.sum_le_sum fun i _ => ?_
  simp only [Pi.sub_apply]
  have h1 : |Z'.u k i| ≤ |Z'.u k i - Z.u k i| + |Z.u k i| := by
    have := abs_add_le (Z'.u k i - Z.u k i) (Z.u k i)
    rwa [sub_add_cancel] at this
  have h2 := abs_nonneg (Z'.u k i)
  have h3 := abs_nonneg (Z.u k i)
  have h4 := abs_nonneg (Z'.u k i - Z.u k i)
  rw [← abs_mul_abs_self (Z'.u k i - Z.u k i)]
  nlinarith [sq_nonneg (|Z'.u k i - Z.u k i| - (|Z.u k i| + 1))]

/-- Change of the controls; the one of the last knot point does not matter. -/
def ctrlDelta (N : ℕ) (Z Z' : Traj (Fin n → K) (Fin m → K) K) (k : ℕ) : Fin m → K := if k < N then Z'.u k - Z.u k else 0

theorem sum_ctrlDelta (N : ℕ) (Z Z' : Traj (Fin n → K) (Fin m → K) K) :
    ∑ k ∈ Finset.range (N + 1), nsq (ctrlDelta N Z Z' k) = ctrlDist N Z Z' := by
  rw [Finset.sum_range_succ, ctrlDelta, if_neg (lt_irrefl N), nsq_zero, add_zero]
  refine Finset.sum_congr rfl fun k hk => ?_
  rw [ctrlDelta, if_pos (Finset.mem_range.mp hk)]

section problem
variable {p : DynProblem n m K} {cs : ℕ → ALCost n m K} {μ a A B : K} {Z0 Z Z' : Traj (Fin n → K) (Fin m → K) K}

theorem _root_.Altro.Spec.LQInequality.convexProblem (h : LQInequality p cs μ) : ConvexProblem p cs where
  dyn k hk x x' u u' τ hh t _ _ := by
    have h1 := h.dyn k hk x u τ hh (t • (x' - x)) (t • (u' - u))
    have h2 := h.dyn k hk x u τ hh (x' - x) (u' - u)
    rw [add_sub_cancel, add_sub_cancel] at h2
    rw [h1, h2, mulVec_smul, mulVec_smul]
    module
  cost k hk x x' u u' t h0 h1 := by
    have e1 := (h.knot k hk).quad.exact x u (t • (x' - x)) (t • (u' - u))
    have e2 := (h.knot k hk).quad.exact x u (x' - x) (u' - u)
    rw [add_sub_cancel, add_sub_cancel] at e2
    have e3 := ((h.knot k hk).conv x u).nonneg (x' - x) (u' - u)
    rw [e1, e2]
    simp only [quadModel, quadForm, mulVec_smul, dotProduct_smul, smul_dotProduct, smul_eq_mul] at e3 ⊢
    nlinarith [mul_nonneg (mul_nonneg h0 (sub_nonneg.mpr h1)) e3]
  eq k hk v hv i x x' u u' t _ _ := by
    have e1 := congrFun ((h.knot k hk).eq v hv x u (t • (x' - x)) (t • (u' - u))) i
    have e2 := congrFun ((h.knot k hk).eq v hv x u (x' - x) (u' - u)) i
    rw [add_sub_cancel, add_sub_cancel] at e2
    rw [e1, e2]
    simp only [Pi.add_apply, mulVec_smul, Pi.smul_apply, smul_eq_mul]
    ring
  ineq k hk v hv i x x' u u' t _ _ := by
    have e1 := congrFun ((h.knot k hk).ineq v hv x u (t • (x' - x)) (t • (u' - u))) i
    have e2 := congrFun ((h.knot k hk).ineq v hv x u (x' - x) (u' - u)) i
    rw [add_sub_cancel, add_sub_cancel] at e2
    rw [e1, e2]
    simp only [Pi.add_apply, mulVec_smul, Pi.smul_apply, smul_eq_mul]
    apply le_of_eq
    ring

/-- The states of two trajectories are as close as their controls. -/
theorem states_bound (h : LQInequality p cs μ) (ha : 0 ≤ a) (hd : DynBound p Z0 a) (hZ : Alternative p Z0 Z)
    (hZ' : Alternative p Z0 Z') :
    ∑ k ∈ Finset.range (p.N + 1), nsq (Z'.x k - Z.x k) ≤ (p.N + 1) * (a * (1 + a) ^ p.N) * ctrlDist p.N Z Z' := by
  refine seq_sum_bound (x := fun k => nsq (Z'.x k - Z.x k)) (e := fun k => nsq (Z'.u k - Z.u k)) ha ha (fun _ => nsq_nonneg _) ?_ ?_
  · show nsq (Z'.x 0 - Z.x 0) = 0
    rw [hZ.init, hZ'.init, sub_self, nsq_zero]
  · intro k hk
    have h1 := h.dyn k hk (Z.x k) (Z.u k) (Z0.t k) (Z0.h k) (Z'.x k - Z.x k) (Z'.u k - Z.u k)
    rw [add_sub_cancel, add_sub_cancel] at h1
    show nsq (Z'.x (k + 1) - Z.x (k + 1)) ≤ a * nsq (Z'.x k - Z.x k) + a * nsq (Z'.u k - Z.u k)
    rw [hZ.step k hk, hZ'.step k hk, h1, add_assoc, add_sub_cancel_left, ← mul_add]
    exact hd k hk _ _ _ _

theorem _root_.Altro.Spec.LQInequality.cost_delta (h : LQInequality p cs μ) (Z Z' : Traj (Fin n → K) (Fin m → K) K) {k : ℕ}
    (hk : k ≤ p.N) (t : K) (w : Fin m → K) (hw : k < p.N → w = Z.u k + t • (Z'.u k - Z.u k)) :
    (cs k).cost.eval (Z.x k + t • (Z'.x k - Z.x k)) w
      = (cs k).cost.eval (Z.x k) (Z.u k) + t * (((cs k).cost.grad (Z.x k) (Z.u k)).1 ⬝ᵥ (Z'.x k - Z.x k)
          + ((cs k).cost.grad (Z.x k) (Z.u k)).2 ⬝ᵥ ctrlDelta p.N Z Z' k)
        + t ^ 2 / 2 * quadForm ((cs k).cost.hess (Z.x k) (Z.u k)) (Z'.x k - Z.x k) (ctrlDelta p.N Z Z' k) := by
  have e : (cs k).cost.eval (Z.x k + t • (Z'.x k - Z.x k)) w
      = (cs k).cost.eval (Z.x k + t • (Z'.x k - Z.x k)) (Z.u k + t • ctrlDelta p.N Z Z' k) := by
    rcases lt_or_eq_of_le hk with hk | rfl
    · rw [hw hk, ctrlDelta, if_pos hk]
    · exact h.term _ _ _
  rw [e, (h.knot k hk).quad.exact]
  simp only [quadModel, quadForm, mulVec_smul, dotProduct_smul, smul_dotProduct, smul_eq_mul]
  ring

theorem sum_rows (p : DynProblem n m K) (cs : ℕ → ALCost n m K) (f : Row (Traj (Fin n → K) (Fin m → K) K) K → K) :
    ((rows p cs).map f).sum = ∑ k ∈ Finset.range (p.N + 1),
      (((cs k).eq.map fun v => ∑ i, f ⟨.equality, fun Z => v.con.eval (Z.x k) (Z.u k) i, v.lam i, v.pen i⟩).sum
        + ((cs k).ineq.map fun v => ∑ i, f ⟨.inequality, fun Z => v.con.eval (Z.x k) (Z.u k) i, v.lam i, v.pen i⟩).sum) := by
  rw [rows, sum_flatMap_map, sum_range_map]
  refine Finset.sum_congr rfl fun k _ => ?_
  rw [knotRows, List.map_append, List.sum_append, sum_flatMap_map, sum_flatMap_map]
  congr 2
  · exact List.map_congr_left fun v _ => conRows_sum k v f
  · exact List.map_congr_left fun v _ => conRows_sum k v f

theorem _root_.Altro.Spec.LQInequality.rows_delta (h : LQInequality p cs μ) (Z Z' : Traj (Fin n → K) (Fin m → K) K) :
    ((rows p cs).map fun r => (r.fn Z - r.fn Z') ^ 2).sum
      = ∑ k ∈ Finset.range (p.N + 1), conSize (cs k) (Z'.x k - Z.x k) (ctrlDelta p.N Z Z' k) := by
  have key : ∀ (k : ℕ) (con : Con n m K), AffineCon con → (k < p.N ∨ ∀ x u u', con.eval x u = con.eval x u') →
      ∑ i, (con.eval (Z.x k) (Z.u k) i - con.eval (Z'.x k) (Z'.u k) i) ^ 2
        = nsq (conLin con (Z'.x k - Z.x k) (ctrlDelta p.N Z Z' k)) := by
    intro k con ha hk
    have e : con.eval (Z'.x k) (Z'.u k) = con.eval (Z.x k + (Z'.x k - Z.x k)) (Z.u k + ctrlDelta p.N Z Z' k) := by
      rcases hk with hk | hk
      · rw [ctrlDelta, if_pos hk, add_sub_cancel, add_sub_cancel]
      · rw [add_sub_cancel]; exact hk _ _ _
    unfold nsq dotProduct
    refine Finset.sum_congr rfl fun i _ => ?_
    rw [e, ha.eval]
    ring
  rw [sum_rows]
  refine Finset.sum_congr rfl fun k hk => ?_
  have hk : k ≤ p.N := by have := Finset.mem_range.mp hk; omega
  unfold conSize
  congr 2
  · refine List.map_congr_left fun v hv => key k v.con ((h.knot k hk).eq v hv) ?_
    rcases lt_or_eq_of_le hk with hk | rfl
    · exact .inl hk
    · exact .inr (h.termEq v hv)
  · refine List.map_congr_left fun v hv => key k v.con ((h.knot k hk).ineq v hv) ?_
    rcases lt_or_eq_of_le hk with hk | rfl
    · exact .inl hk
    · exact .inr (h.termIneq v hv)

theorem knots_bound (h : LQInequality p cs μ) (ha : 0 ≤ a) (hd : DynBound p Z0 a) (hZ : Alternative p Z0 Z)
    (hZ' : Alternative p Z0 Z') :
    ∑ k ∈ Finset.range (p.N + 1), (nsq (Z'.x k - Z.x k) + nsq (ctrlDelta p.N Z Z' k))
      ≤ ((p.N + 1) * (a * (1 + a) ^ p.N) + 1) * ctrlDist p.N Z Z' := by
  rw [Finset.sum_add_distrib, sum_ctrlDelta, add_mul, one_mul]
  have := states_bound h ha hd hZ hZ'
  linarith

/-- Linear-quadratic problems are strongly convex in the controls. -/
theorem _root_.Altro.Spec.LQInequality.strongly (h : LQInequality p cs μ) (ha : 0 ≤ a) (hd : DynBound p Z0 a) (hA0 : 0 ≤ A)
    (hA : ∀ k ≤ p.N, ∀ δx δu, conSize (cs k) δx δu ≤ A * (nsq δx + nsq δu)) :
    Strong (Alternative p Z0) segTraj (plainCost p cs) (rows p cs) (ctrlDist p.N) μ
      (A * ((p.N + 1) * (a * (1 + a) ^ p.N) + 1)) where
  toConvex := h.convexProblem.convex Z0
  mid Z Z' hZ hZ' := by
    have e : μ / 8 * ctrlDist p.N Z Z' = ∑ k ∈ Finset.range (p.N + 1), μ / 8 * nsq (ctrlDelta p.N Z Z' k) := by
      rw [← Finset.mul_sum, sum_ctrlDelta]
    rw [e]
    unfold plainCost
    rw [Finset.mul_sum, Finset.mul_sum, ← Finset.sum_add_distrib, ← Finset.sum_sub_distrib]
    refine Finset.sum_le_sum fun k hk => ?_
    have hk : k ≤ p.N := by have := Finset.mem_range.mp hk; omega
    have e1 := h.cost_delta Z Z' hk (1 / 2) (Z.u k + (1 / 2 : K) • (Z'.u k - Z.u k)) (fun _ => rfl)
    have e2 := h.cost_delta Z Z' hk 1 (Z'.u k) (fun _ => by rw [one_smul, add_sub_cancel])
    rw [one_smul, add_sub_cancel] at e2
    show (cs k).cost.eval (Z.x k + (1 / 2 : K) • (Z'.x k - Z.x k)) (Z.u k + (1 / 2 : K) • (Z'.u k - Z.u k)) ≤ _
    rw [e1, e2]
    have e3 : μ * nsq (ctrlDelta p.N Z Z' k) ≤ quadForm ((cs k).cost.hess (Z.x k) (Z.u k)) (Z'.x k - Z.x k) (ctrlDelta p.N Z Z' k) := by
      rcases lt_or_eq_of_le hk with hk | rfl
      · exact h.strong k hk _ _ _ _
      · have := ((h.knot p.N le_rfl).conv (Z.x p.N) (Z.u p.N)).nonneg (Z'.x p.N - Z.x p.N) (ctrlDelta p.N Z Z' p.N)
        rw [ctrlDelta, if_neg (lt_irrefl _), nsq_zero, mul_zero]
        rw [ctrlDelta, if_neg (lt_irrefl _)] at this
        exact this
    linarith
  lip Z Z' hZ hZ' := by
    rw [h.rows_delta, mul_assoc]
    have h1 : ∑ k ∈ Finset.range (p.N + 1), conSize (cs k) (Z'.x k - Z.x k) (ctrlDelta p.N Z Z' k)
        ≤ ∑ k ∈ Finset.range (p.N + 1), A * (nsq (Z'.x k - Z.x k) + nsq (ctrlDelta p.N Z Z' k)) :=
      Finset.sum_le_sum fun k hk => hA k (by have := Finset.mem_range.mp hk; omega) _ _
    rw [← Finset.mul_sum] at h1
    exact h1.trans (mul_le_mul_of_nonneg_left (knots_bound h ha hd hZ hZ') hA0)

/-- Upper bound of the objective. -/
theorem objective_upper (h : LQInequality p cs μ) (ha : 0 ≤ a) (hd : DynBound p Z0 a) (hB0 : 0 ≤ B)
    (hB : ∀ k ≤ p.N, ∀ δx δu, quadForm ((cs k).cost.hess 0 0) δx δu ≤ B * (nsq δx + nsq δu)) (hZ : Alternative p Z0 Z) :
    ∃ W, ∀ Z', Alternative p Z0 Z' → plainCost p cs Z' ≤ W + (1 + B) * (((p.N + 1) * (a * (1 + a) ^ p.N) + 1) * ctrlDist p.N Z Z') := by
  refine ⟨∑ k ∈ Finset.range (p.N + 1), ((cs k).cost.eval (Z.x k) (Z.u k)
    + (nsq ((cs k).cost.grad (Z.x k) (Z.u k)).1 + nsq ((cs k).cost.grad (Z.x k) (Z.u k)).2)), fun Z' hZ' => ?_⟩
  have h1 := mul_le_mul_of_nonneg_left (knots_bound h ha hd hZ hZ') (by linarith : 0 ≤ 1 + B)
  refine le_trans ?_ (add_le_add_right h1 _)
  rw [Finset.mul_sum, ← Finset.sum_add_distrib]
  refine Finset.sum_le_sum fun k hk => ?_
  have hk : k ≤ p.N := by have := Finset.mem_range.mp hk; omega
  have e2 := h.cost_delta Z Z' hk 1 (Z'.u k) (fun _ => by rw [one_smul, add_sub_cancel])
  rw [one_smul, add_sub_cancel] at e2
  rw [e2, (h.knot k hk).quad.form_const]
  have h2 := hB k hk (Z'.x k - Z.x k) (ctrlDelta p.N Z Z' k)
  have y1 := dot_young ((cs k).cost.grad (Z.x k) (Z.u k)).1 (Z'.x k - Z.x k) one_pos
  have y2 := dot_young ((cs k).cost.grad (Z.x k) (Z.u k)).2 (ctrlDelta p.N Z Z' k) one_pos
  have n1 := nsq_nonneg (Z'.x k - Z.x k)
  have n2 := nsq_nonneg (ctrlDelta p.N Z Z' k)
  have n3 := nsq_nonneg ((cs k).cost.grad (Z.x k) (Z.u k)).1
  have n4 := nsq_nonneg ((cs k).cost.grad (Z.x k) (Z.u k)).2
  have m1 := mul_nonneg hB0 n1
  have m2 := mul_nonneg hB0 n2
  norm_num at y1 y2 ⊢
  linarith

end problem

end Altro.Props
