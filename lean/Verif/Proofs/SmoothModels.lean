import Verif.Props.Smooth
import Verif.Props.Integration
import Verif.Props.Examples
import Verif.Props.ExampleCosts
import Verif.Props.ExampleProblems
import Verif.Props.BuildAugLag

/-!
# Smooth problems out of the models, costs and constraints of the examples
-/

namespace Altro.Props
open Altro.Spec Matrix ILQR
variable {n m : ℕ}

/-! ## Fourth order Runge-Kutta steps -/

/-- Values and Jacobian are continuous, the Jacobian also in the output buffer. -/
structure ContModel (d : ContDyn n m ℝ) : Prop where
  f : ∀ t, Continuous fun z : Z n m => d.f z.1 z.2 t
  jac : ∀ t, Continuous fun q : Z n m × Matrix (Fin n) (Fin n ⊕ Fin m) ℝ => d.jac q.1.1 q.1.2 t q.2

theorem toCols₁_continuous {X : Type} [TopologicalSpace X] {J : X → Matrix (Fin n) (Fin n ⊕ Fin m) ℝ} (h : Continuous J) :
    Continuous fun z => (J z).toCols₁ := continuous_matrix fun i j => h.matrix_elem i (.inl j)

theorem toCols₂_continuous {X : Type} [TopologicalSpace X] {J : X → Matrix (Fin n) (Fin n ⊕ Fin m) ℝ} (h : Continuous J) :
    Continuous fun z => (J z).toCols₂ := continuous_matrix fun i j => h.matrix_elem i (.inr j)

theorem fromCols_continuous {X : Type} [TopologicalSpace X] {A : X → Matrix (Fin n) (Fin n) ℝ} {B : X → Matrix (Fin n) (Fin m) ℝ}
    (hA : Continuous A) (hB : Continuous B) : Continuous fun z => fromCols (A z) (B z) := by
  refine continuous_matrix fun i j => ?_
  cases j with
  | inl j => exact hA.matrix_elem i j
  | inr j => exact hB.matrix_elem i j

theorem rk4Assemble_continuous {X : Type} [TopologicalSpace X] {J0 J1 J2 J3 : X → Matrix (Fin n) (Fin n ⊕ Fin m) ℝ} (h : ℝ)
    (h0 : Continuous J0) (h1 : Continuous J1) (h2 : Continuous J2) (h3 : Continuous J3) :
    Continuous fun z => ContDyn.rk4Assemble h (J0 z) (J1 z) (J2 z) (J3 z) := by
  have a0 := toCols₁_continuous h0
  have a1 := toCols₁_continuous h1
  have a2 := toCols₁_continuous h2
  have a3 := toCols₁_continuous h3
  have b0 := toCols₂_continuous h0
  have b1 := toCols₂_continuous h1
  have b2 := toCols₂_continuous h2
  have b3 := toCols₂_continuous h3
  have dA0 := a0.const_smul h
  have dA1 := (a1.matrix_mul (continuous_const.add (dA0.const_smul (1 / 2 : ℝ)) : Continuous fun z => 1 + (1 / 2 : ℝ) • (h • (J0 z).toCols₁))).const_smul h
  have dA2 := (a2.matrix_mul ((continuous_const (y := 1)).add (dA1.const_smul (1 / 2 : ℝ)))).const_smul h
  have dA3 := (a3.matrix_mul ((continuous_const (y := 1)).add dA2)).const_smul h
  have dB0 := b0.const_smul h
  have dB1 := (b1.const_smul h).add (((a1.const_smul (1 / 2 : ℝ)).matrix_mul dB0).const_smul h)
  have dB2 := (b2.const_smul h).add (((a2.const_smul (1 / 2 : ℝ)).matrix_mul dB1).const_smul h)
  have dB3 := (b3.const_smul h).add ((a3.matrix_mul dB2).const_smul h)
  exact fromCols_continuous
    ((continuous_const (y := 1)).add ((((dA0.add (dA1.const_smul (2 : ℝ))).add (dA2.const_smul (2 : ℝ))).add dA3).const_smul (1 / 6 : ℝ)))
    ((((dB0.add (dB1.const_smul (2 : ℝ))).add (dB2.const_smul (2 : ℝ))).add dB3).const_smul (1 / 6 : ℝ))

theorem ContModel.rk4Jac {d : ContDyn n m ℝ} (hd : ContModel d) (t h : ℝ) (buf : Matrix (Fin n) (Fin n ⊕ Fin m) ℝ) :
    Continuous fun z : Z n m => d.rk4Jac z.1 z.2 t h buf := by
  have k1 : Continuous fun z : Z n m => d.k1 z.1 z.2 t := hd.f t
  have p1 : Continuous fun z : Z n m => z.1 + (1 / 2 * h) • d.k1 z.1 z.2 t := continuous_fst.add (k1.const_smul (1 / 2 * h))
  have k2 : Continuous fun z : Z n m => d.k2 z.1 z.2 t h := (hd.f (t + 1 / 2 * h)).comp (p1.prodMk continuous_snd)
  have p2 : Continuous fun z : Z n m => z.1 + (1 / 2 * h) • d.k2 z.1 z.2 t h := continuous_fst.add (k2.const_smul (1 / 2 * h))
  have k3 : Continuous fun z : Z n m => d.k3 z.1 z.2 t h := (hd.f (t + 1 / 2 * h)).comp (p2.prodMk continuous_snd)
  have p3 : Continuous fun z : Z n m => z.1 + h • d.k3 z.1 z.2 t h := continuous_fst.add (k3.const_smul h)
  have j0 : Continuous fun z : Z n m => d.jac z.1 z.2 t buf := (hd.jac t).comp (continuous_id.prodMk continuous_const)
  have j1 := (hd.jac (1 / 2 * t)).comp ((p1.prodMk continuous_snd).prodMk j0)
  have j2 := (hd.jac (1 / 2 * t)).comp ((p2.prodMk continuous_snd).prodMk j1)
  have j3 := (hd.jac t).comp ((p3.prodMk continuous_snd).prodMk j2)
  exact rk4Assemble_continuous h j0 j1 j2 j3

theorem unicycle_continuous : ContModel unicycle where
  f t := by
    refine continuous_pi fun i => ?_
    fin_cases i <;> simp [unicycle] <;> fun_prop
  jac t := by
    refine continuous_matrix fun i j => ?_
    have e : Continuous fun q : Z 3 2 × Matrix (Fin 3) (Fin 3 ⊕ Fin 2) ℝ => q.2 i j := continuous_snd.matrix_elem i j
    fin_cases i <;> rcases j with j | j <;> fin_cases j <;> simp [unicycle, writesM, writes, Function.update] <;>
      first | exact e | fun_prop

/-! ## Quadratic costs -/

section cost
variable (Q : Matrix (Fin n) (Fin n) ℝ) (R : Matrix (Fin m) (Fin m) ℝ) (xf : Fin n → ℝ) (uf : Fin m → ℝ)

theorem lqr_grad_continuous : Continuous fun z : Z n m => (QuadCost.lqr Q R xf uf).costFun.grad z.1 z.2 := by
  have h1 : Continuous fun z : Z n m => Q *ᵥ z.1 := Continuous.matrix_mulVec continuous_const continuous_fst
  have h2 : Continuous fun z : Z n m => R *ᵥ z.2 := Continuous.matrix_mulVec continuous_const continuous_snd
  have h3 : Continuous fun z : Z n m => (0 : Matrix (Fin n) (Fin m) ℝ) *ᵥ z.2 := Continuous.matrix_mulVec continuous_const continuous_snd
  have h4 : Continuous fun z : Z n m => (0 : Matrix (Fin n) (Fin m) ℝ)ᵀ *ᵥ z.1 := Continuous.matrix_mulVec continuous_const continuous_fst
  exact ((h1.add continuous_const).add h3).prodMk ((h2.add continuous_const).add h4)

/-- A knot point with such a cost. -/
theorem smoothKnot_lqr (hQ : Q.IsSymm) (hR : R.IsSymm) {c : ALCost n m ℝ} (e : c.cost = (QuadCost.lqr Q R xf uf).costFun)
    (heq : ∀ v ∈ c.eq, SmoothCon v.con ∧ ∀ i, 0 < v.pen i) (hineq : ∀ v ∈ c.ineq, SmoothCon v.con ∧ ∀ i, 0 < v.pen i)
    (hbuf : ∀ v ∈ c.ineq, ∀ i j, i ≠ j → v.projJac i j = 0) : SmoothKnot c where
  grad x u := by rw [e]; exact C37_gradient _ hQ hR x u
  gradCont := by rw [e]; exact lqr_grad_continuous Q R xf uf
  dxdx := by rw [e]; exact continuous_const
  dxdu := by rw [e]; exact continuous_const
  dudu := by rw [e]; exact continuous_const
  eq := heq
  ineq := hineq
  buf := hbuf

theorem lqr_psd (hQ : Q.IsSymm) (hR : R.IsSymm) (pQ : ∀ x, 0 ≤ x ⬝ᵥ Q *ᵥ x) (pR : ∀ u, 0 ≤ u ⬝ᵥ R *ᵥ u) (x : Fin n → ℝ) (u : Fin m → ℝ) :
    BlockPSD ((QuadCost.lqr Q R xf uf).costFun.hess x u) where
  symx := hQ
  symu := hR
  nonneg dx du := by
    show 0 ≤ dx ⬝ᵥ Q *ᵥ dx + 2 * (dx ⬝ᵥ (0 : Matrix (Fin n) (Fin m) ℝ) *ᵥ du) + du ⬝ᵥ R *ᵥ du
    rw [zero_mulVec, dotProduct_zero]
    linarith [pQ dx, pR du]

theorem lqr_strong {μ : ℝ} (pQ : ∀ x, 0 ≤ x ⬝ᵥ Q *ᵥ x) (pR : ∀ u, μ * (u ⬝ᵥ u) ≤ u ⬝ᵥ R *ᵥ u) (x : Fin n → ℝ) (u : Fin m → ℝ)
    (dx : Fin n → ℝ) (du : Fin m → ℝ) : μ * (du ⬝ᵥ du) ≤ quadForm ((QuadCost.lqr Q R xf uf).costFun.hess x u) dx du := by
  show _ ≤ dx ⬝ᵥ Q *ᵥ dx + 2 * (dx ⬝ᵥ (0 : Matrix (Fin n) (Fin m) ℝ) *ᵥ du) + du ⬝ᵥ R *ᵥ du
  rw [zero_mulVec, dotProduct_zero]
  linarith [pQ dx, pR du]

theorem sub_sq_lower (u v : Fin m → ℝ) : 1 / 2 * (u ⬝ᵥ u) - v ⬝ᵥ v ≤ (u - v) ⬝ᵥ (u - v) := by
  unfold dotProduct
  rw [Finset.mul_sum, ← Finset.sum_sub_distrib]
  refine Finset.sum_le_sum fun i _ => ?_
  simp only [Pi.sub_apply]
  nlinarith [sq_nonneg (u i - 2 * v i)]

theorem lqr_lower {μ : ℝ} (hμ : 0 < μ) (hQ : Q.IsSymm) (hR : R.IsSymm) (pQ : ∀ x, 0 ≤ x ⬝ᵥ Q *ᵥ x)
    (pR : ∀ u, μ * (u ⬝ᵥ u) ≤ u ⬝ᵥ R *ᵥ u) (x : Fin n → ℝ) (u : Fin m → ℝ) :
    μ / 4 * (u ⬝ᵥ u) - μ / 2 * (uf ⬝ᵥ uf) ≤ (QuadCost.lqr Q R xf uf).costFun.eval x u := by
  rw [C37_lqr Q R hQ hR]
  have h1 := pQ (x - xf)
  have h2 := pR (u - uf)
  have h3 := mul_le_mul_of_nonneg_left (sub_sq_lower u uf) hμ.le
  linarith

end cost

/-! ## Constraints -/

/-- A constraint of the examples as the solver sees it; constraints without rows cannot be added to a problem.  The state has at least
two components, the obstacle constraint is built with the default indices and its Jacobian is written into a zero buffer
(constraint_values.hpp:38-47). -/
noncomputable def _root_.Altro.ExCon.con {n m : ℕ} (e : ExCon (n + 2) m) (h : 0 < e.dim) : Con (n + 2) m ℝ :=
  match e, h with
  | .bound b, h => ⟨b.dim, h, fun _ u => b.eval u, fun _ _ => b.jac 0, "Control Bound"⟩
  | .goal xf, h => ⟨n + 2, h, goalEval xf, fun _ _ => goalJac 0, "Goal Constraint"⟩
  | .circles c, h => ⟨c.length, h, CircleCon.eval { obstacles := c }, fun x u => CircleCon.jac { obstacles := c } x u 0, "Inequality Constraint"⟩

theorem circle_jac_continuous {n m : ℕ} (s : CircleCon n ℝ) : Continuous fun z : Z (n + 2) m => s.jac z.1 z.2 0 := by
  refine continuous_matrix fun i j => ?_
  simp only [circle_jac]
  split_ifs
  · fun_prop
  · fun_prop
  · exact continuous_const

/-- The constraints of a list. -/
noncomputable def exCons {n m : ℕ} (l : List (ExCon (n + 2) m)) : List (Con (n + 2) m ℝ) :=
  l.filterMap fun e => if h : 0 < e.dim then some (e.con h) else none

theorem exCon_smooth {n m : ℕ} (e : ExCon (n + 2) m) (h : 0 < e.dim) : SmoothCon (e.con h) := by
  cases e with
  | bound b => exact ⟨fun x u => C38_bounds_jacobian b x u 0, continuous_const⟩
  | goal xf => exact ⟨fun x u => (C38_goal xf x u 0).2, continuous_const⟩
  | circles c =>
    exact ⟨fun x u => C39_jacobian_partial { obstacles := c } rfl rfl x u 0 fun _ _ _ _ => rfl,
      circle_jac_continuous { obstacles := c }⟩

theorem exCons_mem {n m : ℕ} {l : List (ExCon (n + 2) m)} {c : Con (n + 2) m ℝ} (h : c ∈ exCons l) :
    ∃ e ∈ l, ∃ h : 0 < e.dim, c = e.con h := by
  obtain ⟨e, he, hc⟩ := List.mem_filterMap.mp h
  by_cases hd : 0 < e.dim
  · rw [dif_pos hd] at hc
    exact ⟨e, he, hd, (Option.some.inj hc).symm⟩
  · rw [dif_neg hd] at hc; cases hc

end Altro.Props
