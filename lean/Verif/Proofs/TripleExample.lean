import Verif.Proofs.SmoothModels
import Verif.Props.SmoothExamples
import Verif.Spec.LQInequality
import Verif.Proofs.LQStrong

/-!
# The triple integrator problem is linear-quadratic
-/

namespace Altro.Props
open Altro.Spec Matrix ILQR Prob
variable {n m dof : ℕ}

/-- An affine function that reports its derivative. -/
theorem affine_of_isJac {q : ℕ} {f : (Fin n → ℝ) → (Fin m → ℝ) → Fin q → ℝ} {J : Matrix (Fin q) (Fin n ⊕ Fin m) ℝ} {x : Fin n → ℝ}
    {u : Fin m → ℝ} (hJ : IsJacAt f J x u) (hadd : ∀ x x' u u', f (x + x') (u + u') = f x u + f x' u' - f 0 0)
    (hsmul : ∀ (c : ℝ) x u, f (c • x) (c • u) - f 0 0 = c • (f x u - f 0 0)) (dx : Fin n → ℝ) (du : Fin m → ℝ) :
    f (x + dx) (u + du) = f x u + J.toCols₁ *ᵥ dx + J.toCols₂ *ᵥ du := by
  let L : Z n m →ₗ[ℝ] (Fin q → ℝ) :=
    { toFun := fun z => f z.1 z.2 - f 0 0
      map_add' := fun z w => by
        show f (z.1 + w.1) (z.2 + w.2) - f 0 0 = (f z.1 z.2 - f 0 0) + (f w.1 w.2 - f 0 0)
        rw [hadd]; abel
      map_smul' := fun c z => hsmul c z.1 z.2 }
  have h1 : HasFDerivAt (fun z : Z n m => f z.1 z.2) (LinearMap.toContinuousLinearMap L) (x, u) := by
    have h2 : (fun z : Z n m => f z.1 z.2) = fun z => LinearMap.toContinuousLinearMap L z + f 0 0 := by
      funext z
      show f z.1 z.2 = (f z.1 z.2 - f 0 0) + f 0 0
      abel
    rw [h2]
    exact (ContinuousLinearMap.hasFDerivAt _).add_const _
  have h3 := congrArg (fun D : Z n m →L[ℝ] (Fin q → ℝ) => D (dx, du)) (((isJacAt_iff f J x u).mp hJ).unique h1)
  have h4 : J.toCols₁ *ᵥ dx + J.toCols₂ *ᵥ du = f dx du - f 0 0 := (jacCLM_apply J (dx, du)).symm.trans h3
  rw [hadd, add_assoc, h4]
  abel

/-! ## Dynamics -/

theorem ti_ext {v w : Fin (3 * dof) → ℝ} (h : ∀ i, v (tiIx 0 i) = w (tiIx 0 i) ∧ v (tiIx 1 i) = w (tiIx 1 i) ∧ v (tiIx 2 i) = w (tiIx 2 i)) :
    v = w := by
  funext j
  obtain ⟨k, i, rfl⟩ := tiIx_surj j
  fin_cases k
  · exact (h i).1
  · exact (h i).2.1
  · exact (h i).2.2

theorem triple_affine (x dx : Fin (3 * dof) → ℝ) (u du : Fin dof → ℝ) (t h : ℝ) (buf : Matrix (Fin (3 * dof)) (Fin (3 * dof) ⊕ Fin dof) ℝ) :
    (tripleIntegrator dof).rk4 (x + dx) (u + du) t h = (tripleIntegrator dof).rk4 x u t h
      + ((tripleIntegrator dof).rk4Jac x u t h buf).toCols₁ *ᵥ dx + ((tripleIntegrator dof).rk4Jac x u t h buf).toCols₂ *ᵥ du := by
  have z0 := fun i => C35_triple_integrator (dof := dof) (K := ℝ) 0 0 t h i
  refine affine_of_isJac (f := fun x u => (tripleIntegrator dof).rk4 x u t h) (C34_triple_integrator_partial dof x u t h buf)
    (fun x x' u u' => ti_ext fun i => ?_) (fun c x u => ti_ext fun i => ?_) dx du
  · obtain ⟨a1, a2, a3⟩ := C35_triple_integrator (x + x') (u + u') t h i
    obtain ⟨b1, b2, b3⟩ := C35_triple_integrator x u t h i
    obtain ⟨c1, c2, c3⟩ := C35_triple_integrator x' u' t h i
    obtain ⟨d1, d2, d3⟩ := z0 i
    simp only [Pi.add_apply, Pi.sub_apply, a1, a2, a3, b1, b2, b3, c1, c2, c3, d1, d2, d3, Pi.zero_apply]
    refine ⟨by ring, by ring, by ring⟩
  · obtain ⟨a1, a2, a3⟩ := C35_triple_integrator (c • x) (c • u) t h i
    obtain ⟨b1, b2, b3⟩ := C35_triple_integrator x u t h i
    obtain ⟨d1, d2, d3⟩ := z0 i
    simp only [Pi.smul_apply, Pi.sub_apply, smul_eq_mul, a1, a2, a3, b1, b2, b3, d1, d2, d3, Pi.zero_apply]
    refine ⟨by ring, by ring, by ring⟩

theorem triple_continuous : ContModel (tripleIntegrator (K := ℝ) dof) where
  f t := by
    refine continuous_pi fun j => ?_
    obtain ⟨k, i, rfl⟩ := tiIx_surj j
    have e : ∀ z : Z (3 * dof) dof, (tripleIntegrator dof).f z.1 z.2 t = tiEval dof z.1 z.2 0 := fun _ => rfl
    have e1 := fun z : Z (3 * dof) dof => tiEval_ix z.1 z.2 0 i
    simp only [e]
    fin_cases k
    · simp only [Fin.zero_eta, fun z => (e1 z).1]; fun_prop
    · simp only [Fin.mk_one, fun z => (e1 z).2.1]; fun_prop
    · show Continuous fun a : Z (3 * dof) dof => tiEval dof a.1 a.2 0 (tiIx 2 i)
      simp only [fun z => (e1 z).2.2]; fun_prop
  jac t := continuous_const

/-! ## Constraints -/

/-- A bound or a goal as the solver sees it. -/
noncomputable def _root_.Altro.ExCon.con' (e : ExCon n m) : Option (Con n m ℝ) :=
  match e with
  | .bound b => if h : 0 < b.dim then some ⟨b.dim, h, fun _ u => b.eval u, fun _ _ => b.jac 0, "Control Bound"⟩ else none
  | .goal xf => if h : 0 < n then some ⟨n, h, goalEval xf, fun _ _ => goalJac 0, "Goal Constraint"⟩ else none
  | .circles _ => none

theorem bound_row (b : ControlBound m ℝ) (i : Fin b.dim) : ∃ (c s : ℝ) (j : Fin m), ∀ u, b.eval u i = c + s * u j := by
  refine Fin.addCases (fun i => ⟨(b.lower b.ilo[i]).get, -1, b.ilo[i], fun u => ?_⟩)
    (fun i => ⟨-(b.upper b.iup[i]).get, 1, b.iup[i], fun u => ?_⟩) i
  · simp only [ControlBound.eval, Fin.addCases_left]; ring
  · simp only [ControlBound.eval, Fin.addCases_right]; ring

theorem bound_affine {b : ControlBound m ℝ} (x : Fin n → ℝ) (u : Fin m → ℝ) (dx : Fin n → ℝ) (du : Fin m → ℝ) :
    b.eval (u + du) = b.eval u + (b.jac (n := n) 0).toCols₁ *ᵥ dx + (b.jac (n := n) 0).toCols₂ *ᵥ du := by
  refine affine_of_isJac (f := fun _ u => b.eval u) (C38_bounds_jacobian b x u 0) (fun x x' u u' => ?_) (fun c x u => ?_) dx du
  · funext i
    obtain ⟨c, s, j, h⟩ := bound_row b i
    simp only [Pi.add_apply, Pi.sub_apply, h, Pi.zero_apply]
    ring
  · funext i
    obtain ⟨c, s, j, h⟩ := bound_row b i
    simp only [Pi.smul_apply, Pi.sub_apply, smul_eq_mul, h, Pi.zero_apply]
    ring

theorem goal_affine (xf x : Fin n → ℝ) (u : Fin m → ℝ) (dx : Fin n → ℝ) (du : Fin m → ℝ) :
    goalEval xf (x + dx) (u + du) = goalEval xf x u + (goalJac (n := n) (m := m) 0).toCols₁ *ᵥ dx + (goalJac (n := n) (m := m) (0 : Matrix _ _ ℝ)).toCols₂ *ᵥ du := by
  simp only [goalEval, goalJac, toCols₁_fromCols, toCols₂_fromCols, one_mulVec, zero_mulVec]
  abel

theorem exCon'_facts {e : ExCon n m} {c : Con n m ℝ} (h : e.con' = some c) : AffineCon c ∧ SmoothCon c := by
  cases e with
  | bound b =>
    simp only [ExCon.con', Option.dite_none_right_eq_some, Option.some.injEq] at h
    obtain ⟨h0, rfl⟩ := h
    exact ⟨fun x u dx du => bound_affine x u dx du, fun x u => C38_bounds_jacobian b x u 0, continuous_const⟩
  | goal xf =>
    simp only [ExCon.con', Option.dite_none_right_eq_some, Option.some.injEq] at h
    obtain ⟨h0, rfl⟩ := h
    exact ⟨fun x u dx du => goal_affine xf x u dx du, fun x u => (C38_goal xf x u 0).2, continuous_const⟩
  | circles c => cases h

/-- The rows of symmetric bounds. -/
theorem bounds_rows (b u : Fin m → ℝ) (P : ℝ → Prop) :
    (∀ i, P ((ControlBound.ofBounds (fun i => .val (-b i)) (fun i => .val (b i))).eval u i)) ↔ ∀ j, P (-b j - u j) ∧ P (u j - b j) := by
  have fin : ∀ b : Fin m → ℝ, ControlBound.finiteIndices (fun i => Bnd.val (b i)) = List.finRange m := fun b => List.filter_eq_self.mpr fun _ _ => rfl
  constructor
  · intro h j
    have l1 : j.val < (ControlBound.finiteIndices fun i => Bnd.val (-b i)).length := by rw [fin, List.length_finRange]; exact j.isLt
    have l2 : j.val < (ControlBound.finiteIndices fun i => Bnd.val (b i)).length := by rw [fin, List.length_finRange]; exact j.isLt
    have g1 : (ControlBound.finiteIndices fun i => Bnd.val (-b i))[j.val]'l1 = j := by
      simp only [fin fun i => -b i, List.getElem_finRange]; rfl
    have g2 : (ControlBound.finiteIndices fun i => Bnd.val (b i))[j.val]'l2 = j := by
      simp only [fin b, List.getElem_finRange]; rfl
    have h1 := h (Fin.castAdd _ ⟨j.val, l1⟩)
    have h2 := h (Fin.natAdd _ ⟨j.val, l2⟩)
    simp only [ControlBound.eval, ControlBound.ofBounds, Fin.addCases_left, Fin.addCases_right, Fin.getElem_fin, g1, g2, Bnd.get] at h1 h2
    exact ⟨h1, h2⟩
  · intro h i
    refine Fin.addCases (fun i => ?_) (fun i => ?_) i
    · simp only [ControlBound.eval, Fin.addCases_left]
      exact (h _).1
    · simp only [ControlBound.eval, Fin.addCases_right]
      exact (h _).2

end Altro.Props
