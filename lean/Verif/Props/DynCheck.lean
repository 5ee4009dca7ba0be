import Verif.Model.DynCheck
import Verif.Props.DerivCheck
import Verif.Props.Integration

/-!
# C87: derivative checks of dynamics objects
-/

namespace Altro.Props
open Altro.Spec Matrix
variable {n m : ℕ}

theorem frob_smul {a b : ℕ} (c : ℝ) (A : Matrix (Fin a) (Fin b) ℝ) : frob (c • A) = |c| * frob A := by
  unfold frob
  rw [← Real.sqrt_sq_eq_abs, ← Real.sqrt_mul (sq_nonneg c)]
  congr 1
  rw [Finset.mul_sum]
  refine Finset.sum_congr rfl fun i _ => ?_
  rw [Finset.mul_sum]
  exact Finset.sum_congr rfl fun j _ => by simp [mul_pow]

/-- The Jacobian of "return the state". -/
theorem joinCols_id (z : Fin (n + m) → ℝ) (δ : ℝ) (hδ : δ ≠ 0) (i : Fin n) (j : Fin (n + m)) :
    ((z + Pi.single j δ : Fin (n + m) → ℝ) (Fin.castAdd m i) - z (Fin.castAdd m i)) / δ = joinCols (fromCols (1 : Matrix (Fin n) (Fin n) ℝ) (0 : Matrix (Fin n) (Fin m) ℝ)) i j := by
  have e : (z + Pi.single j δ : Fin (n + m) → ℝ) (Fin.castAdd m i) - z (Fin.castAdd m i) = if Fin.castAdd m i = j then δ else 0 := by
    rw [Pi.add_apply, add_sub_cancel_left, Pi.single_apply]
  rw [e]
  refine Fin.addCases (fun k => ?_) (fun k => ?_) j
  · simp only [joinCols, submatrix_apply, id, finSumFinEquiv_symm_apply_castAdd, fromCols_apply_inl, Matrix.one_apply, Fin.castAdd_inj]
    split <;> simp [hδ]
  · have : Fin.castAdd m i ≠ Fin.natAdd n k := fun h => by have := congrArg Fin.val h; simp at this; omega
    simp [joinCols, this]

theorem joinCols_add {p : ℕ} (A B : Matrix (Fin p) (Fin n ⊕ Fin m) ℝ) : joinCols (A + B) = joinCols A + joinCols B := rfl
theorem joinCols_smul {p : ℕ} (c : ℝ) (A : Matrix (Fin p) (Fin n ⊕ Fin m) ℝ) : joinCols (c • A) = c • joinCols A := rfl

theorem state_dot (b : Fin n → ℝ) (z : Fin (n + m) → ℝ) : (fun i => z (Fin.castAdd m i)) ⬝ᵥ b = Fin.append b 0 ⬝ᵥ z := by
  simp [dotProduct, Fin.sum_univ_add, mul_comm]

/-! ## Time and step -/

/-- A call that changes the stored time or step. -/
inductive ClockOp
  | time (t : ℝ)
  | step (h : ℝ)

/-- Running a call on the object. -/
def DiscObj.apply (s : DiscObj n m) : ClockOp → DiscObj n m
  | .time t => s.setTime t
  | .step h => s.setStep h

/-- The time set last, `t` if none was. -/
def lastTime : ℝ → List ClockOp → ℝ
  | t, [] => t
  | _, .time a :: r => lastTime a r
  | t, .step _ :: r => lastTime t r
/-- The step set last, `h` if none was. -/
def lastStep : ℝ → List ClockOp → ℝ
  | h, [] => h
  | _, .step a :: r => lastStep a r
  | h, .time _ :: r => lastStep h r

/-- **C87.**  Through the `FunctionBase` interface a discretized model is the integrator's step with the time and the step size set
last; both are zero if they were never set. -/
theorem C87_clock (model : ContObj n m) (sch : Scheme) (ops : List ClockOp) (x : Fin n → ℝ) (u : Fin m → ℝ) :
    let s := ops.foldl DiscObj.apply (DiscObj.new model sch)
    let t := lastTime 0 ops
    let h := lastStep 0 ops
    s.model = model ∧ s.scheme = sch ∧
    (sch = .euler → s.toBase.eval x u = model.dyn.euler x u t h ∧ s.toBase.jac x u = joinCols (model.dyn.eulerJac x u t h 0)) ∧
    (sch = .rk4 → s.toBase.eval x u = model.dyn.rk4 x u t h ∧ s.toBase.jac x u = joinCols (model.dyn.rk4Jac x u t h 0)) := by
  have key : ∀ (ops : List ClockOp) (s : DiscObj n m), (ops.foldl DiscObj.apply s).model = s.model ∧
      (ops.foldl DiscObj.apply s).scheme = s.scheme ∧ (ops.foldl DiscObj.apply s).t = lastTime s.t ops ∧
      (ops.foldl DiscObj.apply s).h = lastStep s.h ops := by
    intro ops
    induction ops with
    | nil => intro s; exact ⟨rfl, rfl, rfl, rfl⟩
    | cons o ops ih =>
      intro s
      obtain ⟨h1, h2, h3, h4⟩ := ih (DiscObj.apply s o)
      rw [List.foldl_cons]
      cases o with
      | time t => exact ⟨h1, h2, h3, h4⟩
      | step t => exact ⟨h1, h2, h3, h4⟩
  obtain ⟨h1, h2, h3, h4⟩ := key ops (DiscObj.new model sch)
  refine ⟨h1, h2, fun e => ?_, fun e => ?_⟩
  all_goals
    subst e
    constructor
    · show DiscObj.step _ x u _ _ = _
      unfold DiscObj.step
      rw [h1, h2, h3, h4]
      rfl
    · show joinCols (DiscObj.stepJac _ x u _ _) = _
      unfold DiscObj.stepJac
      rw [h1, h2, h3, h4]
      rfl

/-! ## The default step -/

theorem step_zero (s : DiscObj n m) (x : Fin n → ℝ) (u : Fin m → ℝ) (t : ℝ) : s.step x u t 0 = x := by
  unfold DiscObj.step
  cases s.scheme <;> simp [ContDyn.euler, ContDyn.rk4]

theorem stepJac_zero (s : DiscObj n m) (x : Fin n → ℝ) (u : Fin m → ℝ) (t : ℝ) : s.stepJac x u t 0 = fromCols 1 0 := by
  unfold DiscObj.stepJac
  cases s.scheme <;> simp [ContDyn.eulerJac, ContDyn.rk4Jac, ContDyn.rk4Assemble]

/-- **C87.**  While the step has not been set the check says nothing: it passes with every positive tolerance, whatever the model's
functions and whatever its Jacobian returns; so does the check of second derivatives. -/
theorem C87_default_step (model : ContObj n m) (sch : Scheme) (t : ℝ) (x : Fin n → ℝ) (u : Fin m → ℝ) (eps : ℝ) (he : 0 < eps)
    (hN : 0 < n + m) :
    Passes (((DiscObj.new model sch).setTime t).toBase.checkJacobian x u eps) ∧
    ∀ b, Passes (((DiscObj.new model sch).setTime t).toBase.checkHessian x u b eps) := by
  have hst : ((DiscObj.new model sch).setTime t).toBase.stacked = fun z i => z (Fin.castAdd m i) := by
    funext z
    exact step_zero _ _ _ _
  constructor
  · rw [C68_jacobian_iff _ _ _ _ hN]
    have : checkError ((DiscObj.new model sch).setTime t).toBase.stacked (Fin.append x u)
        (((DiscObj.new model sch).setTime t).toBase.jac x u) = 0 := by
      ext i j
      have hj : ((DiscObj.new model sch).setTime t).toBase.jac x u = joinCols (fromCols 1 0) := by
        show joinCols (DiscObj.stepJac _ x u _ _) = _
        rw [show ((DiscObj.new model sch).setTime t).h = 0 from rfl, stepJac_zero]
      rw [checkError, hst, hj]
      simp only
      rw [joinCols_id _ 1e-6 (by norm_num)]
      simp
    rw [this, frob_zero]
    exact he
  · intro b
    refine (C68_hessian_default _ rfl b 0 (Fin.append b 0) 0 (fun z => ?_) x u eps hN).mpr ?_
    · rw [hst]
      simp only [zero_mulVec, dotProduct_zero, add_zero, zero_add, state_dot]
    · simp [frob_zero, he]

/-! ## Euler -/

theorem euler_checkError (s : DiscObj n m) (hs : s.scheme = .euler) (x : Fin n → ℝ) (u : Fin m → ℝ) :
    checkError s.toBase.stacked (Fin.append x u) (s.toBase.jac x u) =
      s.h • checkError (s.model.setTime s.t).toBase.stacked (Fin.append x u) ((s.model.setTime s.t).toBase.jac x u) := by
  have hst : s.toBase.stacked = fun z i => z (Fin.castAdd m i) + s.h * (s.model.setTime s.t).toBase.stacked z i := by
    funext z i
    show s.step _ _ _ _ i = _
    unfold DiscObj.step
    rw [hs]
    rfl
  have hj : s.toBase.jac x u = joinCols (fromCols 1 0) + s.h • (s.model.setTime s.t).toBase.jac x u := by
    show joinCols (s.stepJac x u _ _) = _
    unfold DiscObj.stepJac
    rw [hs]
    rfl
  ext i j
  rw [checkError, hst, hj]
  simp only [Matrix.add_apply, Matrix.smul_apply, smul_eq_mul, checkError]
  rw [← joinCols_id (Fin.append x u) 1e-6 (by norm_num) i j]
  ring

/-- **C87**, Euler: checking the discretized model with tolerance `eps` is checking the continuous model at the stored time with
tolerance `eps / |h|`. -/
theorem C87_euler (s : DiscObj n m) (hs : s.scheme = .euler) (hh : s.h ≠ 0) (x : Fin n → ℝ) (u : Fin m → ℝ) (eps : ℝ) :
    Passes (s.toBase.checkJacobian x u eps) ↔ Passes ((s.model.setTime s.t).toBase.checkJacobian x u (eps / |s.h|)) := by
  by_cases hN : 0 < n + m
  · rw [C68_jacobian_iff _ _ _ _ hN, C68_jacobian_iff _ _ _ _ hN, euler_checkError s hs, frob_smul, lt_div_iff₀ (abs_pos.mpr hh), mul_comm]
  · rw [(C68_undefined_iff _ x u _).mpr (by omega), (C68_undefined_iff _ x u _).mpr (by omega)]

/-! ## Runge-Kutta -/

/-- The fourth-order Taylor polynomials of the flow of `x' = A x + B u`. -/
noncomputable def taylorJac (A : Matrix (Fin n) (Fin n) ℝ) (B : Matrix (Fin n) (Fin m) ℝ) (h : ℝ) : Matrix (Fin n) (Fin n ⊕ Fin m) ℝ :=
  fromCols (1 + h • A + (h ^ 2 / 2) • A ^ 2 + (h ^ 3 / 6) • A ^ 3 + (h ^ 4 / 24) • A ^ 4)
    ((h • 1 + (h ^ 2 / 2) • A + (h ^ 3 / 6) • A ^ 2 + (h ^ 4 / 24) • A ^ 3) * B)

theorem rk4Assemble_const (A : Matrix (Fin n) (Fin n) ℝ) (B : Matrix (Fin n) (Fin m) ℝ) (h : ℝ) :
    ContDyn.rk4Assemble h (fromCols A B) (fromCols A B) (fromCols A B) (fromCols A B) = taylorJac A B h := by
  unfold ContDyn.rk4Assemble taylorJac
  simp only [toCols₁_fromCols, toCols₂_fromCols]
  congr 1
  · simp only [pow_succ, pow_zero, one_mul, Matrix.mul_add, Matrix.mul_one, Matrix.mul_smul, smul_add, smul_smul, ← Matrix.mul_assoc]
    module
  · simp only [pow_succ, pow_zero, one_mul, Matrix.mul_add, Matrix.add_mul, Matrix.smul_mul, Matrix.one_mul, Matrix.mul_smul, smul_add,
      smul_smul, ← Matrix.mul_assoc]
    module

/-- **C87**, Runge-Kutta: for dynamics `A x + B u` that report the constant Jacobian `[A' B']`, the check compares the Taylor
polynomials of the two. -/
theorem C87_rk4 (s : DiscObj n m) (hs : s.scheme = .rk4) (A A' : Matrix (Fin n) (Fin n) ℝ) (B B' : Matrix (Fin n) (Fin m) ℝ)
    (hf : ∀ x u t, s.model.dyn.f x u t = A *ᵥ x + B *ᵥ u) (hJ : ∀ x u t b, s.model.dyn.jac x u t b = fromCols A' B')
    (x : Fin n → ℝ) (u : Fin m → ℝ) (eps : ℝ) (hN : 0 < n + m) :
    Passes (s.toBase.checkJacobian x u eps) ↔ frob (joinCols (taylorJac A B s.h - taylorJac A' B' s.h)) < eps := by
  have hj : s.toBase.jac x u = joinCols (taylorJac A' B' s.h) := by
    show joinCols (s.stepJac x u _ _) = _
    unfold DiscObj.stepJac
    rw [hs]
    simp only [ContDyn.rk4Jac, hJ, rk4Assemble_const]
  have hst : s.toBase.stacked = fun z i => (joinCols (taylorJac A B s.h) *ᵥ z) i := by
    funext z
    show s.step _ _ _ _ = _
    unfold DiscObj.step
    rw [hs]
    show s.model.dyn.rk4 _ _ _ _ = _
    rw [C35_lti A B _ hf, mulVec_mulVec]
    funext i
    rw [taylorJac]
    generalize (1 + s.h • A + (s.h ^ 2 / 2) • A ^ 2 + (s.h ^ 3 / 6) • A ^ 3 + (s.h ^ 4 / 24) • A ^ 4) = P
    generalize (s.h • 1 + (s.h ^ 2 / 2) • A + (s.h ^ 3 / 6) • A ^ 2 + (s.h ^ 4 / 24) • A ^ 3) * B = R
    simp only [mulVec, dotProduct, Pi.add_apply, Fin.sum_univ_add, joinCols, submatrix_apply, id, finSumFinEquiv_symm_apply_castAdd,
      finSumFinEquiv_symm_apply_natAdd, fromCols_apply_inl, fromCols_apply_inr]
  rw [C68_jacobian_iff _ _ _ _ hN]
  have : checkError s.toBase.stacked (Fin.append x u) (s.toBase.jac x u) = joinCols (taylorJac A B s.h - taylorJac A' B' s.h) := by
    ext i j
    have e : (joinCols (taylorJac A B s.h) *ᵥ Pi.single j (1e-6 : ℝ)) i = joinCols (taylorJac A B s.h) i j * 1e-6 := by
      simp [mulVec, dotProduct_single]
    rw [checkError, hst, hj]
    simp only [mulVec_add, Pi.add_apply, e]
    show _ = joinCols (taylorJac A B s.h) i j - joinCols (taylorJac A' B' s.h) i j
    field_simp
    ring
  rw [this]

/-- The wrong stage times of C34 are found by the check once the step is set: for `x' = t x` with its exact Jacobian, at time 0 and step 1. -/
theorem C87_detects (hess) (x u : Fin 1 → ℝ) :
    ¬ Passes ((((DiscObj.new ⟨rampDyn, hess, 0, false⟩ .rk4).setStep 1).toBase).checkJacobian x u (1 / 2)) := by
  intro h
  rw [C68_jacobian_iff _ _ _ _ (by norm_num)] at h
  have h1 := (entry_le_frob _ 0 0).trans_lt h
  have e : checkError (((DiscObj.new ⟨rampDyn, hess, 0, false⟩ .rk4).setStep 1).toBase).stacked (Fin.append x u)
      ((((DiscObj.new ⟨rampDyn, hess, 0, false⟩ .rk4).setStep 1).toBase).jac x u) 0 0 = 31 / 48 := by
    have hj : (((DiscObj.new ⟨rampDyn, hess, 0, false⟩ .rk4).setStep 1).toBase).jac x u 0 0 = 1 := by
      show joinCols (ContDyn.rk4Jac rampDyn x u 0 1 0) 0 0 = 1
      have : ContDyn.rk4Jac rampDyn x u 0 1 0 = fromCols 1 0 := by
        have z : (toCols₁ (0 : Matrix (Fin 1) (Fin 1 ⊕ Fin 1) ℝ)) = 0 := rfl
        have z' : (toCols₂ (0 : Matrix (Fin 1) (Fin 1 ⊕ Fin 1) ℝ)) = 0 := rfl
        simp [ContDyn.rk4Jac, rampDyn, ContDyn.rk4Assemble, z, z']
      rw [this]
      rfl
    have hst : ∀ z, (((DiscObj.new ⟨rampDyn, hess, 0, false⟩ .rk4).setStep 1).toBase).stacked z 0 = 79 / 48 * z 0 := by
      intro z
      show ContDyn.rk4 rampDyn _ _ 0 1 0 = _
      simp [ContDyn.rk4, ContDyn.k1, ContDyn.k2, ContDyn.k3, ContDyn.k4, rampDyn]
      ring
    rw [checkError, hj, hst, hst, Pi.add_apply, Pi.single_eq_same]
    ring
  rw [e] at h1
  norm_num at h1

/-! ## Second derivatives -/

theorem fdHess_entry {N : ℕ} (f : (Fin (N + 1) → ℝ) → ℝ) (z : Fin (N + 1) → ℝ) (e : ℝ) (i j : Fin (N + 1)) :
    fdHess f z e true i j = ((f (z + Pi.single j e + Pi.single i e) - f (z + Pi.single j e - Pi.single i e)) / (2 * e) -
      (f (z - Pi.single j e + Pi.single i e) - f (z - Pi.single j e - Pi.single i e)) / (2 * e)) / (2 * e) := by
  unfold fdHess
  rw [C36_columns]
  simp only [diffQuot, if_true, fdGrad, C36_columns]

theorem compareHess_linear {N : ℕ} (g : (Fin N → ℝ) → ℝ) (l : Fin N → ℝ) (h : ℝ) (hh : h ≠ 0) (z : Fin N → ℝ) (eps : ℝ) :
    Passes (compareHess N (fun z => l ⬝ᵥ z + h * g z) z 0 eps) ↔ Passes (compareHess N g z 0 (eps / |h|)) := by
  cases N with
  | zero => exact Iff.rfl
  | succ N =>
    show frob (fdHess _ z 1e-4 true - 0) < eps ↔ frob (fdHess g z 1e-4 true - 0) < eps / |h|
    have : fdHess (fun z => l ⬝ᵥ z + h * g z) z 1e-4 true - 0 = h • (fdHess g z 1e-4 true - 0) := by
      ext i j
      rw [sub_zero, sub_zero, Matrix.smul_apply, fdHess_entry, fdHess_entry]
      simp only [dotProduct_add, dotProduct_sub, smul_eq_mul]
      ring
    rw [this, frob_smul, lt_div_iff₀ (abs_pos.mpr hh), mul_comm]

/-- The same dynamics with the inherited `Hessian`, which writes nothing. -/
def withoutHessian (s : ContObj n m) : ContObj n m := { s with hess := fun _ _ _ _ buf => buf }

/-- **C87**, second derivatives: the discretized model reports no second derivatives, so with Euler the check passes exactly when
the second differences of the model's own function stay below `eps / |h|`, as if the model had no Hessian. -/
theorem C87_hessian_euler (s : DiscObj n m) (hs : s.scheme = .euler) (hh : s.h ≠ 0) (x : Fin n → ℝ) (u : Fin m → ℝ) (b : Fin n → ℝ)
    (eps : ℝ) : Passes (s.toBase.checkHessian x u b eps) ↔
      Passes ((withoutHessian (s.model.setTime s.t)).toBase.checkHessian x u b (eps / |s.h|)) := by
  unfold FunBase.checkHessian
  have e : (fun z => s.toBase.stacked z ⬝ᵥ b) = fun z => Fin.append b 0 ⬝ᵥ z +
      s.h * ((withoutHessian (s.model.setTime s.t)).toBase.stacked z ⬝ᵥ b) := by
    funext z
    have h1 : s.toBase.stacked z = (fun i => z (Fin.castAdd m i)) +
        s.h • (withoutHessian (s.model.setTime s.t)).toBase.stacked z := by
      funext i
      show s.step _ _ _ _ i = _
      unfold DiscObj.step
      rw [hs]
      rfl
    rw [h1, add_dotProduct, smul_dotProduct, smul_eq_mul]
    congr 1
    exact state_dot b z
  rw [e]
  exact compareHess_linear _ _ _ hh _ _

/-- `x' = x²` with its exact derivatives. -/
def squareObj : ContObj 1 1 where
  dyn := { f := fun x _ _ i => x i ^ 2, jac := fun x _ _ _ => fromCols ((2 * x 0) • 1) 0 }
  hess := fun _ _ _ b _ => fun i j => if i = 0 ∧ j = 0 then 2 * b 0 else 0

/-- **C87** fails for second derivatives: `x' = x²` passes the check of its second derivatives with every tolerance and says that it has
them; the discretized model says so too, but fails the check. -/
theorem C87_hessian_counterexample : (DiscObj.new squareObj .euler).hasHessian = true ∧
    (∀ x u b eps, 0 < eps → Passes (squareObj.toBase.checkHessian x u b eps)) ∧
    ∀ x u, ¬ Passes (((DiscObj.new squareObj .euler).setStep 1).toBase.checkHessian x u 1 1) := by
  have hq : ∀ (b : Fin 1 → ℝ) (z : Fin (1 + 1) → ℝ), squareObj.toBase.stacked z ⬝ᵥ b = 0 + 0 ⬝ᵥ z + z ⬝ᵥ !![b 0, 0; 0, 0] *ᵥ z := by
    intro b z
    simp [dotProduct, mulVec, Fin.sum_univ_two, squareObj, ContObj.toBase, FunBase.stacked]
    ring
  refine ⟨rfl, fun x u b eps he => ?_, fun x u h => ?_⟩
  · rw [C68_hessian_quadratic _ b 0 0 _ (hq b) x u eps (by norm_num)]
    have : !![b 0, 0; 0, 0] + !![b 0, 0; 0, 0]ᵀ - squareObj.toBase.hess x u b = 0 := by
      ext i j
      show !![b 0, 0; 0, 0] i j + !![b 0, 0; 0, 0] j i - (if i = 0 ∧ j = 0 then 2 * b 0 else 0) = 0
      fin_cases i <;> fin_cases j <;> simp
      ring
    rw [this, frob_zero]
    exact he
  · rw [C87_hessian_euler _ rfl (by show (1 : ℝ) ≠ 0; norm_num)] at h
    change Passes ((withoutHessian squareObj).toBase.checkHessian x u 1 (1 / |(1 : ℝ)|)) at h
    rw [C68_hessian_default (withoutHessian squareObj).toBase rfl 1 0 0 _ (hq 1) x u _ (by norm_num)] at h
    have h1 := (entry_le_frob _ 0 0).trans_lt h
    simp at h1
    norm_num at h1

/-! ## Continuous dynamics -/

/-- **C87**, continuous dynamics: the check is that of the vector field at the stored time, which is zero until it is set; for a field
affine in state and control it passes with every positive tolerance exactly when the reported Jacobian at that time is the right one. -/
theorem C87_continuous (s : ContObj n m) (A : ℝ → Matrix (Fin n) (Fin n) ℝ) (B : ℝ → Matrix (Fin n) (Fin m) ℝ) (c : ℝ → Fin n → ℝ)
    (hf : ∀ x u t, s.dyn.f x u t = A t *ᵥ x + B t *ᵥ u + c t) (t : ℝ) (x : Fin n → ℝ) (u : Fin m → ℝ) (hN : 0 < n + m) :
    (∀ eps > 0, Passes ((s.setTime t).toBase.checkJacobian x u eps)) ↔ s.dyn.jac x u t 0 = fromCols (A t) (B t) := by
  rw [C68_jacobian_affine (s.setTime t).toBase (joinCols (fromCols (A t) (B t))) (c t) ?_ x u hN]
  · show joinCols (s.dyn.jac x u t 0) = _ ↔ _
    constructor
    · intro h
      ext i j
      have := congrFun (congrFun h i) (finSumFinEquiv j)
      simpa [joinCols] using this
    · intro h; rw [h]
  · funext z i
    show s.dyn.f _ _ t i = _
    rw [hf]
    simp only [mulVec, dotProduct, Pi.add_apply, Fin.sum_univ_add, joinCols, submatrix_apply, id, finSumFinEquiv_symm_apply_castAdd,
      finSumFinEquiv_symm_apply_natAdd, fromCols_apply_inl, fromCols_apply_inr]

/-- The double integrator `x' = v`, `v' = u` with a Jacobian that reports `w` instead of 1 in one place. -/
def wrongDouble (w : ℝ) : ContObj 2 1 where
  dyn := { f := fun x u _ => ![x 1, u 0], jac := fun _ _ _ _ => fromCols !![0, w; 0, 0] !![0; 1] }
  hess := fun _ _ _ _ b => b

/-- The continuous check tells the right one from the wrong ones; the check of the discretized model whose step was never set does not. -/
example (w : ℝ) (x : Fin 2 → ℝ) (u : Fin 1 → ℝ) :
    ((∀ eps > 0, Passes ((wrongDouble w).toBase.checkJacobian x u eps)) ↔ w = 1) ∧
    ∀ eps > 0, Passes ((DiscObj.new (wrongDouble w) .rk4).toBase.checkJacobian x u eps) := by
  refine ⟨?_, fun eps he => (C87_default_step (wrongDouble w) .rk4 0 x u eps he (by norm_num)).1⟩
  have h := C87_continuous (wrongDouble w) (fun _ => !![0, 1; 0, 0]) (fun _ => !![0; 1]) (fun _ => 0) (fun x u t => ?_) 0 x u (by norm_num)
  · refine h.trans ⟨fun e => ?_, fun e => ?_⟩
    · have := congrFun (congrFun e 0) (.inl 1)
      simpa [wrongDouble] using this
    · rw [e]; rfl
  · funext i
    fin_cases i <;> simp [wrongDouble, mulVec, dotProduct, Fin.sum_univ_two]

/-- Euler with step 1/2 divides the error by two. -/
example (w : ℝ) (x : Fin 2 → ℝ) (u : Fin 1 → ℝ) (eps : ℝ) :
    Passes (((DiscObj.new (wrongDouble w) .euler).setStep (1 / 2)).toBase.checkJacobian x u eps) ↔
      Passes ((wrongDouble w).toBase.checkJacobian x u (eps / |1 / 2|)) :=
  C87_euler _ rfl (by show (1 / 2 : ℝ) ≠ 0; norm_num) x u eps

/-- With Runge-Kutta the right Jacobian passes at every step size. -/
example (h : ℝ) (x : Fin 2 → ℝ) (u : Fin 1 → ℝ) (eps : ℝ) (he : 0 < eps) :
    Passes (((DiscObj.new (wrongDouble 1) .rk4).setStep h).toBase.checkJacobian x u eps) := by
  refine (C87_rk4 _ rfl !![0, 1; 0, 0] !![0, 1; 0, 0] !![0; 1] !![0; 1] (fun x u t => ?_) (fun _ _ _ _ => rfl) x u eps (by norm_num)).mpr ?_
  · funext i
    fin_cases i <;> simp [DiscObj.setStep, DiscObj.new, wrongDouble, mulVec, dotProduct, Fin.sum_univ_two]
  · rw [sub_self, show joinCols (0 : Matrix (Fin 2) (Fin 2 ⊕ Fin 1) ℝ) = 0 from rfl, frob_zero]
    exact he

/-- The step set last counts. -/
example : lastStep 0 [.step 1, .time 5, .step (1 / 2)] = 1 / 2 ∧ lastTime 0 [.step 1, .time 5, .step (1 / 2)] = 5 := ⟨rfl, rfl⟩

end Altro.Props
