import Verif.Spec.DerivCheck
import Verif.Props.FiniteDiff
import Mathlib.Analysis.Calculus.MeanValue
import Mathlib.Analysis.Calculus.Deriv.Pow

/-!
# C68: the derivative checks; C69: `ScalarFunction::Jacobian`
-/

namespace Altro.Props
open Altro.Spec Matrix
variable {N p n m : ℕ}

/-! ## Frobenius norm -/

theorem frob_nonneg {a b : ℕ} (A : Matrix (Fin a) (Fin b) ℝ) : 0 ≤ frob A := Real.sqrt_nonneg _

theorem entry_le_frob {a b : ℕ} (A : Matrix (Fin a) (Fin b) ℝ) (i : Fin a) (j : Fin b) : |A i j| ≤ frob A := by
  refine Real.abs_le_sqrt ?_
  have h1 : A i j ^ 2 ≤ ∑ j, A i j ^ 2 :=
    Finset.single_le_sum (f := fun j => A i j ^ 2) (fun _ _ => sq_nonneg _) (Finset.mem_univ j)
  have h2 : ∑ j, A i j ^ 2 ≤ ∑ i, ∑ j, A i j ^ 2 :=
    Finset.single_le_sum (f := fun i => ∑ j, A i j ^ 2) (fun _ _ => Finset.sum_nonneg fun _ _ => sq_nonneg _)
      (Finset.mem_univ i)
  exact h1.trans h2

theorem frob_le {a b : ℕ} (A : Matrix (Fin a) (Fin b) ℝ) (e : ℝ) (he : 0 ≤ e) (h : ∀ i j, |A i j| ≤ e) :
    frob A ≤ e * Real.sqrt (a * b) := by
  have h1 : ∑ i, ∑ j, A i j ^ 2 ≤ e ^ 2 * (a * b) := by
    calc ∑ i, ∑ j, A i j ^ 2 ≤ ∑ _i : Fin a, ∑ _j : Fin b, e ^ 2 :=
          Finset.sum_le_sum fun i _ => Finset.sum_le_sum fun j _ => by
            rw [← sq_abs]; exact pow_le_pow_left₀ (abs_nonneg _) (h i j) 2
      _ = e ^ 2 * (a * b) := by simp; ring
  unfold frob
  calc Real.sqrt (∑ i, ∑ j, A i j ^ 2) ≤ Real.sqrt (e ^ 2 * (a * b)) := Real.sqrt_le_sqrt h1
    _ = e * Real.sqrt (a * b) := by rw [Real.sqrt_mul (sq_nonneg e), Real.sqrt_sq he]

theorem frob_zero {a b : ℕ} : frob (0 : Matrix (Fin a) (Fin b) ℝ) = 0 := by simp [frob]

/-! ## Error of a forward difference quotient -/

theorem quotient_error {φ d : ℝ → ℝ} {M h : ℝ} (hh : 0 < h)
    (hd : ∀ t, 0 ≤ t → t ≤ h → HasDerivAt φ (d t) t ∧ |d t - d 0| ≤ M * t) :
    |(φ h - φ 0) / h - d 0| ≤ M * h / 2 := by
  have key := image_norm_le_of_norm_deriv_right_le_deriv_boundary (a := 0) (b := h)
    (f := fun t => φ t - φ 0 - t * d 0) (f' := fun t => d t - d 0) (B := fun t => M * t ^ 2 / 2) (B' := fun t => M * t)
    (by
      intro t ht
      have h1 := (hd t ht.1 ht.2).1.continuousAt
      exact ((h1.sub continuousAt_const).sub (continuousAt_id.mul continuousAt_const)).continuousWithinAt)
    (by
      intro t ht
      have h1 := ((hd t ht.1 ht.2.le).1.sub_const (φ 0)).sub ((hasDerivAt_id t).mul_const (d 0))
      rw [one_mul] at h1
      exact h1.hasDerivWithinAt)
    (by simp)
    (by
      intro t
      have := ((hasDerivAt_pow 2 t).const_mul M).div_const 2
      refine this.congr_deriv ?_
      simp; ring)
    (by
      intro t ht
      rw [Real.norm_eq_abs]
      exact (hd t ht.1 ht.2.le).2)
    (x := h) ⟨hh.le, le_rfl⟩
  rw [Real.norm_eq_abs] at key
  have e : (φ h - φ 0) / h - d 0 = (φ h - φ 0 - h * d 0) / h := by field_simp
  rw [e, abs_div, abs_of_pos hh, div_le_iff₀ hh]
  calc _ ≤ _ := key
    _ = _ := by ring

/-! ## C68 -/

/-- The matrix the Jacobian check looks at: difference quotients minus reported entries. -/
noncomputable def checkError (g : (Fin N → ℝ) → Fin p → ℝ) (z : Fin N → ℝ) (J : Matrix (Fin p) (Fin N) ℝ) :
    Matrix (Fin p) (Fin N) ℝ :=
  fun i j => (g (z + Pi.single j 1e-6) i - g z i) / 1e-6 - J i j

theorem compareJac_iff (g : (Fin N → ℝ) → Fin p → ℝ) (z : Fin N → ℝ) (J : Matrix (Fin p) (Fin N) ℝ) (eps : ℝ)
    (hN : 0 < N) : Passes (compareJac N g z J eps) ↔ frob (checkError g z J) < eps := by
  cases N with
  | zero => omega
  | succ N =>
    show frob (fdJac g z 1e-6 false - J) < eps ↔ _
    have : fdJac g z 1e-6 false - J = checkError g z J := by
      ext i j
      rw [Matrix.sub_apply, C36_columns]
      simp [diffQuot, checkError]
    rw [this]

/-- **C68.**  For a function without inputs the check is undefined behaviour; otherwise it returns a value. -/
theorem C68_undefined_iff (F : FunBase n m p) (x : Fin n → ℝ) (u : Fin m → ℝ) (eps : ℝ) :
    F.checkJacobian x u eps = .undefined ↔ n + m = 0 := by
  unfold FunBase.checkJacobian
  generalize F.stacked = g
  generalize Fin.append x u = z
  generalize F.jac x u = J
  revert g z J
  generalize n + m = N
  intro g z J
  cases N with
  | zero => simp [compareJac]
  | succ N => simp [compareJac]

/-- **C68.**  The check returns `true` exactly when the Frobenius norm of the differences between the forward difference
quotients (step `1e-6`) and the reported entries is below the tolerance. -/
theorem C68_jacobian_iff (F : FunBase n m p) (x : Fin n → ℝ) (u : Fin m → ℝ) (eps : ℝ) (hN : 0 < n + m) :
    Passes (F.checkJacobian x u eps) ↔ frob (checkError F.stacked (Fin.append x u) (F.jac x u)) < eps :=
  compareJac_iff _ _ _ _ hN

theorem checkError_bound (g : (Fin N → ℝ) → Fin p → ℝ) (z : Fin N → ℝ) (J D : Matrix (Fin p) (Fin N) ℝ) (M : ℝ)
    (h : Partials g z D M 1e-6) (i : Fin p) (j : Fin N) : |checkError g z J i j - (D i j - J i j)| ≤ M * 1e-6 / 2 := by
  obtain ⟨d, h0, hd⟩ := h i j
  have := quotient_error (by norm_num) hd
  rw [h0] at this
  have e : checkError g z J i j - (D i j - J i j)
      = (g (z + Pi.single j 1e-6) i - g (z + Pi.single j 0) i) / 1e-6 - D i j := by
    unfold checkError
    rw [Pi.single_zero, add_zero]
    ring
  rw [e]
  exact this

/-- **C68**, soundness: if the check passes, every reported entry is within the tolerance plus the discretization error
of the true partial derivative. -/
theorem C68_jacobian_sound (F : FunBase n m p) (x : Fin n → ℝ) (u : Fin m → ℝ) (eps M : ℝ)
    (D : Matrix (Fin p) (Fin (n + m)) ℝ) (hD : Partials F.stacked (Fin.append x u) D M 1e-6)
    (h : Passes (F.checkJacobian x u eps)) (i : Fin p) (j : Fin (n + m)) :
    |F.jac x u i j - D i j| < eps + M * 1e-6 / 2 := by
  have hN : 0 < n + m := by have := j.isLt; omega
  have h1 := (entry_le_frob _ i j).trans_lt ((C68_jacobian_iff F x u eps hN).mp h)
  have h2 := checkError_bound F.stacked (Fin.append x u) (F.jac x u) D M hD i j
  have h3 := abs_sub_abs_le_abs_sub (D i j - F.jac x u i j) (checkError F.stacked (Fin.append x u) (F.jac x u) i j)
  rw [abs_sub_comm (F.jac x u i j)]
  rw [abs_sub_comm (D i j - F.jac x u i j)] at h3
  linarith

/-- **C68**, completeness: a correct Jacobian passes whenever the discretization error, over all entries, is below the
tolerance. -/
theorem C68_jacobian_complete (F : FunBase n m p) (x : Fin n → ℝ) (u : Fin m → ℝ) (eps M : ℝ) (hN : 0 < n + m)
    (hM : 0 ≤ M) (hD : Partials F.stacked (Fin.append x u) (F.jac x u) M 1e-6)
    (he : M * 1e-6 / 2 * Real.sqrt (p * ((n + m : ℕ) : ℝ)) < eps) : Passes (F.checkJacobian x u eps) := by
  rw [C68_jacobian_iff F x u eps hN]
  refine lt_of_le_of_lt (frob_le _ (M * 1e-6 / 2) (by positivity) fun i j => ?_) he
  have := checkError_bound F.stacked (Fin.append x u) (F.jac x u) (F.jac x u) M hD i j
  rwa [sub_self, sub_zero] at this

/-- **C68**, affine functions: the check passes with every positive tolerance exactly when the reported Jacobian is the
matrix of the function. -/
theorem C68_jacobian_affine (F : FunBase n m p) (A : Matrix (Fin p) (Fin (n + m)) ℝ) (c : Fin p → ℝ)
    (hF : F.stacked = fun z => A *ᵥ z + c) (x : Fin n → ℝ) (u : Fin m → ℝ) (hN : 0 < n + m) :
    (∀ eps > 0, Passes (F.checkJacobian x u eps)) ↔ F.jac x u = A := by
  have e : checkError F.stacked (Fin.append x u) (F.jac x u) = A - F.jac x u := by
    ext i j
    have : (A *ᵥ Pi.single j (1e-6 : ℝ)) i = A i j * 1e-6 := by simp [mulVec, dotProduct_single]
    simp only [checkError, hF, mulVec_add, Pi.add_apply, this, Matrix.sub_apply]
    field_simp
    ring
  simp only [C68_jacobian_iff F x u _ hN, e]
  constructor
  · intro h
    have h0 : frob (A - F.jac x u) ≤ 0 := by
      by_contra hc
      exact lt_irrefl _ (h _ (not_le.mp hc))
    ext i j
    have := (entry_le_frob (A - F.jac x u) i j).trans h0
    have := abs_eq_zero.mp (le_antisymm this (abs_nonneg _))
    rw [Matrix.sub_apply] at this
    linarith
  · intro h eps he
    rw [h, sub_self, frob_zero]
    exact he

/-- **C68**, tolerance: with a tolerance that is not positive the check always fails. -/
theorem C68_tolerance (F : FunBase n m p) (x : Fin n → ℝ) (u : Fin m → ℝ) (eps : ℝ) (he : eps ≤ 0) :
    ¬ Passes (F.checkJacobian x u eps) := by
  intro h
  by_cases hN : 0 < n + m
  · have := (C68_jacobian_iff F x u eps hN).mp h
    linarith [frob_nonneg (checkError F.stacked (Fin.append x u) (F.jac x u))]
  · rw [(C68_undefined_iff F x u eps).mpr (by omega)] at h
    exact h

/-- **C68**, gradients: for a scalar function the gradient check and the Jacobian check of the parent interface agree. -/
theorem C68_gradient_eq_jacobian (F : ScalarFun n m) (x : Fin n → ℝ) (u : Fin m → ℝ) (eps : ℝ) :
    Passes (F.checkGradient x u eps) ↔ Passes (F.toBase.checkJacobian x u eps) := by
  have : ∀ (N : ℕ) (f : (Fin N → ℝ) → ℝ) (z g : Fin N → ℝ),
      Passes (compareGrad N f z g eps) ↔ Passes (compareJac (p := 1) N (fun z _ => f z) z (fun _ j => g j) eps) := by
    intro N f z g
    cases N with
    | zero => exact Iff.rfl
    | succ N =>
      show Real.sqrt _ < eps ↔ Real.sqrt _ < eps
      simp only [fdGrad, Fin.sum_univ_one]
      exact Iff.rfl
  exact this _ _ _ _

/-- **C68**, Hessians: for a function whose product with `b` is quadratic, `c + gᵀz + zᵀHz`, the check compares the
reported matrix with the exact Hessian `H + Hᵀ`. -/
theorem C68_hessian_quadratic (F : FunBase n m p) (b : Fin p → ℝ) (c : ℝ) (g : Fin (n + m) → ℝ)
    (H : Matrix (Fin (n + m)) (Fin (n + m)) ℝ) (hF : ∀ z, F.stacked z ⬝ᵥ b = c + g ⬝ᵥ z + z ⬝ᵥ H *ᵥ z)
    (x : Fin n → ℝ) (u : Fin m → ℝ) (eps : ℝ) (hN : 0 < n + m) :
    Passes (F.checkHessian x u b eps) ↔ frob (H + Hᵀ - F.hess x u b) < eps := by
  have : ∀ (N : ℕ) (f : (Fin N → ℝ) → ℝ) (z : Fin N → ℝ) (g : Fin N → ℝ) (H B : Matrix (Fin N) (Fin N) ℝ), 0 < N →
      (∀ z, f z = c + g ⬝ᵥ z + z ⬝ᵥ H *ᵥ z) → (Passes (compareHess N f z B eps) ↔ frob (H + Hᵀ - B) < eps) := by
    intro N f z g H B hN hf
    cases N with
    | zero => omega
    | succ N =>
      show frob (fdHess f z 1e-4 true - B) < eps ↔ _
      rw [show f = fun z => c + g ⬝ᵥ z + z ⬝ᵥ H *ᵥ z from funext hf, C36_hessian H g c z 1e-4 (by norm_num) true]
  exact this _ _ _ g H _ hN hF

/-- **C68**, the inherited `Hessian`: a function that does not implement it and whose product with `b` is quadratic
passes exactly when its Hessian is smaller than the tolerance. -/
theorem C68_hessian_default (F : FunBase n m p) (hdef : F.hess = fun _ _ _ => 0) (b : Fin p → ℝ) (c : ℝ)
    (g : Fin (n + m) → ℝ) (H : Matrix (Fin (n + m)) (Fin (n + m)) ℝ)
    (hF : ∀ z, F.stacked z ⬝ᵥ b = c + g ⬝ᵥ z + z ⬝ᵥ H *ᵥ z) (x : Fin n → ℝ) (u : Fin m → ℝ) (eps : ℝ)
    (hN : 0 < n + m) : Passes (F.checkHessian x u b eps) ↔ frob (H + Hᵀ) < eps := by
  rw [C68_hessian_quadratic F b c g H hF x u eps hN, hdef, sub_zero]

/-! Concrete cases. -/

/-- `x² + u`, with its Jacobian. -/
def sample (w : ℝ) : FunBase 1 1 1 where
  eval x u _ := x 0 ^ 2 + u 0
  jac x _ := fun _ j => if j = 0 then w * x 0 else 1

theorem sample_partials (w : ℝ) (x u : Fin 1 → ℝ) :
    Partials (sample w).stacked (Fin.append x u) ((sample 2).jac x u) 2 1e-6 := by
  intro i j
  have hst : ∀ z : Fin 2 → ℝ, (sample w).stacked z i = z 0 ^ 2 + z 1 := fun z => rfl
  by_cases hj : j = 0
  · subst hj
    refine ⟨fun t => 2 * (x 0 + t), by simp [sample], fun t h0 _ => ⟨?_, ?_⟩⟩
    · have e : (fun s : ℝ => (sample w).stacked (Fin.append x u + Pi.single 0 s) i) = fun s => (x 0 + s) ^ 2 + u 0 := by
        funext s
        rw [hst]
        have h1 : (Fin.append x u + Pi.single (0 : Fin (1 + 1)) s : Fin (1 + 1) → ℝ) 0 = x 0 + s := by
          rw [Pi.add_apply, Pi.single_eq_same]; rfl
        have h2 : (Fin.append x u + Pi.single (0 : Fin (1 + 1)) s : Fin (1 + 1) → ℝ) 1 = u 0 := by
          rw [Pi.add_apply, Pi.single_eq_of_ne (by decide), add_zero]; rfl
        rw [h1, h2]
      rw [e]
      have := (((hasDerivAt_id t).const_add (x 0)).pow 2).add_const (u 0)
      refine this.congr_deriv ?_
      simp
    · rw [show 2 * (x 0 + t) - 2 * (x 0 + 0) = 2 * t by ring, abs_of_nonneg (by positivity)]
  · have hj1 : j = 1 := by
      have := j.isLt
      apply Fin.ext
      have h0 : (j : ℕ) ≠ 0 := fun h => hj (Fin.ext h)
      show (j : ℕ) = 1
      omega
    subst hj1
    refine ⟨fun _ => 1, by simp [sample], fun t h0 _ => ⟨?_, ?_⟩⟩
    · have e : (fun s : ℝ => (sample w).stacked (Fin.append x u + Pi.single 1 s) i) = fun s => x 0 ^ 2 + (u 0 + s) := by
        funext s
        rw [hst]
        have h1 : (Fin.append x u + Pi.single (1 : Fin (1 + 1)) s : Fin (1 + 1) → ℝ) 0 = x 0 := by
          rw [Pi.add_apply, Pi.single_eq_of_ne (by decide), add_zero]; rfl
        have h2 : (Fin.append x u + Pi.single (1 : Fin (1 + 1)) s : Fin (1 + 1) → ℝ) 1 = u 0 + s := by
          rw [Pi.add_apply, Pi.single_eq_same]; rfl
        rw [h1, h2]
      rw [e]
      exact ((hasDerivAt_id t).const_add (u 0)).const_add (x 0 ^ 2)
    · simp only [sub_self, abs_zero]; positivity

/-- The right Jacobian passes with the default tolerance, at every point ... -/
example (x u : Fin 1 → ℝ) : Passes ((sample 2).checkJacobian x u 1e-4) := by
  refine C68_jacobian_complete _ x u _ 2 (by decide) (by norm_num) (sample_partials 2 x u) ?_
  have h2 : Real.sqrt 2 ≤ 2 := Real.sqrt_le_iff.mpr ⟨by norm_num, by norm_num⟩
  norm_num
  linarith

/-- ... and a Jacobian with the factor 3 instead of 2 fails at `x = 1`. -/
example (u : Fin 1 → ℝ) : ¬ Passes ((sample 3).checkJacobian (fun _ => 1) u 1e-4) := by
  intro h
  have := C68_jacobian_sound _ _ u _ 2 _ (sample_partials 3 _ u) h 0 (0 : Fin 2)
  simp [sample] at this
  norm_num at this

/-! ## C69 -/

/-- **C69.**  On a view whose entries are contiguous (or that has at most one column) `ScalarFunction::Jacobian` writes
exactly the gradient into the view and nothing else. -/
theorem C69_contiguous (v : RowView) (h : v.outer = 1 ∨ v.cols ≤ 1) (g mem : ℕ → ℝ) :
    (∀ c < v.cols, scalarJacobian v g mem (v.addr c) = g c) ∧
    ∀ a, (∀ c < v.cols, a ≠ v.addr c) → scalarJacobian v g mem a = mem a := by
  constructor
  · intro c hc
    unfold scalarJacobian RowView.addr
    rcases h with h | h
    · rw [if_pos (by rw [h]; omega), h, mul_one, Nat.add_sub_cancel_left]
    · have : c = 0 := by omega
      subst this
      rw [zero_mul, if_pos (by omega), Nat.add_zero, Nat.sub_self]
  · intro a ha
    unfold scalarJacobian
    refine if_neg fun hc => ?_
    rcases h with h | h
    · exact ha (a - v.base) (by omega) (by unfold RowView.addr; rw [h]; omega)
    · exact ha 0 (by omega) (by unfold RowView.addr; omega)

/-- **C69**, the other views (one row of a larger matrix, at least two columns): whatever the gradient and the previous
content, entry `(0, 1)` of the view keeps its old value or gets another component of the gradient, and the memory just
after entry `(0, 0)`, which is not part of the view, is overwritten. -/
theorem C69_strided (v : RowView) (ho : 2 ≤ v.outer) (hc : 2 ≤ v.cols) (g mem : ℕ → ℝ) :
    scalarJacobian v g mem (v.addr 1) = (if v.outer < v.cols then g v.outer else mem (v.addr 1)) ∧
    (∀ c, v.base + 1 ≠ v.addr c) ∧ scalarJacobian v g mem (v.base + 1) = g 1 := by
  refine ⟨?_, fun c e => ?_, ?_⟩
  · unfold scalarJacobian RowView.addr
    rw [one_mul]
    by_cases h : v.outer < v.cols
    · rw [if_pos (by omega), if_pos h, Nat.add_sub_cancel_left]
    · rw [if_neg (by omega), if_neg h]
  · unfold RowView.addr at e
    have : c * v.outer = 1 := by omega
    have h1 := Nat.eq_one_of_mul_eq_one_left this
    omega
  · unfold scalarJacobian
    rw [if_pos (by omega), Nat.add_sub_cancel_left]

/-- **C69**, so the statement "the view holds the gradient afterwards" fails for every such view. -/
theorem C69_counterexample (v : RowView) (ho : 2 ≤ v.outer) (hc : 2 ≤ v.cols) :
    ∃ g mem : ℕ → ℝ, ∃ c < v.cols, scalarJacobian v g mem (v.addr c) ≠ g c := by
  refine ⟨fun i => if i = 1 then 1 else 0, fun _ => 0, 1, by omega, ?_⟩
  rw [(C69_strided v ho hc _ _).1, if_neg (show v.outer ≠ 1 by omega)]
  simp

/-- The first row of a `2 × 3` matrix. -/
example : (2 : ℕ) ≤ (RowView.mk 0 2 3).outer ∧ 2 ≤ (RowView.mk 0 2 3).cols := by decide

end Altro.Props
