import Verif.Tactics
import Verif.Spec.Quadratic
import Mathlib.LinearAlgebra.Matrix.Symmetric

namespace Altro
open Matrix Spec
variable {K : Type*} [Field K] [LinearOrder K] [IsStrictOrderedRing K]

theorem lowSym_isSymm {q : ℕ} (M : Matrix (Fin q) (Fin q) K) : (lowSym M).IsSymm := by
  ext i j
  simp only [lowSym, transpose_apply, of_apply]
  rcases lt_trichotomy i j with h | h | h
  · rw [if_pos h.le, if_neg (not_le.mpr h)]
  · subst h; rfl
  · rw [if_neg (not_le.mpr h), if_pos h.le]

theorem lowSym_of_symm {q : ℕ} {M : Matrix (Fin q) (Fin q) K} (h : M.IsSymm) : lowSym M = M := by
  ext i j
  simp only [lowSym, of_apply]
  split
  · rfl
  · exact h.apply _ _

omit [IsStrictOrderedRing K] in
theorem lltCol_lowSym {q : ℕ} (M : Matrix (Fin (q + 1)) (Fin (q + 1)) K) : lltCol (lowSym M) = lltCol M := by
  funext i
  simp [lltCol, lowSym]

omit [IsStrictOrderedRing K] in
theorem lltSchur_lowSym {q : ℕ} (M : Matrix (Fin (q + 1)) (Fin (q + 1)) K) :
    lltSchur (lowSym M) = lowSym (lltSchur M) := by
  ext i j
  have h0 : lowSym M 0 0 = M 0 0 := by simp [lowSym]
  simp only [lltSchur, of_apply, lltCol_lowSym, h0]
  simp only [lowSym, of_apply, Fin.succ_le_succ_iff]
  split
  · rfl
  · ring

omit [IsStrictOrderedRing K] in
theorem lltOk_lowSym {q : ℕ} (M : Matrix (Fin q) (Fin q) K) : lltOk q (lowSym M) = lltOk q M := by
  induction q with
  | zero => rfl
  | succ q ih =>
    simp only [lltOk, lltSchur_lowSym, ih]
    simp [lowSym]

omit [IsStrictOrderedRing K] in
theorem lltSolve_lowSym {q : ℕ} (M : Matrix (Fin q) (Fin q) K) (b : Fin q → K) :
    lltSolve q (lowSym M) b = lltSolve q M b := by
  induction q with
  | zero => rfl
  | succ q ih =>
    have h0 : lowSym M 0 0 = M 0 0 := by simp [lowSym]
    simp only [lltSolve, lltSchur_lowSym, ih, lltCol_lowSym, h0]

theorem lltSchur_symm {q : ℕ} {M : Matrix (Fin (q + 1)) (Fin (q + 1)) K} (h : M.IsSymm) : (lltSchur M).IsSymm := by
  have := lowSym_isSymm (lltSchur M)
  rwa [← lltSchur_lowSym, lowSym_of_symm h] at this

/-- Splitting off the first coordinate of a quadratic form. -/
theorem quad_cons {q : ℕ} {M : Matrix (Fin (q + 1)) (Fin (q + 1)) K} (h : M.IsSymm) (x0 : K) (y : Fin q → K) :
    (Fin.cons x0 y : Fin (q + 1) → K) ⬝ᵥ M *ᵥ (Fin.cons x0 y)
      = M 0 0 * x0 ^ 2 + 2 * x0 * (lltCol M ⬝ᵥ y) + ∑ i, ∑ j, y i * M i.succ j.succ * y j := by
  simp only [dotProduct, mulVec, Fin.sum_univ_succ, Fin.cons_zero, Fin.cons_succ, lltCol]
  have e : ∀ i : Fin q, M 0 i.succ = M i.succ 0 := fun i => h.apply _ _
  simp only [e, mul_add, Finset.mul_sum, Finset.sum_add_distrib]
  have e1 : ∀ i : Fin q, y i * (M i.succ 0 * x0) = x0 * (M i.succ 0 * y i) := fun i => by ring
  have e2 : ∀ i : Fin q, 2 * x0 * (M i.succ 0 * y i) = x0 * (M i.succ 0 * y i) + x0 * (M i.succ 0 * y i) :=
    fun i => by ring
  have e3 : ∀ i j : Fin q, y i * M i.succ j.succ * y j = y i * (M i.succ j.succ * y j) := fun i j => by ring
  simp only [e1, e2, e3, Finset.sum_add_distrib]
  ring

theorem quad_schur {q : ℕ} (M : Matrix (Fin (q + 1)) (Fin (q + 1)) K) (y : Fin q → K) :
    y ⬝ᵥ lltSchur M *ᵥ y
      = ∑ i, ∑ j, y i * M i.succ j.succ * y j - (lltCol M ⬝ᵥ y) ^ 2 / M 0 0 := by
  have e : (lltCol M ⬝ᵥ y) ^ 2 / M 0 0 = ∑ i, ∑ j, lltCol M i * y i * (lltCol M j * y j) / M 0 0 := by
    rw [sq, dotProduct, Finset.sum_mul_sum, Finset.sum_div]
    exact Finset.sum_congr rfl fun i _ => Finset.sum_div ..
  rw [e, ← Finset.sum_sub_distrib, dotProduct]
  refine Finset.sum_congr rfl fun i _ => ?_
  rw [mulVec, dotProduct, Finset.mul_sum, ← Finset.sum_sub_distrib]
  refine Finset.sum_congr rfl fun j _ => ?_
  rw [lltSchur, of_apply]
  ring

/-- Completing the square in the first coordinate. -/
theorem quad_complete {q : ℕ} {M : Matrix (Fin (q + 1)) (Fin (q + 1)) K} (h : M.IsSymm) (ha : M 0 0 ≠ 0) (x0 : K)
    (y : Fin q → K) :
    (Fin.cons x0 y : Fin (q + 1) → K) ⬝ᵥ M *ᵥ (Fin.cons x0 y)
      = M 0 0 * (x0 + (lltCol M ⬝ᵥ y) / M 0 0) ^ 2 + y ⬝ᵥ lltSchur M *ᵥ y := by
  rw [quad_cons h, quad_schur]
  field_simp
  ring

theorem lltOk_iff_posDef_symm {q : ℕ} {M : Matrix (Fin q) (Fin q) K} (h : M.IsSymm) :
    lltOk q M = true ↔ PosDef M := by
  induction q with
  | zero => exact ⟨fun _ x hx => absurd (Subsingleton.elim x 0) hx, fun _ => rfl⟩
  | succ q ih =>
    have hs := lltSchur_symm h
    simp only [lltOk, Bool.and_eq_true, decide_eq_true_eq, ih hs]
    constructor
    · rintro ⟨ha, hS⟩ x hx
      rw [← Fin.cons_self_tail x, quad_complete h ha.ne']
      by_cases hy : Fin.tail x = 0
      · have hx0 : x 0 ≠ 0 := by
          intro h0
          apply hx
          rw [← Fin.cons_self_tail x, hy, h0]
          funext i
          refine Fin.cases ?_ (fun j => ?_) i <;> simp
        simp only [hy, dotProduct_zero, zero_div, add_zero, zero_dotProduct]
        have := sq_pos_of_ne_zero hx0
        positivity
      · have h1 := hS _ hy
        have h2 : 0 ≤ M 0 0 * (x 0 + lltCol M ⬝ᵥ Fin.tail x / M 0 0) ^ 2 := by positivity
        linarith
    · intro hP
      have ha : 0 < M 0 0 := by
        have := hP (Fin.cons 1 0) (by intro h0; have := congrFun h0 0; simp at this)
        rw [quad_cons h] at this
        simpa using this
      refine ⟨ha, fun y hy => ?_⟩
      have := hP (Fin.cons (-(lltCol M ⬝ᵥ y) / M 0 0) y) (by
        intro h0; apply hy; funext i; have := congrFun h0 i.succ; simpa using this)
      rw [quad_complete h ha.ne'] at this
      have e : -(lltCol M ⬝ᵥ y) / M 0 0 + lltCol M ⬝ᵥ y / M 0 0 = 0 := by ring
      rw [e] at this
      simpa using this

theorem lltSolve_symm {q : ℕ} {M : Matrix (Fin q) (Fin q) K} (h : M.IsSymm) (hok : lltOk q M = true)
    (b : Fin q → K) : M *ᵥ lltSolve q M b = b := by
  induction q with
  | zero => exact Subsingleton.elim _ _
  | succ q ih =>
    have hs := lltSchur_symm h
    simp only [lltOk, Bool.and_eq_true, decide_eq_true_eq] at hok
    obtain ⟨ha, hS⟩ := hok
    simp only [lltSolve]
    have hy := ih hs hS (fun i => b i.succ - lltCol M i * b 0 / M 0 0)
    set y := lltSolve q (lltSchur M) (fun i => b i.succ - lltCol M i * b 0 / M 0 0) with hydef
    funext i
    refine Fin.cases ?_ (fun i => ?_) i
    · simp only [mulVec, dotProduct, Fin.sum_univ_succ, Fin.cons_zero, Fin.cons_succ]
      have e : ∑ j : Fin q, M 0 j.succ * y j = lltCol M ⬝ᵥ y := by
        simp only [dotProduct, lltCol]
        exact Finset.sum_congr rfl fun j _ => by rw [h.apply]
      rw [e]
      simp only [dotProduct]
      field_simp
      ring
    · have hyi := congrFun hy i
      simp only [mulVec, dotProduct, lltSchur, of_apply] at hyi
      simp only [mulVec, dotProduct, Fin.sum_univ_succ, Fin.cons_zero, Fin.cons_succ]
      have e : ∑ j, (M i.succ j.succ - lltCol M i * lltCol M j / M 0 0) * y j
          = ∑ j, M i.succ j.succ * y j - lltCol M i / M 0 0 * ∑ j, lltCol M j * y j := by
        rw [Finset.mul_sum, ← Finset.sum_sub_distrib]
        exact Finset.sum_congr rfl fun j _ => by ring
      rw [e] at hyi
      have e2 : M i.succ 0 = lltCol M i := rfl
      rw [e2]
      have ha' := ha.ne'
      field_simp at hyi ⊢
      linear_combination hyi

end Altro
