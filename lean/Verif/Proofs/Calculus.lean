import Verif.Tactics
import Verif.Spec.Calculus
import Verif.Proofs.Constraints
import Mathlib.Analysis.Asymptotics.Lemmas
import Mathlib.Analysis.Calculus.Deriv.Mul

namespace Altro
open Matrix Spec Asymptotics Filter Topology

variable {n m p : ℕ} {κ : ConKind}

theorem hasDerivAt_sq (y : ℝ) : HasDerivAt (fun t : ℝ => t * t) (2 * y) y := by
  have h : HasDerivAt (fun t : ℝ => t * t) (1 * y + y * 1) y := (hasDerivAt_id y).mul (hasDerivAt_id y)
  have e : 2 * y = 1 * y + y * 1 := by ring
  rw [e]; exact h

/-- `y ↦ min(0,y)²` is differentiable everywhere with derivative `2 min(0,y)`. -/
theorem hasDerivAt_min_sq (y : ℝ) : HasDerivAt (fun t : ℝ => min 0 t * min 0 t) (2 * min 0 y) y := by
  rcases lt_trichotomy y 0 with h | h | h
  · have h1 := hasDerivAt_sq y
    rw [min_eq_right h.le]
    refine h1.congr_of_eventuallyEq ?_
    filter_upwards [gt_mem_nhds h] with t ht
    rw [min_eq_right (le_of_lt ht)]
  · subst h
    rw [min_self, mul_zero, hasDerivAt_iff_isLittleO_nhds_zero]
    have h2 : (fun h : ℝ => h * h) =o[𝓝 0] fun h => h := by
      have := isLittleO_pow_id (𝕜 := ℝ) (n := 2) (by norm_num)
      simpa [pow_two] using this
    refine IsBigO.trans_isLittleO (IsBigO.of_bound 1 ?_) h2
    filter_upwards with t
    simp only [zero_add, min_self, mul_zero, sub_zero, smul_zero, one_mul, Real.norm_eq_abs, abs_mul]
    have : |min 0 t| ≤ |t| := by
      rcases le_total t 0 with ht | ht
      · rw [min_eq_right ht]
      · rw [min_eq_left ht]; simp
    exact mul_le_mul this this (abs_nonneg _) (abs_nonneg _)
  · rw [min_eq_left h.le, mul_zero]
    refine (hasDerivAt_const y (0:ℝ)).congr_of_eventuallyEq ?_
    filter_upwards [lt_mem_nhds h] with t ht
    rw [min_eq_left (le_of_lt ht)]; ring

/-- The squared norm of the projected component, both cone types. -/
theorem hasDerivAt_dualProj_sq (κ : ConKind) (q : ℕ) (i : Fin q) (y : Fin q → ℝ) :
    HasDerivAt (fun t : ℝ => κ.dualProj (Function.update y i t) i * κ.dualProj (Function.update y i t) i)
      (2 * κ.dualProj y i) (y i) := by
  cases κ
  · have e : (fun t : ℝ => ConKind.equality.dualProj (Function.update y i t) i
        * ConKind.equality.dualProj (Function.update y i t) i) = fun t => t * t := by
      funext t; simp [ConKind.dualProj, idProj]
    rw [e]; exact hasDerivAt_sq (y i)
  · have e : (fun t : ℝ => ConKind.inequality.dualProj (Function.update y i t) i
        * ConKind.inequality.dualProj (Function.update y i t) i) = fun t => min 0 t * min 0 t := by
      funext t; simp [ConKind.dualProj, negProj]
    rw [e]; exact hasDerivAt_min_sq (y i)

theorem dualProj_update (κ : ConKind) {q : ℕ} (i : Fin q) (y w : Fin q → ℝ) :
    κ.dualProj (Function.update y i (w i)) i = κ.dualProj w i := by
  cases κ <;> simp [ConKind.dualProj, idProj, negProj]

theorem Spec.IsGradAt.const_mul {f : (Fin n → ℝ) → (Fin m → ℝ) → ℝ} {gx gu x u} (r : ℝ) (h : IsGradAt f gx gu x u) :
    IsGradAt (fun x u => r * f x u) (r • gx) (r • gu) x u := by
  have := HasFDerivAt.const_mul h r
  refine HasFDerivAt.congr_fderiv this ?_
  ext z <;> simp

theorem Spec.IsGradAt.add {f g : (Fin n → ℝ) → (Fin m → ℝ) → ℝ} {fx fu gx gu x u}
    (h : IsGradAt f fx fu x u) (h' : IsGradAt g gx gu x u) :
    IsGradAt (fun x u => f x u + g x u) (fx + gx) (fu + gu) x u := by
  have := HasFDerivAt.add h h'
  refine HasFDerivAt.congr_fderiv this ?_
  ext z <;> simp

theorem Spec.IsGradAt.neg {f : (Fin n → ℝ) → (Fin m → ℝ) → ℝ} {fx fu x u}
    (h : IsGradAt f fx fu x u) : IsGradAt (fun x u => - f x u) (-fx) (-fu) x u := by
  have := IsGradAt.const_mul (-1) h
  simpa using this

theorem Spec.IsGradAt.const (c : ℝ) (x : Fin n → ℝ) (u : Fin m → ℝ) : IsGradAt (fun _ _ => c) 0 0 x u := by
  have := hasFDerivAt_const (𝕜 := ℝ) c ((x, u) : Z n m)
  refine HasFDerivAt.congr_fderiv this ?_
  ext z <;> simp

theorem Spec.IsGradAt.sum {ι : Type*} (s : Finset ι) {f : ι → (Fin n → ℝ) → (Fin m → ℝ) → ℝ}
    {gx : ι → Fin n → ℝ} {gu : ι → Fin m → ℝ} {x u} (h : ∀ i ∈ s, IsGradAt (f i) (gx i) (gu i) x u) :
    IsGradAt (fun x u => ∑ i ∈ s, f i x u) (∑ i ∈ s, gx i) (∑ i ∈ s, gu i) x u := by
  classical
  induction s using Finset.induction_on with
  | empty => simpa using IsGradAt.const 0 x u
  | insert a s ha ih =>
    simp only [Finset.sum_insert ha]
    exact (h a (Finset.mem_insert_self _ _)).add (ih fun i hi => h i (Finset.mem_insert_of_mem hi))

theorem Spec.IsGradAt.comp {f : (Fin n → ℝ) → (Fin m → ℝ) → ℝ} {gx gu x u} {φ : ℝ → ℝ} {d : ℝ}
    (hφ : HasDerivAt φ d (f x u)) (h : IsGradAt f gx gu x u) :
    IsGradAt (fun x u => φ (f x u)) (d • gx) (d • gu) x u := by
  have := HasDerivAt.comp_hasFDerivAt ((x, u) : Z n m) (f := fun z : Z n m => f z.1 z.2) (h₂ := φ) hφ h
  refine HasFDerivAt.congr_fderiv this ?_
  ext z <;> simp

theorem Spec.IsGradAt.congr {f g : (Fin n → ℝ) → (Fin m → ℝ) → ℝ} {gx gu gx' gu' x u}
    (h : IsGradAt f gx gu x u) (hf : ∀ x u, g x u = f x u) (hx : gx' = gx) (hu : gu' = gu) :
    IsGradAt g gx' gu' x u := by
  have : g = f := by funext x u; exact hf x u
  rw [this, hx, hu]; exact h

/-- The reported gradient determines itself: two gradients of the same function agree. -/
theorem Spec.IsGradAt.unique {f : (Fin n → ℝ) → (Fin m → ℝ) → ℝ} {gx gu gx' gu' x u}
    (h : IsGradAt f gx gu x u) (h' : IsGradAt f gx' gu' x u) : gx = gx' ∧ gu = gu' := by
  have e := HasFDerivAt.unique h h'
  constructor
  · funext i
    have := congrArg (fun L => L ((Pi.single i 1, 0) : Z n m)) e
    simpa using this
  · funext i
    have := congrArg (fun L => L ((0, Pi.single i 1) : Z n m)) e
    simpa using this

/-- Derivative of the augmented Lagrangian value of plain vectors. -/
theorem isGradAt_auglag (κ : ConKind) {q : ℕ} (ρ : ℝ) (hρ : ρ ≠ 0) (l : Fin q → ℝ)
    (f : (Fin n → ℝ) → (Fin m → ℝ) → Fin q → ℝ) (J : Matrix (Fin q) (Fin n ⊕ Fin m) ℝ)
    (x : Fin n → ℝ) (u : Fin m → ℝ) (hJ : IsJacAt f J x u) :
    IsGradAt (fun x u => (κ.dualProj (l - ρ • f x u) ⬝ᵥ κ.dualProj (l - ρ • f x u) - l ⬝ᵥ l) / (2 * ρ))
      (-(J.toCols₁ᵀ *ᵥ κ.dualProj (l - ρ • f x u))) (-(J.toCols₂ᵀ *ᵥ κ.dualProj (l - ρ • f x u))) x u := by
  set y := l - ρ • f x u with hy
  have hi : ∀ i : Fin q, IsGradAt
      (fun x u => κ.dualProj (l - ρ • f x u) i * κ.dualProj (l - ρ • f x u) i)
      ((2 * κ.dualProj y i * -ρ) • fun j => J i (.inl j))
      ((2 * κ.dualProj y i * -ρ) • fun j => J i (.inr j)) x u := by
    intro i
    have h1 : IsGradAt (fun x u => l i + -ρ * f x u i) (0 + -ρ • fun j => J i (.inl j))
        (0 + -ρ • fun j => J i (.inr j)) x u := (IsGradAt.const (l i) x u).add ((hJ i).const_mul (-ρ))
    have hd := hasDerivAt_dualProj_sq κ q i y
    have hyi : y i = l i + -ρ * f x u i := by simp [hy]; ring
    rw [hyi] at hd
    have h2 := h1.comp hd
    refine h2.congr (fun x' u' => ?_) (by simp [mul_smul]) (by simp [mul_smul])
    have : l i + -ρ * f x' u' i = (l - ρ • f x' u') i := by simp; ring
    rw [this, dualProj_update]
  have hs := (((IsGradAt.sum Finset.univ fun i _ => hi i).add
    (IsGradAt.const (-(l ⬝ᵥ l)) x u)).const_mul (1 / (2 * ρ)))
  refine hs.congr (fun x' u' => ?_) ?_ ?_
  · simp only [dotProduct]; field_simp; ring
  · funext j
    simp only [Pi.neg_apply, Matrix.mulVec, dotProduct, Matrix.transpose_apply, Pi.smul_apply, Pi.add_apply,
      Finset.sum_apply, Pi.zero_apply, smul_eq_mul, add_zero, Finset.mul_sum, ← Finset.sum_neg_distrib,
      Matrix.toCols₁_apply]
    refine Finset.sum_congr rfl fun i _ => ?_
    field_simp
  · funext j
    simp only [Pi.neg_apply, Matrix.mulVec, dotProduct, Matrix.transpose_apply, Pi.smul_apply, Pi.add_apply,
      Finset.sum_apply, Pi.zero_apply, smul_eq_mul, add_zero, Finset.mul_sum, ← Finset.sum_neg_distrib,
      Matrix.toCols₂_apply]
    refine Finset.sum_congr rfl fun i _ => ?_
    field_simp

theorem foldl_grad_isGradAt {α : Type*} (l : List α) (f : α → (Fin n → ℝ) → (Fin m → ℝ) → ℝ)
    (g : α → (Fin n → ℝ) × (Fin m → ℝ)) (x : Fin n → ℝ) (u : Fin m → ℝ)
    (h : ∀ a ∈ l, IsGradAt (f a) (g a).1 (g a).2 x u)
    (f0 : (Fin n → ℝ) → (Fin m → ℝ) → ℝ) (g0 : (Fin n → ℝ) × (Fin m → ℝ)) (h0 : IsGradAt f0 g0.1 g0.2 x u) :
    IsGradAt (fun x u => l.foldl (fun J a => J + f a x u) (f0 x u))
      (l.foldl (fun s a => (s.1 + (g a).1, s.2 + (g a).2)) g0).1
      (l.foldl (fun s a => (s.1 + (g a).1, s.2 + (g a).2)) g0).2 x u := by
  induction l generalizing f0 g0 with
  | nil => exact h0
  | cons a l ih =>
    exact ih (fun b hb => h b (List.mem_cons_of_mem _ hb)) (fun x u => f0 x u + f a x u)
      (g0.1 + (g a).1, g0.2 + (g a).2) (h0.add (h a List.mem_cons_self))

end Altro
