import Verif.Model.Examples
import Verif.Tactics

/-!
# C36: finite differences
-/

namespace Altro.Props
open Matrix
variable {p n : ℕ} {K : Type*} [Field K]

/-- The difference quotient along coordinate `j`. -/
def diffQuot (f : (Fin (n + 1) → K) → Fin p → K) (x : Fin (n + 1) → K) (eps : K) (central : Bool) (j : Fin (n + 1))
    (i : Fin p) : K :=
  if central then (f (x + Pi.single j eps) i - f (x - Pi.single j eps) i) / (2 * eps)
  else (f (x + Pi.single j eps) i - f x i) / eps

theorem fdLoop_inv (f : (Fin (n + 1) → K) → Fin p → K) (x : Fin (n + 1) → K) (eps : K) (central : Bool) (k : ℕ)
    (hk : k ≤ n + 1) :
    (∀ h : k < n + 1, (fdLoop f x eps central k).e = Pi.single ⟨k, h⟩ eps) ∧
    (central = false → (fdLoop f x eps central k).y = f x) ∧
    (∀ j : Fin (n + 1), (j : ℕ) < k → ∀ i, (fdLoop f x eps central k).jac i j = diffQuot f x eps central j i) := by
  induction k with
  | zero =>
    refine ⟨fun h => ?_, fun _ => rfl, fun j hj => absurd hj (by omega)⟩
    funext j
    by_cases hj : j = 0
    · subst hj; simp [fdLoop]
    · have hj' : j ≠ ⟨0, h⟩ := hj
      rw [Pi.single_eq_of_ne hj']; simp [fdLoop, hj]
  | succ k ih =>
    obtain ⟨i1, i2, i3⟩ := ih (by omega)
    have hk' : k < n + 1 := by omega
    have he := i1 hk'
    unfold fdLoop
    simp only [dif_pos hk']
    refine ⟨fun h => ?_, fun hc => ?_, fun j hj i => ?_⟩
    · rw [dif_pos (by omega), he]
      funext j
      by_cases h1 : j = ⟨k, hk'⟩
      · subst h1
        rw [Function.update_self, Pi.single_eq_of_ne]
        intro e; have := congrArg Fin.val e; simp at this
      · rw [Function.update_of_ne h1]
        by_cases h2 : j = ⟨k + 1, h⟩
        · subst h2; simp
        · rw [Function.update_of_ne h2, Pi.single_eq_of_ne h1, Pi.single_eq_of_ne h2]
    · subst hc; simpa using i2 rfl
    · by_cases hj' : j = ⟨k, hk'⟩
      · subst hj'
        rw [if_pos rfl, he]
        unfold diffQuot
        cases central
        · simp [i2 rfl]
        · simp
      · rw [if_neg hj']
        refine i3 j ?_ i
        have : (j : ℕ) ≠ k := fun e => hj' (Fin.ext e)
        omega

/-- Column `j` of the finite-difference Jacobian is the difference quotient along coordinate `j`, forward or central,
for every function, dimension and point. -/
theorem C36_columns (f : (Fin (n + 1) → K) → Fin p → K) (x : Fin (n + 1) → K) (eps : K) (central : Bool) (i : Fin p)
    (j : Fin (n + 1)) : fdJac f x eps central i j = diffQuot f x eps central j i :=
  (fdLoop_inv f x eps central (n + 1) le_rfl).2.2 j j.isLt i

theorem mulVec_single' (M : Matrix (Fin p) (Fin (n + 1)) K) (j : Fin (n + 1)) (a : K) (i : Fin p) :
    (M *ᵥ Pi.single j a) i = M i j * a := by
  simp [mulVec, dotProduct_single]

/-- Exact for affine functions, both variants. -/
theorem C36_affine [CharZero K] (M : Matrix (Fin p) (Fin (n + 1)) K) (c : Fin p → K) (x : Fin (n + 1) → K) (eps : K)
    (he : eps ≠ 0) (central : Bool) : fdJac (fun x => M *ᵥ x + c) x eps central = M := by
  ext i j
  rw [C36_columns]
  unfold diffQuot
  simp only [mulVec_add, mulVec_sub, Pi.add_apply, Pi.sub_apply, mulVec_single']
  have h2 : (2 : K) ≠ 0 := by norm_num
  cases central
  · simp only [Bool.false_eq_true, if_false]; field_simp; ring
  · simp only [if_true]; field_simp; ring

/-- The central variant is exact for quadratic functions: for `c + g x + xᵀ H x` it returns `g + (H + Hᵀ) x`. -/
theorem C36_quadratic [CharZero K] (H : Fin p → Matrix (Fin (n + 1)) (Fin (n + 1)) K) (g : Fin p → Fin (n + 1) → K)
    (c : Fin p → K) (x : Fin (n + 1) → K) (eps : K) (he : eps ≠ 0) (i : Fin p) (j : Fin (n + 1)) :
    fdJac (fun x i => c i + g i ⬝ᵥ x + x ⬝ᵥ H i *ᵥ x) x eps true i j = g i j + ((H i + (H i)ᵀ) *ᵥ x) j := by
  rw [C36_columns]
  unfold diffQuot
  have h2 : (2 : K) ≠ 0 := by norm_num
  have e1 : ∀ a, x ⬝ᵥ H i *ᵥ Pi.single j a = ((H i)ᵀ *ᵥ x) j * a := by
    intro a
    rw [dotProduct, mulVec, dotProduct, Finset.sum_mul]
    exact Finset.sum_congr rfl fun k _ => by rw [mulVec_single', transpose_apply]; ring
  simp only [if_true, mulVec_add, mulVec_sub, dotProduct_add, dotProduct_sub, add_dotProduct, sub_dotProduct,
    dotProduct_single, single_dotProduct, e1, add_mulVec, Pi.add_apply]
  field_simp
  ring

/-- The forward variant on a quadratic function is off by `eps` times the diagonal. -/
theorem C36_quadratic_forward [CharZero K] (H : Fin p → Matrix (Fin (n + 1)) (Fin (n + 1)) K)
    (g : Fin p → Fin (n + 1) → K) (c : Fin p → K) (x : Fin (n + 1) → K) (eps : K) (he : eps ≠ 0) (i : Fin p)
    (j : Fin (n + 1)) :
    fdJac (fun x i => c i + g i ⬝ᵥ x + x ⬝ᵥ H i *ᵥ x) x eps false i j
      = g i j + ((H i + (H i)ᵀ) *ᵥ x) j + eps * H i j j := by
  rw [C36_columns]
  unfold diffQuot
  have e1 : ∀ a, x ⬝ᵥ H i *ᵥ Pi.single j a = ((H i)ᵀ *ᵥ x) j * a := by
    intro a
    rw [dotProduct, mulVec, dotProduct, Finset.sum_mul]
    exact Finset.sum_congr rfl fun k _ => by rw [mulVec_single', transpose_apply]; ring
  simp only [Bool.false_eq_true, if_false, mulVec_add, dotProduct_add, add_dotProduct,
    dotProduct_single, single_dotProduct, e1, add_mulVec, Pi.add_apply, mulVec_single']
  field_simp
  ring

/-- The finite-difference Hessian of a quadratic function is its Hessian, both variants. -/
theorem C36_hessian [CharZero K] (H : Matrix (Fin (n + 1)) (Fin (n + 1)) K) (g : Fin (n + 1) → K) (c : K)
    (x : Fin (n + 1) → K) (eps : K) (he : eps ≠ 0) (central : Bool) :
    fdHess (fun x => c + g ⬝ᵥ x + x ⬝ᵥ H *ᵥ x) x eps central = H + Hᵀ := by
  have h := C36_affine (H + Hᵀ) (fun j => g j + if central then 0 else eps * H j j) x eps he central
  rw [← h]
  unfold fdHess
  congr 1
  funext x j
  unfold fdGrad
  cases central
  · rw [C36_quadratic_forward (fun _ => H) (fun _ => g) (fun _ => c) x eps he]
    simp; ring
  · rw [C36_quadratic (fun _ => H) (fun _ => g) (fun _ => c) x eps he]
    simp; ring

/-- Nothing is exact beyond that: for `x³` the central variant at 0 with `eps = 1` gives 1 instead of 0. -/
example : fdJac (K := ℚ) (p := 1) (n := 0) (fun x _ => x 0 ^ 3) 0 1 true 0 0 = 1 := by
  rw [C36_columns]; simp [diffQuot]; norm_num

/-- An instance with two variables: `(x₀ + 2 x₁, 3 x₁)`. -/
example : fdJac (K := ℚ) (fun x => !![1, 2; 0, 3] *ᵥ x + ![5, 7]) ![1, 1] (1 / 1000000) false = !![1, 2; 0, 3] :=
  C36_affine _ _ _ _ (by norm_num) _

end Altro.Props
