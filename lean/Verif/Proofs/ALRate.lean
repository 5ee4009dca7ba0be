import Verif.Proofs.QPDual
import Mathlib.LinearAlgebra.Basis.VectorSpace
import Mathlib.Algebra.Order.BigOperators.Ring.Finset
import Mathlib.Tactic.Positivity
import Mathlib.Tactic.Ring
import Mathlib.Tactic.Abel

/-!
# The method of multipliers on strictly convex quadratic programs: how fast the multipliers converge
-/

namespace Altro.Spec
variable {K : Type} [Field K] [LinearOrder K] [IsStrictOrderedRing K]
variable {U : Type*} [AddCommGroup U] [Module K U]

/-- A function `t g + t² q` that is never negative has `g = 0`. -/
theorem slope_zero {g q : K} (h : ∀ t : K, 0 ≤ t * g + t ^ 2 * q) : g = 0 := by
  have hq : 0 < |q| + 1 := by positivity
  have h1 := h (-g / (2 * (|q| + 1)))
  have h2 : -g / (2 * (|q| + 1)) * g + (-g / (2 * (|q| + 1))) ^ 2 * q = g ^ 2 * (q - 2 * (|q| + 1)) / (4 * (|q| + 1) ^ 2) := by
    field_simp
    ring
  rw [h2] at h1
  have h3 : 0 ≤ g ^ 2 * (q - 2 * (|q| + 1)) := by
    by_contra hc
    exact absurd h1 (not_le.mpr (div_neg_of_neg_of_pos (not_le.mp hc) (by positivity)))
  have h4 : q - 2 * (|q| + 1) < 0 := by linarith [le_abs_self q, abs_nonneg q]
  by_contra hne
  have : 0 < g ^ 2 := by positivity
  nlinarith

/-- Cauchy's inequality for a positive semidefinite form. -/
theorem form_cauchy (B : U →ₗ[K] Module.Dual K U) (hsym : ∀ a b, B a b = B b a) (hpos : ∀ a, 0 ≤ B a a) (a b : U) :
    B a b ^ 2 ≤ B a a * B b b := by
  have h : ∀ t : K, 0 ≤ B a a + 2 * t * B a b + t ^ 2 * B b b := fun t => by
    have := hpos (a + t • b)
    simp only [map_add, map_smul, LinearMap.add_apply, LinearMap.smul_apply, smul_eq_mul, hsym b a] at this
    linarith
  rcases (hpos b).eq_or_lt with h0 | h0
  · have : B a b = 0 := by
      by_contra hne
      have := h (-(B a a + 1) / (2 * B a b))
      rw [← h0, mul_zero, add_zero] at this
      have e : 2 * (-(B a a + 1) / (2 * B a b)) * B a b = -(B a a + 1) := by field_simp
      linarith
    rw [this, ← h0]
    simp
  · have := h (-B a b / B b b)
    have e : B a a + 2 * (-B a b / B b b) * B a b + (-B a b / B b b) ^ 2 * B b b = (B a a * B b b - B a b ^ 2) / B b b := by
      field_simp
      ring
    rw [e] at this
    have := (div_nonneg_iff.mp this)
    rcases this with ⟨h1, -⟩ | ⟨-, h2⟩
    · linarith
    · linarith

/-- A quadratic form in coordinates is bounded by the sum of squares. -/
theorem form_le_squares {M : ℕ} (Q : (Fin M → K) →ₗ[K] Module.Dual K (Fin M → K)) :
    ∃ κ : K, 0 ≤ κ ∧ ∀ w, Q w w ≤ κ * ∑ i, w i ^ 2 := by
  refine ⟨∑ i, ∑ j, |Q (Pi.single i 1) (Pi.single j 1)|, by positivity, fun w => ?_⟩
  have hw : w = ∑ i, w i • (Pi.single i 1 : Fin M → K) := by
    funext j
    simp [Finset.sum_apply, Pi.single_apply]
  have e : Q w w = ∑ i, ∑ j, w i * w j * Q (Pi.single i 1) (Pi.single j 1) := by
    conv_lhs => rw [hw]
    simp only [map_sum, map_smul, LinearMap.sum_apply, LinearMap.smul_apply, smul_eq_mul, Finset.mul_sum]
    rw [Finset.sum_comm]
    refine Finset.sum_congr rfl fun i _ => Finset.sum_congr rfl fun j _ => ?_
    ring
  rw [e, Finset.sum_mul]
  refine Finset.sum_le_sum fun i _ => ?_
  rw [Finset.sum_mul]
  refine Finset.sum_le_sum fun j _ => ?_
  have hi : w i ^ 2 ≤ ∑ k, w k ^ 2 := Finset.single_le_sum (f := fun k => w k ^ 2) (fun _ _ => sq_nonneg _) (Finset.mem_univ i)
  have hj : w j ^ 2 ≤ ∑ k, w k ^ 2 := Finset.single_le_sum (f := fun k => w k ^ 2) (fun _ _ => sq_nonneg _) (Finset.mem_univ j)
  have h1 : |w i * w j| ≤ ∑ k, w k ^ 2 := by
    rw [abs_mul]
    nlinarith [sq_nonneg (|w i| - |w j|), sq_abs (w i), sq_abs (w j)]
  refine (le_abs_self _).trans ?_
  rw [abs_mul, mul_comm]
  exact mul_le_mul_of_nonneg_left h1 (abs_nonneg _)

/-- If `B d` is the functional of the vector `w` in the range of `C`, then `w` is bounded by `d`. -/
theorem range_bound {M : ℕ} (B : U →ₗ[K] Module.Dual K U) (hsym : ∀ a b, B a b = B b a) (hpos : ∀ a, 0 ≤ B a a)
    (C : U →ₗ[K] (Fin M → K)) :
    ∃ κ : K, 0 ≤ κ ∧ ∀ d e, (∀ a, B d a = ∑ i, C e i * C a i) → ∑ i, C e i ^ 2 ≤ κ * B d d := by
  obtain ⟨g, hg⟩ := C.rangeRestrict.exists_rightInverse_of_surjective C.range_rangeRestrict
  obtain ⟨G, hG⟩ := g.exists_extend
  obtain ⟨κ, hκ, hb⟩ := form_le_squares ((G.dualMap).comp (B.comp G))
  refine ⟨κ, hκ, fun d e h => ?_⟩
  have hGe : C (G (C e)) = C e := by
    have h1 : G (C e) = g ⟨C e, ⟨e, rfl⟩⟩ := by rw [← hG]; rfl
    rw [h1]
    have := congrArg (fun f => ((f ⟨C e, ⟨e, rfl⟩⟩ : LinearMap.range C) : Fin M → K)) hg
    exact this
  have h1 : B d (G (C e)) = ∑ i, C e i ^ 2 := by
    rw [h, hGe]
    exact Finset.sum_congr rfl fun i _ => by ring
  have h2 := form_cauchy B hsym hpos d (G (C e))
  have h3 : B (G (C e)) (G (C e)) ≤ κ * ∑ i, C e i ^ 2 := hb (C e)
  rw [h1] at h2
  have h0 : 0 ≤ ∑ i, C e i ^ 2 := Finset.sum_nonneg fun _ _ => sq_nonneg _
  rcases h0.eq_or_lt with h4 | h4
  · rw [← h4]
    exact mul_nonneg hκ (hpos d)
  · have h5 := mul_le_mul_of_nonneg_left h3 (hpos d)
    have h6 : (∑ i, C e i ^ 2) * (∑ i, C e i ^ 2) ≤ (∑ i, C e i ^ 2) * (κ * B d d) := by nlinarith
    exact le_of_mul_le_mul_left h6 h4

/-- A positive definite form bounds every family of functionals. -/
theorem coordinates_bound [FiniteDimensional K U] {ι : Type} [Fintype ι] (B : U →ₗ[K] Module.Dual K U) (hsym : ∀ a b, B a b = B b a)
    (hpos : ∀ a, a ≠ 0 → 0 < B a a) (F : ι → Module.Dual K U) : ∃ κ : K, 0 ≤ κ ∧ ∀ a, ∑ i, F i a ^ 2 ≤ κ * B a a := by
  have hpos' : ∀ a, 0 ≤ B a a := fun a => by
    by_cases h : a = 0
    · rw [h]; simp
    · exact (hpos a h).le
  have hinj : Function.Injective B := by
    rw [injective_iff_map_eq_zero]
    intro a ha
    by_contra hne
    have h1 := hpos a hne
    rw [ha] at h1
    exact lt_irrefl _ h1
  have hsurj : Function.Surjective B :=
    (LinearMap.injective_iff_surjective_of_finrank_eq_finrank (Subspace.dual_finrank_eq (K := K) (V := U)).symm).mp hinj
  choose t ht using fun i => hsurj (F i)
  refine ⟨∑ i, B (t i) (t i), Finset.sum_nonneg fun i _ => hpos' _, fun a => ?_⟩
  rw [Finset.sum_mul]
  refine Finset.sum_le_sum fun i _ => ?_
  rw [← ht i]
  exact form_cauchy B hsym hpos' _ _

/-- Multipliers can be changed into some that lie in the range of the constraint map. -/
theorem range_multipliers [FiniteDimensional K U] {M : ℕ} (C : U →ₗ[K] (Fin M → K)) (μ : Fin M → K) :
    ∃ e, ∀ d, ∑ i, C e i * C d i = ∑ i, μ i * C d i := by
  let b := Module.finBasis K U
  let dot : (Fin M → K) →ₗ[K] Module.Dual K (Fin M → K) := LinearMap.mk₂ K (fun a c => ∑ i, a i * c i)
    (fun a a' c => by simp only [Pi.add_apply, add_mul, Finset.sum_add_distrib])
    (fun r a c => by simp only [Pi.smul_apply, smul_eq_mul, Finset.mul_sum, mul_assoc])
    (fun a c c' => by simp only [Pi.add_apply, mul_add, Finset.sum_add_distrib])
    (fun r a c => by
      simp only [Pi.smul_apply, smul_eq_mul, Finset.mul_sum]
      exact Finset.sum_congr rfl fun i _ => by ring)
  let T : (Fin M → K) →ₗ[K] (Fin (Module.finrank K U) → K) := LinearMap.pi fun j => dot.flip (C (b j))
  have hT : ∀ w j, T w j = ∑ i, w i * C (b j) i := fun w j => rfl
  obtain ⟨us, h1, ν, h2⟩ := qp_multipliers dot (fun a c => by
      show ∑ i, a i * c i = ∑ i, c i * a i
      exact Finset.sum_congr rfl fun i _ => mul_comm _ _)
    (fun a ha => by
      obtain ⟨i, hi⟩ := Function.ne_iff.mp ha
      refine Finset.sum_pos' (fun j _ => mul_self_nonneg _) ⟨i, Finset.mem_univ _, ?_⟩
      exact mul_self_pos.mpr hi) 0 T μ
  have h3 : us = C (∑ j, ν j • b j) := by
    funext i
    have := h2 (Pi.single i 1)
    have e1 : dot us (Pi.single i 1) = us i := by
      show ∑ k, us k * (Pi.single i 1 : Fin M → K) k = _
      simp [Pi.single_apply]
    rw [LinearMap.zero_apply, zero_add, e1] at this
    rw [this, map_sum, Finset.sum_apply]
    refine Finset.sum_congr rfl fun j _ => ?_
    rw [hT, map_smul, Pi.smul_apply, smul_eq_mul]
    simp [Pi.single_apply]
  refine ⟨∑ j, ν j • b j, fun d => ?_⟩
  rw [← h3]
  have h4 : ∀ j, ∑ i, us i * C (b j) i = ∑ i, μ i * C (b j) i := fun j => congrFun h1 j
  have e : ∀ w : Fin M → K, ∑ i, w i * C d i = ∑ j, b.repr d j * ∑ i, w i * C (b j) i := fun w => by
    conv_lhs => rw [← b.sum_repr d]
    simp only [map_sum, map_smul, Finset.sum_apply, Pi.smul_apply, smul_eq_mul, Finset.mul_sum]
    rw [Finset.sum_comm]
    exact Finset.sum_congr rfl fun j _ => Finset.sum_congr rfl fun i _ => by ring
  rw [e, e]
  exact Finset.sum_congr rfl fun j _ => by rw [h4]

/-- One step of the method of multipliers on a quadratic program.  `u` minimises the augmented Lagrangian with multipliers `l` and
penalty `ρ`, `us` the Lagrangian with multipliers `ls`, and `us` satisfies the constraints. -/
theorem multiplier_step {M : ℕ} {B : U →ₗ[K] Module.Dual K U} {ℓ : Module.Dual K U} {C : U →ₗ[K] (Fin M → K)}
    {κ : K} (hκ : 0 ≤ κ) (hb : ∀ d e, (∀ a, B d a = ∑ i, C e i * C a i) → ∑ i, C e i ^ 2 ≤ κ * B d d)
    {c0 l ls : Fin M → K} {ρ : K} (hρ : 0 < ρ) {u us : U}
    (hu : ∀ d, ℓ d + B u d = ∑ i, (l i - ρ * (c0 i + C u i)) * C d i)
    (hus : ∀ d, ℓ d + B us d = ∑ i, ls i * C d i) (hfeas : ∀ i, c0 i + C us i = 0) (hr : ∃ e, ∀ i, l i - ls i = C e i) :
    (κ + ρ) ^ 2 * ∑ i, (l i - ρ * (c0 i + C u i) - ls i) ^ 2 ≤ κ ^ 2 * ∑ i, (l i - ls i) ^ 2 ∧
    4 * ρ * B (u - us) (u - us) ≤ ∑ i, (l i - ls i) ^ 2 ∧
    B (u - us) (u - us) ≤ κ * ∑ i, (c0 i + C u i) ^ 2 ∧
    ∃ e, ∀ i, l i - ρ * (c0 i + C u i) - ls i = C e i := by
  obtain ⟨e, he⟩ := hr
  have hc : ∀ i, c0 i + C u i = C (u - us) i := fun i => by
    rw [map_sub, Pi.sub_apply]
    linear_combination hfeas i
  have hw : ∀ i, l i - ρ * (c0 i + C u i) - ls i = C (e - ρ • (u - us)) i := fun i => by
    rw [hc, C.map_sub e, C.map_smul, Pi.sub_apply, Pi.smul_apply, smul_eq_mul, ← he i]
    ring
  have hBd : ∀ a, B (u - us) a = ∑ i, C (e - ρ • (u - us)) i * C a i := fun a => by
    have h1 := hu a
    have h2 := hus a
    have h3 : ∑ i, C (e - ρ • (u - us)) i * C a i = ∑ i, (l i - ρ * (c0 i + C u i)) * C a i - ∑ i, ls i * C a i := by
      rw [← Finset.sum_sub_distrib]
      exact Finset.sum_congr rfl fun i _ => by rw [← hw]; ring
    rw [h3, ← h1, ← h2, map_sub, LinearMap.sub_apply]
    ring
  have hS := hb _ _ hBd
  have hBdd := hBd (u - us)
  have hd : ∀ i, ρ * C (u - us) i = (l i - ls i) - C (e - ρ • (u - us)) i := fun i => by
    rw [← hw, hc]; ring
  have hnear : B (u - us) (u - us) ≤ κ * ∑ i, C (u - us) i ^ 2 := by
    have h1 : B (u - us) (u - us) ^ 2 ≤ (∑ i, C (e - ρ • (u - us)) i ^ 2) * ∑ i, C (u - us) i ^ 2 := by
      conv_lhs => rw [hBdd]
      exact Finset.sum_mul_sq_le_sq_mul_sq _ _ _
    have h2 : 0 ≤ ∑ i, C (u - us) i ^ 2 := Finset.sum_nonneg fun _ _ => sq_nonneg _
    have h3 := mul_le_mul_of_nonneg_right hS h2
    rcases le_or_gt (B (u - us) (u - us)) 0 with h4 | h4
    · exact h4.trans (mul_nonneg hκ h2)
    · refine le_of_mul_le_mul_left (a := B (u - us) (u - us)) ?_ h4
      nlinarith
  have hw' : ∀ i, l i - ρ * C (u - us) i - ls i = C (e - ρ • (u - us)) i := fun i => by rw [← hc, hw]
  simp only [hc, hw']
  set w : Fin M → K := C (e - ρ • (u - us)) with hwdef
  have hρB : ρ * B (u - us) (u - us) = ∑ i, w i * (l i - ls i) - ∑ i, w i ^ 2 := by
    rw [hBdd, Finset.mul_sum, ← Finset.sum_sub_distrib]
    exact Finset.sum_congr rfl fun i _ => by linear_combination w i * hd i
  have hS0 : 0 ≤ ∑ i, w i ^ 2 := Finset.sum_nonneg fun _ _ => sq_nonneg _
  have hA0 : 0 ≤ ∑ i, (l i - ls i) ^ 2 := Finset.sum_nonneg fun _ _ => sq_nonneg _
  have hCS : (∑ i, w i * (l i - ls i)) ^ 2 ≤ (∑ i, w i ^ 2) * ∑ i, (l i - ls i) ^ 2 :=
    Finset.sum_mul_sq_le_sq_mul_sq _ _ _
  have hsq : 0 ≤ ∑ i, (l i - ls i) ^ 2 - 4 * ∑ i, w i * (l i - ls i) + 4 * ∑ i, w i ^ 2 := by
    rw [Finset.mul_sum, Finset.mul_sum, ← Finset.sum_sub_distrib, ← Finset.sum_add_distrib]
    exact Finset.sum_nonneg fun i _ => by nlinarith [sq_nonneg (l i - ls i - 2 * w i)]
  generalize ∑ i, w i ^ 2 = S at *
  generalize ∑ i, (l i - ls i) ^ 2 = A at *
  generalize ∑ i, w i * (l i - ls i) = P at *
  refine ⟨?_, by linarith, hnear, _, fun i => rfl⟩
  have h1 : (κ + ρ) * S ≤ κ * P := by
    have := mul_le_mul_of_nonneg_left hS hρ.le
    have e2 : ρ * (κ * B (u - us) (u - us)) = κ * (P - S) := by rw [← hρB]; ring
    linarith
  rcases hS0.eq_or_lt with h0 | h0
  · rw [← h0, mul_zero]
    positivity
  · have h2 : ((κ + ρ) * S) ^ 2 ≤ (κ * P) ^ 2 := by
      have : 0 ≤ (κ + ρ) * S := by positivity
      gcongr
    have h3 : (κ * P) ^ 2 ≤ κ ^ 2 * (S * A) := by
      rw [mul_pow]
      exact mul_le_mul_of_nonneg_left hCS (sq_nonneg _)
    have h4 : S * ((κ + ρ) ^ 2 * S) ≤ S * (κ ^ 2 * A) := by nlinarith
    exact le_of_mul_le_mul_left h4 h0

end Altro.Spec
