import Verif.Props.DerivCheck

/-!
# C68: the derivative checks at random points

The generator gives numbers in `[-1, 1]` (Eigen's `Random`).
-/

namespace Altro.Props
open Altro.Spec Matrix
variable {n m p : ℕ}

/-- The numbers Eigen's generator gives. -/
def Unit' (r : ℕ → ℝ) : Prop := ∀ i, |r i| ≤ 1

/-- A point of the box `[-1, 1]^k`. -/
def InBox {k : ℕ} (x : Fin k → ℝ) : Prop := ∀ i, |x i| ≤ 1

theorem draw_inBox {r : ℕ → ℝ} (h : Unit' r) (o k : ℕ) : InBox (FunBase.draw r o k) := fun _ => h _

/-- Every pair of points of the box is drawn by some generator. -/
theorem draw_any (x : Fin n → ℝ) (u : Fin m → ℝ) (b : Fin p → ℝ) (hx : InBox x) (hu : InBox u) (hb : InBox b) :
    ∃ r, Unit' r ∧ FunBase.draw r 0 n = x ∧ FunBase.draw r n m = u ∧ FunBase.draw r (n + m) p = b := by
  refine ⟨fun i => if h : i < n then x ⟨i, h⟩ else if h : i - n < m then u ⟨i - n, h⟩ else
    if h : i - (n + m) < p then b ⟨i - (n + m), h⟩ else 0, fun i => ?_, ?_, ?_, ?_⟩
  · dsimp only
    split
    · exact hx _
    · split
      · exact hu _
      · split
        · exact hb _
        · simp
  · funext i
    simp [FunBase.draw]
  · funext i
    have : ¬ n + (i : ℕ) < n := by omega
    simp [FunBase.draw]
  · funext i
    have h1 : ¬ n + m + (i : ℕ) < n := by omega
    have h2 : ¬ n + m + (i : ℕ) - n < m := by omega
    simp [FunBase.draw, h1, h2]

/-- **C68**, random points: a Jacobian that is right on the box passes whatever is drawn (if the discretization error there is
below the tolerance); if it passes, it is right at the drawn point up to the tolerance and that error. -/
theorem C68_random_jacobian (F : FunBase n m p) (eps M : ℝ) (hN : 0 < n + m) (hM : 0 ≤ M)
    (D : (Fin n → ℝ) → (Fin m → ℝ) → Matrix (Fin p) (Fin (n + m)) ℝ)
    (hD : ∀ x u, InBox x → InBox u → Partials F.stacked (Fin.append x u) (D x u) M 1e-6) (r : ℕ → ℝ) (hr : Unit' r) :
    (M * 1e-6 / 2 * Real.sqrt (p * ((n + m : ℕ) : ℝ)) < eps → (∀ x u, InBox x → InBox u → F.jac x u = D x u) →
      Passes (F.checkJacobianRandom r eps)) ∧
    (Passes (F.checkJacobianRandom r eps) → ∃ x u, InBox x ∧ InBox u ∧ x = (fun i : Fin n => r i) ∧ u = (fun i : Fin m => r (n + i)) ∧
      ∀ i j, |F.jac x u i j - D x u i j| < eps + M * 1e-6 / 2) := by
  have hx := draw_inBox hr 0 n
  have hu := draw_inBox hr n m
  refine ⟨fun he h => ?_, fun h => ⟨_, _, hx, hu, ?_, rfl, C68_jacobian_sound F _ _ eps M _ (hD _ _ hx hu) h⟩⟩
  · refine C68_jacobian_complete F _ _ eps M hN hM ?_ he
    rw [h _ _ hx hu]
    exact hD _ _ hx hu
  · funext i
    simp [FunBase.draw]

/-- **C68**, random points and affine functions: a constant Jacobian passes every tolerance exactly if it is right, whatever is
drawn. -/
theorem C68_random_affine (F : FunBase n m p) (A J : Matrix (Fin p) (Fin (n + m)) ℝ) (c : Fin p → ℝ)
    (hF : F.stacked = fun z => A *ᵥ z + c) (hJ : F.jac = fun _ _ => J) (r : ℕ → ℝ) (hN : 0 < n + m) :
    (∀ eps > 0, Passes (F.checkJacobianRandom r eps)) ↔ J = A := by
  have := C68_jacobian_affine F A c hF (FunBase.draw r 0 n) (FunBase.draw r n m) hN
  rwa [hJ] at this

/-- **C68**, random points and scalar functions: the gradient is checked at the same point as the Jacobian. -/
theorem C68_random_gradient (F : ScalarFun n m) (r : ℕ → ℝ) (eps : ℝ) :
    Passes (F.checkGradientRandom r eps) ↔ Passes (F.toBase.checkJacobianRandom r eps) :=
  C68_gradient_eq_jacobian F _ _ eps

/-- A function with quadratic components `c_l + g_lᵀz + zᵀH_l z`. -/
def QuadComponents (F : FunBase n m p) (c : Fin p → ℝ) (g : Fin p → Fin (n + m) → ℝ)
    (H : Fin p → Matrix (Fin (n + m)) (Fin (n + m)) ℝ) : Prop :=
  ∀ z l, F.stacked z l = c l + g l ⬝ᵥ z + z ⬝ᵥ H l *ᵥ z

theorem quad_weighted {F : FunBase n m p} {c : Fin p → ℝ} {g : Fin p → Fin (n + m) → ℝ}
    {H : Fin p → Matrix (Fin (n + m)) (Fin (n + m)) ℝ} (hF : QuadComponents F c g H) (b : Fin p → ℝ) (z : Fin (n + m) → ℝ) :
    F.stacked z ⬝ᵥ b = (∑ l, c l * b l) + (∑ l, b l • g l) ⬝ᵥ z + z ⬝ᵥ (∑ l, b l • H l) *ᵥ z := by
  have h1 : (∑ l, b l • g l) ⬝ᵥ z = ∑ l, b l * (g l ⬝ᵥ z) := by
    rw [sum_dotProduct]; simp
  have h2 : z ⬝ᵥ (∑ l, b l • H l) *ᵥ z = ∑ l, b l * (z ⬝ᵥ H l *ᵥ z) := by
    rw [Matrix.sum_mulVec, dotProduct_sum]
    exact Finset.sum_congr rfl fun l _ => by rw [smul_mulVec, dotProduct_smul, smul_eq_mul]
  rw [h1, h2, ← Finset.sum_add_distrib, ← Finset.sum_add_distrib]
  show ∑ l, F.stacked z l * b l = _
  exact Finset.sum_congr rfl fun l _ => by rw [hF z l]; ring

/-- **C68**, Hessians at random points: with one output the Hessian itself is compared; with several, a random combination. -/
theorem C68_random_hessian {F : FunBase n m p} {c : Fin p → ℝ} {g : Fin p → Fin (n + m) → ℝ}
    {H : Fin p → Matrix (Fin (n + m)) (Fin (n + m)) ℝ} (hF : QuadComponents F c g H) (r : ℕ → ℝ) (eps : ℝ) (hN : 0 < n + m) :
    Passes (F.checkHessianRandom r eps) ↔
      frob ((∑ l : Fin p, (if p = 1 then 1 else r (n + m + l)) • (H l + (H l)ᵀ)) -
        F.hess (fun i : Fin n => r i) (fun i : Fin m => r (n + i)) (fun l : Fin p => if p = 1 then 1 else r (n + m + l))) < eps := by
  have hb : FunBase.hessianWeights r (n + m) p = fun l : Fin p => if p = 1 then 1 else r (n + m + l) := by
    unfold FunBase.hessianWeights
    split <;> rfl
  have hx : FunBase.draw r 0 n = fun i : Fin n => r i := by funext i; simp [FunBase.draw]
  unfold FunBase.checkHessianRandom
  rw [hb, hx, C68_hessian_quadratic F _ _ _ _ (quad_weighted hF _) _ _ eps hN]
  have : (∑ l : Fin p, (if p = 1 then (1 : ℝ) else r (n + m + l)) • H l) + (∑ l : Fin p, (if p = 1 then (1 : ℝ) else r (n + m + l)) • H l)ᵀ =
      ∑ l : Fin p, (if p = 1 then (1 : ℝ) else r (n + m + l)) • (H l + (H l)ᵀ) := by
    rw [Matrix.transpose_sum, ← Finset.sum_add_distrib]
    exact Finset.sum_congr rfl fun l _ => by rw [Matrix.transpose_smul, smul_add]
  rw [this]
  rfl

/-- A Hessian passes every draw and every tolerance exactly if it is right on the box: for each combination of the components, with
weights in `[-1, 1]` (weight one for a single output). -/
theorem C68_random_hessian_iff {F : FunBase n m p} {c : Fin p → ℝ} {g : Fin p → Fin (n + m) → ℝ}
    {H : Fin p → Matrix (Fin (n + m)) (Fin (n + m)) ℝ} (hF : QuadComponents F c g H) (hN : 0 < n + m) :
    (∀ r, Unit' r → ∀ eps > 0, Passes (F.checkHessianRandom r eps)) ↔
      ∀ x u b, InBox x → InBox u → InBox b → (p = 1 → b = fun _ => 1) → F.hess x u b = ∑ l, b l • (H l + (H l)ᵀ) := by
  constructor
  · intro h x u b hx hu hb h1
    obtain ⟨r, hr, ex, eu, eb⟩ := draw_any x u b hx hu hb
    have hp := fun eps he => (C68_random_hessian hF r eps hN).mp (h r hr eps he)
    have e1 : (fun i : Fin n => r i) = x := by rw [← ex]; funext i; simp [FunBase.draw]
    have e2 : (fun i : Fin m => r (n + i)) = u := eu
    have e3 : (fun l : Fin p => if p = 1 then 1 else r (n + m + l)) = b := by
      split
      · rename_i hp1; exact (h1 hp1).symm
      · exact eb
    have e4 : ∀ l, (if p = 1 then 1 else r (n + m + (l : Fin p))) = b l := fun l => congrFun e3 l
    rw [e1, e2, e3] at hp
    simp only [e4] at hp
    have h0 : frob ((∑ l, b l • (H l + (H l)ᵀ)) - F.hess x u b) ≤ 0 := by
      by_contra hc
      exact lt_irrefl _ (hp _ (not_le.mp hc))
    ext i j
    have := (entry_le_frob ((∑ l, b l • (H l + (H l)ᵀ)) - F.hess x u b) i j).trans h0
    have := abs_eq_zero.mp (le_antisymm this (abs_nonneg _))
    rw [Matrix.sub_apply] at this
    linarith
  · intro h r hr eps he
    rw [C68_random_hessian hF r eps hN, h _ _ _ (fun i => hr i) (fun i => hr _) ?_ ?_, sub_self, frob_zero]
    · exact he
    · intro l
      show |if p = 1 then 1 else r (n + m + l)| ≤ 1
      split
      · simp
      · exact hr _
    · intro h1
      funext l
      rw [if_pos h1]

/-! Concrete cases. -/

/-- `x²` and `x u` with a Hessian that forgets the second component. -/
def halfHessian : FunBase 1 1 2 where
  eval x u l := if l = 0 then x 0 ^ 2 else x 0 * u 0
  jac x u := fun i j => if i = 0 then (if j = 0 then 2 * x 0 else 0) else (if j = 0 then u 0 else x 0)
  hess _ _ b := !![2 * b 0, 0; 0, 0]

/-- The forgotten component is found unless its weight happens to be drawn small. -/
theorem C68_random_example (r : ℕ → ℝ) (eps : ℝ) :
    Passes (halfHessian.checkHessianRandom r eps) ↔ Real.sqrt (2 * r 3 ^ 2) < eps := by
  have hF : QuadComponents halfHessian (fun _ => 0) (fun _ => 0)
      (fun l => if l = 0 then !![1, 0; 0, 0] else !![0, 1; 0, 0]) := by
    intro z l
    have hz : ∀ z : Fin 2 → ℝ, halfHessian.stacked z l = if l = 0 then z 0 ^ 2 else z 0 * z 1 := fun z => rfl
    rw [hz]
    fin_cases l
    · simp [dotProduct, mulVec, Fin.sum_univ_two]; ring
    · simp [dotProduct, mulVec, Fin.sum_univ_two]
  rw [C68_random_hessian hF r eps (by norm_num)]
  unfold frob
  have : ∀ a b : ℝ, a = b → (Real.sqrt a < eps ↔ Real.sqrt b < eps) := fun a b h => by rw [h]
  apply this
  simp [Fin.sum_univ_two, halfHessian, Matrix.transpose_apply, Matrix.sub_apply, Matrix.add_apply, Matrix.smul_apply]
  ring

end Altro.Props
