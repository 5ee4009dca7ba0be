import Verif.Spec.Smooth
import Verif.Proofs.Descent
import Verif.Proofs.ConvexIter
import Mathlib.Analysis.Calculus.MeanValue
import Mathlib.Topology.Order.Compact

/-!
# The closed loop of a smooth problem, as a function of nominal controls, gains, feedforward terms and step length
-/

namespace Altro
open Spec Matrix ILQR
variable {n m : ℕ}

theorem Spec.IsGradAt.along' {f : (Fin n → ℝ) → (Fin m → ℝ) → ℝ} {gx gu} {X : ℝ → Fin n → ℝ} {U : ℝ → Fin m → ℝ} {a : ℝ}
    (h : IsGradAt f gx gu (X a) (U a)) {ξ ω} (hX : HasDerivAt X ξ a) (hU : HasDerivAt U ω a) :
    HasDerivAt (fun τ => f (X τ) (U τ)) (gx ⬝ᵥ ξ + gu ⬝ᵥ ω) a :=
  HasFDerivAt.comp_hasDerivAt (f := fun τ => (X τ, U τ)) (l := fun z : Z n m => f z.1 z.2) a h (hX.prodMk hU)

theorem Spec.IsJacAt.along' {q : ℕ} {f : (Fin n → ℝ) → (Fin m → ℝ) → Fin q → ℝ} {A : Matrix (Fin q) (Fin n) ℝ}
    {B : Matrix (Fin q) (Fin m) ℝ} {X : ℝ → Fin n → ℝ} {U : ℝ → Fin m → ℝ} {a : ℝ} (h : IsJacAt f (fromCols A B) (X a) (U a))
    {ξ ω} (hX : HasDerivAt X ξ a) (hU : HasDerivAt U ω a) : HasDerivAt (fun τ => f (X τ) (U τ)) (A *ᵥ ξ + B *ᵥ ω) a := by
  rw [hasDerivAt_pi]
  intro i
  exact (h i).along' hX hU

theorem Spec.IsJacAt.continuous {q : ℕ} {f : (Fin n → ℝ) → (Fin m → ℝ) → Fin q → ℝ} {J : (Fin n → ℝ) → (Fin m → ℝ) → Matrix (Fin q) (Fin n ⊕ Fin m) ℝ}
    (h : ∀ x u, IsJacAt f (J x u) x u) : Continuous fun z : Z n m => f z.1 z.2 := by
  refine continuous_pi fun i => continuous_iff_continuousAt.mpr fun z => ?_
  exact (h z.1 z.2 i).continuousAt

/-- A smooth problem: Jacobians of the dynamics and gradients `g` of the stage costs `ℓ` on a time grid. -/
structure SmoothDyn (p : DynProblem n m ℝ) (Y : Traj (Fin n → ℝ) (Fin m → ℝ) ℝ) (ℓ : ℕ → (Fin n → ℝ) → (Fin m → ℝ) → ℝ)
    (g : ℕ → Z n m → Z n m) : Prop where
  jac : ∀ k < p.N, ∀ x u, IsJacAt (fun x u => p.f k x u (Y.t k) (Y.h k))
    (fromCols (p.jac k x u (Y.t k) (Y.h k)).1 (p.jac k x u (Y.t k) (Y.h k)).2) x u
  cont : ∀ k < p.N, Continuous fun z : Z n m => p.jac k z.1 z.2 (Y.t k) (Y.h k)
  grad : ∀ k ≤ p.N, ∀ x u, IsGradAt (ℓ k) (g k (x, u)).1 (g k (x, u)).2 x u
  gcont : ∀ k ≤ p.N, Continuous (g k)

/-- Nominal controls, gains and feedforward terms. -/
abbrev Loop (n m : ℕ) := (ℕ → Fin m → ℝ) × (ℕ → Matrix (Fin m) (Fin n) ℝ) × (ℕ → Fin m → ℝ)

variable (p : DynProblem n m ℝ) (Y : Traj (Fin n → ℝ) (Fin m → ℝ) ℝ)

/-- States of the closed loop with step length `τ`. -/
noncomputable def loopX (e : Loop n m) (τ : ℝ) : ℕ → Fin n → ℝ
  | 0 => p.x0
  | k + 1 => p.f k (loopX e τ k) (e.1 k + e.2.1 k *ᵥ (loopX e τ k - openLoop p Y e.1 k) + τ • e.2.2 k) (Y.t k) (Y.h k)

/-- Controls of the closed loop. -/
noncomputable def loopU (e : Loop n m) (τ : ℝ) (k : ℕ) : Fin m → ℝ :=
  if k < p.N then e.1 k + e.2.1 k *ᵥ (loopX p Y e τ k - openLoop p Y e.1 k) + τ • e.2.2 k else 0

/-- Derivatives with respect to the step length. -/
noncomputable def loopXi (e : Loop n m) (τ : ℝ) : ℕ → Fin n → ℝ
  | 0 => 0
  | k + 1 => (p.jac k (loopX p Y e τ k) (loopU p Y e τ k) (Y.t k) (Y.h k)).1 *ᵥ loopXi e τ k
      + (p.jac k (loopX p Y e τ k) (loopU p Y e τ k) (Y.t k) (Y.h k)).2 *ᵥ (e.2.1 k *ᵥ loopXi e τ k + e.2.2 k)

noncomputable def loopOm (e : Loop n m) (τ : ℝ) (k : ℕ) : Fin m → ℝ :=
  if k < p.N then e.2.1 k *ᵥ loopXi p Y e τ k + e.2.2 k else 0

/-- Total cost, and its derivative. -/
noncomputable def loopJ (ℓ : ℕ → (Fin n → ℝ) → (Fin m → ℝ) → ℝ) (e : Loop n m) (τ : ℝ) : ℝ :=
  ∑ k ∈ Finset.range (p.N + 1), ℓ k (loopX p Y e τ k) (loopU p Y e τ k)

noncomputable def loopD (g : ℕ → Z n m → Z n m) (e : Loop n m) (τ : ℝ) : ℝ :=
  ∑ k ∈ Finset.range (p.N + 1), ((g k (loopX p Y e τ k, loopU p Y e τ k)).1 ⬝ᵥ loopXi p Y e τ k
    + (g k (loopX p Y e τ k, loopU p Y e τ k)).2 ⬝ᵥ loopOm p Y e τ k)

variable {p Y} {ℓ : ℕ → (Fin n → ℝ) → (Fin m → ℝ) → ℝ} {g : ℕ → Z n m → Z n m}

theorem loopX_succ (e : Loop n m) (τ : ℝ) {k : ℕ} (hk : k < p.N) :
    loopX p Y e τ (k + 1) = p.f k (loopX p Y e τ k) (loopU p Y e τ k) (Y.t k) (Y.h k) := by
  unfold loopU; rw [if_pos hk]; rfl

theorem loopXi_succ (e : Loop n m) (τ : ℝ) {k : ℕ} (hk : k < p.N) :
    loopXi p Y e τ (k + 1) = (p.jac k (loopX p Y e τ k) (loopU p Y e τ k) (Y.t k) (Y.h k)).1 *ᵥ loopXi p Y e τ k
      + (p.jac k (loopX p Y e τ k) (loopU p Y e τ k) (Y.t k) (Y.h k)).2 *ᵥ loopOm p Y e τ k := by
  unfold loopOm; rw [if_pos hk]; rfl

/-- With step length zero the loop follows the nominal controls. -/
theorem loopX_zero (e : Loop n m) (k : ℕ) : loopX p Y e 0 k = openLoop p Y e.1 k := by
  induction k with
  | zero => rfl
  | succ k ih =>
    show p.f k (loopX p Y e 0 k) (e.1 k + e.2.1 k *ᵥ (loopX p Y e 0 k - openLoop p Y e.1 k) + (0 : ℝ) • e.2.2 k) (Y.t k) (Y.h k)
      = p.f k (openLoop p Y e.1 k) (e.1 k) (Y.t k) (Y.h k)
    rw [ih, sub_self, mulVec_zero, zero_smul, add_zero, add_zero]

theorem loopU_zero (e : Loop n m) {k : ℕ} (hk : k < p.N) : loopU p Y e 0 k = e.1 k := by
  unfold loopU
  rw [if_pos hk, loopX_zero, sub_self, mulVec_zero, zero_smul, add_zero, add_zero]

/-- The states of the closed loop are those of its controls. -/
theorem openLoop_loopU (e : Loop n m) (τ : ℝ) : ∀ k ≤ p.N, openLoop p Y (loopU p Y e τ) k = loopX p Y e τ k := by
  intro k hk
  induction k with
  | zero => rfl
  | succ k ih =>
    rw [loopX_succ e τ hk, ← ih (by omega)]
    rfl

/-! ## Derivatives -/

namespace SmoothDyn

theorem deriv_x (h : SmoothDyn p Y ℓ g) (e : Loop n m) (τ : ℝ) :
    ∀ k ≤ p.N, HasDerivAt (fun τ => loopX p Y e τ k) (loopXi p Y e τ k) τ ∧
      (k < p.N → HasDerivAt (fun τ => loopU p Y e τ k) (loopOm p Y e τ k) τ) := by
  have hu : ∀ k < p.N, HasDerivAt (fun τ => loopX p Y e τ k) (loopXi p Y e τ k) τ →
      HasDerivAt (fun τ => loopU p Y e τ k) (loopOm p Y e τ k) τ := by
    intro k hk hx
    unfold loopU loopOm
    simp only [if_pos hk]
    rw [hasDerivAt_pi] at hx ⊢
    intro i
    have h1 : HasDerivAt (fun τ => ∑ j, e.2.1 k i j * (loopX p Y e τ k j - openLoop p Y e.1 k j))
        (∑ j, e.2.1 k i j * loopXi p Y e τ k j) τ :=
      HasDerivAt.fun_sum fun j _ => ((hx j).sub_const _).const_mul _
    have h2 := (h1.const_add (e.1 k i)).add ((hasDerivAt_id τ).mul_const (e.2.2 k i))
    refine h2.congr_deriv ?_
    rw [one_mul]; rfl
  intro k hk
  induction k with
  | zero => exact ⟨hasDerivAt_const _ _, fun h0 => hu 0 h0 (hasDerivAt_const _ _)⟩
  | succ k ih =>
    obtain ⟨i1, i2⟩ := ih (by omega)
    have hk' : k < p.N := hk
    have hx : HasDerivAt (fun τ => loopX p Y e τ (k + 1)) (loopXi p Y e τ (k + 1)) τ := by
      rw [loopXi_succ e τ hk']
      refine ((h.jac k hk' (loopX p Y e τ k) (loopU p Y e τ k)).along' i1 (i2 hk')).congr_of_eventuallyEq ?_
      exact Filter.Eventually.of_forall fun τ => loopX_succ e τ hk'
    exact ⟨hx, fun h1 => hu (k + 1) h1 hx⟩

theorem deriv_u (h : SmoothDyn p Y ℓ g) (e : Loop n m) (τ : ℝ) {k : ℕ} (hk : k ≤ p.N) :
    HasDerivAt (fun τ => loopU p Y e τ k) (loopOm p Y e τ k) τ := by
  rcases Nat.lt_or_eq_of_le hk with h1 | h1
  · exact (h.deriv_x e τ k hk).2 h1
  · unfold loopU loopOm
    simp only [if_neg (show ¬ k < p.N by omega)]
    exact hasDerivAt_const _ _

theorem deriv_J (h : SmoothDyn p Y ℓ g) (e : Loop n m) (τ : ℝ) :
    HasDerivAt (fun τ => loopJ p Y ℓ e τ) (loopD p Y g e τ) τ := by
  unfold loopJ loopD
  refine HasDerivAt.fun_sum fun k hk => ?_
  have hk : k ≤ p.N := by have := Finset.mem_range.mp hk; omega
  exact (h.grad k hk _ _).along' (h.deriv_x e τ k hk).1 (h.deriv_u e τ hk)

/-! ## Continuity -/

theorem cont_f (h : SmoothDyn p Y ℓ g) {k : ℕ} (hk : k < p.N) : Continuous fun z : Z n m => p.f k z.1 z.2 (Y.t k) (Y.h k) :=
  IsJacAt.continuous (h.jac k hk)

theorem cont_open (h : SmoothDyn p Y ℓ g) : ∀ k ≤ p.N, Continuous fun U : ℕ → Fin m → ℝ => openLoop p Y U k := by
  intro k hk
  induction k with
  | zero => exact continuous_const
  | succ k ih => exact (h.cont_f hk).comp ((ih (by omega)).prodMk (continuous_apply k))

theorem cont_x (h : SmoothDyn p Y ℓ g) : ∀ k ≤ p.N, (Continuous fun q : Loop n m × ℝ => loopX p Y q.1 q.2 k) ∧
    Continuous fun q : Loop n m × ℝ => loopU p Y q.1 q.2 k := by
  have hu : ∀ k ≤ p.N, (Continuous fun q : Loop n m × ℝ => loopX p Y q.1 q.2 k) →
      Continuous fun q : Loop n m × ℝ => loopU p Y q.1 q.2 k := by
    intro k hk hx
    unfold loopU
    by_cases h1 : k < p.N
    · simp only [if_pos h1]
      have e1 : Continuous fun q : Loop n m × ℝ => q.1.1 k := (continuous_apply k).comp (continuous_fst.comp continuous_fst)
      have e2 : Continuous fun q : Loop n m × ℝ => q.1.2.1 k :=
        (continuous_apply k).comp (continuous_fst.comp (continuous_snd.comp continuous_fst))
      have e3 : Continuous fun q : Loop n m × ℝ => q.1.2.2 k :=
        (continuous_apply k).comp (continuous_snd.comp (continuous_snd.comp continuous_fst))
      have e4 : Continuous fun q : Loop n m × ℝ => openLoop p Y q.1.1 k :=
        (h.cont_open k hk).comp (continuous_fst.comp continuous_fst)
      exact (e1.add (e2.matrix_mulVec (hx.sub e4))).add (continuous_snd.smul e3)
    · simp only [if_neg h1]; exact continuous_const
  intro k hk
  induction k with
  | zero => exact ⟨continuous_const, hu 0 hk continuous_const⟩
  | succ k ih =>
    obtain ⟨i1, i2⟩ := ih (by omega)
    have hx : Continuous fun q : Loop n m × ℝ => loopX p Y q.1 q.2 (k + 1) := by
      have := (h.cont_f (show k < p.N from hk)).comp (i1.prodMk i2)
      refine this.congr fun q => (loopX_succ q.1 q.2 (show k < p.N from hk)).symm
    exact ⟨hx, hu _ hk hx⟩

theorem cont_xi (h : SmoothDyn p Y ℓ g) : ∀ k ≤ p.N, (Continuous fun q : Loop n m × ℝ => loopXi p Y q.1 q.2 k) ∧
    Continuous fun q : Loop n m × ℝ => loopOm p Y q.1 q.2 k := by
  have hu : ∀ k ≤ p.N, (Continuous fun q : Loop n m × ℝ => loopXi p Y q.1 q.2 k) →
      Continuous fun q : Loop n m × ℝ => loopOm p Y q.1 q.2 k := by
    intro k hk hx
    unfold loopOm
    by_cases h1 : k < p.N
    · simp only [if_pos h1]
      have e2 : Continuous fun q : Loop n m × ℝ => q.1.2.1 k :=
        (continuous_apply k).comp (continuous_fst.comp (continuous_snd.comp continuous_fst))
      have e3 : Continuous fun q : Loop n m × ℝ => q.1.2.2 k :=
        (continuous_apply k).comp (continuous_snd.comp (continuous_snd.comp continuous_fst))
      exact (e2.matrix_mulVec hx).add e3
    · simp only [if_neg h1]; exact continuous_const
  intro k hk
  induction k with
  | zero => exact ⟨continuous_const, hu 0 hk continuous_const⟩
  | succ k ih =>
    obtain ⟨i1, i2⟩ := ih (by omega)
    obtain ⟨j1, j2⟩ := h.cont_x k (by omega)
    have hj := (h.cont k hk).comp (j1.prodMk j2)
    have hx : Continuous fun q : Loop n m × ℝ => loopXi p Y q.1 q.2 (k + 1) := by
      have := ((continuous_fst.comp hj).matrix_mulVec i1).add ((continuous_snd.comp hj).matrix_mulVec i2)
      exact this.congr fun q => (loopXi_succ q.1 q.2 (show k < p.N from hk)).symm
    exact ⟨hx, hu _ hk hx⟩

theorem cont_D (h : SmoothDyn p Y ℓ g) : Continuous fun q : Loop n m × ℝ => loopD p Y g q.1 q.2 := by
  unfold loopD
  refine continuous_finset_sum _ fun k hk => ?_
  have hk : k ≤ p.N := by have := Finset.mem_range.mp hk; omega
  obtain ⟨j1, j2⟩ := h.cont_x k hk
  obtain ⟨i1, i2⟩ := h.cont_xi k hk
  have hg := (h.gcont k hk).comp (j1.prodMk j2)
  exact ((continuous_fst.comp hg).dotProduct i1).add ((continuous_snd.comp hg).dotProduct i2)

end SmoothDyn

/-! ## Uniformity over compact sets -/

theorem uniform_zero {E : Type} [TopologicalSpace E] {F : E × ℝ → ℝ} (hF : Continuous F) {S : Set E} (hS : IsCompact S) {η : ℝ}
    (hη : 0 < η) : ∃ β > 0, ∀ e ∈ S, ∀ τ, 0 ≤ τ → τ ≤ β → |F (e, τ) - F (e, 0)| ≤ η := by
  have hopen : IsOpen {q : E × ℝ | |F q - F (q.1, 0)| < η} :=
    isOpen_lt ((hF.sub (hF.comp (continuous_fst.prodMk continuous_const))).abs) continuous_const
  obtain ⟨u, v, -, hv, hu, h0, huv⟩ := generalized_tube_lemma hS (isCompact_singleton (x := (0 : ℝ))) hopen (by
    rintro ⟨e, τ⟩ ⟨-, h2⟩
    rw [Set.mem_singleton_iff] at h2
    simp only [Set.mem_setOf_eq]
    have h2 : τ = 0 := h2
    rw [h2, sub_self, abs_zero]; exact hη)
  obtain ⟨β, hβ, hb⟩ := Metric.isOpen_iff.mp hv 0 (h0 rfl)
  refine ⟨β / 2, by positivity, fun e he τ h1 h2 => ?_⟩
  have : (e, τ) ∈ u ×ˢ v := ⟨hu he, hb (by rw [Metric.mem_ball, Real.dist_eq, sub_zero, abs_of_nonneg h1]; linarith)⟩
  exact le_of_lt (huv this)

/-- The first-order expansion of the cost in the step length. -/
theorem SmoothDyn.taylor_of (h : SmoothDyn p Y ℓ g) {e : Loop n m} {β η : ℝ}
    (hb : ∀ τ, 0 ≤ τ → τ ≤ β → |loopD p Y g e τ - loopD p Y g e 0| ≤ η) {τ : ℝ} (h0 : 0 ≤ τ) (h1 : τ ≤ β) :
    |loopJ p Y ℓ e τ - loopJ p Y ℓ e 0 - τ * loopD p Y g e 0| ≤ η * τ := by
  have key := norm_image_sub_le_of_norm_deriv_le_segment' (f := fun τ => loopJ p Y ℓ e τ - τ * loopD p Y g e 0)
    (f' := fun τ => loopD p Y g e τ - loopD p Y g e 0) (C := η) (a := 0) (b := β)
    (fun x _ => (((h.deriv_J e x).sub ((hasDerivAt_id x).mul_const _)).congr_deriv (by rw [one_mul])).hasDerivWithinAt)
    (fun x hx => hb x hx.1 hx.2.le) τ ⟨h0, h1⟩
  rw [Real.norm_eq_abs, zero_mul, sub_zero, sub_zero] at key
  rw [show loopJ p Y ℓ e τ - loopJ p Y ℓ e 0 - τ * loopD p Y g e 0 = loopJ p Y ℓ e τ - τ * loopD p Y g e 0 - loopJ p Y ℓ e 0 by ring]
  exact key

/-- ... uniformly over a compact set of loops. -/
theorem SmoothDyn.taylor (h : SmoothDyn p Y ℓ g) {S : Set (Loop n m)} (hS : IsCompact S) {η : ℝ} (hη : 0 < η) :
    ∃ β > 0, ∀ e ∈ S, ∀ τ, 0 ≤ τ → τ ≤ β → |loopJ p Y ℓ e τ - loopJ p Y ℓ e 0 - τ * loopD p Y g e 0| ≤ η * τ := by
  obtain ⟨β, hβ, hb⟩ := uniform_zero h.cont_D hS hη
  exact ⟨β, hβ, fun e he τ h0 h1 => h.taylor_of (hb e he) h0 h1⟩

/-- A compact box of loops. -/
theorem box_compact (a b c : ℝ) : IsCompact {e : Loop n m | (∀ k i, |e.1 k i| ≤ a) ∧ (∀ k i j, |e.2.1 k i j| ≤ b) ∧ ∀ k i, |e.2.2 k i| ≤ c} := by
  have h1 : IsCompact {U : ℕ → Fin m → ℝ | ∀ k i, |U k i| ≤ a} := by
    have := isCompact_univ_pi (X := fun _ : ℕ => Fin m → ℝ) (s := fun _ => Set.univ.pi fun _ => Set.Icc (-a) a)
      fun _ => isCompact_univ_pi fun _ => isCompact_Icc
    refine this.of_isClosed_subset ?_ ?_
    · simp only [Set.setOf_forall]
      exact isClosed_iInter fun k => isClosed_iInter fun i =>
        isClosed_le ((continuous_apply i).comp (continuous_apply k)).abs continuous_const
    · intro U hU k _ i _; exact abs_le.mp (hU k i)
  have h3 : IsCompact {U : ℕ → Fin m → ℝ | ∀ k i, |U k i| ≤ c} := by
    have := isCompact_univ_pi (X := fun _ : ℕ => Fin m → ℝ) (s := fun _ => Set.univ.pi fun _ => Set.Icc (-c) c)
      fun _ => isCompact_univ_pi fun _ => isCompact_Icc
    refine this.of_isClosed_subset ?_ ?_
    · simp only [Set.setOf_forall]
      exact isClosed_iInter fun k => isClosed_iInter fun i =>
        isClosed_le ((continuous_apply i).comp (continuous_apply k)).abs continuous_const
    · intro U hU k _ i _; exact abs_le.mp (hU k i)
  have h2 : IsCompact {U : ℕ → Matrix (Fin m) (Fin n) ℝ | ∀ k i j, |U k i j| ≤ b} := by
    have := isCompact_univ_pi (X := fun _ : ℕ => Fin m → Fin n → ℝ)
      (s := fun _ => Set.univ.pi fun _ => Set.univ.pi fun _ => Set.Icc (-b) b)
      fun _ => isCompact_univ_pi fun _ => isCompact_univ_pi fun _ => isCompact_Icc
    refine IsCompact.of_isClosed_subset this ?_ ?_
    · simp only [Set.setOf_forall]
      exact isClosed_iInter fun k => isClosed_iInter fun i => isClosed_iInter fun j =>
        isClosed_le ((continuous_apply j).comp ((continuous_apply i).comp (continuous_apply k))).abs continuous_const
    · intro U hU k _ i _ j _; exact abs_le.mp (hU k i j)
  refine (h1.prod (h2.prod h3)).of_isClosed_subset ?_ ?_
  · exact h1.isClosed.prod (h2.isClosed.prod h3.isClosed)
  · exact fun e he => ⟨he.1, he.2.1, he.2.2⟩

end Altro
