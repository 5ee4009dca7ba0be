import Verif.Props.Examples

/-!
# C37, C62 (costs) and C38, C39 (constraints)
-/

namespace Altro.Props
open Altro.Spec Matrix

/-! ## Quadratic cost -/

section cost
variable {n m : ℕ}

/-- The exact second-order expansion of the quadratic cost, over any ordered field: value, gradient and Hessian
determine the cost everywhere. -/
theorem C37_expansion {K : Type} [Field K] [LinearOrder K] [IsStrictOrderedRing K] (s : QuadCost n m K)
    (hQ : s.Q.IsSymm) (hR : s.R.IsSymm) : IsQuadratic s.costFun where
  exact x u δx δu := by
    have h1 := dot_symm hQ x δx
    have h2 := dot_symm hR u δu
    simp only [QuadCost.costFun, quadModel, mulVec_add, dotProduct_add, add_dotProduct, t_dot]
    have h3 : s.Q *ᵥ x ⬝ᵥ δx = δx ⬝ᵥ s.Q *ᵥ x := dotProduct_comm _ _
    have h4 : s.R *ᵥ u ⬝ᵥ δu = δu ⬝ᵥ s.R *ᵥ u := dotProduct_comm _ _
    have h5 : s.H *ᵥ u ⬝ᵥ δx = δx ⬝ᵥ s.H *ᵥ u := dotProduct_comm _ _
    rw [h3, h4, h5]
    linear_combination (1 / 2) * h1 + (1 / 2) * h2

/-- The reported gradient is the derivative of the value. -/
theorem C37_gradient (s : QuadCost n m ℝ) (hQ : s.Q.IsSymm) (hR : s.R.IsSymm) (x : Fin n → ℝ) (u : Fin m → ℝ) :
    IsGradAt s.costFun.eval (s.costFun.grad x u).1 (s.costFun.grad x u).2 x u := by
  have hx : HasFDerivAt (fun z : Z n m => z.1) (ContinuousLinearMap.fst ℝ _ _) (x, u) := hasFDerivAt_fst
  have hu : HasFDerivAt (fun z : Z n m => z.2) (ContinuousLinearMap.snd ℝ _ _) (x, u) := hasFDerivAt_snd
  have comp1 : ∀ i, HasFDerivAt (fun z : Z n m => z.1 i) (gradCLM (Pi.single i 1) 0) (x, u) := fun i => by
    have : (fun z : Z n m => z.1 i) = fun z => gradCLM (Pi.single i 1) 0 z := by funext z; simp
    rw [this]; exact ContinuousLinearMap.hasFDerivAt _
  have comp2 : ∀ i, HasFDerivAt (fun z : Z n m => z.2 i) (gradCLM 0 (Pi.single i 1)) (x, u) := fun i => by
    have : (fun z : Z n m => z.2 i) = fun z => gradCLM 0 (Pi.single i 1) z := by funext z; simp
    rw [this]; exact ContinuousLinearMap.hasFDerivAt _
  have bil : ∀ {a b : ℕ} (M : Matrix (Fin a) (Fin b) ℝ) (f : Z n m → Fin a → ℝ) (g : Z n m → Fin b → ℝ)
      (F : Fin a → Z n m →L[ℝ] ℝ) (G : Fin b → Z n m →L[ℝ] ℝ), (∀ i, HasFDerivAt (fun z => f z i) (F i) (x, u)) →
      (∀ i, HasFDerivAt (fun z => g z i) (G i) (x, u)) →
      HasFDerivAt (fun z => f z ⬝ᵥ M *ᵥ g z)
        (∑ i, (f (x, u) i • ∑ j, M i j • G j + (∑ j, M i j * g (x, u) j) • F i)) (x, u) := by
    intro a b M f g F G hf hg
    unfold dotProduct mulVec dotProduct
    refine HasFDerivAt.fun_sum fun i _ => ?_
    exact (hf i).mul (HasFDerivAt.fun_sum fun j _ => (hg j).const_mul (M i j))
  have lin : ∀ {a : ℕ} (q : Fin a → ℝ) (f : Z n m → Fin a → ℝ) (F : Fin a → Z n m →L[ℝ] ℝ),
      (∀ i, HasFDerivAt (fun z => f z i) (F i) (x, u)) →
      HasFDerivAt (fun z => q ⬝ᵥ f z) (∑ i, q i • F i) (x, u) := by
    intro a q f F hf
    unfold dotProduct
    exact HasFDerivAt.fun_sum fun i _ => (hf i).const_mul (q i)
  have h := ((((((bil s.Q _ _ _ _ comp1 comp1).const_mul (1 / 2)).add (bil s.H _ _ _ _ comp1 comp2)).add
    ((bil s.R _ _ _ _ comp2 comp2).const_mul (1 / 2))).add (lin s.q _ _ comp1)).add (lin s.r _ _ comp2)).add_const s.c
  unfold IsGradAt
  refine h.congr_fderiv (ContinuousLinearMap.ext fun z => ?_)
  obtain ⟨dx, du⟩ := z
  have e1 : ∀ (y : Fin n → ℝ), ∑ i, (x i * ∑ j, s.Q i j * y j) = x ⬝ᵥ s.Q *ᵥ y := fun _ => rfl
  have q1 := dot_symm hQ x dx
  have q2 := dot_symm hR u du
  simp only [ContinuousLinearMap.add_apply, ContinuousLinearMap.smul_apply, ContinuousLinearMap.sum_apply,
    gradCLM_apply, smul_eq_mul, single_dotProduct, one_mul, zero_dotProduct, add_zero, zero_add]
  have s1 : ∑ i, (x i * ∑ j, s.Q i j * dx j + (∑ j, s.Q i j * x j) * dx i) = x ⬝ᵥ s.Q *ᵥ dx + (s.Q *ᵥ x) ⬝ᵥ dx := by
    rw [Finset.sum_add_distrib]; rfl
  have s2 : ∑ i, (x i * ∑ j, s.H i j * du j + (∑ j, s.H i j * u j) * dx i) = x ⬝ᵥ s.H *ᵥ du + (s.H *ᵥ u) ⬝ᵥ dx := by
    rw [Finset.sum_add_distrib]; rfl
  have s3 : ∑ i, (u i * ∑ j, s.R i j * du j + (∑ j, s.R i j * u j) * du i) = u ⬝ᵥ s.R *ᵥ du + (s.R *ᵥ u) ⬝ᵥ du := by
    rw [Finset.sum_add_distrib]; rfl
  have s4 : ∑ i, s.q i * dx i = s.q ⬝ᵥ dx := rfl
  have s5 : ∑ i, s.r i * du i = s.r ⬝ᵥ du := rfl
  rw [s1, s2, s3, s4, s5]
  have h3 : s.Q *ᵥ x ⬝ᵥ dx = dx ⬝ᵥ s.Q *ᵥ x := dotProduct_comm _ _
  have h4 : s.R *ᵥ u ⬝ᵥ du = du ⬝ᵥ s.R *ᵥ u := dotProduct_comm _ _
  simp only [QuadCost.costFun, add_dotProduct, t_dot]
  rw [h3, h4]
  linear_combination (1 / 2) * q1 + (1 / 2) * q2

/-- The reported Hessian blocks are the derivative of the reported gradient. -/
theorem C37_hessian (s : QuadCost n m ℝ) (x : Fin n → ℝ) (u : Fin m → ℝ) :
    IsJacAt (fun x u => (s.costFun.grad x u).1) (fromCols (s.costFun.hess x u).dxdx (s.costFun.hess x u).dxdu) x u ∧
    IsJacAt (fun x u => (s.costFun.grad x u).2) (fromCols (s.costFun.hess x u).dxduᵀ (s.costFun.hess x u).dudu) x u := by
  refine ⟨isJacAt_affine _ _ s.q (fun x u => ?_) x u, isJacAt_affine _ _ s.r (fun x u => ?_) x u⟩ <;>
  · simp only [toCols₁_fromCols, toCols₂_fromCols, QuadCost.costFun]; abel

/-- The LQR cost is the documented tracking cost. -/
theorem C37_lqr {K : Type} [Field K] [LinearOrder K] [IsStrictOrderedRing K] (Q : Matrix (Fin n) (Fin n) K)
    (R : Matrix (Fin m) (Fin m) K) (hQ : Q.IsSymm) (hR : R.IsSymm) (xref x : Fin n → K) (uref u : Fin m → K) :
    (QuadCost.lqr Q R xref uref).costFun.eval x u
      = 1 / 2 * ((x - xref) ⬝ᵥ Q *ᵥ (x - xref)) + 1 / 2 * ((u - uref) ⬝ᵥ R *ᵥ (u - uref)) := by
  have h1 := dot_symm hQ x xref
  have h2 := dot_symm hR u uref
  simp only [QuadCost.lqr, QuadCost.costFun, zero_mulVec, dotProduct_zero, mulVec_sub, dotProduct_sub, sub_dotProduct,
    neg_dotProduct]
  have h3 : Q *ᵥ xref ⬝ᵥ x = x ⬝ᵥ Q *ᵥ xref := dotProduct_comm _ _
  have h4 : R *ᵥ uref ⬝ᵥ u = u ⬝ᵥ R *ᵥ uref := dotProduct_comm _ _
  rw [h3, h4]
  linear_combination -(1 / 2) * h1 - (1 / 2) * h2

/-- Symmetry of the weights is needed (the constructor asserts it): with `Q = [[0, 2], [0, 0]]` the reported gradient
at `(1, 0)` is zero, but the cost `x₀ x₁` has derivative 1 in the second direction. -/
theorem C37_symmetry_needed : ∃ (s : QuadCost 2 1 ℚ) (x δ : Fin 2 → ℚ) (u : Fin 1 → ℚ), s.R.IsSymm ∧
    s.costFun.eval (x + δ) u ≠ s.costFun.eval x u + quadModel ⟨(s.costFun.hess x u).dxdx, (s.costFun.hess x u).dxdu,
      (s.costFun.hess x u).dudu, (s.costFun.grad x u).1, (s.costFun.grad x u).2⟩ δ 0 := by
  refine ⟨⟨!![0, 2; 0, 0], 0, 0, 0, 0, 0⟩, ![1, 0], ![0, 1], 0, by simp [IsSymm], ?_⟩
  simp [QuadCost.costFun, quadModel, mulVec, dotProduct, Fin.sum_univ_two]

/-! ## Joint Hessian -/

/-- The joint Hessian is the full symmetric Hessian when there are no cross terms (and the buffer was zero).  Missing
for the full property: cost functions with cross terms (`C62_counterexample`). -/
theorem C62_joint_partial {K : Type*} [Field K] (c : CostFun n m K) (x : Fin n → K) (u : Fin m → K)
    (h : (c.hess x u).dxdu = 0) :
    c.jointHess x u 0 = fromBlocks (c.hess x u).dxdx (c.hess x u).dxdu (c.hess x u).dxduᵀ (c.hess x u).dudu := by
  unfold CostFun.jointHess
  rw [h, transpose_zero]; rfl

/-- What the joint Hessian holds in general: the bottom left block is whatever was in the buffer. -/
theorem C62_blocks_partial {K : Type*} [Field K] (c : CostFun n m K) (x : Fin n → K) (u : Fin m → K)
    (buf : Matrix (Fin n ⊕ Fin m) (Fin n ⊕ Fin m) K) :
    (c.jointHess x u buf).toBlocks₁₁ = (c.hess x u).dxdx ∧ (c.jointHess x u buf).toBlocks₁₂ = (c.hess x u).dxdu ∧
    (c.jointHess x u buf).toBlocks₂₁ = buf.toBlocks₂₁ ∧ (c.jointHess x u buf).toBlocks₂₂ = (c.hess x u).dudu :=
  ⟨rfl, rfl, rfl, rfl⟩

/-- C62 fails for every quadratic cost with a cross term: the joint Hessian is not symmetric. -/
theorem C62_counterexample (s : QuadCost n m ℚ) (hH : s.H ≠ 0) (x : Fin n → ℚ) (u : Fin m → ℚ) :
    ¬ (s.costFun.jointHess x u 0).IsSymm := by
  intro h
  apply hH
  ext i j
  have := congrFun (congrFun h (.inr j)) (.inl i)
  exact this

/-- Such a cost exists. -/
example : ∃ s : QuadCost 1 1 ℚ, s.H ≠ 0 ∧ s.Q.IsSymm ∧ s.R.IsSymm :=
  ⟨⟨1, 1, 1, 0, 0, 0⟩, one_ne_zero, isSymm_one, isSymm_one⟩

/-- An instance of C37: a cost with a cross term, and the LQR cost of a shifted reference. -/
example : IsQuadratic (QuadCost.costFun (K := ℚ) ⟨!![2, 1; 1, 2], !![1], !![1; 0], ![1, 0], ![3], 5⟩) :=
  C37_expansion _ (by unfold IsSymm; decide +kernel) (by unfold IsSymm; decide +kernel)

example : (QuadCost.lqr (K := ℚ) !![2, 1; 1, 2] !![4] ![1, 1] ![1]).costFun.eval ![2, 1] ![3] = 9 := by
  rw [C37_lqr _ _ (by unfold IsSymm; decide +kernel) (by unfold IsSymm; decide +kernel)]
  decide +kernel

end cost

/-! ## Goal constraint -/

section goal
variable {n m : ℕ}

/-- The goal constraint is zero exactly at the goal, and its Jacobian is its derivative, whatever the buffer held. -/
theorem C38_goal (xf x : Fin n → ℝ) (u : Fin m → ℝ) (buf : Matrix (Fin n) (Fin n ⊕ Fin m) ℝ) :
    (goalEval xf x u = 0 ↔ x = xf) ∧ IsJacAt (goalEval xf) (goalJac buf) x u := by
  refine ⟨sub_eq_zero, isJacAt_affine _ _ (-xf) (fun x u => ?_) x u⟩
  simp only [goalEval, goalJac, toCols₁_fromCols, toCols₂_fromCols, one_mulVec, zero_mulVec]
  abel

end goal

/-! ## Control bounds -/

section bounds
variable {n m : ℕ} {K : Type*}

/-- The objects that can be built: a constructor, then any sequence of bound updates. -/
inductive BoundOp (m : ℕ) (K : Type*)
  | lower (b : Fin m → Bnd K)
  | upper (b : Fin m → Bnd K)

/-- Applying one update. -/
def BoundOp.apply (s : ControlBound m K) : BoundOp m K → ControlBound m K
  | .lower b => s.setLower b
  | .upper b => s.setUpper b

/-- The index lists are exactly the finite bounds, after every sequence of updates from every constructor. -/
theorem C38_indices (ops : List (BoundOp m K)) (s : ControlBound m K)
    (hs : s = .empty ∨ ∃ lb ub, s = .ofBounds lb ub) :
    (∀ j, j ∈ (ops.foldl BoundOp.apply s).ilo ↔ ∃ a, (ops.foldl BoundOp.apply s).lower j = .val a) ∧
    (∀ j, j ∈ (ops.foldl BoundOp.apply s).iup ↔ ∃ a, (ops.foldl BoundOp.apply s).upper j = .val a) ∧
    (ops.foldl BoundOp.apply s).ilo.Nodup ∧ (ops.foldl BoundOp.apply s).iup.Nodup := by
  have key : ∀ (b : Fin m → Bnd K) j, j ∈ ControlBound.finiteIndices b ↔ ∃ a, b j = .val a := by
    intro b j
    simp only [ControlBound.finiteIndices, List.mem_filter, List.mem_finRange, true_and]
    cases b j <;> simp [Bnd.finite]
  have nd : ∀ b : Fin m → Bnd K, (ControlBound.finiteIndices b).Nodup := fun b => (List.nodup_finRange m).filter _
  have hinv : ∀ (ops : List (BoundOp m K)) (s : ControlBound m K),
      ((∀ j, j ∈ s.ilo ↔ ∃ a, s.lower j = .val a) ∧ (∀ j, j ∈ s.iup ↔ ∃ a, s.upper j = .val a) ∧
        s.ilo.Nodup ∧ s.iup.Nodup) →
      (∀ j, j ∈ (ops.foldl BoundOp.apply s).ilo ↔ ∃ a, (ops.foldl BoundOp.apply s).lower j = .val a) ∧
      (∀ j, j ∈ (ops.foldl BoundOp.apply s).iup ↔ ∃ a, (ops.foldl BoundOp.apply s).upper j = .val a) ∧
      (ops.foldl BoundOp.apply s).ilo.Nodup ∧ (ops.foldl BoundOp.apply s).iup.Nodup := by
    intro ops
    induction ops with
    | nil => intro s h; exact h
    | cons op ops ih =>
      intro s h
      refine ih _ ?_
      cases op with
      | lower b => exact ⟨key b, h.2.1, nd b, h.2.2.2⟩
      | upper b => exact ⟨h.1, key b, h.2.2.1, nd b⟩
  refine hinv ops s ?_
  rcases hs with rfl | ⟨lb, ub, rfl⟩
  · simp [ControlBound.empty]
  · exact ⟨key lb, key ub, nd lb, nd ub⟩

/-- Within the finite bounds. -/
def InBounds [LE K] (lb ub : Fin m → Bnd K) (u : Fin m → K) : Prop :=
  ∀ j, (∀ a, lb j = .val a → a ≤ u j) ∧ (∀ b, ub j = .val b → u j ≤ b)

/-- All rows are nonpositive exactly when the control lies within its finite bounds; one row per finite bound. -/
theorem C38_bounds [Field K] [LinearOrder K] [IsStrictOrderedRing K] (ops : List (BoundOp m K)) (s : ControlBound m K)
    (hs : s = .empty ∨ ∃ lb ub, s = .ofBounds lb ub) (u : Fin m → K) :
    ((∀ i, (ops.foldl BoundOp.apply s).eval u i ≤ 0) ↔
      InBounds (ops.foldl BoundOp.apply s).lower (ops.foldl BoundOp.apply s).upper u) ∧
    (ops.foldl BoundOp.apply s).dim =
      ((List.finRange m).filter fun j => ((ops.foldl BoundOp.apply s).lower j).finite).length +
      ((List.finRange m).filter fun j => ((ops.foldl BoundOp.apply s).upper j).finite).length := by
  obtain ⟨hl, hu, nl, nu⟩ := C38_indices ops s hs
  generalize ops.foldl BoundOp.apply s = r at *
  have fin_iff : ∀ b : Bnd K, b.finite = true ↔ ∃ a, b = .val a := fun b => by cases b <;> simp [Bnd.finite]
  refine ⟨⟨fun h j => ⟨fun a ha => ?_, fun a ha => ?_⟩, fun h i => ?_⟩, ?_⟩
  · obtain ⟨i, hi, rfl⟩ := List.mem_iff_getElem.mp ((hl j).mpr ⟨a, ha⟩)
    have := h (Fin.castAdd _ ⟨i, hi⟩)
    simp only [ControlBound.eval, Fin.addCases_left] at this
    simp only [Fin.getElem_fin] at this
    rw [ha] at this
    exact sub_nonpos.mp this
  · obtain ⟨i, hi, rfl⟩ := List.mem_iff_getElem.mp ((hu j).mpr ⟨a, ha⟩)
    have := h (Fin.natAdd _ ⟨i, hi⟩)
    simp only [ControlBound.eval, Fin.addCases_right] at this
    simp only [Fin.getElem_fin] at this
    rw [ha] at this
    exact sub_nonpos.mp this
  · unfold ControlBound.eval
    refine Fin.addCases (fun i => ?_) (fun i => ?_) i
    · rw [Fin.addCases_left]
      obtain ⟨a, ha⟩ := (hl r.ilo[i]).mp (List.getElem_mem _)
      rw [ha]
      exact sub_nonpos.mpr ((h _).1 a ha)
    · rw [Fin.addCases_right]
      obtain ⟨a, ha⟩ := (hu r.iup[i]).mp (List.getElem_mem _)
      rw [ha]
      exact sub_nonpos.mpr ((h _).2 a ha)
  · have hlen : ∀ (l : List (Fin m)) (p : Fin m → Bool), l.Nodup → (∀ j, j ∈ l ↔ p j = true) →
        l.length = ((List.finRange m).filter p).length := by
      intro l p hn hp
      refine List.Perm.length_eq ((List.perm_ext_iff_of_nodup hn ((List.nodup_finRange m).filter _)).mpr fun j => ?_)
      rw [hp]; simp
    show r.ilo.length + r.iup.length = _
    rw [hlen r.ilo (fun j => (r.lower j).finite) nl fun j => by rw [hl, fin_iff],
      hlen r.iup (fun j => (r.upper j).finite) nu fun j => by rw [hu, fin_iff]]

/-- The reported Jacobian is the derivative, whatever the buffer held. -/
theorem C38_bounds_jacobian (s : ControlBound m ℝ) (x : Fin n → ℝ) (u : Fin m → ℝ)
    (buf : Matrix (Fin s.dim) (Fin n ⊕ Fin m) ℝ) : IsJacAt (fun _ u => s.eval u) (s.jac buf) x u := by
  have row1 : ∀ (i : Fin s.ilo.length) c, s.jac buf (Fin.castAdd _ i) c = if c = .inr s.ilo[i] then -1 else 0 := by
    intro i c
    split
    next hc =>
      refine writesM_some _ _ _ _ _ ⟨((Fin.castAdd _ i, c), -1), ?_, rfl⟩ ?_
      · rw [hc]
        exact List.mem_append_left _ (List.mem_map.mpr ⟨i, List.mem_finRange i, rfl⟩)
      · intro w hw h
        rcases List.mem_append.mp hw with hw | hw <;> obtain ⟨a, -, rfl⟩ := List.mem_map.mp hw
        · rfl
        · have := congrArg (fun p => (p.1 : ℕ)) h
          simp at this; have := i.isLt; omega
    next hc =>
      refine writesM_none _ _ _ _ fun w hw h => hc ?_
      rcases List.mem_append.mp hw with hw | hw <;> obtain ⟨a, -, rfl⟩ := List.mem_map.mp hw
      · have h1 : a = i := Fin.ext (by simpa using congrArg (fun p => (p.1 : ℕ)) h)
        subst h1; exact (congrArg Prod.snd h).symm
      · have := congrArg (fun p => (p.1 : ℕ)) h
        simp at this; have := i.isLt; omega
  have row2 : ∀ (i : Fin s.iup.length) c, s.jac buf (Fin.natAdd _ i) c = if c = .inr s.iup[i] then 1 else 0 := by
    intro i c
    split
    next hc =>
      refine writesM_some _ _ _ _ _ ⟨((Fin.natAdd _ i, c), 1), ?_, rfl⟩ ?_
      · rw [hc]
        exact List.mem_append_right _ (List.mem_map.mpr ⟨i, List.mem_finRange i, rfl⟩)
      · intro w hw h
        rcases List.mem_append.mp hw with hw | hw <;> obtain ⟨a, -, rfl⟩ := List.mem_map.mp hw
        · have := congrArg (fun p => (p.1 : ℕ)) h
          simp at this; have := a.isLt; omega
        · rfl
    next hc =>
      refine writesM_none _ _ _ _ fun w hw h => hc ?_
      rcases List.mem_append.mp hw with hw | hw <;> obtain ⟨a, -, rfl⟩ := List.mem_map.mp hw
      · have := congrArg (fun p => (p.1 : ℕ)) h
        simp at this; have := a.isLt; omega
      · have h1 : a = i := Fin.ext (by simpa using congrArg (fun p => (p.1 : ℕ)) h)
        subst h1; exact (congrArg Prod.snd h).symm
  refine isJacAt_affine _ _ (s.eval 0) (fun x u => ?_) x u
  funext i
  refine Fin.addCases (fun i => ?_) (fun i => ?_) i
  · show s.eval u _ = s.eval 0 _ + (∑ j, s.jac buf (Fin.castAdd _ i) (.inl j) * x j
      + ∑ j, s.jac buf (Fin.castAdd _ i) (.inr j) * u j)
    simp only [row1, ControlBound.eval, Fin.addCases_left]
    simp
    try ring
  · show s.eval u _ = s.eval 0 _ + (∑ j, s.jac buf (Fin.natAdd _ i) (.inl j) * x j
      + ∑ j, s.jac buf (Fin.natAdd _ i) (.inr j) * u j)
    simp only [row2, ControlBound.eval, Fin.addCases_right]
    simp
    try ring

/-- An instance: two controls, `-1 ≤ u₀ ≤ 1`, `u₁ ≤ 2`; then the lower bound of `u₀` is dropped. -/
example (u : Fin 2 → ℚ) :
    ((∀ i, ([BoundOp.lower fun _ => .ninf].foldl BoundOp.apply
        (.ofBounds ![.val (-1), .ninf] ![.val 1, .val 2]) : ControlBound 2 ℚ).eval u i ≤ 0) ↔ u 0 ≤ 1 ∧ u 1 ≤ 2) := by
  rw [(C38_bounds _ _ (.inr ⟨_, _, rfl⟩) u).1]
  simp [InBounds, BoundOp.apply, ControlBound.setLower, ControlBound.ofBounds, Fin.forall_fin_two]

end bounds

/-! ## Circles -/

section circle
variable {n m : ℕ}

/-- All rows are nonpositive exactly when the position is outside or on every circle (any position indices). -/
theorem C39_outside {K : Type*} [Field K] [LinearOrder K] [IsStrictOrderedRing K] (s : CircleCon n K)
    (x : Fin (n + 2) → K) (u : Fin m → K) :
    (∀ i, s.eval x u i ≤ 0) ↔ ∀ c ∈ s.obstacles, c.r ^ 2 ≤ (x s.xi - c.x) ^ 2 + (x s.yi - c.y) ^ 2 := by
  constructor
  · intro h c hc
    obtain ⟨i, hi, rfl⟩ := List.mem_iff_getElem.mp hc
    have := h ⟨i, hi⟩
    simp only [CircleCon.eval, Circle.distance2, Fin.getElem_fin] at this
    linarith
  · intro h i
    have := h s.obstacles[i] (List.getElem_mem _)
    simp only [CircleCon.eval, Circle.distance2]
    linarith

/-- The same with the Euclidean distance, for circles with nonnegative radius. -/
theorem C39_distance (s : CircleCon n ℝ) (x : Fin (n + 2) → ℝ) (u : Fin m → ℝ) (hr : ∀ c ∈ s.obstacles, 0 ≤ c.r) :
    (∀ i, s.eval x u i ≤ 0) ↔ ∀ c ∈ s.obstacles, 0 ≤ c.distance (x s.xi) (x s.yi) := by
  rw [C39_outside]
  refine forall₂_congr fun c hc => ?_
  unfold Circle.distance
  rw [sub_nonneg]
  exact (Real.le_sqrt (hr c hc) (by positivity)).symm

theorem circle_jac {K : Type*} [Field K] (s : CircleCon n K) (x : Fin (n + 2) → K) (u : Fin m → K)
    (buf : Matrix (Fin s.obstacles.length) (Fin (n + 2) ⊕ Fin m) K) (i : Fin s.obstacles.length)
    (c : Fin (n + 2) ⊕ Fin m) :
    s.jac x u buf i c = if c = .inl 0 then 2 * (s.obstacles[i].x - x s.xi)
      else if c = .inl 1 then 2 * (s.obstacles[i].y - x s.yi) else buf i c := by
  have h01 : (0 : Fin (n + 2)) ≠ 1 := by simp
  have mem : ∀ w : (Fin s.obstacles.length × (Fin (n + 2) ⊕ Fin m)) × K, w ∈ ((List.finRange s.obstacles.length).flatMap
      fun i => [((i, .inl 0), 2 * (s.obstacles[i].x - x s.xi)), ((i, .inl 1), 2 * (s.obstacles[i].y - x s.yi))]) ↔
      ∃ i, w = ((i, .inl 0), 2 * (s.obstacles[i].x - x s.xi)) ∨ w = ((i, .inl 1), 2 * (s.obstacles[i].y - x s.yi)) := by
    intro w
    simp [List.mem_flatMap]
  split
  next hc =>
    subst hc
    refine writesM_some _ _ _ _ _ ⟨_, (mem _).mpr ⟨i, .inl rfl⟩, rfl⟩ fun w hw h => ?_
    obtain ⟨a, rfl | rfl⟩ := (mem w).mp hw
    · simp only [Prod.mk.injEq, and_true] at h; rw [h]
    · simp at h
  next hc =>
    split
    next hc1 =>
      subst hc1
      refine writesM_some _ _ _ _ _ ⟨_, (mem _).mpr ⟨i, .inr rfl⟩, rfl⟩ fun w hw h => ?_
      obtain ⟨a, rfl | rfl⟩ := (mem w).mp hw
      · simp at h
      · simp only [Prod.mk.injEq, and_true] at h; rw [h]
    next hc1 =>
      refine writesM_none _ _ _ _ fun w hw h => ?_
      obtain ⟨a, rfl | rfl⟩ := (mem w).mp hw
      · simp only [Prod.mk.injEq] at h; exact hc h.2.symm
      · simp only [Prod.mk.injEq] at h; exact hc1 h.2.symm

/-- The derivative of the obstacle constraint: column `xi` gets `2 (cx - px)`, column `yi` gets `2 (cy - py)`. -/
theorem circle_grad (s : CircleCon n ℝ) (x : Fin (n + 2) → ℝ) (u : Fin m → ℝ) (i : Fin s.obstacles.length) :
    IsGradAt (fun x u => s.eval (m := m) x u i)
      ((2 * (s.obstacles[i].x - x s.xi)) • Pi.single s.xi 1 + (2 * (s.obstacles[i].y - x s.yi)) • Pi.single s.yi 1) 0 x u := by
  have comp : ∀ j, HasFDerivAt (fun z : Z (n + 2) m => z.1 j) (gradCLM (Pi.single j 1) 0) (x, u) := fun j => by
    have : (fun z : Z (n + 2) m => z.1 j) = fun z => gradCLM (Pi.single j 1) 0 z := by funext z; simp
    rw [this]; exact ContinuousLinearMap.hasFDerivAt _
  have h1 := (comp s.xi).sub_const s.obstacles[i].x
  have h2 := (comp s.yi).sub_const s.obstacles[i].y
  have h := (((h1.pow 2).add (h2.pow 2)).sub_const (s.obstacles[i].r ^ 2)).neg
  unfold IsGradAt
  refine h.congr_fderiv (ContinuousLinearMap.ext fun z => ?_)
  simp [add_dotProduct, smul_dotProduct]
  ring

/-- With the default position indices, or any buffer that is zero outside columns 0 and 1, the reported Jacobian is the
derivative.  Missing for the full property: other position indices (`C39_counterexample`). -/
theorem C39_jacobian_partial (s : CircleCon n ℝ) (hx : s.xi = 0) (hy : s.yi = 1) (x : Fin (n + 2) → ℝ) (u : Fin m → ℝ)
    (buf : Matrix (Fin s.obstacles.length) (Fin (n + 2) ⊕ Fin m) ℝ)
    (hb : ∀ i c, c ≠ .inl 0 → c ≠ .inl 1 → buf i c = 0) : IsJacAt s.eval (s.jac x u buf) x u := by
  intro i
  have h := circle_grad s x u i
  convert h using 1
  · funext j
    rw [circle_jac, hx, hy]
    by_cases h0 : j = 0
    · subst h0; simp
    · by_cases h1 : j = 1
      · subst h1; simp
      · simp [h0, h1, hb]
  · funext j
    rw [circle_jac]
    simp [hb]

/-- C39 fails for other position indices: with the position in states 1 and 2 the reported Jacobian is not the
derivative. -/
theorem C39_counterexample : ∃ (s : CircleCon 1 ℝ) (x : Fin 3 → ℝ) (u : Fin 1 → ℝ),
    ¬ IsJacAt s.eval (s.jac x u 0) x u := by
  refine ⟨⟨1, 2, [⟨0, 0, 1⟩]⟩, ![0, 2, 0], 0, fun h => ?_⟩
  have h1 := h ⟨0, by decide⟩
  have h2 := circle_grad (⟨1, 2, [⟨0, 0, 1⟩]⟩ : CircleCon 1 ℝ) ![0, 2, 0] (0 : Fin 1 → ℝ) ⟨0, by decide⟩
  have h3 := congrArg (fun D : Z 3 1 →L[ℝ] ℝ => D (Pi.single 0 1, 0)) (h1.unique h2)
  simp [circle_jac, dotProduct, Fin.sum_univ_three] at h3

/-- The derivative claim of C39 holds exactly for the default position indices (or no circle at all). -/
theorem C39_jacobian_iff (s : CircleCon n ℝ) :
    (∀ (x : Fin (n + 2) → ℝ) (u : Fin m → ℝ), IsJacAt s.eval (s.jac x u 0) x u) ↔ s.obstacles = [] ∨ s.xi = 0 ∧ s.yi = 1 := by
  constructor
  · intro h
    by_cases hn : s.obstacles = []
    · exact .inl hn
    right
    have h01 : (0 : Fin (n + 2)) ≠ 1 := by simp
    have h10 : (1 : Fin (n + 2)) ≠ 0 := by simp
    let i : Fin s.obstacles.length := ⟨0, List.length_pos_iff.mpr hn⟩
    have key : ∀ (x : Fin (n + 2) → ℝ) (j : Fin (n + 2)), s.jac x (0 : Fin m → ℝ) 0 i (.inl j)
        = 2 * (s.obstacles[i].x - x s.xi) * (if j = s.xi then 1 else 0)
          + 2 * (s.obstacles[i].y - x s.yi) * (if j = s.yi then 1 else 0) := by
      intro x j
      have h3 := congrArg (fun D : Z (n + 2) m →L[ℝ] ℝ => D (Pi.single j 1, 0)) ((h x 0 i).unique (circle_grad s x 0 i))
      simpa [dotProduct_single_one, Pi.single_apply] using h3
    have c0 : ∀ x : Fin (n + 2) → ℝ, 2 * (s.obstacles[i].x - x s.xi) = 2 * (s.obstacles[i].x - x s.xi) * (if 0 = s.xi then 1 else 0)
          + 2 * (s.obstacles[i].y - x s.yi) * (if 0 = s.yi then 1 else 0) := by
      intro x; rw [← key x 0, circle_jac, if_pos rfl]
    have c1 : ∀ x : Fin (n + 2) → ℝ, 2 * (s.obstacles[i].y - x s.yi) = 2 * (s.obstacles[i].x - x s.xi) * (if 1 = s.xi then 1 else 0)
          + 2 * (s.obstacles[i].y - x s.yi) * (if 1 = s.yi then 1 else 0) := by
      intro x; rw [← key x 1, circle_jac, if_neg (by simp), if_pos rfl]
    have hx : s.xi = 0 := by
      by_contra hne
      have hne' : ¬ 0 = s.xi := fun h => hne h.symm
      by_cases hy : s.yi = 0
      · have hxy : s.yi ≠ s.xi := fun h => hne (h ▸ hy)
        have := c0 (Function.update (fun _ => s.obstacles[i].y) s.xi (s.obstacles[i].x + 1))
        rw [if_neg hne', Function.update_self, Function.update_of_ne hxy] at this
        simp at this
      · have := c0 fun _ => s.obstacles[i].x + 1
        rw [if_neg hne', if_neg (fun h => hy h.symm)] at this
        simp at this
    refine ⟨hx, ?_⟩
    by_contra hne
    have := c1 fun _ => s.obstacles[i].y + 1
    rw [if_neg (fun h => h10 (h.trans hx)), if_neg (fun h => hne h.symm)] at this
    simp at this
  · rintro (h | ⟨hx, hy⟩) x u
    · intro i
      exact absurd i.2 (by simp [h])
    · exact C39_jacobian_partial s hx hy x u 0 fun _ _ _ _ => rfl

/-- An instance of C39: two circles, the point `(2, 0)` is outside both, `(0, 1/2)` is not. -/
example : (∀ i, (⟨0, 1, [⟨0, 0, 1⟩, ⟨0, 3, 1⟩]⟩ : CircleCon 0 ℚ).eval (m := 1) ![2, 0] 0 i ≤ 0) ∧
    ¬ (∀ i, (⟨0, 1, [⟨0, 0, 1⟩, ⟨0, 3, 1⟩]⟩ : CircleCon 0 ℚ).eval (m := 1) ![0, 1 / 2] 0 i ≤ 0) := by
  rw [C39_outside, C39_outside]
  constructor
  · simp; norm_num
  · simp; norm_num

end circle

end Altro.Props
