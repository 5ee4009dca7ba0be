import Verif.Spec.Constraints
import Verif.Tactics

set_option linter.unusedSectionVars false
set_option linter.unusedSimpArgs false

namespace Altro
open Matrix Spec

variable {K : Type*} [Field K] [LinearOrder K] {p n m : ℕ} {κ : ConKind}

section basic

@[simp] theorem augLag_con (s : ConVal κ n m K) (x u) : (s.augLag x u).2.con = s.con := rfl

theorem ConOp.apply_con (s : ConVal κ n m K) (op : ConOp n m K) : (op.apply s).con = s.con := by
  cases op <;> rfl

/-- Invariant of the scratch buffer: off-diagonal entries are zero. -/
def ConVal.BufOk (s : ConVal κ n m K) : Prop :=
  ∀ i j, i ≠ j → s.projJac i j = 0

/-- All penalties of one constraint are equal. -/
def ConVal.Uniform (s : ConVal κ n m K) : Prop := ∀ i, s.pen i = s.rho

theorem ConVal.new_bufOk (con : Con n m K) : (ConVal.new κ con).BufOk := by
  intro i j _; rfl

theorem dualProjJac_offdiag (κ : ConKind) (x : Fin p → K) (B : Matrix (Fin p) (Fin p) K)
    (hB : ∀ i j, i ≠ j → B i j = 0) : ∀ i j, i ≠ j → κ.dualProjJac x B i j = 0 := by
  intro i j hij
  cases κ
  · simp [ConKind.dualProjJac, idProjJac, Matrix.one_apply, hij]
  · simp [ConKind.dualProjJac, negProjJac, hij, hB i j hij]

theorem ConVal.evalProjJac_bufOk (s : ConVal κ n m K) (x u) (h : s.BufOk) : (s.evalProjJac x u).BufOk := by
  intro i j hij
  exact dualProjJac_offdiag κ _ _ h i j hij

theorem ConOp.apply_bufOk (s : ConVal κ n m K) (op : ConOp n m K) (h : s.BufOk) : (op.apply s).BufOk := by
  cases op
  · exact h
  · exact s.evalProjJac_bufOk _ _ h
  · exact s.evalProjJac_bufOk _ _ h
  all_goals exact h

theorem ConVal.history_bufOk (con : Con n m K) (ops : List (ConOp n m K)) :
    (ConVal.history κ con ops).BufOk := by
  unfold ConVal.history
  have : ∀ s : ConVal κ n m K, s.BufOk → (ops.foldl ConOp.apply s).BufOk := by
    induction ops with
    | nil => intro s h; exact h
    | cons op ops ih => intro s h; exact ih _ (ConOp.apply_bufOk s op h)
  exact this _ (ConVal.new_bufOk con)

theorem ConOp.apply_uniform (s : ConVal κ n m K) (op : ConOp n m K) (h : s.Uniform) :
    (op.apply s).Uniform := by
  cases op <;> try exact h
  · intro i
    show s.pen i * s.scaling = s.pen _ * s.scaling
    rw [h i]; rfl
  · intro i; rfl

theorem ConVal.history_uniform (con : Con n m K) (ops : List (ConOp n m K)) :
    (ConVal.history κ con ops).Uniform := by
  unfold ConVal.history
  have : ∀ s : ConVal κ n m K, s.Uniform → (ops.foldl ConOp.apply s).Uniform := by
    induction ops with
    | nil => intro s h; exact h
    | cons op ops ih => intro s h; exact ih _ (ConOp.apply_uniform s op h)
  exact this _ (fun i => rfl)

end basic

section projections
variable [IsStrictOrderedRing K]

theorem neg_proj_sq_le (a y : K) (hy : y ≤ 0) : (a - min 0 a) ^ 2 ≤ (a - y) ^ 2 := by
  rcases le_total a 0 with h | h
  · rw [min_eq_right h]; simp; positivity
  · rw [min_eq_left h]
    have : 0 ≤ -(2 * a * y) + y ^ 2 := by nlinarith [sq_nonneg y, mul_nonneg h (neg_nonneg.mpr hy)]
    nlinarith

theorem neg_proj_sq_eq (a y : K) (hy : y ≤ 0) (h : (a - min 0 a) ^ 2 = (a - y) ^ 2) : y = min 0 a := by
  rcases le_total a 0 with ha | ha
  · rw [min_eq_right ha] at h ⊢
    have h0 : (a - y) ^ 2 = 0 := by rw [← h]; ring
    have := pow_eq_zero_iff (two_ne_zero) |>.mp h0
    linarith
  · rw [min_eq_left ha] at h ⊢
    have h1 : y * (y - 2 * a) = 0 := by linear_combination -h
    rcases mul_eq_zero.mp h1 with h2 | h2
    · exact h2
    · linarith

end projections

section auglag
variable [IsStrictOrderedRing K]

theorem min_sq (a : K) : min 0 a * min 0 a = if a ≤ 0 then a ^ 2 else 0 := by
  split
  · rename_i h; rw [min_eq_right h]; ring
  · rename_i h; rw [min_eq_left (le_of_not_ge h)]; ring

theorem eqTerm_id (ρ l c : K) (h : ρ ≠ 0) :
    ((l - ρ * c) * (l - ρ * c) - l * l) / (2 * ρ) = eqTerm ρ l c := by
  unfold eqTerm; field_simp; ring

theorem ineqTerm_id (ρ l c : K) (h : ρ ≠ 0) :
    (min 0 (l - ρ * c) * min 0 (l - ρ * c) - l * l) / (2 * ρ) = ineqTerm ρ l c := by
  unfold ineqTerm
  rw [min_sq]
  split
  · field_simp; ring
  · ring

theorem ineqTerm_nonpos (ρ l c : K) (h : 0 < ρ) (hl : l ≤ 0) (hc : c ≤ 0) : ineqTerm ρ l c ≤ 0 := by
  unfold ineqTerm
  split
  · rename_i hle
    have h1 : l ≤ ρ * c := by linarith
    have h2 : 0 ≤ l * c := mul_nonneg_of_nonpos_of_nonpos hl hc
    have h3 : (ρ * c) * c ≤ l * c := by nlinarith
    nlinarith
  · have : 0 ≤ l ^ 2 / (2 * ρ) := by positivity
    linarith

theorem list_sum_nonpos (l : List K) (h : ∀ a ∈ l, a ≤ 0) : l.sum ≤ 0 := by
  induction l with
  | nil => simp
  | cons a l ih =>
    have h1 := h a (by simp)
    have h2 := ih fun b hb => h b (by simp [hb])
    rw [List.sum_cons]; linarith

end auglag

section sums

theorem sum_div_sub {p : ℕ} (a b : Fin p → K) (r : K) :
    ((∑ i, a i) - ∑ i, b i) / r = ∑ i, (a i - b i) / r := by
  rw [← Finset.sum_sub_distrib, Finset.sum_div]

theorem foldl_fst_add {α : Type*} (l : List α) (f : α → K) (a : K) :
    l.foldl (fun J r => J + f r) a = a + (l.map f).sum := by
  induction l generalizing a with
  | nil => simp
  | cons b l ih => simp [ih, add_assoc]

end sums

section hessian
variable [IsStrictOrderedRing K]

theorem gram_quadForm {q : ℕ} (ρ : K) (JP : Matrix (Fin q) (Fin n ⊕ Fin m) K)
    (dx : Fin n → K) (du : Fin m → K) :
    quadForm { dxdx := ρ • (JP.toCols₁ᵀ * JP.toCols₁), dxdu := ρ • (JP.toCols₁ᵀ * JP.toCols₂),
               dudu := ρ • (JP.toCols₂ᵀ * JP.toCols₂) } dx du
      = ρ * ∑ i, (JP.toCols₁ *ᵥ dx + JP.toCols₂ *ᵥ du) i ^ 2 := by
  have h : ∀ {a b : ℕ} (A : Matrix (Fin q) (Fin a) K) (B : Matrix (Fin q) (Fin b) K) (v : Fin a → K)
      (w : Fin b → K), v ⬝ᵥ ((ρ • (Aᵀ * B)) *ᵥ w) = ρ * ∑ i, (A *ᵥ v) i * (B *ᵥ w) i := by
    intro a b A B v w
    rw [Matrix.smul_mulVec, dotProduct_smul, ← Matrix.mulVec_mulVec, Matrix.dotProduct_mulVec,
      Matrix.vecMul_transpose, smul_eq_mul]
    rfl
  simp only [quadForm, h]
  rw [← mul_assoc, mul_comm 2 ρ, mul_assoc, ← mul_add, ← mul_add, Finset.mul_sum,
    ← Finset.sum_add_distrib, ← Finset.sum_add_distrib]
  refine congrArg _ (Finset.sum_congr rfl fun i _ => ?_)
  simp only [Pi.add_apply]; ring

theorem hessian_quadForm_raw (s : ConVal κ n m K) (x : Fin n → K) (u : Fin m → K)
    (dx : Fin n → K) (du : Fin m → K) :
    quadForm (s.augLagHessian x u).1 dx du = s.rho * ∑ i,
      ((κ.dualProjJac (s.lam - s.rho • s.con.eval x u) s.projJac * s.con.jac x u).toCols₁ *ᵥ dx
      + (κ.dualProjJac (s.lam - s.rho • s.con.eval x u) s.projJac * s.con.jac x u).toCols₂ *ᵥ du) i ^ 2 :=
  gram_quadForm s.rho _ dx du

theorem dualProjJac_diag (κ : ConKind) {q : ℕ} (y : Fin q → K) (B : Matrix (Fin q) (Fin q) K)
    (hB : ∀ i j, i ≠ j → B i j = 0) :
    κ.dualProjJac y B = Matrix.diagonal fun i => if Active κ (y i) then 1 else 0 := by
  ext i j
  by_cases hij : i = j
  · subst hij
    cases κ
    · simp [ConKind.dualProjJac, idProjJac, Active]
    · by_cases h : 0 < y i
      · simp [ConKind.dualProjJac, negProjJac, Active, h, not_le.mpr h]
      · simp [ConKind.dualProjJac, negProjJac, Active, h, not_lt.mp h]
  · rw [dualProjJac_offdiag κ y B hB i j hij, Matrix.diagonal_apply_ne _ hij]

theorem hessian_quadForm_active (s : ConVal κ n m K) (x : Fin n → K) (u : Fin m → K)
    (dx : Fin n → K) (du : Fin m → K) (hb : s.BufOk) :
    quadForm (s.augLagHessian x u).1 dx du =
      s.rho * ∑ i, if Active κ (s.lam i - s.rho * s.con.eval x u i)
        then ((s.con.jac x u).toCols₁ *ᵥ dx + (s.con.jac x u).toCols₂ *ᵥ du) i ^ 2 else 0 := by
  rw [hessian_quadForm_raw, dualProjJac_diag κ _ _ hb]
  refine congrArg _ (Finset.sum_congr rfl fun i _ => ?_)
  have h1 : ∀ {b : ℕ} (d : Fin s.con.p → K) (A : Matrix (Fin s.con.p) (Fin b) K) (v : Fin b → K),
      ((Matrix.diagonal d * A) *ᵥ v) i = d i * (A *ᵥ v) i := by
    intro b d A v
    rw [← Matrix.mulVec_mulVec, Matrix.mulVec_diagonal]
  have h2 : ∀ d : Fin s.con.p → K, (Matrix.diagonal d * s.con.jac x u).toCols₁
      = Matrix.diagonal d * (s.con.jac x u).toCols₁ := fun d => rfl
  have h3 : ∀ d : Fin s.con.p → K, (Matrix.diagonal d * s.con.jac x u).toCols₂
      = Matrix.diagonal d * (s.con.jac x u).toCols₂ := fun d => rfl
  rw [Pi.add_apply, h2, h3, h1, h1]
  simp only [Pi.sub_apply, Pi.smul_apply, smul_eq_mul]
  split
  · simp
  · simp

theorem quadForm_addHess (a b : ConVal.HessBlocks n m K) (dx : Fin n → K) (du : Fin m → K) :
    quadForm (ALCost.addHess a b) dx du = quadForm a dx du + quadForm b dx du := by
  simp only [quadForm, ALCost.addHess, Matrix.add_mulVec, dotProduct_add]; ring

theorem addHess_psd (a b : ConVal.HessBlocks n m K) (ha : BlockPSD a) (hb : BlockPSD b) :
    BlockPSD (ALCost.addHess a b) where
  symx := by simp [ALCost.addHess, Matrix.transpose_add, ha.symx, hb.symx]
  symu := by simp [ALCost.addHess, Matrix.transpose_add, ha.symu, hb.symu]
  nonneg dx du := by rw [quadForm_addHess]; exact add_nonneg (ha.nonneg dx du) (hb.nonneg dx du)

theorem foldl_addHess_psd {α : Type*} (l : List (ConVal.HessBlocks n m K × α))
    (a : ConVal.HessBlocks n m K) (ha : BlockPSD a) (hl : ∀ r ∈ l, BlockPSD r.1) :
    BlockPSD (l.foldl (fun g r => ALCost.addHess g r.1) a) := by
  induction l generalizing a with
  | nil => exact ha
  | cons r l ih =>
    exact ih _ (addHess_psd a r.1 ha (hl r (by simp))) fun q hq => hl q (by simp [hq])

end hessian

section history

theorem applyAL_eq (s : ALCost n m K) (op : ConOp n m K) :
    (op.applyAL s).eq = s.eq.map (fun v => op.apply v) := by
  cases op <;> simp [ConOp.applyAL, ConOp.apply, ALCost.evaluate, ALCost.gradient, ALCost.hessian,
    ALCost.updateDuals, ALCost.updatePenalties, ALCost.setPenalty, ALCost.setPenaltyScaling,
    ALCost.resetDuals, Function.comp_def]

theorem applyAL_ineq (s : ALCost n m K) (op : ConOp n m K) :
    (op.applyAL s).ineq = s.ineq.map (fun v => op.apply v) := by
  cases op <;> simp [ConOp.applyAL, ConOp.apply, ALCost.evaluate, ALCost.gradient, ALCost.hessian,
    ALCost.updateDuals, ALCost.updatePenalties, ALCost.setPenalty, ALCost.setPenaltyScaling,
    ALCost.resetDuals, Function.comp_def]

theorem foldl_apply_con (s : ConVal κ n m K) (ops : List (ConOp n m K)) :
    (ops.foldl ConOp.apply s).con = s.con := by
  induction ops generalizing s with
  | nil => rfl
  | cons op ops ih => rw [List.foldl_cons, ih, ConOp.apply_con]

/-- The call sets penalties or the penalty scaling outright. -/
def ConOp.SetsPenalty : ConOp n m K → Prop
  | .setPenalty _ => True
  | .setScaling _ => True
  | _ => False

/-- The call is a penalty update. -/
def ConOp.isUpdatePenalties : ConOp n m K → Bool
  | .updatePenalties => true
  | _ => false

theorem foldl_apply_pen (s : ConVal κ n m K) (ops : List (ConOp n m K))
    (hops : ∀ op ∈ ops, ¬ op.SetsPenalty) (i : Fin s.con.p) :
    ((ops.foldl ConOp.apply s).pen (Fin.cast (by rw [foldl_apply_con]) i))
      = s.pen i * s.scaling ^ (ops.countP ConOp.isUpdatePenalties) := by
  induction ops generalizing s with
  | nil => simp
  | cons op ops ih =>
    have h1 := hops op (by simp)
    have h2 := fun o (ho : o ∈ ops) => hops o (by simp [ho])
    have := ih (op.apply s) h2 (Fin.cast (by rw [ConOp.apply_con]) i)
    refine this.trans ?_
    rw [List.countP_cons]
    cases op <;> try rfl
    · show s.pen i * s.scaling * s.scaling ^ _ = s.pen i * s.scaling ^ _
      simp [ConOp.isUpdatePenalties, pow_succ]; ring
    · exact absurd trivial h1
    · exact absurd trivial h1

end history

section gradient

theorem projJac_mulVec (κ : ConKind) (y : Fin p → K) (B : Matrix (Fin p) (Fin p) K)
    (hB : ∀ i j, i ≠ j → B i j = 0) :
    (κ.dualProjJac y B)ᵀ *ᵥ κ.dualProj y = κ.dualProj y := by
  cases κ
  · simp [ConKind.dualProjJac, idProjJac]
  · funext i
    simp only [ConKind.dualProjJac, ConKind.dualProj, Matrix.mulVec, dotProduct, Matrix.transpose_apply,
      negProjJac]
    rw [Finset.sum_eq_single i]
    · simp only [if_true]
      by_cases h : 0 < y i
      · simp [negProj, h, le_of_lt h]
      · simp [h]
    · intro j _ hj
      simp [hj, hB j i hj]
    · intro h; exact absurd (Finset.mem_univ i) h

theorem shifted_eq_of_uniform (s : ConVal κ n m K) (h : s.Uniform) :
    s.shifted = s.lam - fun i => s.pen i * s.c i := by
  funext i
  simp only [ConVal.shifted, Pi.sub_apply, Pi.smul_apply, smul_eq_mul, h i]

theorem gradient_eq_of_uniform (s : ConVal κ n m K) (x : Fin n → K) (u : Fin m → K)
    (hb : s.BufOk) (hu : s.Uniform) :
    let r := s.augLagGradient x u
    r.1.1 = -((s.con.jac x u).toCols₁ᵀ *ᵥ r.2.updateDuals.lam) ∧
    r.1.2 = -((s.con.jac x u).toCols₂ᵀ *ᵥ r.2.updateDuals.lam) := by
  let y : Fin s.con.p → K := s.lam - s.rho • s.con.eval x u
  have hy : y = s.lam - fun i => s.pen i * s.con.eval x u i := by
    funext i
    simp only [y, Pi.sub_apply, Pi.smul_apply, smul_eq_mul, hu i]
  have key : (κ.dualProjJac y s.projJac)ᵀ *ᵥ κ.dualProj y
      = κ.dualProj (s.lam - fun i => s.pen i * s.con.eval x u i) := by
    rw [projJac_mulVec κ _ _ hb, hy]
  constructor
  · show -((κ.dualProjJac y s.projJac * (s.con.jac x u).toCols₁)ᵀ *ᵥ κ.dualProj y)
      = -((s.con.jac x u).toCols₁ᵀ *ᵥ κ.dualProj (s.lam - fun i => s.pen i * s.con.eval x u i))
    rw [Matrix.transpose_mul, ← Matrix.mulVec_mulVec, key]
  · show -((κ.dualProjJac y s.projJac * (s.con.jac x u).toCols₂)ᵀ *ᵥ κ.dualProj y)
      = -((s.con.jac x u).toCols₂ᵀ *ᵥ κ.dualProj (s.lam - fun i => s.pen i * s.con.eval x u i))
    rw [Matrix.transpose_mul, ← Matrix.mulVec_mulVec, key]

end gradient

section affine

theorem affine_equality_gradient {q : ℕ} (ρ : K) (l c : Fin q → K) (J : Matrix (Fin q) (Fin n ⊕ Fin m) K)
    (dx : Fin n → K) (du : Fin m → K) :
    -(J.toCols₁ᵀ *ᵥ (l - ρ • (c + J.toCols₁ *ᵥ dx + J.toCols₂ *ᵥ du))) =
      -(J.toCols₁ᵀ *ᵥ (l - ρ • c)) + (ρ • (J.toCols₁ᵀ * J.toCols₁)) *ᵥ dx
        + (ρ • (J.toCols₁ᵀ * J.toCols₂)) *ᵥ du ∧
    -(J.toCols₂ᵀ *ᵥ (l - ρ • (c + J.toCols₁ *ᵥ dx + J.toCols₂ *ᵥ du))) =
      -(J.toCols₂ᵀ *ᵥ (l - ρ • c)) + (ρ • (J.toCols₁ᵀ * J.toCols₂))ᵀ *ᵥ dx
        + (ρ • (J.toCols₂ᵀ * J.toCols₂)) *ᵥ du := by
  constructor
  · simp only [Matrix.mulVec_sub, Matrix.mulVec_add, Matrix.mulVec_smul, Matrix.smul_mulVec,
      ← Matrix.mulVec_mulVec, smul_add]
    abel
  · simp only [Matrix.mulVec_sub, Matrix.mulVec_add, Matrix.mulVec_smul, Matrix.smul_mulVec,
      ← Matrix.mulVec_mulVec, smul_add, Matrix.transpose_smul, Matrix.transpose_mul,
      Matrix.transpose_transpose]
    abel

end affine

section maxima

theorem foldl_max_ge {α : Type*} (l : List α) (f : α → K) (a : K) :
    a ≤ l.foldl (fun m x => max m (f x)) a ∧ ∀ x ∈ l, f x ≤ l.foldl (fun m x => max m (f x)) a := by
  induction l generalizing a with
  | nil => simp
  | cons b l ih =>
    obtain ⟨h1, h2⟩ := ih (max a (f b))
    refine ⟨le_trans (le_max_left _ _) h1, ?_⟩
    intro x hx
    rcases List.mem_cons.mp hx with rfl | hx
    · exact le_trans (le_max_right _ _) h1
    · exact h2 x hx

theorem foldl_max_mem {α : Type*} (l : List α) (f : α → K) (a : K) :
    l.foldl (fun m x => max m (f x)) a = a ∨ ∃ x ∈ l, f x = l.foldl (fun m x => max m (f x)) a := by
  induction l generalizing a with
  | nil => simp
  | cons b l ih =>
    rw [List.foldl_cons]
    rcases ih (max a (f b)) with h | ⟨x, hx, h⟩
    · rcases le_total (f b) a with hab | hab
      · left; rw [h, max_eq_left hab]
      · right; exact ⟨b, by simp, by rw [h, max_eq_right hab]⟩
    · right; exact ⟨x, by simp [hx], h⟩

theorem foldl_max_lt_iff (l : List K) (a t : K) :
    l.foldl max a < t ↔ a < t ∧ ∀ x ∈ l, x < t := by
  induction l generalizing a with
  | nil => simp
  | cons b l ih => simp [ih, max_lt_iff, and_assoc]

theorem foldl_max_id_ge (l : List K) (a : K) : a ≤ l.foldl max a ∧ ∀ x ∈ l, x ≤ l.foldl max a :=
  foldl_max_ge l id a

theorem ConVal.pen_le_maxPenalty (v : ConVal κ n m K) (i : Fin v.con.p) : v.pen i ≤ v.maxPenalty := by
  unfold ConVal.maxPenalty
  exact (foldl_max_id_ge _ _).2 _ (List.mem_ofFn.mpr ⟨i, rfl⟩)

theorem ConVal.maxPenalty_attained (v : ConVal κ n m K) : ∃ i, v.pen i = v.maxPenalty := by
  unfold ConVal.maxPenalty
  rcases foldl_max_mem (List.ofFn v.pen) id (v.pen ⟨0, v.con.hp⟩) with h | ⟨x, hx, h⟩
  · exact ⟨_, h.symm⟩
  · obtain ⟨i, rfl⟩ := List.mem_ofFn.mp hx
    exact ⟨i, h⟩

theorem ALCost.eq_maxPenalty_le (c : ALCost n m K) (v) (hv : v ∈ c.eq) : v.maxPenalty ≤ c.maxPenalty :=
  le_trans ((foldl_max_ge c.eq (fun v => v.maxPenalty) 0).2 v hv)
    (foldl_max_ge c.ineq (fun v => v.maxPenalty) _).1

theorem ALCost.ineq_maxPenalty_le (c : ALCost n m K) (v) (hv : v ∈ c.ineq) : v.maxPenalty ≤ c.maxPenalty :=
  (foldl_max_ge c.ineq (fun v => v.maxPenalty) _).2 v hv

theorem ALCost.maxPenalty_attained (c : ALCost n m K) :
    c.maxPenalty = 0 ∨ (∃ v ∈ c.eq, ∃ i, v.pen i = c.maxPenalty) ∨
      (∃ v ∈ c.ineq, ∃ i, v.pen i = c.maxPenalty) := by
  unfold ALCost.maxPenalty
  rcases foldl_max_mem c.ineq (fun v => v.maxPenalty)
      (c.eq.foldl (fun a v => max a v.maxPenalty) 0) with h | ⟨v, hv, h⟩
  · rcases foldl_max_mem c.eq (fun v => v.maxPenalty) 0 with h' | ⟨v, hv, h'⟩
    · left; rw [h, h']
    · right; left
      obtain ⟨i, hi⟩ := v.maxPenalty_attained
      exact ⟨v, hv, i, by rw [hi, h, h']⟩
  · right; right
    obtain ⟨i, hi⟩ := v.maxPenalty_attained
    exact ⟨v, hv, i, by rw [hi, h]⟩

theorem infNormL_nonneg (l : List K) : 0 ≤ ALCost.infNormL l := (foldl_max_id_ge _ _).1

theorem infNormL_lt_iff (l : List K) (t : K) (ht : 0 < t) :
    ALCost.infNormL l < t ↔ ∀ x ∈ l, |x| < t := by
  unfold ALCost.infNormL
  rw [foldl_max_lt_iff]
  simp [ht]

variable [IsStrictOrderedRing K]

theorem abs_infNormL_lt_iff (l : List K) (t : K) : |ALCost.infNormL l| < t ↔ ALCost.infNormL l < t := by
  rw [abs_of_nonneg (infNormL_nonneg l)]

theorem abs_infNorm_lt_iff {q : ℕ} (v : Fin q → K) (t : K) (ht : 0 < t) :
    |ConVal.infNorm v| < t ↔ ∀ i, |v i| < t := by
  have h0 : 0 ≤ ConVal.infNorm v := (foldl_max_id_ge _ _).1
  rw [abs_of_nonneg h0]
  unfold ConVal.infNorm
  rw [foldl_max_lt_iff]
  simp only [ht, true_and, List.mem_ofFn, forall_exists_index]
  exact ⟨fun h i => h _ i rfl, fun h _ i e => e ▸ h i⟩

theorem foldl_add_eq (l : List K) (a : K) : l.foldl (· + ·) a = a + l.sum := by
  induction l generalizing a with
  | nil => simp
  | cons b l ih => simp [ih, add_assoc]

theorem oneNormL_of_nonneg (l : List K) (h : ∀ a ∈ l, 0 ≤ a) : ALCost.oneNormL l = l.sum := by
  unfold ALCost.oneNormL
  rw [foldl_add_eq, zero_add]
  congr 1
  conv_rhs => rw [← List.map_id l]
  exact List.map_congr_left fun a ha => abs_of_nonneg (h a ha)

theorem oneNormL_nonneg (l : List K) : 0 ≤ ALCost.oneNormL l := by
  unfold ALCost.oneNormL
  rw [foldl_add_eq, zero_add]
  induction l with
  | nil => simp
  | cons a l ih => simp only [List.map_cons, List.sum_cons]; exact add_nonneg (abs_nonneg a) ih

end maxima
section knotHistory

theorem ALCost.foldl_cost (ops : List (ConOp n m K)) (t : ALCost n m K) :
    (ops.foldl ConOp.applyAL t).cost = t.cost := by
  induction ops generalizing t with
  | nil => rfl
  | cons op ops ih => rw [List.foldl_cons, ih]; cases op <;> rfl

theorem ALCost.foldl_eq (ops : List (ConOp n m K)) (t : ALCost n m K) :
    (ops.foldl ConOp.applyAL t).eq = t.eq.map fun v => ops.foldl ConOp.apply v := by
  induction ops generalizing t with
  | nil => simp
  | cons op ops ih => rw [List.foldl_cons, ih, applyAL_eq, List.map_map]; rfl

theorem ALCost.foldl_ineq (ops : List (ConOp n m K)) (t : ALCost n m K) :
    (ops.foldl ConOp.applyAL t).ineq = t.ineq.map fun v => ops.foldl ConOp.apply v := by
  induction ops generalizing t with
  | nil => simp
  | cons op ops ih => rw [List.foldl_cons, ih, applyAL_ineq, List.map_map]; rfl

theorem ALCost.history_cost (cost : CostFun n m K) (eqs ineqs : List (Con n m K)) (ops : List (ConOp n m K)) :
    (ALCost.history cost eqs ineqs ops).cost = cost := ALCost.foldl_cost _ _

theorem ALCost.history_eq (cost : CostFun n m K) (eqs ineqs : List (Con n m K)) (ops : List (ConOp n m K)) :
    (ALCost.history cost eqs ineqs ops).eq = eqs.map fun c => ConVal.history .equality c ops := by
  rw [ALCost.history, ALCost.foldl_eq]; simp [ALCost.new, ConVal.history, Function.comp_def]

theorem ALCost.history_ineq (cost : CostFun n m K) (eqs ineqs : List (Con n m K)) (ops : List (ConOp n m K)) :
    (ALCost.history cost eqs ineqs ops).ineq = ineqs.map fun c => ConVal.history .inequality c ops := by
  rw [ALCost.history, ALCost.foldl_ineq]; simp [ALCost.new, ConVal.history, Function.comp_def]

theorem ConVal.foldl_rho_ne_zero (ops : List (ConOp n m K)) (hpen : ∀ r, .setPenalty r ∈ ops → r ≠ 0)
    (hscal : ∀ r, .setScaling r ∈ ops → r ≠ 0) (t : ConVal κ n m K) (h : t.rho ≠ 0) (h' : t.scaling ≠ 0) :
    (ops.foldl ConOp.apply t).rho ≠ 0 := by
  induction ops generalizing t with
  | nil => exact h
  | cons op ops ih =>
    refine ih (fun r hr => hpen r (List.mem_cons_of_mem _ hr))
      (fun r hr => hscal r (List.mem_cons_of_mem _ hr)) (op.apply t) ?_ ?_
    · cases op with
      | updatePenalties => exact mul_ne_zero h h'
      | setPenalty r => exact hpen r List.mem_cons_self
      | _ => exact h
    · cases op with
      | setScaling r => exact hscal r List.mem_cons_self
      | _ => exact h'

theorem ConVal.history_rho_ne_zero [IsStrictOrderedRing K] (con : Con n m K) (ops : List (ConOp n m K))
    (hpen : ∀ r, .setPenalty r ∈ ops → r ≠ 0) (hscal : ∀ r, .setScaling r ∈ ops → r ≠ 0) :
    (ConVal.history κ con ops).rho ≠ 0 :=
  ConVal.foldl_rho_ne_zero ops hpen hscal _ one_ne_zero (by
    show (10 : K) ≠ 0
    norm_num)

end knotHistory

end Altro
