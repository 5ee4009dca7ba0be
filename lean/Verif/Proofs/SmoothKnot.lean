import Verif.Proofs.SmoothLoop
import Verif.Proofs.Progress
import Verif.Props.AugLagCalculus

/-!
# The augmented cost of a smooth knot point
-/

namespace Altro.Props
open Altro.Spec Matrix ILQR
variable {n m : ℕ} {κ : ConKind}

theorem mem_core {l l' : List (ConVal κ n m ℝ)} (e : l'.map ConVal.core = l.map ConVal.core) {v : ConVal κ n m ℝ}
    (hv : v ∈ l') : ∃ w ∈ l, w.core = v.core := by
  have : v.core ∈ l.map ConVal.core := by rw [← e]; exact List.mem_map_of_mem hv
  exact List.mem_map.mp this

theorem _root_.Altro.Spec.SmoothKnot.congr {c c' : ALCost n m ℝ} (h : SmoothKnot c) (e : c'.core = c.core) : SmoothKnot c' := by
  have hs := static_eq_of_core e
  simp only [ALCost.core, ALCost.mk.injEq] at e
  obtain ⟨e1, e2, e3⟩ := e
  refine ⟨by rw [e1]; exact h.grad, by rw [e1]; exact h.gradCont, by rw [e1]; exact h.dxdx, by rw [e1]; exact h.dxdu,
    by rw [e1]; exact h.dudu, fun v hv => ?_, fun v hv => ?_, fun v hv => ?_⟩
  · obtain ⟨w, hw, ew⟩ := mem_core e2 hv
    have hc : SmoothCon w.core.con ∧ ∀ i, 0 < w.core.pen i := h.eq w hw
    rw [ew] at hc
    exact hc
  · obtain ⟨w, hw, ew⟩ := mem_core e3 hv
    have hc : SmoothCon w.core.con ∧ ∀ i, 0 < w.core.pen i := h.ineq w hw
    rw [ew] at hc
    exact hc
  · obtain ⟨w, hw, ew⟩ := mem_core e3 hv
    have hc : ∀ i j, i ≠ j → w.core.projJac i j = 0 := fun i j hij => by
      have := congrFun (congrFun (stale_zero_of_buf (h.buf w hw)) i) j
      exact this
    rw [ew] at hc
    intro i j hij
    have := hc i j hij
    have e' : v.core.projJac i j = if i = j then 0 else v.projJac i j := rfl
    rw [e', if_neg hij] at this
    exact this

/-! ## Gradients -/

theorem augLag_isGrad (v : ConVal κ n m ℝ) (hb : κ.stale v.projJac = 0) (hs : SmoothCon v.con) (hp : ∀ i, 0 < v.pen i)
    (x : Fin n → ℝ) (u : Fin m → ℝ) :
    IsGradAt (fun x u => (v.augLag x u).1) (v.augLagGradient x u).1.1 (v.augLagGradient x u).1.2 x u := by
  rcases bufOk_of_stale hb with rfl | h
  · exact diffReady_isGradAt x u { v with projJac := 0 } ⟨fun i j _ => rfl, (hp _).ne', hs.jac x u⟩
  · exact diffReady_isGradAt x u v ⟨h, (hp _).ne', hs.jac x u⟩

theorem _root_.Altro.Spec.SmoothKnot.isGrad {c : ALCost n m ℝ} (h : SmoothKnot c) (x : Fin n → ℝ) (u : Fin m → ℝ) :
    IsGradAt (fun x u => (c.evaluate x u).1) (c.gradient x u).1.1 (c.gradient x u).1.2 x u := by
  have g1 := foldl_grad_isGradAt c.eq (fun v x u => (v.augLag x u).1) (fun v => (v.augLagGradient x u).1) x u
    (fun v hv => augLag_isGrad v rfl (h.eq v hv).1 (h.eq v hv).2 x u) c.cost.eval (c.cost.grad x u) (h.grad x u)
  have g2 := foldl_grad_isGradAt c.ineq (fun v x u => (v.augLag x u).1) (fun v => (v.augLagGradient x u).1) x u
    (fun v hv => augLag_isGrad v (stale_zero_of_buf (h.buf v hv)) (h.ineq v hv).1 (h.ineq v hv).2 x u) _ _ g1
  refine g2.congr (fun x' u' => ?_) ?_ ?_
  · simp only [ALCost.evaluate, List.foldl_map]
  · simp only [ALCost.gradient, List.foldl_map]
  · simp only [ALCost.gradient, List.foldl_map]

theorem dualProj_continuous (κ : ConKind) {q : ℕ} : Continuous fun y : Fin q → ℝ => κ.dualProj y := by
  cases κ
  · exact continuous_id
  · exact continuous_pi fun i => continuous_const.min (continuous_apply i)

theorem augLagGradient_continuous (v : ConVal κ n m ℝ) (hb : κ.stale v.projJac = 0) (hs : SmoothCon v.con) :
    Continuous fun z : Z n m => (v.augLagGradient z.1 z.2).1 := by
  have key : ∀ w : ConVal κ n m ℝ, w.BufOk → SmoothCon w.con → Continuous fun z : Z n m => (w.augLagGradient z.1 z.2).1 := by
    intro w hw hs
    have hc : Continuous fun z : Z n m => w.con.eval z.1 z.2 := IsJacAt.continuous hs.jac
    have hc' : Continuous fun z : Z n m => w.rho • w.con.eval z.1 z.2 := hc.const_smul w.rho
    have hp : Continuous fun z : Z n m => κ.dualProj (w.lam - w.rho • w.con.eval z.1 z.2) :=
      (dualProj_continuous κ).comp (continuous_const.sub hc')
    have e : (fun z : Z n m => (w.augLagGradient z.1 z.2).1) = fun z =>
        (-((w.con.jac z.1 z.2).toCols₁ᵀ *ᵥ κ.dualProj (w.lam - w.rho • w.con.eval z.1 z.2)),
          -((w.con.jac z.1 z.2).toCols₂ᵀ *ᵥ κ.dualProj (w.lam - w.rho • w.con.eval z.1 z.2))) := by
      funext z
      have key := projJac_mulVec κ (w.lam - w.rho • w.con.eval z.1 z.2) w.projJac hw
      show (-((κ.dualProjJac (w.lam - w.rho • w.con.eval z.1 z.2) w.projJac * (w.con.jac z.1 z.2).toCols₁)ᵀ
        *ᵥ κ.dualProj (w.lam - w.rho • w.con.eval z.1 z.2)), -((κ.dualProjJac (w.lam - w.rho • w.con.eval z.1 z.2) w.projJac * (w.con.jac z.1 z.2).toCols₂)ᵀ
        *ᵥ κ.dualProj (w.lam - w.rho • w.con.eval z.1 z.2))) = _
      rw [Matrix.transpose_mul, ← Matrix.mulVec_mulVec, key, Matrix.transpose_mul, ← Matrix.mulVec_mulVec, key]
    rw [e]
    have c1 : Continuous fun z : Z n m => (w.con.jac z.1 z.2).toCols₁ᵀ :=
      continuous_pi fun i => continuous_pi fun j => hs.cont.matrix_elem j (Sum.inl i)
    have c2 : Continuous fun z : Z n m => (w.con.jac z.1 z.2).toCols₂ᵀ :=
      continuous_pi fun i => continuous_pi fun j => hs.cont.matrix_elem j (Sum.inr i)
    exact ((c1.matrix_mulVec hp).neg).prodMk ((c2.matrix_mulVec hp).neg)
  rcases bufOk_of_stale hb with rfl | h
  · exact key { v with projJac := 0 } (fun i j _ => rfl) hs
  · exact key v h hs

theorem foldl_continuous {α : Type} (l : List α) (f : α → Z n m → Z n m) (h : ∀ a ∈ l, Continuous (f a)) :
    ∀ g : Z n m → Z n m, Continuous g → Continuous fun z => l.foldl (fun s a => (s.1 + (f a z).1, s.2 + (f a z).2)) (g z) := by
  induction l with
  | nil => intro g hg; exact hg
  | cons a l ih =>
    intro g hg
    have ha := h a List.mem_cons_self
    exact ih (fun b hb => h b (List.mem_cons_of_mem _ hb)) (fun z => ((g z).1 + (f a z).1, (g z).2 + (f a z).2))
      (((continuous_fst.comp hg).add (continuous_fst.comp ha)).prodMk ((continuous_snd.comp hg).add (continuous_snd.comp ha)))

theorem _root_.Altro.Spec.SmoothKnot.gradient_continuous {c : ALCost n m ℝ} (h : SmoothKnot c) :
    Continuous fun z : Z n m => (c.gradient z.1 z.2).1 := by
  simp only [ALCost.gradient, List.foldl_map]
  exact foldl_continuous c.ineq (fun v z => (v.augLagGradient z.1 z.2).1)
    (fun v hv => augLagGradient_continuous v (stale_zero_of_buf (h.buf v hv)) (h.ineq v hv).1) _
    (foldl_continuous c.eq (fun v z => (v.augLagGradient z.1 z.2).1) (fun v hv => augLagGradient_continuous v rfl (h.eq v hv).1) _
      h.gradCont)

/-- The gradient depends on the stored values only through the core. -/
theorem _root_.Altro.Spec.SmoothKnot.gradient_of_core {c c' : ALCost n m ℝ} (h : SmoothKnot c) (e : c'.core = c.core)
    (x : Fin n → ℝ) (u : Fin m → ℝ) : (c'.gradient x u).1 = (c.gradient x u).1 := by
  have h1 := (h.congr e).isGrad x u
  have h2 : IsGradAt (fun x u => (c'.evaluate x u).1) (c.gradient x u).1.1 (c.gradient x u).1.2 x u :=
    (h.isGrad x u).congr (fun x u => by rw [← ALCost.evaluate_of_core c', e, ALCost.evaluate_of_core]) rfl rfl
  obtain ⟨a, b⟩ := h1.unique h2
  exact Prod.ext a b

/-! ## Curvature -/

/-- Squared Frobenius norm. -/
def frobSq {α β : Type} [Fintype α] [Fintype β] (A : Matrix α β ℝ) : ℝ := ∑ i, ∑ j, A i j ^ 2

theorem frobSq_nonneg {α β : Type} [Fintype α] [Fintype β] (A : Matrix α β ℝ) : 0 ≤ frobSq A :=
  Finset.sum_nonneg fun i _ => Finset.sum_nonneg fun j _ => sq_nonneg _

theorem frob_continuous {α β : Type} [Fintype α] [Fintype β] {X : Type} [TopologicalSpace X] {A : X → Matrix α β ℝ} (h : Continuous A) :
    Continuous fun x => frobSq (A x) :=
  continuous_finset_sum _ fun i _ => continuous_finset_sum _ fun j _ => (h.matrix_elem i j).pow 2

theorem nsq_frob {q r : ℕ} (A : Matrix (Fin q) (Fin r) ℝ) (v : Fin r → ℝ) : nsq (A *ᵥ v) ≤ frobSq A * nsq v := by
  unfold nsq dotProduct frobSq
  rw [Finset.sum_mul]
  refine Finset.sum_le_sum fun i _ => ?_
  have := Finset.sum_mul_sq_le_sq_mul_sq Finset.univ (fun j => A i j) v
  calc (A *ᵥ v) i * (A *ᵥ v) i = (∑ j, A i j * v j) ^ 2 := by rw [sq]; rfl
    _ ≤ _ := this
    _ = _ := by simp only [sq]

theorem frob_cols {q : ℕ} (A : Matrix (Fin q) (Fin n ⊕ Fin m) ℝ) : frobSq A = frobSq A.toCols₁ + frobSq A.toCols₂ := by
  unfold frobSq
  rw [← Finset.sum_add_distrib]
  refine Finset.sum_congr rfl fun i _ => ?_
  rw [Fintype.sum_sum_type]
  rfl

theorem nsq_cols {q : ℕ} (A : Matrix (Fin q) (Fin n) ℝ) (B : Matrix (Fin q) (Fin m) ℝ) (δx : Fin n → ℝ) (δu : Fin m → ℝ) :
    nsq (A *ᵥ δx + B *ᵥ δu) ≤ 2 * (frobSq A + frobSq B) * (nsq δx + nsq δu) := by
  have h := nsq_add_le (A *ᵥ δx) (B *ᵥ δu)
  have h1 := nsq_frob A δx
  have h2 := nsq_frob B δu
  have h3 := mul_nonneg (frobSq_nonneg A) (nsq_nonneg δu)
  have h4 := mul_nonneg (frobSq_nonneg B) (nsq_nonneg δx)
  linarith

theorem quadForm_frob (H : ConVal.HessBlocks n m ℝ) (δx : Fin n → ℝ) (δu : Fin m → ℝ) :
    quadForm H δx δu ≤ (frobSq H.dxdx + frobSq H.dxdu + frobSq H.dudu + 2) * (nsq δx + nsq δu) := by
  have hy : ∀ {q : ℕ} (v w : Fin q → ℝ), 2 * (v ⬝ᵥ w) ≤ nsq v + nsq w := fun v w => by
    have := nsq_nonneg (v - w)
    unfold nsq at this ⊢
    simp only [sub_dotProduct, dotProduct_sub] at this
    rw [dotProduct_comm w v] at this
    linarith
  have c1 := hy δx (H.dxdx *ᵥ δx)
  have c2 := hy δx (H.dxdu *ᵥ δu)
  have c3 := hy δu (H.dudu *ᵥ δu)
  have d1 := nsq_frob H.dxdx δx
  have d2 := nsq_frob H.dxdu δu
  have d3 := nsq_frob H.dudu δu
  have h1 := frobSq_nonneg H.dxdx
  have h2 := frobSq_nonneg H.dxdu
  have h3 := frobSq_nonneg H.dudu
  have n1 := nsq_nonneg δx
  have n2 := nsq_nonneg δu
  have m1 := nsq_nonneg (H.dxdx *ᵥ δx)
  have m3 := nsq_nonneg (H.dudu *ᵥ δu)
  have p1 := mul_nonneg h1 n2
  have p2 := mul_nonneg h2 n1
  have p3 := mul_nonneg h3 n1
  unfold quadForm
  nlinarith

theorem augLagHessian_frob (v : ConVal κ n m ℝ) (hb : κ.stale v.projJac = 0) (hρ : 0 ≤ v.rho)
    (x : Fin n → ℝ) (u : Fin m → ℝ) (δx : Fin n → ℝ) (δu : Fin m → ℝ) :
    quadForm (v.augLagHessian x u).1 δx δu ≤ v.rho * (2 * frobSq (v.con.jac x u)) * (nsq δx + nsq δu) := by
  have key : ∀ w : ConVal κ n m ℝ, w.BufOk → 0 ≤ w.rho →
      quadForm (w.augLagHessian x u).1 δx δu ≤ w.rho * (2 * frobSq (w.con.jac x u)) * (nsq δx + nsq δu) := by
    intro w hb hρ
    rw [hessian_quadForm_active w x u δx δu hb, mul_assoc]
    refine mul_le_mul_of_nonneg_left ?_ hρ
    rw [frob_cols]
    refine le_trans ?_ (nsq_cols _ _ δx δu)
    unfold nsq dotProduct
    refine Finset.sum_le_sum fun i _ => ?_
    split
    · exact (sq _).le
    · exact mul_self_nonneg _
  rcases bufOk_of_stale hb with rfl | h
  · exact key { v with projJac := 0 } (fun i j _ => rfl) hρ
  · exact key v h hρ

/-- A bound on the curvature of the augmented cost. -/
noncomputable def curvBound (c : ALCost n m ℝ) (z : Z n m) : ℝ :=
  (frobSq (c.cost.hess z.1 z.2).dxdx + frobSq (c.cost.hess z.1 z.2).dxdu + frobSq (c.cost.hess z.1 z.2).dudu + 2)
    + (c.eq.map fun v => v.rho * (2 * frobSq (v.con.jac z.1 z.2))).sum + (c.ineq.map fun v => v.rho * (2 * frobSq (v.con.jac z.1 z.2))).sum

theorem curvBound_core {c c' : ALCost n m ℝ} (e : c'.core = c.core) (z : Z n m) : curvBound c' z = curvBound c z := by
  have h : ∀ c : ALCost n m ℝ, curvBound c z = curvBound c.core z := fun c => by
    simp only [curvBound, ALCost.core, List.map_map]; rfl
  rw [h, e, ← h]

theorem _root_.Altro.Spec.SmoothKnot.curvBound_continuous {c : ALCost n m ℝ} (h : SmoothKnot c) : Continuous (curvBound c) := by
  unfold curvBound
  refine ((((((frob_continuous h.dxdx).add (frob_continuous h.dxdu)).add (frob_continuous h.dudu)).add continuous_const)).add
    (continuous_list_sum c.eq fun v hv => continuous_const.mul (continuous_const.mul (frob_continuous (h.eq v hv).1.cont)))).add
    (continuous_list_sum c.ineq fun v hv => continuous_const.mul (continuous_const.mul (frob_continuous (h.ineq v hv).1.cont)))

theorem sum_map_mul_right {α : Type} (l : List α) (f : α → ℝ) (b : ℝ) : (l.map fun a => f a * b).sum = (l.map f).sum * b := by
  induction l with
  | nil => simp
  | cons a l ih => simp only [List.map_cons, List.sum_cons, ih]; ring

theorem _root_.Altro.Spec.SmoothKnot.form_le {c : ALCost n m ℝ} (h : SmoothKnot c) (x : Fin n → ℝ) (u : Fin m → ℝ)
    (δx : Fin n → ℝ) (δu : Fin m → ℝ) : form (expOf c x u) δx δu ≤ curvBound c (x, u) * (nsq δx + nsq δu) := by
  have e : form (expOf c x u) δx δu = quadForm (c.cost.hess x u) δx δu
      + (c.eq.map fun v => quadForm ((v.evalProjJac x u).augLagHessian x u).1 δx δu).sum
      + (c.ineq.map fun v => quadForm ((v.evalProjJac x u).augLagHessian x u).1 δx δu).sum := by
    show quadForm ((c.gradient x u).2.hessian x u).1 δx δu = _
    simp only [ALCost.gradient, ALCost.hessian, List.map_map, List.foldl_map]
    exact (foldl_hess_form c.ineq (fun v => ((v.evalProjJac x u).augLagHessian x u).1) δx δu _).trans
      (by rw [← foldl_hess_form c.eq (fun v => ((v.evalProjJac x u).augLagHessian x u).1)]; rfl)
  rw [e]
  have h1 := sum_map_le c.eq (fun v => quadForm ((v.evalProjJac x u).augLagHessian x u).1 δx δu)
    (fun v => v.rho * (2 * frobSq (v.con.jac x u)) * (nsq δx + nsq δu)) fun v hv =>
      augLagHessian_frob (v.evalProjJac x u) rfl ((h.eq v hv).2 _).le x u δx δu
  have h2 := sum_map_le c.ineq (fun v => quadForm ((v.evalProjJac x u).augLagHessian x u).1 δx δu)
    (fun v => v.rho * (2 * frobSq (v.con.jac x u)) * (nsq δx + nsq δu)) fun v hv =>
      augLagHessian_frob (v.evalProjJac x u) ((stale_dualProjJac _ _ _).trans (stale_zero_of_buf (h.buf v hv)))
        ((h.ineq v hv).2 _).le x u δx δu
  rw [sum_map_mul_right] at h1 h2
  have h3 := quadForm_frob (c.cost.hess x u) δx δu
  unfold curvBound
  simp only at h1 h2 h3 ⊢
  linarith

/-! ## Lower bound -/

theorem augLag_lower (v : ConVal κ n m ℝ) (hρ : 0 < v.rho) (x : Fin n → ℝ) (u : Fin m → ℝ) :
    -∑ i, v.lam i ^ 2 / (2 * v.rho) ≤ (v.augLag x u).1 := by
  rw [← Finset.sum_neg_distrib]
  cases κ
  · rw [C02_auglag_equality v _ _ hρ]
    refine Finset.sum_le_sum fun i _ => ?_
    have e : eqTerm v.rho (v.lam i) (v.con.eval x u i)
        = (v.lam i - v.rho * v.con.eval x u i) ^ 2 / (2 * v.rho) - v.lam i ^ 2 / (2 * v.rho) := by
      unfold eqTerm; field_simp; ring
    rw [e]
    have : 0 ≤ (v.lam i - v.rho * v.con.eval x u i) ^ 2 / (2 * v.rho) := by positivity
    linarith
  · rw [C02_auglag_inequality v _ _ hρ]
    refine Finset.sum_le_sum fun i _ => ?_
    rw [ineqTerm_eq _ _ _ hρ, sub_div]
    have : 0 ≤ (min 0 (v.lam i - v.rho * v.con.eval x u i)) ^ 2 / (2 * v.rho) := by positivity
    linarith

theorem _root_.Altro.Spec.SmoothKnot.lower {c : ALCost n m ℝ} (h : SmoothKnot c) :
    ∃ b : ℝ, 0 ≤ b ∧ ∀ x u, c.cost.eval x u - b ≤ (c.evaluate x u).1 := by
  have nn : ∀ {κ : ConKind} (v : ConVal κ n m ℝ), 0 < v.rho → 0 ≤ ∑ i, v.lam i ^ 2 / (2 * v.rho) := fun v hv =>
    Finset.sum_nonneg fun i _ => by positivity
  refine ⟨(c.eq.map fun v => ∑ i, v.lam i ^ 2 / (2 * v.rho)).sum + (c.ineq.map fun v => ∑ i, v.lam i ^ 2 / (2 * v.rho)).sum,
    add_nonneg (sum_map_nonneg _ _ fun v hv => nn v ((h.eq v hv).2 _)) (sum_map_nonneg _ _ fun v hv => nn v ((h.ineq v hv).2 _)),
    fun x u => ?_⟩
  rw [C02_evaluate_eq]
  have h1 := sum_map_le c.eq (fun v => -∑ i, v.lam i ^ 2 / (2 * v.rho)) (fun v => (v.augLag x u).1) fun v hv =>
    augLag_lower v ((h.eq v hv).2 _) x u
  have h2 := sum_map_le c.ineq (fun v => -∑ i, v.lam i ^ 2 / (2 * v.rho)) (fun v => (v.augLag x u).1) fun v hv =>
    augLag_lower v ((h.ineq v hv).2 _) x u
  rw [sum_map_neg'] at h1 h2
  linarith

/-! ## Independence of the control -/

theorem grad_indep {f : (Fin n → ℝ) → (Fin m → ℝ) → ℝ} (hf : ∀ x u u', f x u = f x u') {gx gx' gu gu' x u u'}
    (h : IsGradAt f gx gu x u) (h' : IsGradAt f gx' gu' x u') : gx = gx' ∧ gu = gu' := by
  refine h.unique ?_
  have h1 : HasFDerivAt (fun z : Z n m => f z.1 z.2) (gradCLM gx' gu') ((x, u) + (0, u' - u)) := by
    rw [Prod.mk_add_mk, add_zero, add_sub_cancel]; exact h'
  have h2 := (hasFDerivAt_comp_add_right (f := fun z : Z n m => f z.1 z.2) (x := (x, u)) (0, u' - u)).mpr h1
  refine h2.congr_of_eventuallyEq (Filter.Eventually.of_forall fun z => ?_)
  show f z.1 z.2 = f (z.1 + 0) (z.2 + (u' - u))
  rw [add_zero]; exact hf _ _ _

theorem _root_.Altro.Spec.SmoothCon.jac_indep {con : Con n m ℝ} (h : SmoothCon con) (hf : ∀ x u u', con.eval x u = con.eval x u')
    (x : Fin n → ℝ) (u u' : Fin m → ℝ) : con.jac x u = con.jac x u' := by
  funext i j
  obtain ⟨a, b⟩ := grad_indep (fun x u u' => congrFun (hf x u u') i) (h.jac x u i) (h.jac x u' i)
  rcases j with j | j
  · exact congrFun a j
  · exact congrFun b j

/-! ## The whole problem -/

/-- What the proofs use of a smooth problem: augmented costs `ℓ` with gradients `g`. -/
structure SmoothCore (p : DynProblem n m ℝ) (cs : ℕ → ALCost n m ℝ) (Y : Traj (Fin n → ℝ) (Fin m → ℝ) ℝ) (μ : ℝ)
    (ℓ : ℕ → (Fin n → ℝ) → (Fin m → ℝ) → ℝ) (g : ℕ → Z n m → Z n m) : Prop where
  dyn : SmoothDyn p Y ℓ g
  curved : Curved p cs μ
  val : ∀ k ≤ p.N, ∀ c : ALCost n m ℝ, c.core = (cs k).core → ∀ x u, (c.evaluate x u).1 = ℓ k x u
  grd : ∀ k ≤ p.N, ∀ c : ALCost n m ℝ, c.core = (cs k).core → ∀ x u, (expOf c x u).dx = (g k (x, u)).1 ∧ (expOf c x u).du = (g k (x, u)).2
  up : ∃ B : ℕ → Z n m → ℝ, (∀ k ≤ p.N, Continuous (B k) ∧ ∀ c : ALCost n m ℝ, c.core = (cs k).core → ∀ x u δx δu,
    form (expOf c x u) δx δu ≤ B k (x, u) * (nsq δx + nsq δu)) ∧ ∀ x u u', B p.N (x, u) = B p.N (x, u')
  term : ∀ x u u', ℓ p.N x u = ℓ p.N x u'
  low : ∃ c b : ℝ, 0 < c ∧ 0 ≤ b ∧ (∀ k < p.N, ∀ x u, c * nsq u - b ≤ ℓ k x u) ∧ ∀ x u, -b ≤ ℓ p.N x u

theorem _root_.Altro.Spec.SmoothProblem.core {p : DynProblem n m ℝ} {cs : ℕ → ALCost n m ℝ} {Y : Traj (Fin n → ℝ) (Fin m → ℝ) ℝ} {μ : ℝ}
    (h : SmoothProblem p cs Y μ) :
    SmoothCore p cs Y μ (fun k x u => ((cs k).evaluate x u).1) fun k z => ((cs k).gradient z.1 z.2).1 where
  dyn := ⟨h.jac, h.cont, fun k hk x u => (h.knot k hk).isGrad x u, fun k hk => (h.knot k hk).gradient_continuous⟩
  curved := h.curved.curved
  val k hk c e x u := by rw [← ALCost.evaluate_of_core c, e, ALCost.evaluate_of_core]
  grd k hk c e x u := by
    have := (h.knot k hk).gradient_of_core e x u
    exact ⟨congrArg Prod.fst this, congrArg Prod.snd this⟩
  up := ⟨fun k => curvBound (cs k), ⟨fun k hk => ⟨(h.knot k hk).curvBound_continuous, fun c e x u δx δu => by
    show _ ≤ curvBound (cs k) (x, u) * _
    rw [← curvBound_core e]; exact ((h.knot k hk).congr e).form_le x u δx δu⟩, fun x u u' => by
    have a1 : (cs p.N).eq.map (fun v => v.rho * (2 * frobSq (v.con.jac x u))) = (cs p.N).eq.map fun v => v.rho * (2 * frobSq (v.con.jac x u')) :=
      List.map_congr_left fun v hv => by rw [((h.knot _ le_rfl).eq v hv).1.jac_indep (h.termEq v hv) x u u']
    have a2 : (cs p.N).ineq.map (fun v => v.rho * (2 * frobSq (v.con.jac x u))) = (cs p.N).ineq.map fun v => v.rho * (2 * frobSq (v.con.jac x u')) :=
      List.map_congr_left fun v hv => by rw [((h.knot _ le_rfl).ineq v hv).1.jac_indep (h.termIneq v hv) x u u']
    show curvBound _ _ = curvBound _ _
    simp only [curvBound, a1, a2, h.termHess x u u']⟩⟩
  term x u u' := by
    rw [C02_evaluate_eq, C02_evaluate_eq, h.term x u u']
    have k1 := (h.knot _ le_rfl).eq
    have k2 := (h.knot _ le_rfl).ineq
    have a1 : (cs p.N).eq.map (fun v => (v.augLag x u).1) = (cs p.N).eq.map fun v => (v.augLag x u').1 :=
      List.map_congr_left fun v hv => by
        rw [C02_auglag_equality v _ _ ((k1 v hv).2 _), C02_auglag_equality v _ _ ((k1 v hv).2 _), h.termEq v hv x u u']
    have a2 : (cs p.N).ineq.map (fun v => (v.augLag x u).1) = (cs p.N).ineq.map fun v => (v.augLag x u').1 :=
      List.map_congr_left fun v hv => by
        rw [C02_auglag_inequality v _ _ ((k2 v hv).2 _), C02_auglag_inequality v _ _ ((k2 v hv).2 _), h.termIneq v hv x u u']
    rw [a1, a2]
  low := by
    obtain ⟨c, b, hc, h1, h2⟩ := h.grows
    have hb : ∀ k, ∃ b' : ℝ, 0 ≤ b' ∧ (k ≤ p.N → ∀ x u, (cs k).cost.eval x u - b' ≤ ((cs k).evaluate x u).1) := fun k => by
      by_cases hk : k ≤ p.N
      · obtain ⟨b', hb', hl⟩ := (h.knot k hk).lower
        exact ⟨b', hb', fun _ => hl⟩
      · exact ⟨0, le_rfl, fun hk' => absurd hk' hk⟩
    choose b' hb' hl using hb
    have hs : ∀ k ≤ p.N, b' k ≤ ∑ k ∈ Finset.range (p.N + 1), b' k := fun k hk =>
      Finset.single_le_sum (f := b') (fun k _ => hb' k) (Finset.mem_range.mpr (Nat.lt_succ_of_le hk))
    have h0 : 0 ≤ ∑ k ∈ Finset.range (p.N + 1), b' k := Finset.sum_nonneg fun k _ => hb' k
    refine ⟨c, |b| + ∑ k ∈ Finset.range (p.N + 1), b' k, hc, by positivity, fun k hk x u => ?_, fun x u => ?_⟩
    · have a1 : c * nsq u - b ≤ _ := h1 k hk x u
      have a2 := hl k hk.le x u
      have a3 := hs k hk.le
      have := le_abs_self b
      linarith
    · have a1 := h2 x u
      have a2 := hl p.N le_rfl x u
      have a3 := hs p.N le_rfl
      have := le_abs_self b
      linarith

end Altro.Props
