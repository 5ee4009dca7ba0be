import Verif.Proofs.AffineKnot
import Verif.Proofs.NewtonLoop
import Verif.Props.AugLagCalculus

/-!
# Problems with affine constraints, away from the switching points
-/

namespace Altro.Props
open Altro.Spec Matrix ILQR
variable {n m : ℕ} {κ : ConKind}

theorem conLin_add (con : Con n m ℝ) (δx δx' : Fin n → ℝ) (δu δu' : Fin m → ℝ) (i : Fin con.p) :
    conLin con (δx + δx') (δu + δu') i = conLin con δx δu i + conLin con δx' δu' i := by
  simp only [conLin, mulVec_add, Pi.add_apply]
  ring

/-- The second-order term of the active constraints of a list. -/
noncomputable def actBil (l : List (ConVal κ n m ℝ)) (x : Fin n → ℝ) (u : Fin m → ℝ) (δx : Fin n → ℝ) (δu : Fin m → ℝ)
    (y : Fin n → ℝ) (w : Fin m → ℝ) : ℝ :=
  (l.map fun v => ∑ i, if Active κ (v.lam i - v.rho * v.con.eval x u i)
    then conLin v.con δx δu i * conLin v.con y w i else 0).sum

theorem actBil_polar (l : List (ConVal κ n m ℝ)) (x : Fin n → ℝ) (u : Fin m → ℝ) (δx : Fin n → ℝ) (δu : Fin m → ℝ)
    (y : Fin n → ℝ) (w : Fin m → ℝ) : 2 * actBil l x u δx δu y w
      = actBil l x u (δx + y) (δu + w) (δx + y) (δu + w) - actBil l x u δx δu δx δu - actBil l x u y w y w := by
  unfold actBil
  induction l with
  | nil => simp
  | cons v l ih =>
    simp only [List.map_cons, List.sum_cons]
    rw [mul_add, ih]
    have : (2 : ℝ) * ∑ i, (if Active κ (v.lam i - v.rho * v.con.eval x u i) then conLin v.con δx δu i * conLin v.con y w i else 0)
        = ∑ i, (if Active κ (v.lam i - v.rho * v.con.eval x u i)
            then conLin v.con (δx + y) (δu + w) i * conLin v.con (δx + y) (δu + w) i else 0)
          - ∑ i, (if Active κ (v.lam i - v.rho * v.con.eval x u i) then conLin v.con δx δu i * conLin v.con δx δu i else 0)
          - ∑ i, (if Active κ (v.lam i - v.rho * v.con.eval x u i) then conLin v.con y w i * conLin v.con y w i else 0) := by
      rw [Finset.mul_sum, ← Finset.sum_sub_distrib, ← Finset.sum_sub_distrib]
      refine Finset.sum_congr rfl fun i _ => ?_
      rw [conLin_add]
      split_ifs <;> ring
    rw [this]
    ring

theorem bil_polar (e : Expansion n m ℝ) (hx : e.dxdx.IsSymm) (hu : e.duduᵀ = e.dudu) (x : Fin n → ℝ) (u : Fin m → ℝ) (y : Fin n → ℝ)
    (v : Fin m → ℝ) : 2 * bil e x u y v = form e (x + y) (u + v) - form e x u - form e y v := by
  have hs : ∀ {q : ℕ} (A : Matrix (Fin q) (Fin q) ℝ), Aᵀ = A → ∀ a b : Fin q → ℝ, a ⬝ᵥ A *ᵥ b = b ⬝ᵥ A *ᵥ a := by
    intro q A hA a b
    rw [dotProduct_mulVec, ← mulVec_transpose, hA, dotProduct_comm]
  have h1 := hs _ hx x y
  have h2 := hs _ hu u v
  unfold bil form
  simp only [add_dotProduct, t_dot, mulVec_add, dotProduct_add]
  rw [dotProduct_comm (e.dxdx *ᵥ x), dotProduct_comm (e.dxdu *ᵥ u), dotProduct_comm (e.dudu *ᵥ u)]
  linarith

section knot
variable {c : ALCost n m ℝ} {ρ : ℝ}

/-- The Hessian of the augmented cost, exactly. -/
theorem AffineCons.form_active (h : AffineCons c) (hp : PenU c ρ) (x : Fin n → ℝ) (u : Fin m → ℝ) (δx : Fin n → ℝ)
    (δu : Fin m → ℝ) : form (expOf c x u) δx δu
      = quadForm (c.cost.hess x u) δx δu + ρ * (actBil c.eq x u δx δu δx δu + actBil c.ineq x u δx δu δx δu) := by
  have key : ∀ {κ : ConKind} (v : ConVal κ n m ℝ), κ.stale v.projJac = 0 → v.rho = ρ → AffineCon v.con →
      quadForm ((v.evalProjJac x u).augLagHessian x u).1 δx δu = ρ * ∑ i, if Active κ (v.lam i - v.rho * v.con.eval x u i)
        then conLin v.con δx δu i * conLin v.con δx δu i else 0 := by
    intro κ v hb hr ha
    have k2 : ∀ w : ConVal κ n m ℝ, w.BufOk → w.con = v.con → HEq w.lam v.lam → w.rho = v.rho →
        quadForm (w.augLagHessian x u).1 δx δu = ρ * ∑ i, if Active κ (v.lam i - v.rho * v.con.eval x u i)
          then conLin v.con δx δu i * conLin v.con δx δu i else 0 := by
      intro w hw e1 e2 e3
      obtain ⟨wc, wcv, wl, wp, wj, ws⟩ := w
      simp only at e1
      subst e1
      simp only [heq_eq_eq] at e2
      subst e2
      rw [hessian_quadForm_active _ x u δx δu hw, e3, hr]
      refine congrArg _ (Finset.sum_congr rfl fun i _ => ?_)
      rw [← ha.lin x u, sq]
    rcases bufOk_of_stale (v := v.evalProjJac x u) ((stale_dualProjJac _ _ _).trans hb) with rfl | hw
    · exact k2 { v.evalProjJac x u with projJac := 0 } (fun i j _ => rfl) rfl HEq.rfl rfl
    · exact k2 _ hw rfl HEq.rfl rfl
  rw [form_expOf, List.map_congr_left fun v hv => key v rfl (hp.1 v hv _) (h.eq v hv),
    List.map_congr_left fun v hv => key v (stale_zero_of_buf (h.buf v hv)) (hp.2 v hv _) (h.ineq v hv), sum_map_mul', sum_map_mul']
  unfold actBil
  ring

/-- As a bilinear form. -/
theorem AffineCons.bil_active (h : AffineCons c) (hp : PenU c ρ) (x : Fin n → ℝ) (u : Fin m → ℝ) (hc : BlockPSD (c.cost.hess x u))
    (he : ConvexExp (expOf c x u)) (δx : Fin n → ℝ) (δu : Fin m → ℝ) (y : Fin n → ℝ) (w : Fin m → ℝ) :
    bil (expOf c x u) δx δu y w = bil ⟨(c.cost.hess x u).dxdx, (c.cost.hess x u).dxdu, (c.cost.hess x u).dudu, 0, 0⟩ δx δu y w
      + ρ * (actBil c.eq x u δx δu y w + actBil c.ineq x u δx δu y w) := by
  have h1 := bil_polar (expOf c x u) he.symx he.symu δx δu y w
  have h2 := bil_polar ⟨(c.cost.hess x u).dxdx, (c.cost.hess x u).dxdu, (c.cost.hess x u).dudu, 0, 0⟩ hc.symx hc.symu δx δu y w
  have h3 : ∀ a b, form (⟨(c.cost.hess x u).dxdx, (c.cost.hess x u).dxdu, (c.cost.hess x u).dudu, 0, 0⟩ : Expansion n m ℝ) a b
      = quadForm (c.cost.hess x u) a b := fun a b => rfl
  rw [h.form_active hp, h.form_active hp, h.form_active hp] at h1
  rw [h3, h3, h3] at h2
  have h4 := actBil_polar c.eq x u δx δu y w
  have h5 := actBil_polar c.ineq x u δx δu y w
  have : 2 * (ρ * (actBil c.eq x u δx δu y w + actBil c.ineq x u δx δu y w))
      = ρ * (2 * actBil c.eq x u δx δu y w + 2 * actBil c.ineq x u δx δu y w) := by ring
  rw [h4, h5] at this
  linarith

/-- While the active constraints stay the same the multiplier terms are linear. -/
theorem lamNext_diff (l : List (ConVal κ n m ℝ)) (ha : ∀ v ∈ l, AffineCon v.con) (hr : ∀ v ∈ l, v.rho = ρ) (x : Fin n → ℝ)
    (u : Fin m → ℝ) (δx : Fin n → ℝ) (δu : Fin m → ℝ)
    (hs : ∀ v ∈ l, ∀ i, Active κ (v.lam i - v.rho * v.con.eval (x + δx) (u + δu) i) ↔ Active κ (v.lam i - v.rho * v.con.eval x u i))
    (y : Fin n → ℝ) (w : Fin m → ℝ) :
    (l.map fun v => ∑ i, lamNext v (x + δx) (u + δu) i * conLin v.con y w i).sum
      - (l.map fun v => ∑ i, lamNext v x u i * conLin v.con y w i).sum = -(ρ * actBil l x u δx δu y w) := by
  unfold actBil
  induction l with
  | nil => simp
  | cons v l ih =>
    have h0 := ih (fun v hv => ha v (List.mem_cons_of_mem _ hv)) (fun v hv => hr v (List.mem_cons_of_mem _ hv))
      fun v hv => hs v (List.mem_cons_of_mem _ hv)
    have hav := ha v List.mem_cons_self
    have hrv := hr v List.mem_cons_self
    have hsv := hs v List.mem_cons_self
    simp only [List.map_cons, List.sum_cons]
    have h1 : ∑ i, lamNext v (x + δx) (u + δu) i * conLin v.con y w i - ∑ i, lamNext v x u i * conLin v.con y w i
        = -(ρ * ∑ i, if Active κ (v.lam i - v.rho * v.con.eval x u i) then conLin v.con δx δu i * conLin v.con y w i else 0) := by
      rw [← Finset.sum_sub_distrib, Finset.mul_sum, ← Finset.sum_neg_distrib]
      refine Finset.sum_congr rfl fun i _ => ?_
      have hi := hsv i
      have e := hav.eval x u δx δu i
      rw [← sub_mul]
      have h2 : lamNext v (x + δx) (u + δu) i - lamNext v x u i
          = if Active κ (v.lam i - v.rho * v.con.eval x u i) then -(ρ * conLin v.con δx δu i) else 0 := by
        cases κ
        · rw [if_pos (show Active .equality _ from trivial)]
          show v.lam i - v.rho * v.con.eval (x + δx) (u + δu) i - (v.lam i - v.rho * v.con.eval x u i) = _
          rw [e, hrv]; ring
        · have e1 : ∀ x u, lamNext v x u i = min 0 (v.lam i - v.rho * v.con.eval x u i) := fun _ _ => rfl
          rw [e1, e1]
          have hi' : v.lam i - v.rho * v.con.eval (x + δx) (u + δu) i ≤ 0 ↔ v.lam i - v.rho * v.con.eval x u i ≤ 0 := hi
          by_cases hy : v.lam i - v.rho * v.con.eval x u i ≤ 0
          · rw [if_pos (show Active .inequality _ from hy), min_eq_right hy, min_eq_right (hi'.mpr hy), e, hrv]; ring
          · rw [if_neg (show ¬ Active .inequality _ from hy), min_eq_left (not_le.mp hy).le,
              min_eq_left (not_le.mp fun hh => hy (hi'.mp hh)).le, sub_zero]
      rw [h2]
      split_ifs <;> ring
    linarith

theorem pair_eq_of_dot {a b : ℕ} {v v' : Fin a → ℝ} {w w' : Fin b → ℝ} (h : ∀ y z, v ⬝ᵥ y + w ⬝ᵥ z = v' ⬝ᵥ y + w' ⬝ᵥ z) :
    v = v' ∧ w = w' :=
  ⟨dotProduct_eq _ _ fun y => by simpa using h y 0, dotProduct_eq _ _ fun z => by simpa using h 0 z⟩

/-- The remainder of the augmented cost is that of the objective. -/
theorem AffineCons.remainder (h : AffineCons c) (hp : PenU c ρ) (x : Fin n → ℝ) (u : Fin m → ℝ) (hc : BlockPSD (c.cost.hess x u))
    (he : ConvexExp (expOf c x u)) (δx : Fin n → ℝ) (δu : Fin m → ℝ)
    (hs : ∀ v ∈ c.ineq, ∀ i, v.lam i - v.rho * v.con.eval (x + δx) (u + δu) i ≤ 0 ↔ v.lam i - v.rho * v.con.eval x u i ≤ 0) :
    nsq ((expOf c (x + δx) (u + δu)).dx - (expOf c x u).dx - ((expOf c x u).dxdx *ᵥ δx + (expOf c x u).dxdu *ᵥ δu))
      + nsq ((expOf c (x + δx) (u + δu)).du - (expOf c x u).du - ((expOf c x u).dxduᵀ *ᵥ δx + (expOf c x u).dudu *ᵥ δu))
      = hessError c.cost x u δx δu := by
  have key := pair_eq_of_dot
    (v := (expOf c (x + δx) (u + δu)).dx - (expOf c x u).dx - ((expOf c x u).dxdx *ᵥ δx + (expOf c x u).dxdu *ᵥ δu))
    (v' := (c.cost.grad (x + δx) (u + δu)).1 - (c.cost.grad x u).1
      - ((c.cost.hess x u).dxdx *ᵥ δx + (c.cost.hess x u).dxdu *ᵥ δu))
    (w := (expOf c (x + δx) (u + δu)).du - (expOf c x u).du - ((expOf c x u).dxduᵀ *ᵥ δx + (expOf c x u).dudu *ᵥ δu))
    (w' := (c.cost.grad (x + δx) (u + δu)).2 - (c.cost.grad x u).2
      - ((c.cost.hess x u).dxduᵀ *ᵥ δx + (c.cost.hess x u).dudu *ᵥ δu)) fun y z => by
    have g1 := h.grad_dot hp (x + δx) (u + δu) y z
    have g2 := h.grad_dot hp x u y z
    have g3 := h.bil_active hp x u hc he δx δu y z
    have g4 := lamNext_diff (ρ := ρ) c.eq h.eq (fun v hv => hp.1 v hv _) x u δx δu (fun _ _ _ => Iff.rfl) y z
    have g5 := lamNext_diff (ρ := ρ) c.ineq h.ineq (fun v hv => hp.2 v hv _) x u δx δu hs y z
    unfold lamLin at g1 g2
    unfold bil at g3
    simp only [sub_dotProduct]
    linarith
  unfold hessError
  rw [key.1, key.2]
  rfl

end knot

/-! ## A neighbourhood without switching points -/

theorem pos_min {q : ℕ} (f : Fin q → ℝ) (h : ∀ i, 0 < f i) : ∃ g, 0 < g ∧ ∀ i, g ≤ f i := by
  rcases isEmpty_or_nonempty (Fin q) with he | hne
  · exact ⟨1, one_pos, fun i => he.elim i⟩
  · obtain ⟨j, -, hj⟩ := Finset.exists_min_image Finset.univ f Finset.univ_nonempty
    exact ⟨f j, h j, fun i => hj i (Finset.mem_univ i)⟩

theorem common_radius (N : ℕ) (P : ℕ → ℝ → Prop) (hm : ∀ k R R', P k R → R' ≤ R → P k R') (h : ∀ k ≤ N, ∃ R, 0 < R ∧ P k R) :
    ∃ R, 0 < R ∧ ∀ k ≤ N, P k R := by
  induction N with
  | zero =>
    obtain ⟨R, h1, h2⟩ := h 0 le_rfl
    exact ⟨R, h1, fun k hk => by rw [Nat.le_zero.mp hk]; exact h2⟩
  | succ N ih =>
    obtain ⟨R, h1, h2⟩ := ih fun k hk => h k (Nat.le_succ_of_le hk)
    obtain ⟨R', h3, h4⟩ := h (N + 1) le_rfl
    refine ⟨min R R', lt_min h1 h3, fun k hk => ?_⟩
    rcases Nat.lt_or_ge k (N + 1) with h | h
    · exact hm _ _ _ (h2 k (Nat.le_of_lt_succ h)) (min_le_left _ _)
    · rw [le_antisymm hk h]; exact hm _ _ _ h4 (min_le_right _ _)

theorem con_radius (v : ConVal .inequality n m ℝ) (ha : AffineCon v.con) (ρ : ℝ) (x0 : Fin n → ℝ) (u0 : Fin m → ℝ)
    (hk : ∀ i, v.lam i ≠ ρ * v.con.eval x0 u0 i) :
    ∃ R, 0 < R ∧ ∀ x u, nsq (x - x0) + nsq (u - u0) ≤ R → ∀ i,
      (v.lam i - ρ * v.con.eval x u i ≤ 0 ↔ v.lam i - ρ * v.con.eval x0 u0 i ≤ 0) := by
  obtain ⟨g, hg, hg'⟩ := pos_min (fun i => |v.lam i - ρ * v.con.eval x0 u0 i|) fun i => abs_pos.mpr (sub_ne_zero.mpr (hk i))
  obtain ⟨b, hb, hb'⟩ := conLin_bound v.con
  refine ⟨g ^ 2 / (2 * (ρ ^ 2 * b + 1)), by positivity, fun x u hx i => ?_⟩
  have e := ha.eval x0 u0 (x - x0) (u - u0) i
  rw [add_sub_cancel, add_sub_cancel] at e
  set d := conLin v.con (x - x0) (u - u0) i with hd
  have h1 : d ^ 2 ≤ b * (g ^ 2 / (2 * (ρ ^ 2 * b + 1))) := by
    have h2 : d * d ≤ nsq (conLin v.con (x - x0) (u - u0)) :=
      Finset.single_le_sum (f := fun i => conLin v.con (x - x0) (u - u0) i * conLin v.con (x - x0) (u - u0) i)
        (fun i _ => mul_self_nonneg _) (Finset.mem_univ i)
    have h3 := hb' (x - x0) (u - u0)
    have h4 := mul_le_mul_of_nonneg_left hx hb
    rw [sq]; linarith
  have h2 : (ρ * d) ^ 2 < g ^ 2 := by
    have h3 : (ρ * d) ^ 2 ≤ ρ ^ 2 * (b * (g ^ 2 / (2 * (ρ ^ 2 * b + 1)))) := by
      rw [mul_pow]; exact mul_le_mul_of_nonneg_left h1 (sq_nonneg _)
    refine lt_of_le_of_lt h3 ?_
    have h4 : ρ ^ 2 * (b * (g ^ 2 / (2 * (ρ ^ 2 * b + 1)))) = (ρ ^ 2 * b * g ^ 2) / (2 * (ρ ^ 2 * b + 1)) := by ring
    have h5 : 0 ≤ ρ ^ 2 * b := by positivity
    have h6 : 0 < g ^ 2 := by positivity
    rw [h4, div_lt_iff₀ (by positivity)]
    nlinarith
  have h3 : |ρ * d| < g := by
    rw [← abs_of_pos hg]
    exact sq_lt_sq.mp h2
  have h4 := hg' i
  rw [e]
  obtain ⟨h5, h6⟩ := abs_lt.mp h3
  have e2 : v.lam i - ρ * (v.con.eval x0 u0 i + d) = (v.lam i - ρ * v.con.eval x0 u0 i) - ρ * d := by ring
  rw [e2]
  generalize v.lam i - ρ * v.con.eval x0 u0 i = y at h4 ⊢
  rcases le_or_gt y 0 with h | h
  · rw [abs_of_nonpos h] at h4
    exact ⟨fun _ => h, fun _ => by linarith⟩
  · rw [abs_of_pos h] at h4
    exact ⟨fun hh => by linarith, fun hh => by linarith⟩

theorem list_radius (l : List (ConVal .inequality n m ℝ)) (ha : ∀ v ∈ l, AffineCon v.con) (ρ : ℝ) (x0 : Fin n → ℝ) (u0 : Fin m → ℝ)
    (hk : ∀ v ∈ l, ∀ i, v.lam i ≠ ρ * v.con.eval x0 u0 i) :
    ∃ R, 0 < R ∧ ∀ x u, nsq (x - x0) + nsq (u - u0) ≤ R → ∀ v ∈ l, ∀ i,
      (v.lam i - ρ * v.con.eval x u i ≤ 0 ↔ v.lam i - ρ * v.con.eval x0 u0 i ≤ 0) := by
  induction l with
  | nil => exact ⟨1, one_pos, fun _ _ _ v hv => nomatch hv⟩
  | cons v l ih =>
    obtain ⟨R, h1, h2⟩ := ih (fun v hv => ha v (List.mem_cons_of_mem _ hv)) fun v hv => hk v (List.mem_cons_of_mem _ hv)
    obtain ⟨R', h3, h4⟩ := con_radius v (ha v List.mem_cons_self) ρ x0 u0 (hk v List.mem_cons_self)
    refine ⟨min R R', lt_min h1 h3, fun x u hx w hw => ?_⟩
    rcases List.mem_cons.mp hw with rfl | hw
    · exact h4 x u (hx.trans (min_le_right _ _))
    · exact h2 x u (hx.trans (min_le_left _ _)) w hw

theorem affine_isJacAt {con : Con n m ℝ} (h : AffineCon con) (x : Fin n → ℝ) (u : Fin m → ℝ) : IsJacAt con.eval (con.jac x u) x u := by
  intro i
  have e : (fun z : Z n m => con.eval z.1 z.2 i) = fun z : Z n m => (con.eval x u i - gradCLM (fun j => con.jac x u i (.inl j))
      (fun j => con.jac x u i (.inr j)) (x, u)) + gradCLM (fun j => con.jac x u i (.inl j)) (fun j => con.jac x u i (.inr j)) z := by
    funext z
    have := congrFun (h x u (z.1 - x) (z.2 - u)) i
    rw [add_sub_cancel, add_sub_cancel] at this
    rw [this]
    simp only [Pi.add_apply, gradCLM_apply, mulVec_sub, Pi.sub_apply]
    simp only [mulVec, dotProduct, toCols₁, toCols₂, of_apply]
    ring
  unfold IsGradAt
  rw [e]
  exact (gradCLM _ _).hasFDerivAt.const_add _

theorem AffineCons.isGrad {c : ALCost n m ℝ} {ρ : ℝ} (h : AffineCons c) (hρ : 0 < ρ) (hp : PenU c ρ) {x : Fin n → ℝ} {u : Fin m → ℝ}
    (hg : IsGradAt c.cost.eval (c.cost.grad x u).1 (c.cost.grad x u).2 x u) :
    IsGradAt (fun x u => (c.evaluate x u).1) (c.gradient x u).1.1 (c.gradient x u).1.2 x u := by
  have key : ∀ {κ : ConKind} (v : ConVal κ n m ℝ), κ.stale v.projJac = 0 → v.rho = ρ → AffineCon v.con →
      IsGradAt (fun x u => (v.augLag x u).1) (v.augLagGradient x u).1.1 (v.augLagGradient x u).1.2 x u := by
    intro κ v hb hr ha
    have hr' : v.rho ≠ 0 := by rw [hr]; exact hρ.ne'
    rcases bufOk_of_stale hb with rfl | h
    · exact diffReady_isGradAt x u { v with projJac := 0 } ⟨fun i j _ => rfl, hr', affine_isJacAt ha x u⟩
    · exact diffReady_isGradAt x u v ⟨h, hr', affine_isJacAt ha x u⟩
  have g1 := foldl_grad_isGradAt c.eq (fun v x u => (v.augLag x u).1) (fun v => (v.augLagGradient x u).1) x u
    (fun v hv => key v rfl (hp.1 v hv _) (h.eq v hv)) c.cost.eval (c.cost.grad x u) hg
  have g2 := foldl_grad_isGradAt c.ineq (fun v x u => (v.augLag x u).1) (fun v => (v.augLagGradient x u).1) x u
    (fun v hv => key v (stale_zero_of_buf (h.buf v hv)) (hp.2 v hv _) (h.ineq v hv)) _ _ g1
  refine g2.congr (fun x' u' => ?_) ?_ ?_
  · simp only [ALCost.evaluate, List.foldl_map]
  · simp only [ALCost.gradient, List.foldl_map]
  · simp only [ALCost.gradient, List.foldl_map]

/-! ## The whole problem -/

theorem mem_conCore {κ : ConKind} {l l' : List (ConVal κ n m ℝ)} (e : l'.map ConVal.core = l.map ConVal.core) {v : ConVal κ n m ℝ}
    (hv : v ∈ l') : ∃ w ∈ l, w.core = v.core := by
  have : v.core ∈ l.map ConVal.core := by rw [← e]; exact List.mem_map_of_mem hv
  exact List.mem_map.mp this

theorem AffineCons.congr {c c' : ALCost n m ℝ} (h : AffineCons c) (e : c'.static = c.static) : AffineCons c' := by
  have h0 : AffineKnot { c with cost := ⟨fun _ _ => 0, fun _ _ => 0, fun _ _ => ⟨0, 0, 0⟩⟩ } :=
    ⟨⟨fun _ _ _ _ => by simp [quadModel]⟩, fun _ _ => ⟨by simp, by simp, fun _ _ => by simp [quadForm]⟩, h.eq, h.ineq, h.buf⟩
  have e' : ({ c' with cost := ⟨fun _ _ => 0, fun _ _ => 0, fun _ _ => ⟨0, 0, 0⟩⟩ } : ALCost n m ℝ).static
      = ({ c with cost := ⟨fun _ _ => 0, fun _ _ => 0, fun _ _ => ⟨0, 0, 0⟩⟩ } : ALCost n m ℝ).static := by
    simp only [ALCost.static, ALCost.mk.injEq] at e ⊢
    exact ⟨trivial, e.2⟩
  have := (h0.congr e').cons
  exact ⟨this.eq, this.ineq, this.buf⟩

section problem
variable {p : DynProblem n m ℝ} {cs : ℕ → ALCost n m ℝ} {Y : Traj (Fin n → ℝ) (Fin m → ℝ) ℝ} {μ M L R ρ : ℝ}

theorem _root_.Altro.Spec.NewtonProblem.radius (h : NewtonProblem p cs Y μ M L R ρ) :
    ∃ r, 0 < r ∧ ∀ k ≤ p.N, ∀ x u, NearKnot p.N Y r k x u → ∀ v ∈ (cs k).ineq, ∀ i,
      (v.lam i - ρ * v.con.eval x u i ≤ 0 ↔ v.lam i - ρ * v.con.eval (Y.x k) (Y.u k) i ≤ 0) := by
  refine common_radius p.N (fun k r => ∀ x u, NearKnot p.N Y r k x u → ∀ v ∈ (cs k).ineq, ∀ i,
      (v.lam i - ρ * v.con.eval x u i ≤ 0 ↔ v.lam i - ρ * v.con.eval (Y.x k) (Y.u k) i ≤ 0))
    (fun k r r' hk hr x u hx => hk x u (le_trans hx hr)) fun k hk => ?_
  obtain ⟨r, h1, h2⟩ := list_radius (cs k).ineq (h.knot k hk).ineq ρ (Y.x k) (Y.u k) (h.kink k hk)
  refine ⟨r, h1, fun x u hx v hv i => ?_⟩
  unfold NearKnot at hx
  rcases Nat.lt_or_ge k p.N with hlt | hge
  · rw [if_pos hlt] at hx
    exact h2 x u hx v hv i
  · obtain rfl : k = p.N := le_antisymm hk hge
    rw [if_neg (lt_irrefl _), add_zero] at hx
    rw [h.termIneq v hv x u (Y.u p.N)]
    exact h2 x (Y.u p.N) (by rw [sub_self, nsq_zero, add_zero]; exact hx) v hv i

theorem _root_.Altro.Spec.NewtonProblem.core (h : NewtonProblem p cs Y μ M L R ρ) (hμ : 0 < μ) (hM : 0 ≤ M) (hR : 0 < R) (hρ : 0 < ρ) :
    ∃ M' R', 0 ≤ M' ∧ 0 < R' ∧ NewtonCore p cs Y μ M' L R' := by
  obtain ⟨r, hr, hact⟩ := h.radius
  obtain ⟨A, hA, hA'⟩ := exists_uniform_bound p.N (fun k δx δu => conSize (cs k) δx δu) _
    (fun (a : Fin n → ℝ) (b : Fin m → ℝ) => add_nonneg (nsq_nonneg a) (nsq_nonneg b)) fun k => conSize_bound _
  have hk : ∀ k ≤ p.N, ∀ c : ALCost n m ℝ, c.core = (cs k).core → AffineCons c ∧ PenU c ρ ∧ c.cost = (cs k).cost ∧
      ∀ δx δu, conSize c δx δu ≤ A * (nsq δx + nsq δu) := fun k hk c hc => by
    refine ⟨AffineCons.congr ⟨(h.knot k hk).eq, (h.knot k hk).ineq, (h.knot k hk).buf⟩ (static_eq_of_core hc), penU_core hc (h.pen k hk),
      show c.core.cost = (cs k).core.cost by rw [hc], fun δx δu => ?_⟩
    rw [conSize_static (static_eq_of_core hc)]
    exact hA' k hk δx δu
  have hlow : ∀ k < p.N, ∀ c : ALCost n m ℝ, c.core = (cs k).core → ∀ x u δx δu,
      μ * nsq δu ≤ form (expOf c x u) δx δu := fun k hkN c hc x u δx δu => by
    obtain ⟨h1, h2, h3, -⟩ := hk k hkN.le c hc
    have := (h1.form_bounds hρ h2 x u δx δu).1
    have h4 := h.strong k hkN x u δx δu
    rw [h3] at this
    exact h4.trans this
  have hconv : ∀ k ≤ p.N, ∀ c : ALCost n m ℝ, c.core = (cs k).core → ∀ x u, ConvexExp (expOf c x u) := fun k hkN c hc x u => by
    obtain ⟨h1, h2, h3, -⟩ := hk k hkN c hc
    have := C04_augmented_hessian_psd (c.gradient x u).2 x u (by
      show BlockPSD (c.cost.hess x u)
      rw [h3]; exact (h.knot k hkN).conv x u) (by
      intro v hv
      obtain ⟨r, hr, rfl⟩ := List.mem_map.mp hv
      obtain ⟨w, hw, rfl⟩ := List.mem_map.mp hr
      have : (w.augLagGradient x u).2.rho = ρ := h2.1 w hw _
      rw [this]; exact hρ.le) (by
      intro v hv
      obtain ⟨r, hr, rfl⟩ := List.mem_map.mp hv
      obtain ⟨w, hw, rfl⟩ := List.mem_map.mp hr
      have : (w.augLagGradient x u).2.rho = ρ := h2.2 w hw _
      rw [this]; exact hρ.le)
    exact ⟨this.symx, this.symu, fun δx δu => this.nonneg δx δu⟩
  have hnear : ∀ {k x u}, NearKnot p.N Y (min R r) k x u → knotDist p.N Y k x u ≤ R ∧ NearKnot p.N Y r k x u := fun hx =>
    ⟨le_trans hx (min_le_left _ _), le_trans hx (min_le_right _ _)⟩
  refine ⟨M + ρ * A, min R r, by positivity, lt_min hR hr, ⟨h.dyn, hconv, fun k hkN c hc x u z hz => ?_, fun x u u' => ?_,
    fun x u u' => ?_⟩, hlow, fun k hkN c hc x u hx δx δu => ?_, fun k hkN c hc x u => ?_, fun k hkN c hc x u δx δu hx hx' hu => ?_,
    h.feas, h.best⟩
  · have h1 := hlow k hkN c hc x u 0 z
    have h2 : 0 < nsq z := lt_of_le_of_ne (nsq_nonneg z) fun e => hz (nsq_eq_zero e.symm)
    have h3 : form (expOf c x u) 0 z = z ⬝ᵥ (expOf c x u).dudu *ᵥ z := by simp [form]
    rw [h3] at h1
    exact lt_of_lt_of_le (mul_pos hμ h2) h1
  · rw [C02_evaluate_eq, C02_evaluate_eq, h.term x u u']
    have h1 := fun v hv => (h.pen _ le_rfl).1 v hv
    have h2 := fun v hv => (h.pen _ le_rfl).2 v hv
    congr 2
    · refine congrArg List.sum (List.map_congr_left fun v hv => ?_)
      rw [C02_auglag_equality v _ _ (by rw [show v.rho = ρ from h1 v hv _]; exact hρ),
        C02_auglag_equality v _ _ (by rw [show v.rho = ρ from h1 v hv _]; exact hρ), h.termEq v hv x u u']
    · refine List.map_congr_left fun v hv => ?_
      rw [C02_auglag_inequality v _ _ (by rw [show v.rho = ρ from h2 v hv _]; exact hρ),
        C02_auglag_inequality v _ _ (by rw [show v.rho = ρ from h2 v hv _]; exact hρ), h.termIneq v hv x u u']
  · simp only [ALCost.valuesAt, ALCost.static, List.map_map, Prod.mk.injEq]
    constructor
    · refine List.map_congr_left fun v hv => ?_
      have := h.termEq v hv x u u'
      show (⟨v.con.p, v.con.eval x u⟩ : Σ q : ℕ, Fin q → ℝ) = ⟨v.con.p, v.con.eval x u'⟩
      rw [this]
    · refine List.map_congr_left fun v hv => ?_
      have := h.termIneq v hv x u u'
      show (⟨v.con.p, v.con.eval x u⟩ : Σ q : ℕ, Fin q → ℝ) = ⟨v.con.p, v.con.eval x u'⟩
      rw [this]
  · obtain ⟨h1, h2, h3, h4⟩ := hk k hkN c hc
    have := (h1.form_bounds hρ h2 x u δx δu).2
    have h5 := h.bound k hkN x u (hnear hx).1 δx δu
    rw [h3] at this
    have h6 := mul_le_mul_of_nonneg_left (h4 δx δu) hρ.le
    unfold nsq at *
    linarith
  · obtain ⟨h1, h2, h3, -⟩ := hk k hkN c hc
    exact h1.isGrad hρ h2 (by rw [h3]; exact (h.knot k hkN).grad x u)
  · obtain ⟨h1, h2, h3, -⟩ := hk k hkN c hc
    rw [h1.remainder h2 x u (by rw [h3]; exact (h.knot k hkN).conv x u) (hconv k hkN c hc x u) δx δu ?_, h3]
    · exact h.follow k hkN x u δx δu (hnear hx).1 (hnear hx').1 hu
    · intro v hv
      obtain ⟨w, hw, ew⟩ := mem_conCore (congrArg ALCost.ineq hc) hv
      have hc' : ∀ i, (w.core.lam i - w.core.rho * w.core.con.eval (x + δx) (u + δu) i ≤ 0
          ↔ w.core.lam i - w.core.rho * w.core.con.eval x u i ≤ 0) := fun i => by
        have e : w.rho = ρ := (h.pen k hkN).2 w hw _
        show w.lam i - w.rho * w.con.eval (x + δx) (u + δu) i ≤ 0 ↔ w.lam i - w.rho * w.con.eval x u i ≤ 0
        rw [e]
        exact (hact k hkN _ _ (hnear hx').2 w hw i).trans (hact k hkN _ _ (hnear hx).2 w hw i).symm
      rw [ew] at hc'
      exact hc'

end problem

end Altro.Props
