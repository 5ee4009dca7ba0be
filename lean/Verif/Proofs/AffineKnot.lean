import Verif.Spec.LQInequality
import Verif.Proofs.ConvexSolve
import Verif.Props.LQConstrained

/-!
# The augmented cost of a knot point with affine constraints lies between two quadratics
-/

namespace Altro.Props
open Altro.Spec Matrix ILQR
variable {K : Type} [Field K] [LinearOrder K] [IsStrictOrderedRing K] {n m : ℕ} {κ : ConKind}

/-! ## One constraint -/

/-- Change of the constraint value. -/
def conLin (con : Con n m K) (δx : Fin n → K) (δu : Fin m → K) : Fin con.p → K :=
  (con.jac 0 0).toCols₁ *ᵥ δx + (con.jac 0 0).toCols₂ *ᵥ δu

theorem conLin_bound (con : Con n m K) : ∃ c : K, 0 ≤ c ∧ ∀ δx δu, nsq (conLin con δx δu) ≤ c * (nsq δx + nsq δu) := by
  obtain ⟨a, ha, h1⟩ := nsq_mulVec (con.jac 0 0).toCols₁
  obtain ⟨b, hb, h2⟩ := nsq_mulVec (con.jac 0 0).toCols₂
  refine ⟨2 * a + 2 * b, by positivity, fun δx δu => ?_⟩
  have := nsq_add_le ((con.jac 0 0).toCols₁ *ᵥ δx) ((con.jac 0 0).toCols₂ *ᵥ δu)
  have h3 := h1 δx
  have h4 := h2 δu
  unfold conLin
  nlinarith [mul_nonneg ha (nsq_nonneg δu), mul_nonneg hb (nsq_nonneg δx)]

theorem _root_.Altro.Spec.AffineCon.lin {con : Con n m K} (h : AffineCon con) (x : Fin n → K) (u : Fin m → K) (δx : Fin n → K)
    (δu : Fin m → K) : (con.jac x u).toCols₁ *ᵥ δx + (con.jac x u).toCols₂ *ᵥ δu = conLin con δx δu := by
  have h1 := h x u δx δu
  have h2 := h 0 0 (x + δx) (u + δu)
  have h3 := h 0 0 x u
  simp only [zero_add, mulVec_add] at h2 h3
  unfold conLin
  rw [h2, h3] at h1
  funext i
  have := congrFun h1 i
  simp only [Pi.add_apply] at this ⊢
  linarith

theorem _root_.Altro.Spec.AffineCon.eval {con : Con n m K} (h : AffineCon con) (x : Fin n → K) (u : Fin m → K) (δx : Fin n → K)
    (δu : Fin m → K) (i : Fin con.p) : con.eval (x + δx) (u + δu) i = con.eval x u i + conLin con δx δu i := by
  rw [h x u δx δu, ← h.lin x u]
  simp only [Pi.add_apply, add_assoc]

/-- The multiplier that an update at `(x, u)` would give. -/
def lamNext (v : ConVal κ n m K) (x : Fin n → K) (u : Fin m → K) : Fin v.con.p → K :=
  κ.dualProj (v.lam - v.rho • v.con.eval x u)

theorem bufOk_of_stale {v : ConVal κ n m K} (hb : κ.stale v.projJac = 0) : κ = .equality ∨ v.BufOk := by
  cases κ
  · exact Or.inl rfl
  · right
    intro i j hij
    have := congrFun (congrFun hb i) j
    simpa [ConKind.stale, hij] using this

theorem augLagGradient_dot (v : ConVal κ n m K) (hb : κ.stale v.projJac = 0) (hu : v.Uniform) (ha : AffineCon v.con)
    (x : Fin n → K) (u : Fin m → K) (δx : Fin n → K) (δu : Fin m → K) :
    (v.augLagGradient x u).1.1 ⬝ᵥ δx + (v.augLagGradient x u).1.2 ⬝ᵥ δu = -∑ i, lamNext v x u i * conLin v.con δx δu i := by
  have key : ∀ w : ConVal κ n m K, w.BufOk → w.Uniform → AffineCon w.con →
      (w.augLagGradient x u).1.1 ⬝ᵥ δx + (w.augLagGradient x u).1.2 ⬝ᵥ δu = -∑ i, lamNext w x u i * conLin w.con δx δu i := by
    intro w hb hu ha
    obtain ⟨e1, e2⟩ := gradient_eq_of_uniform w x u hb hu
    have e3 : (w.augLagGradient x u).2.updateDuals.lam = lamNext w x u := by
      show κ.dualProj (w.lam - fun i => w.pen i * w.con.eval x u i) = _
      unfold lamNext
      congr 1
      funext i
      simp only [Pi.sub_apply, Pi.smul_apply, smul_eq_mul, hu i]
    have hg : ∀ {a q : ℕ} (M : Matrix (Fin q) (Fin a) K) (w : Fin q → K) (y : Fin a → K),
        (-(Mᵀ *ᵥ w)) ⬝ᵥ y = -(w ⬝ᵥ M *ᵥ y) := by
      intro a q M w y
      rw [neg_dotProduct, mulVec_transpose, dotProduct_mulVec]
    rw [e1, e2, e3, hg, hg, ← ha.lin x u]
    rw [← neg_add, ← dotProduct_add]
    rfl
  rcases bufOk_of_stale hb with rfl | h
  · exact key { v with projJac := 0 } (fun i j _ => rfl) hu ha
  · exact key v h hu ha

theorem augLagHessian_form (v : ConVal κ n m K) (hb : κ.stale v.projJac = 0) (hρ : 0 ≤ v.rho) (ha : AffineCon v.con)
    (x : Fin n → K) (u : Fin m → K) (δx : Fin n → K) (δu : Fin m → K) :
    0 ≤ quadForm (v.augLagHessian x u).1 δx δu ∧
      quadForm (v.augLagHessian x u).1 δx δu ≤ v.rho * nsq (conLin v.con δx δu) := by
  refine ⟨(C04_hessian_psd v x u hρ).nonneg δx δu, ?_⟩
  have key : ∀ w : ConVal κ n m K, w.BufOk → 0 ≤ w.rho → AffineCon w.con →
      quadForm (w.augLagHessian x u).1 δx δu ≤ w.rho * nsq (conLin w.con δx δu) := by
    intro w hb hρ ha
    rw [hessian_quadForm_active w x u δx δu hb, ha.lin x u]
    refine mul_le_mul_of_nonneg_left ?_ hρ
    unfold nsq dotProduct
    refine Finset.sum_le_sum fun i _ => ?_
    split
    · exact (sq _).le
    · exact mul_self_nonneg _
  rcases bufOk_of_stale hb with rfl | h
  · exact key { v with projJac := 0 } (fun i j _ => rfl) hρ ha
  · exact key v h hρ ha

theorem augLag_between (v : ConVal κ n m K) (hρ : 0 < v.rho) (ha : AffineCon v.con)
    (x : Fin n → K) (u : Fin m → K) (δx : Fin n → K) (δu : Fin m → K) :
    (v.augLag x u).1 - ∑ i, lamNext v x u i * conLin v.con δx δu i ≤ (v.augLag (x + δx) (u + δu)).1 ∧
    (v.augLag (x + δx) (u + δu)).1 ≤ (v.augLag x u).1 - ∑ i, lamNext v x u i * conLin v.con δx δu i
      + v.rho / 2 * nsq (conLin v.con δx δu) := by
  have hn : v.rho / 2 * nsq (conLin v.con δx δu) = ∑ i, v.rho / 2 * (conLin v.con δx δu i * conLin v.con δx δu i) := by
    rw [← Finset.mul_sum]; rfl
  rw [hn]
  cases κ
  · rw [C02_auglag_equality v _ _ hρ, C02_auglag_equality v _ _ hρ, ← Finset.sum_sub_distrib, ← Finset.sum_add_distrib]
    constructor <;>
    · refine Finset.sum_le_sum fun i _ => ?_
      rw [ha.eval]
      show _ ≤ _
      have : lamNext v x u i = v.lam i - v.rho * v.con.eval x u i := rfl
      rw [this]
      unfold eqTerm
      nlinarith [mul_nonneg hρ.le (mul_self_nonneg (conLin v.con δx δu i))]
  · rw [C02_auglag_inequality v _ _ hρ, C02_auglag_inequality v _ _ hρ, ← Finset.sum_sub_distrib, ← Finset.sum_add_distrib]
    constructor <;>
    · refine Finset.sum_le_sum fun i _ => ?_
      rw [ha.eval]
      have : lamNext v x u i = min 0 (v.lam i - v.rho * v.con.eval x u i) := rfl
      rw [this, ineqTerm_eq _ _ _ hρ, ineqTerm_eq _ _ _ hρ]
      generalize v.lam i = l
      generalize v.con.eval x u i = c
      generalize conLin v.con δx δu i = d
      have e : l - v.rho * (c + d) = (l - v.rho * c) - v.rho * d := by ring
      rw [e]
      generalize l - v.rho * c = y
      have h1 := min_sq_le y (y - v.rho * d)
      have h2 := min_sq_le (y - v.rho * d) y
      have h3 : (min 0 y) ^ 2 + 2 * min 0 y * (-(v.rho * d)) ≤ (min 0 (y - v.rho * d)) ^ 2 := by
        rcases min_cases 0 y with ⟨a1, a2⟩ | ⟨a1, a2⟩ <;> rcases min_cases 0 (y - v.rho * d) with ⟨b1, b2⟩ | ⟨b1, b2⟩ <;>
          rw [a1, b1] <;> nlinarith [sq_nonneg (v.rho * d), sq_nonneg (y - v.rho * d)]
      have h4 : (2 * v.rho) ≠ 0 := by positivity
      have h5 : (0:K) < 2 * v.rho := by positivity
      rw [div_sub' h4]
      first
      | rw [div_le_div_iff_of_pos_right h5]; nlinarith
      | rw [div_add' _ _ _ h4, div_le_div_iff_of_pos_right h5]; nlinarith

/-! ## One knot point -/

theorem foldl_grad_dot {α : Type} (l : List α) (f : α → (Fin n → K) × (Fin m → K)) (δx : Fin n → K) (δu : Fin m → K) :
    ∀ g : (Fin n → K) × (Fin m → K), (l.foldl (fun g a => (g.1 + (f a).1, g.2 + (f a).2)) g).1 ⬝ᵥ δx
      + (l.foldl (fun g a => (g.1 + (f a).1, g.2 + (f a).2)) g).2 ⬝ᵥ δu
      = g.1 ⬝ᵥ δx + g.2 ⬝ᵥ δu + (l.map fun a => (f a).1 ⬝ᵥ δx + (f a).2 ⬝ᵥ δu).sum := by
  induction l with
  | nil => intro g; simp
  | cons a l ih =>
    intro g
    simp only [List.foldl_cons, List.map_cons, List.sum_cons]
    rw [ih]
    simp only [add_dotProduct]
    ring

theorem quadForm_addHess (H H' : ConVal.HessBlocks n m K) (δx : Fin n → K) (δu : Fin m → K) :
    quadForm (ALCost.addHess H H') δx δu = quadForm H δx δu + quadForm H' δx δu := by
  simp only [quadForm, ALCost.addHess, add_mulVec, dotProduct_add]
  ring

theorem foldl_hess_form {α : Type} (l : List α) (f : α → ConVal.HessBlocks n m K) (δx : Fin n → K) (δu : Fin m → K) :
    ∀ H : ConVal.HessBlocks n m K, quadForm (l.foldl (fun H a => ALCost.addHess H (f a)) H) δx δu
      = quadForm H δx δu + (l.map fun a => quadForm (f a) δx δu).sum := by
  induction l with
  | nil => intro g; simp
  | cons a l ih =>
    intro g
    simp only [List.foldl_cons, List.map_cons, List.sum_cons]
    rw [ih, quadForm_addHess]
    ring

/-- Squared change of all constraint values of a knot point. -/
def conSize (c : ALCost n m K) (δx : Fin n → K) (δu : Fin m → K) : K :=
  (c.eq.map fun v => nsq (conLin v.con δx δu)).sum + (c.ineq.map fun v => nsq (conLin v.con δx δu)).sum

theorem conSize_static {c c' : ALCost n m K} (e : c'.static = c.static) (δx : Fin n → K) (δu : Fin m → K) :
    conSize c' δx δu = conSize c δx δu := by
  have h : ∀ c : ALCost n m K, conSize c δx δu = conSize c.static δx δu := fun c => by
    simp only [conSize, ALCost.static, List.map_map]; rfl
  rw [h, e, ← h]

theorem conSize_bound (c : ALCost n m K) : ∃ b : K, 0 ≤ b ∧ ∀ δx δu, conSize c δx δu ≤ b * (nsq δx + nsq δu) := by
  have key : ∀ {κ : ConKind} (l : List (ConVal κ n m K)), ∃ b : K, 0 ≤ b ∧
      ∀ δx δu, (l.map fun v => nsq (conLin v.con δx δu)).sum ≤ b * (nsq δx + nsq δu) := by
    intro κ l
    induction l with
    | nil => exact ⟨0, le_rfl, fun δx δu => by simp⟩
    | cons v l ih =>
      obtain ⟨b, hb, h1⟩ := ih
      obtain ⟨a, ha, h2⟩ := conLin_bound v.con
      refine ⟨a + b, by positivity, fun δx δu => ?_⟩
      rw [List.map_cons, List.sum_cons]
      linarith [h1 δx δu, h2 δx δu]
  obtain ⟨a, ha, h1⟩ := key c.eq
  obtain ⟨b, hb, h2⟩ := key c.ineq
  refine ⟨a + b, by positivity, fun δx δu => ?_⟩
  unfold conSize
  linarith [h1 δx δu, h2 δx δu]

theorem conSize_nonneg (c : ALCost n m K) (δx : Fin n → K) (δu : Fin m → K) : 0 ≤ conSize c δx δu :=
  add_nonneg (sum_map_nonneg _ _ fun _ _ => nsq_nonneg _) (sum_map_nonneg _ _ fun _ _ => nsq_nonneg _)

/-- First-order change of the multiplier terms. -/
def lamLin (c : ALCost n m K) (x : Fin n → K) (u : Fin m → K) (δx : Fin n → K) (δu : Fin m → K) : K :=
  (c.eq.map fun v => ∑ i, lamNext v x u i * conLin v.con δx δu i).sum
    + (c.ineq.map fun v => ∑ i, lamNext v x u i * conLin v.con δx δu i).sum

theorem stale_zero_of_buf {v : ConVal .inequality n m K} (h : ∀ i j, i ≠ j → v.projJac i j = 0) :
    ConKind.inequality.stale v.projJac = 0 := by
  funext i j
  by_cases hij : i = j
  · simp [ConKind.stale, hij]
  · simp [ConKind.stale, hij, h i j hij]

section knot
variable {c : ALCost n m K} {ρ : K}

theorem sum_map_neg' {α : Type} (l : List α) (f : α → K) : (l.map fun a => -f a).sum = -(l.map f).sum := by
  induction l with
  | nil => simp
  | cons a l ih => simp only [List.map_cons, List.sum_cons, ih]; ring

/-- The constraints of a knot point are affine. -/
structure AffineCons (c : ALCost n m K) : Prop where
  eq : ∀ v ∈ c.eq, AffineCon v.con
  ineq : ∀ v ∈ c.ineq, AffineCon v.con
  buf : ∀ v ∈ c.ineq, ∀ i j, i ≠ j → v.projJac i j = 0

theorem _root_.Altro.Spec.AffineKnot.cons (h : AffineKnot c) : AffineCons c := ⟨h.eq, h.ineq, h.buf⟩

theorem AffineCons.grad_dot (h : AffineCons c) (hp : PenU c ρ) (x : Fin n → K) (u : Fin m → K)
    (δx : Fin n → K) (δu : Fin m → K) :
    (expOf c x u).dx ⬝ᵥ δx + (expOf c x u).du ⬝ᵥ δu
      = (c.cost.grad x u).1 ⬝ᵥ δx + (c.cost.grad x u).2 ⬝ᵥ δu - lamLin c x u δx δu := by
  show (c.gradient x u).1.1 ⬝ᵥ δx + (c.gradient x u).1.2 ⬝ᵥ δu = _
  simp only [ALCost.gradient, List.foldl_map]
  rw [foldl_grad_dot c.ineq (fun v => (v.augLagGradient x u).1), foldl_grad_dot c.eq (fun v => (v.augLagGradient x u).1)]
  rw [List.map_congr_left fun v hv => augLagGradient_dot v rfl (fun i => (hp.1 v hv i).trans (hp.1 v hv _).symm) (h.eq v hv) x u δx δu,
    List.map_congr_left fun v hv => augLagGradient_dot v (stale_zero_of_buf (h.buf v hv))
      (fun i => (hp.2 v hv i).trans (hp.2 v hv _).symm) (h.ineq v hv) x u δx δu, sum_map_neg', sum_map_neg']
  unfold lamLin
  ring

theorem form_expOf (c : ALCost n m K) (x : Fin n → K) (u : Fin m → K) (δx : Fin n → K) (δu : Fin m → K) :
    form (expOf c x u) δx δu = quadForm (c.cost.hess x u) δx δu
      + (c.eq.map fun v => quadForm ((v.evalProjJac x u).augLagHessian x u).1 δx δu).sum
      + (c.ineq.map fun v => quadForm ((v.evalProjJac x u).augLagHessian x u).1 δx δu).sum := by
  show quadForm ((c.gradient x u).2.hessian x u).1 δx δu = _
  simp only [ALCost.gradient, ALCost.hessian, List.map_map, List.foldl_map]
  exact (foldl_hess_form c.ineq (fun v => ((v.evalProjJac x u).augLagHessian x u).1) δx δu _).trans
    (by rw [← foldl_hess_form c.eq (fun v => ((v.evalProjJac x u).augLagHessian x u).1)]; rfl)

theorem AffineCons.form_bounds (h : AffineCons c) (hρ : 0 < ρ) (hp : PenU c ρ) (x : Fin n → K) (u : Fin m → K)
    (δx : Fin n → K) (δu : Fin m → K) :
    quadForm (c.cost.hess x u) δx δu ≤ form (expOf c x u) δx δu ∧
    form (expOf c x u) δx δu ≤ quadForm (c.cost.hess x u) δx δu + ρ * conSize c δx δu := by
  rw [form_expOf]
  have h1 : ∀ v ∈ c.eq, 0 ≤ quadForm ((v.evalProjJac x u).augLagHessian x u).1 δx δu ∧
      quadForm ((v.evalProjJac x u).augLagHessian x u).1 δx δu ≤ ρ * nsq (conLin v.con δx δu) := fun v hv => by
    have e0 : (v.evalProjJac x u).rho = ρ := hp.1 v hv _
    have := augLagHessian_form (v.evalProjJac x u) rfl (by rw [e0]; exact hρ.le) (h.eq v hv) x u δx δu
    rw [e0] at this
    exact this
  have h2 : ∀ v ∈ c.ineq, 0 ≤ quadForm ((v.evalProjJac x u).augLagHessian x u).1 δx δu ∧
      quadForm ((v.evalProjJac x u).augLagHessian x u).1 δx δu ≤ ρ * nsq (conLin v.con δx δu) := fun v hv => by
    have e0 : (v.evalProjJac x u).rho = ρ := hp.2 v hv _
    have := augLagHessian_form (v.evalProjJac x u) ((stale_dualProjJac _ _ _).trans (stale_zero_of_buf (h.buf v hv)))
      (by rw [e0]; exact hρ.le) (h.ineq v hv) x u δx δu
    rw [e0] at this
    exact this
  have a1 := sum_map_nonneg c.eq _ fun v hv => (h1 v hv).1
  have a2 := sum_map_nonneg c.ineq _ fun v hv => (h2 v hv).1
  have b1 := sum_map_le c.eq _ _ fun v hv => (h1 v hv).2
  have b2 := sum_map_le c.ineq _ _ fun v hv => (h2 v hv).2
  rw [sum_map_mul'] at b1 b2
  unfold conSize
  constructor <;> linarith

theorem _root_.Altro.Spec.AffineKnot.grad_dot (h : AffineKnot c) (hp : PenU c ρ) (x : Fin n → K) (u : Fin m → K)
    (δx : Fin n → K) (δu : Fin m → K) :
    (expOf c x u).dx ⬝ᵥ δx + (expOf c x u).du ⬝ᵥ δu
      = (c.cost.grad x u).1 ⬝ᵥ δx + (c.cost.grad x u).2 ⬝ᵥ δu - lamLin c x u δx δu := h.cons.grad_dot hp x u δx δu

theorem _root_.Altro.Spec.AffineKnot.form_bounds (h : AffineKnot c) (hρ : 0 < ρ) (hp : PenU c ρ) (x : Fin n → K) (u : Fin m → K)
    (δx : Fin n → K) (δu : Fin m → K) :
    quadForm (c.cost.hess x u) δx δu ≤ form (expOf c x u) δx δu ∧
    form (expOf c x u) δx δu ≤ quadForm (c.cost.hess x u) δx δu + ρ * conSize c δx δu := h.cons.form_bounds hρ hp x u δx δu

theorem _root_.Altro.Spec.AffineKnot.between (h : AffineKnot c) (hρ : 0 < ρ) (hp : PenU c ρ) (x : Fin n → K) (u : Fin m → K)
    (δx : Fin n → K) (δu : Fin m → K) :
    (c.evaluate x u).1 + ((expOf c x u).dx ⬝ᵥ δx + (expOf c x u).du ⬝ᵥ δu) + 1 / 2 * quadForm (c.cost.hess x u) δx δu
      ≤ (c.evaluate (x + δx) (u + δu)).1 ∧
    (c.evaluate (x + δx) (u + δu)).1 ≤ (c.evaluate x u).1 + ((expOf c x u).dx ⬝ᵥ δx + (expOf c x u).du ⬝ᵥ δu)
      + 1 / 2 * quadForm (c.cost.hess x u) δx δu + ρ / 2 * conSize c δx δu := by
  have hr1 : ∀ v ∈ c.eq, v.rho = ρ := fun v hv => hp.1 v hv _
  have hr2 : ∀ v ∈ c.ineq, v.rho = ρ := fun v hv => hp.2 v hv _
  rw [h.grad_dot hp, C02_evaluate_eq, C02_evaluate_eq, h.quad.exact]
  have h1 : ∀ v ∈ c.eq, _ := fun v hv => augLag_between v (by rw [hr1 v hv]; exact hρ) (h.eq v hv) x u δx δu
  have h2 : ∀ v ∈ c.ineq, _ := fun v hv => augLag_between v (by rw [hr2 v hv]; exact hρ) (h.ineq v hv) x u δx δu
  have a1 := sum_map_le c.eq _ _ fun v hv => (h1 v hv).1
  have a2 := sum_map_le c.ineq _ _ fun v hv => (h2 v hv).1
  have b1 := sum_map_le c.eq (fun v => (v.augLag (x + δx) (u + δu)).1) (fun v => (v.augLag x u).1 + -(∑ i, lamNext v x u i * conLin v.con δx δu i)
      + ρ / 2 * nsq (conLin v.con δx δu)) fun v hv => by have := (h1 v hv).2; rw [hr1 v hv] at this; rw [← sub_eq_add_neg]; exact this
  have b2 := sum_map_le c.ineq (fun v => (v.augLag (x + δx) (u + δu)).1) (fun v => (v.augLag x u).1 + -(∑ i, lamNext v x u i * conLin v.con δx δu i)
      + ρ / 2 * nsq (conLin v.con δx δu)) fun v hv => by have := (h2 v hv).2; rw [hr2 v hv] at this; rw [← sub_eq_add_neg]; exact this
  simp only [sub_eq_add_neg] at a1 a2
  rw [sum_map_add', sum_map_neg'] at a1 a2
  rw [sum_map_add', sum_map_add', sum_map_neg', sum_map_mul'] at b1 b2
  simp only [lamLin, conSize, quadModel, quadForm]
  constructor <;> linarith

end knot

/-! ## The objective -/

theorem quadForm_parallelogram (H : ConVal.HessBlocks n m K) (x : Fin n → K) (u : Fin m → K) (δx : Fin n → K) (δu : Fin m → K) :
    quadForm H (x + δx) (u + δu) + quadForm H (x + -δx) (u + -δu) - 2 * quadForm H x u = 2 * quadForm H δx δu := by
  simp only [quadForm, mulVec_add, mulVec_neg, dotProduct_add, add_dotProduct, dotProduct_neg, neg_dotProduct]
  ring

theorem quadForm_neg (H : ConVal.HessBlocks n m K) (δx : Fin n → K) (δu : Fin m → K) :
    quadForm H (-δx) (-δu) = quadForm H δx δu := by
  simp only [quadForm, mulVec_neg, dotProduct_neg, neg_dotProduct, neg_neg]

theorem quadModel_eq (H : ConVal.HessBlocks n m K) (g : (Fin n → K) × (Fin m → K)) (δx : Fin n → K) (δu : Fin m → K) :
    quadModel ⟨H.dxdx, H.dxdu, H.dudu, g.1, g.2⟩ δx δu = (g.1 ⬝ᵥ δx + g.2 ⬝ᵥ δu) + 1 / 2 * quadForm H δx δu := by
  simp only [quadModel, quadForm]
  ring

/-- The Hessian of a quadratic is constant, as a form. -/
theorem _root_.Altro.Spec.IsQuadratic.form_const {c : CostFun n m K} (h : IsQuadratic c) (x : Fin n → K) (u : Fin m → K)
    (δx : Fin n → K) (δu : Fin m → K) : quadForm (c.hess x u) δx δu = quadForm (c.hess 0 0) δx δu := by
  have a1 := h.exact x u δx δu
  have a2 := h.exact x u (-δx) (-δu)
  have b0 := h.exact 0 0 x u
  have b1 := h.exact 0 0 (x + δx) (u + δu)
  have b2 := h.exact 0 0 (x + -δx) (u + -δu)
  rw [quadModel_eq] at a1 a2 b0 b1 b2
  rw [quadForm_neg] at a2
  simp only [zero_add] at b0 b1 b2
  have := quadForm_parallelogram (c.hess 0 0) x u δx δu
  simp only [dotProduct_add, dotProduct_neg] at a1 a2 b0 b1 b2
  linarith

theorem quadForm_bound (H : ConVal.HessBlocks n m K) :
    ∃ b : K, 0 ≤ b ∧ ∀ δx δu, quadForm H δx δu ≤ b * (nsq δx + nsq δu) := by
  obtain ⟨a1, h1, e1⟩ := nsq_mulVec H.dxdx
  obtain ⟨a2, h2, e2⟩ := nsq_mulVec H.dxdu
  obtain ⟨a3, h3, e3⟩ := nsq_mulVec H.dudu
  have hy : ∀ {q : ℕ} (v w : Fin q → K), 2 * (v ⬝ᵥ w) ≤ nsq v + nsq w := fun v w => by
    have := nsq_nonneg (v - w)
    unfold nsq at this ⊢
    simp only [sub_dotProduct, dotProduct_sub] at this
    rw [dotProduct_comm w v] at this
    linarith
  refine ⟨a1 + a2 + a3 + 2, by positivity, fun δx δu => ?_⟩
  have c1 := hy δx (H.dxdx *ᵥ δx)
  have c2 := hy δx (H.dxdu *ᵥ δu)
  have c3 := hy δu (H.dudu *ᵥ δu)
  have d1 := e1 δx
  have d2 := e2 δu
  have d3 := e3 δu
  have n1 := nsq_nonneg δx
  have n2 := nsq_nonneg δu
  have m1 := nsq_nonneg (H.dxdx *ᵥ δx)
  have m3 := nsq_nonneg (H.dudu *ᵥ δu)
  have p1 := mul_nonneg h1 n2
  have p2 := mul_nonneg h2 n1
  have p3 := mul_nonneg h3 n1
  unfold quadForm
  nlinarith

/-! ## The whole problem -/

theorem exists_uniform_bound {α β : Type} (N : ℕ) (f : ℕ → α → β → K) (g : α → β → K) (hg : ∀ a b, 0 ≤ g a b)
    (h : ∀ k, ∃ b : K, 0 ≤ b ∧ ∀ x y, f k x y ≤ b * g x y) :
    ∃ b : K, 0 ≤ b ∧ ∀ k ≤ N, ∀ x y, f k x y ≤ b * g x y := by
  choose b hb hf using h
  refine ⟨∑ k ∈ Finset.range (N + 1), b k, Finset.sum_nonneg fun k _ => hb k, fun k hk x y => ?_⟩
  have := Finset.single_le_sum (f := b) (fun k _ => hb k) (Finset.mem_range.mpr (Nat.lt_succ_of_le hk))
  exact (hf k x y).trans (mul_le_mul_of_nonneg_right this (hg x y))

theorem mem_static {κ : ConKind} {l l' : List (ConVal κ n m K)} (e : l'.map ConVal.static = l.map ConVal.static) {v : ConVal κ n m K}
    (hv : v ∈ l') : ∃ w ∈ l, w.static = v.static := by
  have : v.static ∈ l.map ConVal.static := by rw [← e]; exact List.mem_map_of_mem hv
  exact List.mem_map.mp this

theorem _root_.Altro.Spec.AffineKnot.congr {c c' : ALCost n m K} (h : AffineKnot c) (e : c'.static = c.static) : AffineKnot c' := by
  simp only [ALCost.static, ALCost.mk.injEq] at e
  obtain ⟨e1, e2, e3⟩ := e
  refine ⟨by rw [e1]; exact h.quad, by rw [e1]; exact h.conv, fun v hv => ?_, fun v hv => ?_, fun v hv => ?_⟩
  · obtain ⟨w, hw, ew⟩ := mem_static e2 hv
    have hc : AffineCon w.static.con := h.eq w hw
    rw [ew] at hc
    exact hc
  · obtain ⟨w, hw, ew⟩ := mem_static e3 hv
    have hc : AffineCon w.static.con := h.ineq w hw
    rw [ew] at hc
    exact hc
  · obtain ⟨w, hw, ew⟩ := mem_static e3 hv
    have hc : ∀ i j, i ≠ j → w.static.projJac i j = 0 := fun i j hij => by
      have := congrFun (congrFun (stale_zero_of_buf (h.buf w hw)) i) j
      exact this
    rw [ew] at hc
    intro i j hij
    have := hc i j hij
    have e' : v.static.projJac i j = if i = j then 0 else v.projJac i j := rfl
    rw [e', if_neg hij] at this
    exact this

theorem _root_.Altro.Spec.LQInequality.congr {p : DynProblem n m K} {cs cs' : ℕ → ALCost n m K} {μ : K} (h : LQInequality p cs μ)
    (e : ∀ k ≤ p.N, (cs' k).static = (cs k).static) : LQInequality p cs' μ where
  dyn := h.dyn
  knot k hk := (h.knot k hk).congr (e k hk)
  strong k hk := by
    have := congrArg ALCost.cost (e k hk.le)
    have e1 : (cs' k).cost = (cs k).cost := this
    rw [e1]; exact h.strong k hk
  term := by
    have := congrArg ALCost.cost (e _ le_rfl)
    have e1 : (cs' p.N).cost = (cs p.N).cost := this
    rw [e1]; exact h.term
  termEq v hv := by
    obtain ⟨w, hw, ew⟩ := mem_static (congrArg ALCost.eq (e _ le_rfl)) hv
    have hc : ∀ x u u', w.static.con.eval x u = w.static.con.eval x u' := h.termEq w hw
    rw [ew] at hc
    exact hc
  termIneq v hv := by
    obtain ⟨w, hw, ew⟩ := mem_static (congrArg ALCost.ineq (e _ le_rfl)) hv
    have hc : ∀ x u u', w.static.con.eval x u = w.static.con.eval x u' := h.termIneq w hw
    rw [ew] at hc
    exact hc

theorem static_eq_of_core {c c' : ALCost n m K} (e : c.core = c'.core) : c.static = c'.static := by
  rw [← ALCost.static_of_core, e, ALCost.static_of_core]

/-- With curvature bounds `B` of the objective and `A` of the constraints and any positive penalty, the augmented costs lie between
quadratics with curvature `μ` and `B + ρ A`, whatever the multipliers. -/
theorem _root_.Altro.Spec.LQInequality.conv {p : DynProblem n m K} {cs : ℕ → ALCost n m K} {μ ρ A B : K} (h : LQInequality p cs μ)
    (hμ : 0 < μ) (hB : ∀ k ≤ p.N, ∀ δx δu, quadForm ((cs k).cost.hess 0 0) δx δu ≤ B * (nsq δx + nsq δu))
    (hA : ∀ k ≤ p.N, ∀ δx δu, conSize (cs k) δx δu ≤ A * (nsq δx + nsq δu)) (hρ : 0 < ρ) (hpen : ∀ k ≤ p.N, PenU (cs k) ρ) :
    ConvLQ p cs μ (B + ρ * A) := by
  have hk : ∀ k ≤ p.N, ∀ c : ALCost n m K, c.core = (cs k).core → AffineKnot c ∧ PenU c ρ ∧ c.cost = (cs k).cost ∧
      ∀ δx δu, conSize c δx δu ≤ A * (nsq δx + nsq δu) := fun k hk c hc => by
    refine ⟨(h.knot k hk).congr (static_eq_of_core hc), penU_core hc (hpen k hk),
      show c.core.cost = (cs k).core.cost by rw [hc], fun δx δu => ?_⟩
    rw [conSize_static (static_eq_of_core hc)]
    exact hA k hk δx δu
  have hlow : ∀ k < p.N, ∀ c : ALCost n m K, c.core = (cs k).core → ∀ x u δx δu,
      μ * nsq δu ≤ form (expOf c x u) δx δu := fun k hkN c hc x u δx δu => by
    obtain ⟨h1, h2, h3, -⟩ := hk k hkN.le c hc
    have := (h1.form_bounds hρ h2 x u δx δu).1
    have h4 := h.strong k hkN x u δx δu
    rw [h3] at this
    exact h4.trans this
  refine ⟨⟨h.dyn, fun k hkN c hc x u => ?_, fun k hkN c hc x u z hz => ?_, fun x u u' => ?_, fun x u u' => ?_⟩,
    hlow, fun k hkN c hc x u δx δu => ?_, fun k hkN c hc x u δx δu => ?_, fun c hc x u δx δu => ?_, fun k hkN c hc x u δx δu => ?_⟩
  · obtain ⟨h1, h2, h3, -⟩ := hk k hkN c hc
    have := C04_augmented_hessian_psd (c.gradient x u).2 x u (h1.conv x u) (by
      intro v hv
      obtain ⟨r, hr, rfl⟩ := List.mem_map.mp hv
      obtain ⟨w, hw, rfl⟩ := List.mem_map.mp hr
      have : (w.augLagGradient x u).2.rho = ρ := h2.1 w hw _
      rw [this]; exact hρ.le) (by
      intro v hv
      obtain ⟨r, hr, rfl⟩ := List.mem_map.mp hv
      obtain ⟨w, hw, rfl⟩ := List.mem_map.mp hr
      have : (w.augLagGradient x u).2.rho = ρ := h2.2 w hw _
      rw [this]; exact hρ.le)
    exact ⟨this.symx, this.symu, fun δx δu => this.nonneg δx δu⟩
  · have h1 := hlow k hkN c hc x u 0 z
    have h2 : 0 < nsq z := lt_of_le_of_ne (nsq_nonneg z) fun e => hz (nsq_eq_zero e.symm)
    have h3 : form (expOf c x u) 0 z = z ⬝ᵥ (expOf c x u).dudu *ᵥ z := by simp [form]
    rw [h3] at h1
    exact lt_of_lt_of_le (mul_pos hμ h2) h1
  · rw [C02_evaluate_eq, C02_evaluate_eq, h.term x u u']
    have h1 := fun v hv => (hpen _ le_rfl).1 v hv
    have h2 := fun v hv => (hpen _ le_rfl).2 v hv
    congr 2
    · refine congrArg List.sum (List.map_congr_left fun v hv => ?_)
      rw [C02_auglag_equality v _ _ (by rw [show v.rho = ρ from h1 v hv _]; exact hρ),
        C02_auglag_equality v _ _ (by rw [show v.rho = ρ from h1 v hv _]; exact hρ), h.termEq v hv x u u']
    · refine List.map_congr_left fun v hv => ?_
      rw [C02_auglag_inequality v _ _ (by rw [show v.rho = ρ from h2 v hv _]; exact hρ),
        C02_auglag_inequality v _ _ (by rw [show v.rho = ρ from h2 v hv _]; exact hρ), h.termIneq v hv x u u']
  · simp only [ALCost.valuesAt, ALCost.static, List.map_map, Prod.mk.injEq]
    constructor
    · refine List.map_congr_left fun v hv => ?_
      have := h.termEq v hv x u u'
      show (⟨v.con.p, v.con.eval x u⟩ : Σ q : ℕ, Fin q → K) = ⟨v.con.p, v.con.eval x u'⟩
      rw [this]
    · refine List.map_congr_left fun v hv => ?_
      have := h.termIneq v hv x u u'
      show (⟨v.con.p, v.con.eval x u⟩ : Σ q : ℕ, Fin q → K) = ⟨v.con.p, v.con.eval x u'⟩
      rw [this]
  · obtain ⟨h1, h2, h3, h4⟩ := hk k hkN c hc
    have := (h1.form_bounds hρ h2 x u δx δu).2
    have h5 := hB k hkN δx δu
    rw [h1.quad.form_const, h3] at this
    have h6 := mul_le_mul_of_nonneg_left (h4 δx δu) hρ.le
    linarith
  · obtain ⟨h1, h2, h3, -⟩ := hk k hkN.le c hc
    have := (h1.between hρ h2 x u δx δu).1
    have h4 := h.strong k hkN x u δx δu
    rw [h3] at this
    unfold nsq
    linarith
  · obtain ⟨h1, h2, h3, -⟩ := hk _ le_rfl c hc
    have := (h1.between hρ h2 x u δx δu).1
    have h4 := (h1.conv x u).nonneg δx δu
    linarith
  · obtain ⟨h1, h2, h3, h4⟩ := hk k hkN c hc
    have := (h1.between hρ h2 x u δx δu).2
    have h5 := hB k hkN δx δu
    rw [h1.quad.form_const, h3] at this
    have h6 := mul_le_mul_of_nonneg_left (h4 δx δu) hρ.le
    linarith

/-- Such curvature bounds exist. -/
theorem curvature_exists (p : DynProblem n m K) (cs : ℕ → ALCost n m K) : ∃ A B : K, 0 ≤ A ∧ 0 ≤ B ∧
    (∀ k ≤ p.N, ∀ δx δu, quadForm ((cs k).cost.hess 0 0) δx δu ≤ B * (nsq δx + nsq δu)) ∧
    ∀ k ≤ p.N, ∀ δx δu, conSize (cs k) δx δu ≤ A * (nsq δx + nsq δu) := by
  have hg : ∀ (a : Fin n → K) (b : Fin m → K), 0 ≤ nsq a + nsq b := fun a b => add_nonneg (nsq_nonneg a) (nsq_nonneg b)
  obtain ⟨B, hB, h1⟩ := exists_uniform_bound p.N (fun k δx δu => quadForm ((cs k).cost.hess 0 0) δx δu) _ hg
    fun k => quadForm_bound _
  obtain ⟨A, hA, h2⟩ := exists_uniform_bound p.N (fun k δx δu => conSize (cs k) δx δu) _ hg fun k => conSize_bound _
  exact ⟨A, B, hA, hB, h1, h2⟩

end Altro.Props
