import Verif.Spec.InexactGains
import Verif.Props.LQ
import Verif.Props.ExpectedDecrease
import Verif.Props.LQExamples

/-!
# C110: a backward pass with inexact gains
-/

namespace Altro.Props
open Altro.Spec Altro.ILQR Matrix
variable {K : Type} [Field K] [LinearOrder K] [IsStrictOrderedRing K] {n m : ℕ}

/-- With the exact routine it is the kernel of the other properties. -/
theorem C110_same (p : DynProblem n m K) : kernelBy exactRoutine p = alKernel p := by
  have : KP.gainsBy (exactRoutine (n := n) (m := m) (K := K)) = KP.gains := by
    funext d
    unfold KP.gainsBy exactRoutine KP.gains
    by_cases h : lltOk m d.qreg.dudu = true
    · rw [if_pos h, if_pos h]
    · rw [if_neg h, if_neg h]
  unfold kernelBy
  rw [this]
  rfl

section sweep
variable {solve : GainRoutine n m K} {p : DynProblem n m K} {rho : K} {kd r : ℕ → KP n m K}

/-- What a treated segment holds, for any routine. -/
theorem treated_by {j : ℕ} (h : Treated (kernelBy solve p) rho kd r j) :
    (r j).q = ((kd j).actionValue (r (j + 1))).q ∧
    (r j).Sxx = (r j).q.dxdx + (r j).gainᵀ * (r j).q.dudu * (r j).gain + (r j).gainᵀ * (r j).q.dxduᵀ
      + (r j).q.dxdu * (r j).gain ∧
    (r j).delta = ((r j).ff ⬝ᵥ (r j).q.du, (1 / 2) * ((r j).ff ⬝ᵥ (r j).q.dudu *ᵥ (r j).ff)) ∧
    (r j).costToGo = r j ∧
    solve (((kd j).actionValue (r (j + 1))).regularize rho).qreg = some ((r j).gain, (r j).ff) := by
  obtain ⟨h1, h2⟩ := h
  change (KP.gainsBy solve _).2 = true at h1
  change r j = KP.costToGo (KP.gainsBy solve _).1 at h2
  set d := ((kd j).actionValue (r (j + 1))).regularize rho with hd
  unfold KP.gainsBy at h1 h2
  change (match solve d.qreg with
    | some g => ({ d with gain := g.1, ff := g.2 }, true)
    | none => (d, false) : KP n m K × Bool).2 = true at h1
  change r j = KP.costToGo (match solve d.qreg with
    | some g => ({ d with gain := g.1, ff := g.2 }, true)
    | none => (d, false) : KP n m K × Bool).1 at h2
  cases hs : solve d.qreg with
  | none => rw [hs] at h1; cases h1
  | some g =>
    rw [hs] at h2
    rw [h2]
    exact ⟨rfl, rfl, rfl, rfl, rfl⟩

theorem sxx_symm_by {N : ℕ} (hd : ∀ j < N, Treated (kernelBy solve p) rho kd r j) (hx : ∀ k < N, (kd k).cost.dxdx.IsSymm)
    (hu : ∀ k < N, (kd k).cost.dudu.IsSymm) (hN : (r N).Sxx.IsSymm) :
    (∀ k ≤ N, (r k).Sxx.IsSymm) ∧ ∀ k < N, (r k).q.dudu.IsSymm := by
  have step : ∀ k < N, (r (k + 1)).Sxx.IsSymm → (r k).q.dxdx.IsSymm ∧ (r k).q.dudu.IsSymm := by
    intro k hk hn
    rw [(treated_by (hd k hk)).1]
    exact ⟨(hx k hk).add (symm_sandwich hn _), (hu k hk).add (symm_sandwich hn _)⟩
  have hS : ∀ k ≤ N, (r k).Sxx.IsSymm := by
    intro k hk
    induction hk using Nat.decreasingInduction with
    | self => exact hN
    | of_succ k hk ih =>
      obtain ⟨h1, h2⟩ := step k hk ih
      rw [(treated_by (hd k hk)).2.1]
      have h3 : ((r k).gainᵀ * (r k).q.dxduᵀ + (r k).q.dxdu * (r k).gain).IsSymm := by
        unfold IsSymm
        rw [transpose_add, transpose_mul, transpose_mul, transpose_transpose, transpose_transpose, add_comm]
      rw [add_assoc]
      exact (h1.add (symm_sandwich h2 _)).add h3
  exact ⟨hS, fun k hk => (step k hk (hS (k + 1) hk)).2⟩

/-- The action value of any control, by its distance from the control of the policy. -/
theorem quadModel_around (e : Expansion n m K) (hs : e.dudu.IsSymm) (x : Fin n → K) (u w : Fin m → K) :
    quadModel e x u = quadModel e x w + (e.du + e.dxduᵀ *ᵥ x + e.dudu *ᵥ w) ⬝ᵥ (u - w)
      + (1 / 2) * ((u - w) ⬝ᵥ e.dudu *ᵥ (u - w)) := by
  obtain ⟨z, rfl⟩ : ∃ z, u = w + z := ⟨u - w, by abel⟩
  unfold quadModel
  simp only [add_sub_cancel_left, mulVec_add, dotProduct_add, add_dotProduct]
  have h1 := dot_symm hs w z
  have h2 : (e.dxduᵀ *ᵥ x) ⬝ᵥ z = x ⬝ᵥ e.dxdu *ᵥ z := t_dot _ _ _
  have h3 : (e.dudu *ᵥ w) ⬝ᵥ z = z ⬝ᵥ e.dudu *ᵥ w := dotProduct_comm _ _
  rw [h2, h3]
  linear_combination (1 / 2) * h1

theorem swept_symm (h : Swept solve p rho kd r) : (∀ k ≤ p.N, (r k).Sxx.IsSymm) ∧ ∀ k < p.N, (r k).q.dudu.IsSymm :=
  sxx_symm_by h.complete.done (fun k hk => h.symx k hk.le) h.symu (by
    rw [h.complete.keeps p.N le_rfl, h.term.2]; exact h.symx p.N le_rfl)

/-- **C110, the identity.**  Whatever routine calculated the gains and whatever the regularization: along all deviations that
satisfy the linearised dynamics, the cost of the expansions is the stored cost-to-go of the first knot point, plus the change
announced for the full step, plus terms that depend only on the distances from the policy. -/
theorem C110_identity (h : Swept solve p rho kd r) (δ : ℕ → Fin n → K) (v : ℕ → Fin m → K) (hl : Linearised p.N kd δ v) :
    modelChange p.N kd δ v = ctgModel (r 0).Sx (r 0).Sxx (δ 0) + announced p r 1
      + ∑ k ∈ Finset.range p.N, (slope r k (δ k) ⬝ᵥ (v k - asked r k (δ k))
        + (1 / 2) * ((v k - asked r k (δ k)) ⬝ᵥ (r k).q.dudu *ᵥ (v k - asked r k (δ k)))) := by
  obtain ⟨hS, hQ⟩ := swept_symm h
  have hstep : ∀ k < p.N, quadModel (kd k).cost (δ k) (v k) + ctgModel (r (k + 1)).Sx (r (k + 1)).Sxx (δ (k + 1))
      = ((r k).delta.1 + (r k).delta.2) + ctgModel (r k).Sx (r k).Sxx (δ k)
        + (slope r k (δ k) ⬝ᵥ (v k - asked r k (δ k))
        + (1 / 2) * ((v k - asked r k (δ k)) ⬝ᵥ (r k).q.dudu *ᵥ (v k - asked r k (δ k)))) := by
    intro k hk
    obtain ⟨t1, _, _, t4, _⟩ := treated_by (h.complete.done k hk)
    rw [hl k hk, ← C27_action_value (kd k) (r (k + 1)) (hS (k + 1) hk) (δ k) (v k), ← t1,
      quadModel_around (r k).q (hQ k hk) (δ k) (v k) (asked r k (δ k))]
    have e := C29_cost_to_go (r k) (hQ k hk) (δ k)
    rw [t4] at e
    unfold slope
    unfold asked at *
    rw [e]
    ring
  have htel : ∀ j ≤ p.N, ∑ k ∈ Finset.range j, quadModel (kd k).cost (δ k) (v k)
      + ctgModel (r j).Sx (r j).Sxx (δ j)
      = ctgModel (r 0).Sx (r 0).Sxx (δ 0) + ∑ k ∈ Finset.range j, (1 * (r k).delta.1 + 1 * 1 * (r k).delta.2)
        + ∑ k ∈ Finset.range j, (slope r k (δ k) ⬝ᵥ (v k - asked r k (δ k))
        + (1 / 2) * ((v k - asked r k (δ k)) ⬝ᵥ (r k).q.dudu *ᵥ (v k - asked r k (δ k)))) := by
    intro j
    induction j with
    | zero => intro _; simp
    | succ j ih =>
      intro hj
      have h1 := ih (by omega)
      have h2 := hstep j (by omega)
      rw [Finset.sum_range_succ, Finset.sum_range_succ, Finset.sum_range_succ]
      linear_combination h1 + h2
  unfold modelChange announced
  rw [← htel p.N le_rfl, h.complete.keeps p.N le_rfl, h.term.1, h.term.2]

/-- **C110, the full step.**  The stored cost-to-go and the change announced for the full step are exactly those of the policy
that was calculated, however wrong its gains are. -/
theorem C110_exact (h : Swept solve p rho kd r) (δ : ℕ → Fin n → K) (v : ℕ → Fin m → K) (hl : Linearised p.N kd δ v)
    (ho : Obeys p.N r 1 δ v) : modelChange p.N kd δ v = ctgModel (r 0).Sx (r 0).Sxx (δ 0) + announced p r 1 := by
  rw [C110_identity h δ v hl]
  have : ∀ k ∈ Finset.range p.N, (slope r k (δ k) ⬝ᵥ (v k - asked r k (δ k))
        + (1 / 2) * ((v k - asked r k (δ k)) ⬝ᵥ (r k).q.dudu *ᵥ (v k - asked r k (δ k)))) = 0 := by
    intro k hk
    have e : v k - asked r k (δ k) = 0 := by
      rw [ho k (Finset.mem_range.mp hk), one_smul]; exact sub_self _
    rw [e]; simp
  rw [Finset.sum_eq_zero this, add_zero]

/-- **C110, all steps.**  From the nominal initial state the change announced for step `alpha` is off by `1 - alpha` times the
residuals of the feedback gains: it is exact for the full step with any gains, and for every step when the feedback gains solve
their linear systems. -/
theorem C110_step (h : Swept solve p rho kd r) (alpha : K) (δ : ℕ → Fin n → K) (v : ℕ → Fin m → K)
    (hl : Linearised p.N kd δ v) (h0 : δ 0 = 0) (ho : Obeys p.N r alpha δ v) :
    modelChange p.N kd δ v = announced p r alpha
      - (1 - alpha) * ∑ k ∈ Finset.range p.N, feedbackSlope r k (δ k) ⬝ᵥ (r k).ff := by
  rw [C110_identity h δ v hl, h0]
  have e0 : ctgModel (r 0).Sx (r 0).Sxx 0 = 0 := by simp [ctgModel]
  rw [e0, zero_add]
  unfold announced
  rw [← Finset.sum_add_distrib, Finset.mul_sum, ← Finset.sum_sub_distrib]
  refine Finset.sum_congr rfl fun k hk => ?_
  have hk := Finset.mem_range.mp hk
  obtain ⟨_, _, t3, _⟩ := treated_by (h.complete.done k hk)
  have e : v k - asked r k (δ k) = (alpha - 1) • (r k).ff := by
    rw [ho k hk]; unfold asked; rw [sub_smul, one_smul]; abel
  rw [e, t3]
  unfold slope feedbackSlope asked
  simp only [mulVec_add, mulVec_smul, dotProduct_smul, smul_dotProduct, add_dotProduct, smul_eq_mul]
  have c1 : (r k).q.du ⬝ᵥ (r k).ff = (r k).ff ⬝ᵥ (r k).q.du := dotProduct_comm _ _
  have c2 : ((r k).q.dudu *ᵥ (r k).ff) ⬝ᵥ (r k).ff = (r k).ff ⬝ᵥ (r k).q.dudu *ᵥ (r k).ff := dotProduct_comm _ _
  rw [c1, c2]
  ring

/-- A quadratic with curvature at least `mu` drops by at most the squared slope over `2 mu`. -/
theorem slope_drop {q : ℕ} {mu : K} (hmu : 0 < mu) {M : Matrix (Fin q) (Fin q) K} (g z : Fin q → K)
    (hM : mu * (z ⬝ᵥ z) ≤ z ⬝ᵥ M *ᵥ z) : -(g ⬝ᵥ g / (2 * mu)) ≤ g ⬝ᵥ z + (1 / 2) * (z ⬝ᵥ M *ᵥ z) := by
  have hsq : 0 ≤ (g + mu • z) ⬝ᵥ (g + mu • z) := Finset.sum_nonneg fun i _ => mul_self_nonneg _
  simp only [add_dotProduct, dotProduct_add, smul_dotProduct, dotProduct_smul, smul_eq_mul] at hsq
  have hc : z ⬝ᵥ g = g ⬝ᵥ z := dotProduct_comm _ _
  rw [hc] at hsq
  have key : 0 ≤ (g ⬝ᵥ g) / (2 * mu) + g ⬝ᵥ z + mu / 2 * (z ⬝ᵥ z) := by
    have e : (g ⬝ᵥ g) / (2 * mu) + g ⬝ᵥ z + mu / 2 * (z ⬝ᵥ z)
        = (g ⬝ᵥ g + mu * (g ⬝ᵥ z) + mu * (g ⬝ᵥ z + mu * (z ⬝ᵥ z))) / (2 * mu) := by field_simp; ring
    rw [e]
    exact div_nonneg (by linarith) (by linarith)
  linarith

/-- **C110, nearly optimal.**  The policy costs at most as much as any other controls plus the squares of the residuals of the
gains, over twice the curvature of the action values: errors of the gains enter squared.  The residuals are taken along the
other trajectory. -/
theorem C110_near_optimal (h : Swept solve p rho kd r) {mu : K} (hmu : 0 < mu)
    (hcurv : ∀ k < p.N, ∀ z, mu * (z ⬝ᵥ z) ≤ z ⬝ᵥ (r k).q.dudu *ᵥ z)
    (δ δ' : ℕ → Fin n → K) (v v' : ℕ → Fin m → K) (hl : Linearised p.N kd δ v) (ho : Obeys p.N r 1 δ v)
    (hl' : Linearised p.N kd δ' v') (h0 : δ' 0 = δ 0) :
    modelChange p.N kd δ v ≤ modelChange p.N kd δ' v'
      + ∑ k ∈ Finset.range p.N, slope r k (δ' k) ⬝ᵥ slope r k (δ' k) / (2 * mu) := by
  rw [C110_exact h δ v hl ho, C110_identity h δ' v' hl', h0]
  have : ∀ k ∈ Finset.range p.N, -(slope r k (δ' k) ⬝ᵥ slope r k (δ' k) / (2 * mu)) ≤
      slope r k (δ' k) ⬝ᵥ (v' k - asked r k (δ' k))
        + (1 / 2) * ((v' k - asked r k (δ' k)) ⬝ᵥ (r k).q.dudu *ᵥ (v' k - asked r k (δ' k))) :=
    fun k hk => slope_drop hmu _ _ (hcurv k (Finset.mem_range.mp hk) _)
  have hsum := Finset.sum_le_sum this
  rw [Finset.sum_neg_distrib] at hsum
  linarith

/-- **C110, convexity.**  For convex costs every cost-to-go Hessian is positive semidefinite and every action value is at least
as curved in the control as the cost, whatever the gains are: errors of the gains cannot make a factorization fail later. -/
theorem C110_convex (h : Swept solve p rho kd r) (hc : ∀ k < p.N, ConvexExp (kd k).cost)
    (hN : PosSemidef (kd p.N).cost.dxdx) :
    (∀ k ≤ p.N, PosSemidef (r k).Sxx) ∧ ∀ k < p.N, ∀ z, z ⬝ᵥ (kd k).cost.dudu *ᵥ z ≤ z ⬝ᵥ (r k).q.dudu *ᵥ z := by
  obtain ⟨hS, _⟩ := swept_symm h
  have hP : ∀ k ≤ p.N, PosSemidef (r k).Sxx := by
    intro k hk
    induction hk using Nat.decreasingInduction with
    | self => rw [h.complete.keeps p.N le_rfl, h.term.2]; exact hN
    | of_succ k hk ih =>
      obtain ⟨t1, t2, _⟩ := treated_by (h.complete.done k hk)
      intro δx
      rw [t2, t1]
      set G := (r k).gain
      have h1 := (hc k hk).psd δx (G *ᵥ δx)
      have h2 := ih ((kd k).A *ᵥ δx + (kd k).B *ᵥ (G *ᵥ δx))
      have h3 := dot_symm (hS (k + 1) hk) ((kd k).B *ᵥ (G *ᵥ δx)) ((kd k).A *ᵥ δx)
      simp only [mulVec_add, dotProduct_add, add_dotProduct] at h2
      have e1 : ∀ M : Matrix (Fin n) (Fin m) K, (G *ᵥ δx) ⬝ᵥ (Mᵀ *ᵥ δx) = δx ⬝ᵥ M *ᵥ (G *ᵥ δx) := fun M => by
        rw [dotProduct_comm, t_dot]
      simp only [add_mulVec, dotProduct_add, ← mulVec_mulVec, dot_t, e1]
      simp only [KP.actionValue, add_mulVec, dotProduct_add, dot_tmul]
      linarith
  refine ⟨hP, fun k hk z => ?_⟩
  rw [(treated_by (h.complete.done k hk)).1]
  have := hP (k + 1) hk ((kd k).B *ᵥ z)
  simp only [KP.actionValue, add_mulVec, dotProduct_add, dot_tmul]
  linarith

/-- What the residual of a routine is: if the numbers it returns leave `E δx + e` in the regularised linear systems, the slope
is that minus `rho` times the control. -/
theorem C110_slope (k : ℕ) (E : Matrix (Fin m) (Fin n) K) (e : Fin m → K)
    (hG : ((r k).q.dudu + rho • 1) * (r k).gain + (r k).q.dxduᵀ = E)
    (hf : ((r k).q.dudu + rho • (1 : Matrix (Fin m) (Fin m) K)) *ᵥ (r k).ff + (r k).q.du = e) (δx : Fin n → K) :
    slope r k δx = E *ᵥ δx + e - rho • asked r k δx := by
  rw [← hG, ← hf]
  unfold slope asked
  simp only [add_mulVec, mulVec_add, Matrix.add_mul, smul_mulVec, one_mulVec, Matrix.smul_mul, Matrix.one_mul, mulVec_mulVec,
    smul_add]
  abel

/-- **C110 for the solver's own factorization.**  Without rounding the residual is `-rho` times the control, so the policy is
optimal up to `rho²`, and the change announced for step `alpha` is off by `(1 - alpha) rho ∑ (K δ) · d`. -/
theorem C110_regularised (h : Swept exactRoutine p rho kd r) :
    (∀ k < p.N, ∀ δx, slope r k δx = -(rho • asked r k δx)) ∧
    (∀ k < p.N, ∀ δx, feedbackSlope r k δx = -(rho • ((r k).gain *ᵥ δx))) := by
  obtain ⟨hS, _⟩ := swept_symm h
  have hc := h.complete
  rw [C110_same] at hc
  have eqs : ∀ k < p.N, _ := fun k hk =>
    (StepOk.mk (hc.done k hk).1 (hc.done k hk).2 : StepOk (kd k) (r (k + 1)) (r k) rho).eqs (h.symx k hk.le) (h.symu k hk)
      (hS (k + 1) hk)
  have fb : ∀ k < p.N, ∀ δx, feedbackSlope r k δx = -(rho • ((r k).gain *ᵥ δx)) := by
    intro k hk δx
    have := (eqs k hk).2.1 δx
    simp only [add_mulVec, smul_mulVec, one_mulVec] at this
    unfold feedbackSlope
    rw [← sub_eq_zero] at this ⊢
    rw [← this]; abel
  refine ⟨fun k hk δx => ?_, fb⟩
  have e1 := fb k hk δx
  have e2 := (eqs k hk).2.2
  simp only [add_mulVec, smul_mulVec, one_mulVec] at e2
  unfold slope asked
  unfold feedbackSlope at e1
  rw [mulVec_add, smul_add, neg_add, ← e1]
  have e3 : (r k).q.du = -((r k).q.dudu *ᵥ (r k).ff + rho • (r k).ff) := by rw [e2, neg_neg]
  rw [e3]; abel

/-! ### The cost of trajectories -/

/-- On a linear-quadratic problem the cost of every alternative is that of the expansions. -/
theorem trajCost_model {cs : ℕ → ALCost n m K} {Z Z' : Traj (Fin n → K) (Fin m → K) K} (hE : ExactExpansion p cs Z kd)
    (hZ : Alternative p Z Z) (hZ' : Alternative p Z Z') :
    Linearised p.N kd (fun k => Z'.x k - Z.x k) (fun k => Z'.u k - Z.u k) ∧
    trajCost p cs Z' = trajCost p cs Z + modelChange p.N kd (fun k => Z'.x k - Z.x k) (fun k => Z'.u k - Z.u k) := by
  have hxk : ∀ k, Z.x k + (Z'.x k - Z.x k) = Z'.x k := fun k => by abel
  have huk : ∀ k, Z.u k + (Z'.u k - Z.u k) = Z'.u k := fun k => by abel
  constructor
  · intro k hk
    have := hE.dyn k hk (Z'.x k - Z.x k) (Z'.u k - Z.u k)
    rw [hxk, huk] at this
    show Z'.x (k + 1) - Z.x (k + 1) = _
    rw [hZ'.step k hk, hZ.step k hk, this]
    abel
  · unfold trajCost modelChange
    rw [Finset.sum_range_succ, Finset.sum_range_succ, ← hxk p.N, hE.term (Z'.x p.N - Z.x p.N) (Z'.u p.N)]
    have : ∀ k ∈ Finset.range p.N, ((cs k).evaluate (Z'.x k) (Z'.u k)).1
        = ((cs k).evaluate (Z.x k) (Z.u k)).1 + quadModel (kd k).cost (Z'.x k - Z.x k) (Z'.u k - Z.u k) := by
      intro k hk
      rw [← hE.cost k (Finset.mem_range.mp hk), hxk, huk]
    rw [Finset.sum_congr rfl this, Finset.sum_add_distrib]
    ring

/-- The candidates of the line search obey the policy. -/
theorem candidate_obeys (r : ℕ → KP n m K) (Z Zbar : Traj (Fin n → K) (Fin m → K) K) (alpha : K) :
    Obeys p.N r alpha (fun k => (candidateTraj (kernelBy solve p) r Z Zbar alpha).x k - Z.x k)
      (fun k => (candidateTraj (kernelBy solve p) r Z Zbar alpha).u k - Z.u k) := by
  intro k hk
  have hu : (candidateTraj (kernelBy solve p) r Z Zbar alpha).u k = (r k).policy
      ((candidateTraj (kernelBy solve p) r Z Zbar alpha).x k) (Z.x k) (Z.u k) alpha := by
    show (if k < p.N then _ else _) = _
    rw [if_pos hk]; rfl
  show (candidateTraj (kernelBy solve p) r Z Zbar alpha).u k - Z.u k = _
  rw [hu]
  unfold KP.policy
  abel

/-- **C110 on linear-quadratic problems.**  Let the gains come from any routine.  The candidate of the line search for step
`alpha` costs what was announced, up to `1 - alpha` times the residuals of the feedback gains; and the candidate of the full
step costs at most as much as any other trajectory plus the squared residuals over twice the curvature. -/
theorem C110_problem {cs : ℕ → ALCost n m K} {Z Zbar : Traj (Fin n → K) (Fin m → K) K} (h : Swept solve p rho kd r)
    (hE : ExactExpansion p cs Z kd) (hZ : Alternative p Z Z) (ht : SameTimes (kernelBy solve p) Zbar Z) :
    (∀ alpha, trajCost p cs (candidateTraj (kernelBy solve p) r Z Zbar alpha) = trajCost p cs Z + announced p r alpha
      - (1 - alpha) * ∑ k ∈ Finset.range p.N,
        feedbackSlope r k ((candidateTraj (kernelBy solve p) r Z Zbar alpha).x k - Z.x k) ⬝ᵥ (r k).ff) ∧
    (∀ mu, 0 < mu → (∀ k < p.N, ∀ z, mu * (z ⬝ᵥ z) ≤ z ⬝ᵥ (r k).q.dudu *ᵥ z) → ∀ Z', Alternative p Z Z' →
      trajCost p cs (candidateTraj (kernelBy solve p) r Z Zbar 1) ≤ trajCost p cs Z'
        + ∑ k ∈ Finset.range p.N, slope r k (Z'.x k - Z.x k) ⬝ᵥ slope r k (Z'.x k - Z.x k) / (2 * mu)) := by
  have halt : ∀ alpha, Alternative p Z (candidateTraj (kernelBy solve p) r Z Zbar alpha) := fun alpha =>
    { init := rfl
      step := fun k hk => by
        have h1 := ht.t k (le_of_lt hk)
        have h2 := ht.h k hk
        show candidate (kernelBy solve p) r Z Zbar.t Zbar.h alpha (k + 1) = _
        simp only [candidate]
        rw [h1, h2]
        show _ = p.f k _ (if k < p.N then _ else _) _ _
        rw [if_pos hk]
        rfl }
  constructor
  · intro alpha
    obtain ⟨l1, l2⟩ := trajCost_model hE hZ (halt alpha)
    have h0 : (candidateTraj (kernelBy solve p) r Z Zbar alpha).x 0 - Z.x 0 = 0 := by
      rw [(halt alpha).init, hZ.init, sub_self]
    rw [l2, C110_step h alpha _ _ l1 h0 (candidate_obeys r Z Zbar alpha)]
    ring
  · intro mu hmu hcurv Z' hZ'
    obtain ⟨l1, l2⟩ := trajCost_model hE hZ (halt 1)
    obtain ⟨l1', l2'⟩ := trajCost_model hE hZ hZ'
    have h0 : Z'.x 0 - Z.x 0 = (candidateTraj (kernelBy solve p) r Z Zbar 1).x 0 - Z.x 0 := by
      rw [hZ'.init, (halt 1).init]
    have := C110_near_optimal h hmu hcurv _ (fun k => Z'.x k - Z.x k) _ (fun k => Z'.u k - Z.u k) l1
      (candidate_obeys r Z Zbar 1) l1' h0
    rw [l2, l2']
    linarith

/-! ### The whole backward pass -/

theorem gainsBy_frame (d : KP n m K) : (KP.gainsBy solve d).1.cost = d.cost ∧ (KP.gainsBy solve d).1.A = d.A ∧
    (KP.gainsBy solve d).1.B = d.B := by
  unfold KP.gainsBy
  split <;> exact ⟨rfl, rfl, rfl⟩

/-- Stopped sweeps keep the expansions and the data of the last knot point. -/
theorem stops_frame {kd kd' : ℕ → KP n m K} {l : List (Attempt K (KP n m K))} (h : Stops (kernelBy solve p) kd l kd') :
    kd' p.N = kd p.N ∧ ∀ j, (kd' j).cost = (kd j).cost ∧ (kd' j).A = (kd j).A ∧ (kd' j).B = (kd j).B := by
  induction h with
  | nil => exact ⟨rfl, fun j => ⟨rfl, rfl, rfl⟩⟩
  | @cons kd a l kd' hs _ ih =>
    have one : ∀ j, (a.kd j).cost = (kd j).cost ∧ (a.kd j).A = (kd j).A ∧ (a.kd j).B = (kd j).B := by
      intro j
      rcases Nat.lt_trichotomy j a.stop with hj | hj | hj
      · rw [hs.below j hj]; exact ⟨rfl, rfl, rfl⟩
      · subst hj
        rw [hs.here]
        exact gainsBy_frame _
      · by_cases hN : j < p.N
        · rw [(hs.done j hj hN).2]
          exact gainsBy_frame (solve := solve) (((kd j).actionValue (a.kd (j + 1))).regularize a.rho)
        · rw [hs.keeps j (by show p.N ≤ j; omega)]; exact ⟨rfl, rfl, rfl⟩
    refine ⟨ih.1.trans (hs.keeps p.N le_rfl), fun j => ?_⟩
    obtain ⟨a1, a2, a3⟩ := ih.2 j
    obtain ⟨b1, b2, b3⟩ := one j
    exact ⟨a1.trans b1, a2.trans b2, a3.trans b3⟩

/-- **C110 for the backward pass.**  Whenever the backward pass with gains from any routine returns without giving up, after any
number of failed factorizations, the stored policy is that of a sweep to which the theorems above apply, around the same
expansions. -/
theorem C110_backward_pass (o : Opts K) (fuel : ℕ)
    (s s' : St (Fin n → K) (Fin m → K) K (ALCost n m K) (KP n m K))
    (h : backwardPass (kernelBy solve p) o fuel s = some s')
    (hs : s.status ≠ .kBackwardPassRegularizationFailed) (hs' : s'.status ≠ .kBackwardPassRegularizationFailed)
    (hx : ∀ k ≤ p.N, (s.kd k).cost.dxdx.IsSymm) (hu : ∀ k < p.N, (s.kd k).cost.dudu.IsSymm) :
    ∃ kd1 rho, Swept solve p rho kd1 s'.kd ∧
      ∀ j, (kd1 j).cost = (s.kd j).cost ∧ (kd1 j).A = (s.kd j).A ∧ (kd1 j).B = (s.kd j).B := by
  obtain ⟨l, kd1, rho, h1, h2, -⟩ := C22_accumulated (kernelBy solve p) o fuel s s' h hs hs'
  obtain ⟨f1, f2⟩ := stops_frame h1
  have f3 : ∀ j, (kd1 j).cost = (s.kd j).cost ∧ (kd1 j).A = (s.kd j).A ∧ (kd1 j).B = (s.kd j).B := by
    intro j
    obtain ⟨a1, a2, a3⟩ := f2 j
    rw [a1, a2, a3]
    by_cases hj : j = p.N
    · subst hj
      rw [show upd s.kd (kernelBy solve p).N ((kernelBy solve p).term (s.kd (kernelBy solve p).N)) p.N = (s.kd p.N).term from
        upd_self ..]
      exact ⟨rfl, rfl, rfl⟩
    · rw [upd_of_ne (show j ≠ (kernelBy solve p).N from hj)]; exact ⟨rfl, rfl, rfl⟩
  refine ⟨kd1, rho, ⟨h2, ?_, fun k hk => by rw [(f3 k).1]; exact hx k hk, fun k hk => by rw [(f3 k).1]; exact hu k hk⟩, f3⟩
  rw [f1, show upd s.kd (kernelBy solve p).N ((kernelBy solve p).term (s.kd (kernelBy solve p).N)) p.N = (s.kd p.N).term from
    upd_self ..]
  exact ⟨rfl, rfl⟩

end sweep

/-! ### Gains with one decimal

The double integrator of `Props.LQExamples` with gains cut off after the first decimal. -/

/-- The number cut off after the first decimal. -/
def cutOff (q : ℚ) : ℚ := ⌊10 * q⌋ / 10

def cutRoutine : GainRoutine 2 1 ℚ := fun e => (exactRoutine e).map fun g => (g.1.map cutOff, fun i => cutOff (g.2 i))

/-- The state before the backward pass, simulated and expanded. -/
def dblReady := updateExpansions (alKernel dblProblem) (rollout (alKernel dblProblem) dblState)

/-- The backward pass with these gains. -/
def cutPass := backwardPass (kernelBy cutRoutine dblProblem) dblOpts 3 dblReady

/-- The feedforward terms, the residuals at the nominal states and the change announced for the full step. -/
theorem cutPass_report : (cutPass.map fun s => (s.status, [(s.kd 0).ff 0, (s.kd 1).ff 0],
      [slope s.kd 0 0 0, slope s.kd 1 0 0], announced dblProblem s.kd 1)) =
    some (.kUnsolved, [-8 / 5, -19 / 10], [-179 / 500, -1 / 5], -47463 / 5000) := by decide +kernel

/-- The same expansions around the same trajectory are as exact. -/
theorem exactExpansion_congr {n m : ℕ} {K : Type} [Field K] [LinearOrder K] {p : DynProblem n m K} {cs : ℕ → ALCost n m K}
    {Z : Traj (Fin n → K) (Fin m → K) K} {kd kd' : ℕ → KP n m K} (h : ExactExpansion p cs Z kd)
    (e : ∀ j, (kd' j).cost = (kd j).cost ∧ (kd' j).A = (kd j).A ∧ (kd' j).B = (kd j).B) : ExactExpansion p cs Z kd' where
  dyn k hk δx δu := by rw [(e k).2.1, (e k).2.2]; exact h.dyn k hk δx δu
  cost k hk δx δu := by rw [(e k).1]; exact h.cost k hk δx δu
  term δx u := by rw [(e p.N).1]; exact h.term δx u

/-- **C110** for this pass: the full step costs `11 - 47463/5000` (the optimum is `70/47`), exactly as announced, and at most as
much as any other trajectory plus half the squared residuals. -/
example : ∃ s', cutPass = some s' ∧
    trajCost dblProblem dblCosts (candidateTraj (kernelBy cutRoutine dblProblem) s'.kd dblReady.Z dblReady.Z 1) = 11 - 47463 / 5000 ∧
    ∀ Z', Alternative dblProblem dblReady.Z Z' →
      trajCost dblProblem dblCosts (candidateTraj (kernelBy cutRoutine dblProblem) s'.kd dblReady.Z dblReady.Z 1) ≤
        trajCost dblProblem dblCosts Z' + ∑ k ∈ Finset.range 2,
          slope s'.kd k (Z'.x k - dblReady.Z.x k) ⬝ᵥ slope s'.kd k (Z'.x k - dblReady.Z.x k) / (2 * 1) := by
  have hrep := cutPass_report
  cases hb : cutPass with
  | none => rw [hb] at hrep; cases hrep
  | some s' =>
    rw [hb] at hrep
    simp only [Option.map_some, Option.some.injEq, Prod.mk.injEq, List.cons.injEq, and_true] at hrep
    have free : ∀ k, k ≤ 2 → ∃ x u, (dblReady.kd k).cost = ⟨((dblCosts k).cost.hess x u).dxdx,
        ((dblCosts k).cost.hess x u).dxdu, ((dblCosts k).cost.hess x u).dudu, ((dblCosts k).cost.grad x u).1,
        ((dblCosts k).cost.grad x u).2⟩ := fun k hk =>
      ⟨_, _, (expansion_free dblProblem (rollout (alKernel dblProblem) dblState) k hk (dbl_lq.free k hk)).1⟩
    obtain ⟨kd1, rho, hsw, hf⟩ := C110_backward_pass (p := dblProblem) (solve := cutRoutine) dblOpts 3 dblReady s' hb
      (by decide +kernel) (by rw [hrep.1]; decide)
      (fun k hk => by obtain ⟨x, u, e⟩ := free k hk; rw [e]; exact dbl_lq.symx k hk _ _)
      (fun k hk => by obtain ⟨x, u, e⟩ := free k hk.le; rw [e]; exact dbl_lq.symu k hk _ _)
    have hE : ExactExpansion dblProblem dblCosts dblReady.Z kd1 :=
      exactExpansion_congr (C32_expansions_exact dblProblem (rollout (alKernel dblProblem) dblState) dbl_lq) hf
    have hZ : Alternative dblProblem dblReady.Z dblReady.Z :=
      ⟨by decide +kernel, fun k hk => by
        have : k < 2 := hk
        interval_cases k <;> decide +kernel⟩
    obtain ⟨h1, h2⟩ := C110_problem (Zbar := dblReady.Z) hsw hE hZ ⟨fun _ _ => rfl, fun _ _ => rfl⟩
    have hcost : ∀ k ≤ 2, ConvexExp (kd1 k).cost := fun k hk => by
      obtain ⟨x, u, e⟩ := free k hk
      rw [(hf k).1, e]
      exact dbl_convex k _ _
    obtain ⟨_, c2⟩ := C110_convex hsw (fun k hk => hcost k hk.le)
      (fun x => by have h := (hcost 2 le_rfl).psd x 0; simp only [mulVec_zero, dotProduct_zero, mul_zero, add_zero] at h; exact h)
    refine ⟨s', rfl, ?_, fun Z' hZ' => h2 1 one_pos (fun k hk z => le_trans ?_ (c2 k hk z)) Z' hZ'⟩
    · rw [h1 1, hrep.2.2.2, show trajCost dblProblem dblCosts dblReady.Z = 11 by decide +kernel]
      norm_num
    · have hk : k < 2 := hk
      have e : (dblCosts k).cost = dblStage := by simp [dblCosts, ALCost.new, (show k ≠ 2 by omega)]
      obtain ⟨x, u, e'⟩ := free k hk.le
      rw [(hf k).1, e']
      show _ ≤ z ⬝ᵥ ((dblCosts k).cost.hess _ _).dudu *ᵥ z
      rw [e]
      simp [dblStage, dotProduct, mulVec]

end Altro.Props
