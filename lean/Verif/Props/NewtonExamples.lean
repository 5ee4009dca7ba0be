import Verif.Props.Newton
import Verif.Props.Repeat

/-!
# C100: a concrete case

One segment, `x₁ = x₀ + u`, objective `u²/2 + c u⁴/4 + x₁²/2` with `c ≥ 0`, the constraint `u ≥ -1/2`, penalty `1`, multiplier `0`, initial state
`5/2 + c`.  The augmented cost is least at `u = -1`, where the constraint is violated (so its penalty is active); it is not twice
differentiable at `u = -1/2`.
-/

namespace Altro.Props
open Altro.Spec Matrix ILQR

noncomputable section example100
variable (c : ℝ)

def quartProblem : DynProblem 1 1 ℝ where
  N := 1
  x0 := fun _ => 5 / 2 + c
  f _ x u _ _ := x + u
  jac _ _ _ _ _ := (1, 1)
  normX x := |x 0|
  normU u := |u 0|

def quartStage : CostFun 1 1 ℝ where
  eval _ u := u 0 ^ 2 / 2 + c * (u 0 ^ 4 / 4)
  grad _ u := (0, fun _ => u 0 + c * u 0 ^ 3)
  hess _ u := ⟨0, 0, fun _ _ => 1 + 3 * c * u 0 ^ 2⟩

def quartTerm : CostFun 1 1 ℝ where
  eval x _ := x 0 ^ 2 / 2
  grad x _ := (fun _ => x 0, 0)
  hess _ _ := ⟨1, 0, 0⟩

/-- `-1/2 - u ≤ 0` -/
def quartCon : Con 1 1 ℝ where
  p := 1
  hp := Nat.one_pos
  eval _ u := fun _ => -(1 / 2) - u 0
  jac _ _ := fun _ j => Sum.elim (fun _ => 0) (fun _ => -1) j

def quartCosts : ℕ → ALCost 1 1 ℝ
  | 0 => ALCost.new (quartStage c) [] [quartCon]
  | _ => ALCost.new quartTerm [] []

def quartBest : Traj (Fin 1 → ℝ) (Fin 1 → ℝ) ℝ where
  x k := if k = 0 then fun _ => 5 / 2 + c else fun _ => 3 / 2 + c
  u k := if k = 0 then fun _ => -1 else 0
  t _ := 0
  h _ := 1

theorem quartCon_affine : AffineCon quartCon := by
  intro x u δx δu
  have key : (fun _ => -(1 / 2) - (u 0 + δu 0) : Fin 1 → ℝ) = (fun _ => -(1 / 2) - u 0)
      + (Matrix.of fun (_ : Fin 1) (_ : Fin 1) => (0 : ℝ)) *ᵥ δx + (Matrix.of fun (_ : Fin 1) (_ : Fin 1) => (-1 : ℝ)) *ᵥ δu := by
    funext i
    simp [mulVec, dotProduct]
    ring
  exact key

theorem quartCosts_ineq {k : ℕ} {v : ConVal .inequality 1 1 ℝ} (hv : v ∈ (quartCosts c k).ineq) :
    k = 0 ∧ v = ConVal.new .inequality quartCon := by
  match k with
  | 0 => exact ⟨rfl, List.mem_singleton.mp hv⟩
  | _ + 1 => cases hv

theorem quartCosts_eq {k : ℕ} {v : ConVal .equality 1 1 ℝ} (hv : v ∈ (quartCosts c k).eq) : False := by
  match k with
  | 0 => cases hv
  | _ + 1 => cases hv

theorem quart_stage_eval (x u : Fin 1 → ℝ) : ((quartCosts c 0).evaluate x u).1
    = u 0 ^ 2 / 2 + c * (u 0 ^ 4 / 4) + min 0 (u 0 + 1 / 2) ^ 2 / 2 := by
  rw [C02_evaluate_eq]
  have h1 : ((ConVal.new .inequality quartCon).augLag x u).1 = min 0 (u 0 + 1 / 2) ^ 2 / 2 := by
    rw [C02_auglag_inequality _ _ _ (show (0 : ℝ) < 1 from one_pos)]
    have : (∑ i, ineqTerm (ConVal.new .inequality quartCon).rho ((ConVal.new .inequality quartCon).lam i)
        ((ConVal.new .inequality quartCon).con.eval x u i)) = ineqTerm 1 0 (-(1 / 2) - u 0) :=
      Fin.sum_univ_one (fun i : Fin 1 => ineqTerm (1 : ℝ) 0 (-(1 / 2) - u 0))
    rw [this, ineqTerm_eq _ _ _ one_pos]
    have e : (0 : ℝ) - 1 * (-(1 / 2) - u 0) = u 0 + 1 / 2 := by ring
    rw [e]; ring
  show _ + ([] : List ℝ).sum + ([((ConVal.new .inequality quartCon).augLag x u).1] : List ℝ).sum = _
  rw [h1]
  simp [quartStage, quartCosts, ALCost.new]

theorem quart_term_eval (x u : Fin 1 → ℝ) : ((quartCosts c 1).evaluate x u).1 = x 0 ^ 2 / 2 := by
  rw [C02_evaluate_eq]
  show x 0 ^ 2 / 2 + ([] : List ℝ).sum + ([] : List ℝ).sum = _
  simp

/-- A function of one coordinate. -/
theorem isGradAt_u {g : ℝ → ℝ} {g' : ℝ} (x u : Fin 1 → ℝ) (h : HasDerivAt g g' (u 0)) :
    IsGradAt (fun _ u => g (u 0)) (0 : Fin 1 → ℝ) (fun _ => g') x u := by
  have hp : HasFDerivAt (fun z : Z 1 1 => z.2 0) (gradCLM (0 : Fin 1 → ℝ) (fun _ : Fin 1 => (1 : ℝ))) (x, u) := by
    have e : (fun z : Z 1 1 => z.2 0) = fun z => gradCLM (0 : Fin 1 → ℝ) (fun _ : Fin 1 => (1 : ℝ)) z := by
      funext z; simp [dotProduct]
    rw [e]
    exact (gradCLM _ _).hasFDerivAt
  have h1 := HasDerivAt.comp_hasFDerivAt (x, u) (f := fun z : Z 1 1 => z.2 0) h hp
  unfold IsGradAt
  refine h1.congr_fderiv ?_
  refine ContinuousLinearMap.ext fun z => ?_
  simp [dotProduct]

theorem isGradAt_x {g : ℝ → ℝ} {g' : ℝ} (x u : Fin 1 → ℝ) (h : HasDerivAt g g' (x 0)) :
    IsGradAt (fun x _ => g (x 0)) (fun _ => g') (0 : Fin 1 → ℝ) x u := by
  have hp : HasFDerivAt (fun z : Z 1 1 => z.1 0) (gradCLM (fun _ : Fin 1 => (1 : ℝ)) (0 : Fin 1 → ℝ)) (x, u) := by
    have e : (fun z : Z 1 1 => z.1 0) = fun z => gradCLM (fun _ : Fin 1 => (1 : ℝ)) (0 : Fin 1 → ℝ) z := by
      funext z; simp [dotProduct]
    rw [e]
    exact (gradCLM _ _).hasFDerivAt
  have h1 := HasDerivAt.comp_hasFDerivAt (x, u) (f := fun z : Z 1 1 => z.1 0) h hp
  unfold IsGradAt
  refine h1.congr_fderiv ?_
  refine ContinuousLinearMap.ext fun z => ?_
  simp [dotProduct]

variable {c}

theorem quart_knot (hc : 0 ≤ c) : ∀ k, NewtonKnot (quartCosts c k)
  | 0 => by
    refine ⟨fun x u => ?_, fun x u => ⟨?_, ?_, fun δx δu => ?_⟩, fun v hv => (quartCosts_eq c hv).elim, fun v hv => ?_, fun v hv => ?_⟩
    · refine isGradAt_u (g := fun w => w ^ 2 / 2 + c * (w ^ 4 / 4)) (g' := u 0 + c * u 0 ^ 3) x u ?_
      have h2 := ((hasDerivAt_id (u 0)).pow 2).div_const 2
      have h4 := (((hasDerivAt_id (u 0)).pow 4).div_const 4).const_mul c
      refine (h2.add h4).congr_deriv ?_
      simp
    · funext i j; rfl
    · funext i j; rfl
    · simp [quartCosts, ALCost.new, quartStage, quadForm, dotProduct, mulVec]
      have : 0 ≤ 1 + 3 * c * u 0 ^ 2 := by positivity
      nlinarith [mul_nonneg this (mul_self_nonneg (δu 0))]
    · rw [(quartCosts_ineq c hv).2]; exact quartCon_affine
    · rw [(quartCosts_ineq c hv).2]; exact fun _ _ _ => rfl
  | k + 1 => by
    refine ⟨fun x u => ?_, fun x u => ⟨?_, ?_, fun δx δu => ?_⟩, fun v hv => (quartCosts_eq c hv).elim, fun v hv => ?_, fun v hv => ?_⟩
    · refine isGradAt_x (g := fun w => w ^ 2 / 2) (g' := x 0) x u ?_
      refine (((hasDerivAt_id (x 0)).pow 2).div_const 2).congr_deriv ?_
      simp
    · exact transpose_one
    · exact transpose_zero
    · simp [quartCosts, ALCost.new, quartTerm, quadForm, dotProduct, mulVec]
      exact mul_self_nonneg _
    · exact absurd (quartCosts_ineq c hv).1 (Nat.succ_ne_zero k)
    · exact absurd (quartCosts_ineq c hv).1 (Nat.succ_ne_zero k)

theorem quart_near {x u : Fin 1 → ℝ} (h : knotDist (quartProblem c).N (quartBest c) 0 x u ≤ 1) : -2 ≤ u 0 ∧ u 0 ≤ 0 := by
  have e : knotDist (quartProblem c).N (quartBest c) 0 x u = (x 0 - (5 / 2 + c)) * (x 0 - (5 / 2 + c)) + (u 0 + 1) * (u 0 + 1) := by
    simp [knotDist, quartProblem, quartBest, dotProduct]
  rw [e] at h
  constructor <;> nlinarith [mul_self_nonneg (x 0 - (5 / 2 + c))]

/-- The problem meets the hypotheses, with `L = 6 c`. -/
theorem quart_newton (hc : 0 ≤ c) : NewtonProblem (quartProblem c) (quartCosts c) (quartBest c) 1 (1 + 12 * c) (6 * c) 1 1 where
  dyn k _ x u t h δx δu := by
    show x + δx + (u + δu) = x + u + (1 : Matrix (Fin 1) (Fin 1) ℝ) *ᵥ δx + (1 : Matrix (Fin 1) (Fin 1) ℝ) *ᵥ δu
    rw [one_mulVec, one_mulVec]; abel
  knot k _ := quart_knot hc k
  strong k hk x u δx δu := by
    obtain rfl : k = 0 := by have : (quartProblem c).N = 1 := rfl; omega
    simp [quartCosts, ALCost.new, quartStage, quadForm, dotProduct, mulVec]
    have : 0 ≤ 3 * c * u 0 ^ 2 := by positivity
    nlinarith [mul_nonneg this (mul_self_nonneg (δu 0))]
  bound k hk x u hx δx δu := by
    match k with
    | 0 =>
      obtain ⟨h1, h2⟩ := quart_near hx
      simp [quartCosts, ALCost.new, quartStage, quadForm, dotProduct, mulVec]
      have h3 : u 0 ^ 2 ≤ 4 := by nlinarith
      have h4 : 0 ≤ c * (4 - u 0 ^ 2) := mul_nonneg hc (by linarith)
      nlinarith [mul_nonneg h4 (mul_self_nonneg (δu 0)), mul_nonneg hc (mul_self_nonneg (δx 0)), mul_self_nonneg (δx 0)]
    | k + 1 =>
      simp [quartCosts, ALCost.new, quartTerm, quadForm, dotProduct, mulVec]
      nlinarith [mul_nonneg hc (mul_self_nonneg (δx 0)), mul_nonneg hc (mul_self_nonneg (δu 0)), mul_self_nonneg (δx 0),
        mul_self_nonneg (δu 0)]
  follow k hk x u δx δu hx hx' hu := by
    match k with
    | 0 =>
      obtain ⟨h1, h2⟩ := quart_near hx
      obtain ⟨h3, h4⟩ := quart_near hx'
      simp only [Pi.add_apply] at h3 h4
      have e : hessError (quartCosts c 0).cost x u δx δu = (c * (δu 0 ^ 2 * (3 * u 0 + δu 0))) ^ 2 := by
        simp [hessError, quartCosts, ALCost.new, quartStage, dotProduct, mulVec]
        ring
      rw [e]
      have h5 : |c * (δu 0 ^ 2 * (3 * u 0 + δu 0))| ≤ 6 * c * (δx ⬝ᵥ δx + δu ⬝ᵥ δu) := by
        have h6 : |3 * u 0 + δu 0| ≤ 6 := abs_le.mpr ⟨by linarith, by linarith⟩
        rw [abs_mul, abs_mul, abs_of_nonneg hc, abs_of_nonneg (sq_nonneg _)]
        have h7 : δx ⬝ᵥ δx + δu ⬝ᵥ δu = δx 0 * δx 0 + δu 0 * δu 0 := by simp [dotProduct]
        rw [h7]
        have h8 := mul_le_mul_of_nonneg_left h6 (mul_nonneg hc (sq_nonneg (δu 0)))
        nlinarith [mul_nonneg hc (mul_self_nonneg (δx 0))]
      exact sq_le_sq' (by linarith [abs_le.mp h5 |>.1]) (abs_le.mp h5).2
    | k + 1 =>
      have e : hessError (quartCosts c (k + 1)).cost x u δx δu = 0 := by
        simp [hessError, quartCosts, ALCost.new, quartTerm, dotProduct, mulVec]
      rw [e]
      positivity
  pen k _ := ⟨fun v hv => (quartCosts_eq c hv).elim, fun v hv => by rw [(quartCosts_ineq c hv).2]; exact fun _ => rfl⟩
  kink k _ v hv := by
    obtain ⟨rfl, rfl⟩ := quartCosts_ineq c hv
    intro i
    show (0 : ℝ) ≠ 1 * (-(1 / 2) - (quartBest c).u 0 0)
    simp [quartBest]
    norm_num
  term _ _ _ := rfl
  termEq v hv := (quartCosts_eq c hv).elim
  termIneq v hv := absurd (quartCosts_ineq c hv).1 Nat.one_ne_zero
  feas := ⟨rfl, fun k hk => by
    obtain rfl : k = 0 := by have : (alKernel (quartProblem c)).N = 1 := rfl; omega
    show (quartBest c).x 1 = (quartBest c).x 0 + (quartBest c).u 0
    funext i
    simp [quartBest]
    ring⟩
  best Y' hY := by
    have h0 := hY.init
    have h1 : Y'.x 1 = Y'.x 0 + Y'.u 0 := hY.step 0 Nat.one_pos
    have e : ∀ Z : Traj (Fin 1 → ℝ) (Fin 1 → ℝ) ℝ, trajCost (quartProblem c) (quartCosts c) Z
        = Z.u 0 0 ^ 2 / 2 + c * (Z.u 0 0 ^ 4 / 4) + min 0 (Z.u 0 0 + 1 / 2) ^ 2 / 2 + Z.x 1 0 ^ 2 / 2 := fun Z => by
      show ∑ k ∈ Finset.range 2, _ = _
      rw [Finset.sum_range_succ, Finset.sum_range_one, quart_stage_eval, quart_term_eval]
    rw [e, e, h1, h0]
    have hb : (quartBest c).u 0 0 = -1 := by simp [quartBest]
    have hb1 : (quartBest c).x 1 0 = 3 / 2 + c := by simp [quartBest]
    rw [hb, hb1]
    have hx0 : ((quartProblem c).x0 + Y'.u 0) 0 = 5 / 2 + c + Y'.u 0 0 := rfl
    rw [hx0]
    generalize Y'.u 0 0 = u
    have hm : min 0 (u + 1 / 2) ≤ u + 1 / 2 := min_le_right _ _
    have hm1 : min (0 : ℝ) (-1 + 1 / 2) = -(1 / 2) := by rw [min_eq_right (by norm_num)]; norm_num
    rw [hm1]
    have h4 : 0 ≤ c * (u ^ 4 / 4 - 1 / 4 + (u + 1)) :=
      mul_nonneg hc (by nlinarith [sq_nonneg (u ^ 2 - 1), sq_nonneg (u + 1)])
    nlinarith [sq_nonneg (min 0 (u + 1 / 2) + 1 / 2), sq_nonneg (u + 1)]

/-- A solver state with the control `w`. -/
def quartState (c w : ℝ) : St (Fin 1 → ℝ) (Fin 1 → ℝ) ℝ (ALCost 1 1 ℝ) (KP 1 1 ℝ) where
  Z := { x := fun _ => 0, u := fun _ _ => w, t := fun _ => 0, h := fun _ => 1 }
  Zbar := { x := fun _ => 0, u := fun _ => 0, t := fun _ => 0, h := fun _ => 1 }
  kd := fun _ => KP.new
  cs := quartCosts c
  costs := fun _ => 0
  status := .kUnsolved
  rho := 0
  drho := 0
  dV0 := 0
  dV1 := 0
  stats := Stats.new

theorem quartState_dist (c w : ℝ) : gapSq (quartProblem c).N (quartState c w).Z (quartBest c) = (w + 1) ^ 2 := by
  show ∑ k ∈ Finset.range 1, _ = _
  rw [Finset.sum_range_one]
  simp [quartState, quartBest, dotProduct]
  ring

/-- C100 for this problem: there is an interval around `-1` from which the default options, with the regularization between `0` and any `b` up
to some bound, lead to `kSolved` in a number of iterations that depends on the tolerances only, and large limits on states and controls
do not matter. -/
example (hc : 0 ≤ c) : ∃ r rb : ℝ, 0 < r ∧ 0 < rb ∧ ∀ b, 0 ≤ b → b ≤ rb → ∃ T : ℕ, ∀ w, (w + 1) ^ 2 ≤ r → ∀ fuel : ℕ, ∃ B, ∀ x u, B ≤ x → B ≤ u →
    ∃ t i, ILQR.solve (alKernel (quartProblem c)) { Opts.default (fun q : ℚ => (q : ℝ)) with
        regMin := b, maxInner := T + 2, maxTotal := T + 2, stateMax := x, controlMax := u } (fuel + 1) (quartState c w) = some t ∧
      t.status = .kSolved ∧ 1 ≤ i ∧ i ≤ T + 2 ∧ t.stats.total ≤ i ∧ (t.Z.u 0 0 + 1) ^ 2 ≤ (1 / 2) ^ i * (w + 1) ^ 2 := by
  obtain ⟨r, rb, hr, hrb, H⟩ := C100_converges (quart_newton hc) one_pos (by positivity) (by positivity) one_pos one_pos Nat.one_ne_zero
  refine ⟨r, rb, hr, hrb, fun b hb0 hb => ?_⟩
  obtain ⟨T, H⟩ := H (1 / 10 ^ 4) (by norm_num)
  refine ⟨T, fun w hw fuel => ?_⟩
  obtain ⟨B, hB⟩ := C99_large (alKernel (quartProblem c)) { Opts.default (fun q : ℚ => (q : ℝ)) with
        regMin := b, maxInner := T + 2, maxTotal := T + 2 } (fuel + 1) (quartState c w)
  refine ⟨B, fun x u hx hu => ?_⟩
  obtain ⟨t, i, e1, e2, e3, e4, e5, e6, e7⟩ := H (unlimited { Opts.default (fun q : ℚ => (q : ℝ)) with
        regMin := b, maxInner := T + 2, maxTotal := T + 2 }) fuel
    (by
      refine ⟨?_, ?_, hb0, hb, ?_, ?_, rfl, ?_, ?_, ?_⟩ <;> simp only [unlimited, Opts.default] <;> norm_num
      exact hrb.le)
    (by simp only [unlimited, Opts.default]; norm_num) (by simp only [unlimited, Opts.default]; norm_num)
    (by simp only [unlimited, Opts.default]; norm_num) (quartState c w) rfl ⟨fun _ _ => rfl, fun _ _ => rfl⟩ aligned_new
    (by rw [quartState_dist]; exact hw) (by simp only [unlimited]; omega)
    (by
      have : (quartState c w).stats.total = 0 := rfl
      rw [this]; simp only [unlimited]; omega)
  rw [← hB x u hx hu] at e1
  have h0 : (quartState c w).stats.total = 0 := rfl
  rw [h0] at e6
  refine ⟨t, i, e1, e2, e4, e5, by omega, ?_⟩
  rw [quartState_dist] at e7
  have e8 : gapSq (quartProblem c).N t.Z (quartBest c) = (t.Z.u 0 0 + 1) ^ 2 := by
    show ∑ k ∈ Finset.range 1, _ = _
    rw [Finset.sum_range_one]
    simp [quartBest, dotProduct]
    ring
  rw [e8] at e7
  exact e7

/-- Without the quartic term and without regularization: from any control near enough to `-1`, the control `-1` exactly. -/
example : ∃ r : ℝ, 0 < r ∧ ∀ w, (w + 1) ^ 2 ≤ r → ∀ fuel : ℕ, ∃ t,
    ILQR.solve (alKernel (quartProblem 0)) { Opts.default (fun q : ℚ => (q : ℝ)) with regMin := 0, checkBounds := false } (fuel + 1)
      (quartState 0 w) = some t ∧ t.status = .kSolved ∧ t.stats.total ≤ 3 ∧ t.Z.u 0 0 = -1 ∧ t.Z.x 1 0 = 3 / 2 := by
  obtain ⟨r, hr, H⟩ := C100_exact (by simpa using quart_newton (c := 0) le_rfl) one_pos zero_le_one one_pos one_pos Nat.one_ne_zero
  refine ⟨r, hr, fun w hw fuel => ?_⟩
  obtain ⟨t, e1, e2, e3, e4, e5⟩ := H { Opts.default (fun q : ℚ => (q : ℝ)) with regMin := 0, checkBounds := false } fuel
    (by refine ⟨?_, ?_, ?_, ?_, ?_, ?_, rfl, ?_, ?_, ?_⟩ <;> simp only [Opts.default] <;> norm_num)
    (by simp only [Opts.default]; norm_num) (by simp only [Opts.default]; norm_num) (quartState 0 w) rfl
    ⟨fun _ _ => rfl, fun _ _ => rfl⟩ aligned_new (by rw [quartState_dist]; exact hw) (by simp only [Opts.default]; norm_num)
    (by
      have : (quartState 0 w).stats.total = 0 := rfl
      rw [this]; simp only [Opts.default]; norm_num)
  refine ⟨t, e1, e2, e3, ?_, ?_⟩
  · rw [e4 0 Nat.one_pos]; simp [quartBest]
  · rw [e5 1 le_rfl]; simp [quartBest]

end example100

end Altro.Props
