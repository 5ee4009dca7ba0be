import Verif.Proofs.RungeKutta
import Mathlib.Analysis.Complex.ExponentialBounds
import Mathlib.Analysis.Calculus.Deriv.Shift

/-!
# Error of the integrators over many steps
-/

set_option maxSynthPendingDepth 3

namespace Altro.RK
open Set Metric

variable {E : Type} [NormedAddCommGroup E] [NormedSpace ℝ E]

/-- `y` solves `y' = g y` on `[a, b]`: it is continuous and its right derivative is `g y`. -/
structure Solves (g : E → E) (y : ℝ → E) (a b : ℝ) : Prop where
  cont : ContinuousOn y (Icc a b)
  deriv : ∀ t ∈ Ico a b, HasDerivWithinAt y (g (y t)) (Ici t) t

/-- `g` is bounded and Lipschitz near `x`, with derivatives at `x`. -/
structure Tame (g : E → E) (x : E) (M : ℝ) : Prop where
  jet : Nonempty (Jet g x M)
  lip : ∀ z ∈ closedBall x 3, ∀ w ∈ closedBall x 3, ‖g z - g w‖ ≤ M * ‖z - w‖
  bnd : ∀ z ∈ closedBall x 3, ‖g z‖ ≤ M

variable {g : E → E} {x : E} {M : ℝ}

/-- The constant of the defect. -/
noncomputable def dc (M : ℝ) : ℝ := ec M (M ^ 3) (M ^ 4)

/-- The constant of the local error. -/
noncomputable def lc (M : ℝ) : ℝ := Jet.c2 M + Jet.c3 M + Jet.c4 M + 3 * dc M

/-- Steps must be so small that this product is at most one. -/
noncomputable def sc (M : ℝ) : ℝ := 1 + M + 3 * M ^ 3 + 3 * M ^ 4 + Jet.c2 M + Jet.c3 M

theorem consts (hM : 1 ≤ M) : 0 ≤ dc M ∧ 0 ≤ Jet.c2 M ∧ 0 ≤ Jet.c3 M ∧ 0 ≤ Jet.c4 M := by
  have M0 : 0 ≤ M := by linarith
  have C2 : 0 ≤ Jet.c2 M := ec_nonneg M0 (by positivity) le_rfl
  have C3 : 0 ≤ Jet.c3 M := ec_nonneg M0 (by positivity) (by positivity)
  exact ⟨ec_nonneg M0 (by positivity) (by positivity), C2, C3, ec_nonneg M0 (by positivity) (by positivity)⟩

theorem lc_nonneg (hM : 1 ≤ M) : 0 ≤ lc M := by
  obtain ⟨h1, h2, h3, h4⟩ := consts hM
  unfold lc; positivity

theorem sc_pos (hM : 1 ≤ M) : 1 ≤ sc M := by
  obtain ⟨h1, h2, h3, h4⟩ := consts hM
  unfold sc
  have : 0 ≤ 3 * M ^ 3 := by positivity
  have : 0 ≤ 3 * M ^ 4 := by positivity
  linarith

/-- What small steps give. -/
theorem small_step (hM : 1 ≤ M) {h : ℝ} (h0 : 0 ≤ h) (hs : h * sc M ≤ 1) :
    h ≤ 1 ∧ h * M ≤ 1 ∧ h * (3 * M ^ 3 + 0) ≤ 1 ∧ h * (3 * M ^ 3 + M ^ 4) ≤ 1 ∧ h * (3 * M ^ 3 + (M ^ 4 + Jet.c2 M)) ≤ 1 ∧
      h * (3 * M ^ 3 + (M ^ 4 + M ^ 4 + M ^ 4 + Jet.c3 M)) ≤ 1 := by
  obtain ⟨-, a2, a3, -⟩ := consts hM
  have p3 : 0 ≤ M ^ 3 := by positivity
  have p4 : 0 ≤ M ^ 4 := by positivity
  have key : ∀ b, b ≤ sc M → h * b ≤ 1 := fun b hb => (mul_le_mul_of_nonneg_left hb h0).trans hs
  unfold sc at key
  refine ⟨?_, key _ ?_, key _ ?_, key _ ?_, key _ ?_, key _ ?_⟩ <;> first | linarith | skip
  have := key 1 (by linarith)
  linarith

theorem exp_sub_one {z : ℝ} (h0 : 0 ≤ z) (h1 : z ≤ 1) : Real.exp z - 1 ≤ 3 * z := by
  have h := Real.add_one_le_exp (-z)
  rw [Real.exp_neg] at h
  have he := Real.exp_pos z
  have h3 : Real.exp z ≤ 3 := (Real.exp_le_exp.mpr h1).trans (by linarith [Real.exp_one_lt_d9])
  have : (-z + 1) * Real.exp z ≤ 1 := by
    have := mul_le_mul_of_nonneg_right h he.le
    rwa [inv_mul_cancel₀ he.ne'] at this
  nlinarith

/-- One step against the solution. -/
theorem local_error (hM : 1 ≤ M) (T : Tame g x M) {y : ℝ → E} {a h : ℝ} (h0 : 0 ≤ h) (hs : h * sc M ≤ 1) (hy : Solves g y a (a + h))
    (ha : y a = x) (hb : ∀ t ∈ Ico a (a + h), ‖g (y t)‖ ≤ M) : ‖step g x h - y (a + h)‖ ≤ lc M * h ^ 5 := by
  obtain ⟨J⟩ := T.jet
  obtain ⟨s1, s2, s3, s4, s5, s6⟩ := small_step hM h0 hs
  obtain ⟨d0, -, -, -⟩ := consts hM
  have M0 : 0 < M := by linarith
  have near : ∀ t ∈ Icc a (a + h), ‖y t - x‖ ≤ 1 := by
    intro t ht
    have := norm_image_sub_le_of_norm_deriv_right_le_segment hy.cont hy.deriv hb t ht
    rw [ha] at this
    have : M * (t - a) ≤ M * h := mul_le_mul_of_nonneg_left (by linarith [ht.2]) M0.le
    linarith
  have hdef : ∀ t ∈ Ico a (a + h), ‖J.dpoly (t - a) - g (J.poly (t - a))‖ ≤ dc M * h ^ 4 ∧ ‖J.poly (t - a) - x‖ ≤ 1 := by
    intro t ht
    have t0 : 0 ≤ t - a := by linarith [ht.1]
    have th : t - a ≤ h := by linarith [ht.2]
    obtain ⟨u1, u2⟩ := J.defect hM t0 (th.trans s1) ((mul_le_mul_of_nonneg_right th (by positivity)).trans s4)
    exact ⟨u1.trans (mul_le_mul_of_nonneg_left (pow_le_pow_left₀ t0 th 4) d0), u2⟩
  have hpd : ∀ t, HasDerivAt (fun t => J.poly (t - a)) (J.dpoly (t - a)) t := fun t => HasDerivAt.comp_sub_const t a (J.poly_deriv (t - a))
  have hg := dist_le_of_approx_trajectories_ODE_of_mem (v := fun _ => g) (s := fun _ => closedBall x 3) (K := M.toNNReal) (f := y)
    (g := fun t => J.poly (t - a)) (f' := fun t => g (y t)) (g' := fun t => J.dpoly (t - a)) (εf := 0) (εg := dc M * h ^ 4) (δ := 0)
    (a := a) (b := a + h) (fun t _ => LipschitzOnWith.of_dist_le_mul fun z hz w hw => by
      rw [dist_eq_norm, dist_eq_norm, Real.coe_toNNReal M M0.le]; exact T.lip z hz w hw)
    hy.cont hy.deriv (fun t _ => by simp) (fun t ht => by
      rw [mem_closedBall, dist_eq_norm]; linarith [near t ⟨ht.1, ht.2.le⟩])
    (fun t _ => (hpd t).continuousAt.continuousWithinAt) (fun t _ => (hpd t).hasDerivWithinAt)
    (fun t ht => by rw [dist_eq_norm]; exact (hdef t ht).1)
    (fun t ht => by rw [mem_closedBall, dist_eq_norm]; linarith [(hdef t ht).2])
    (by
      have : J.poly (a - a) = x := by simp [Jet.poly]
      simp only [this, ha, dist_self, le_refl])
    (a + h) ⟨by linarith, le_rfl⟩
  rw [dist_eq_norm, add_sub_cancel_left, zero_add, Real.coe_toNNReal M M0.le, gronwallBound_of_K_ne_0 M0.ne'] at hg
  have he : 0 * Real.exp (M * h) + dc M * h ^ 4 / M * (Real.exp (M * h) - 1) ≤ 3 * dc M * h ^ 5 := by
    have := exp_sub_one (z := M * h) (by positivity) (by linarith)
    have e : dc M * h ^ 4 / M * (3 * (M * h)) = 3 * dc M * h ^ 5 := by field_simp
    rw [zero_mul, zero_add, ← e]
    exact mul_le_mul_of_nonneg_left this (by positivity)
  have hp := J.step_poly hM h0 s1 s3 s5 s6
  have e : step g x h - y (a + h) = (step g x h - J.poly h) - (y (a + h) - J.poly h) := by abel
  rw [e]
  refine (norm_sub_le _ _).trans ?_
  unfold lc
  have := hg.trans he
  nlinarith

/-- The Lipschitz constant of the method. -/
noncomputable def Lam (M : ℝ) : ℝ := M * (1 + M) ^ 3

theorem step_lip (hM : 1 ≤ M) (T : Tame g x M) {z : E} {h : ℝ} (h0 : 0 ≤ h) (hs : h * sc M ≤ 1) (hz : ‖z - x‖ ≤ 1) :
    ‖step g z h - step g x h‖ ≤ (1 + h * Lam M) * ‖z - x‖ := by
  obtain ⟨s1, s2, -, -, -, -⟩ := small_step hM h0 hs
  have M0 : 0 < M := by linarith
  set d := ‖z - x‖ with hd
  have d0 : 0 ≤ d := norm_nonneg _
  -- points reached from x and z
  have inx : ∀ (c : ℝ) (k : E), 0 ≤ c → c ≤ h → ‖k‖ ≤ M → x + c • k ∈ closedBall x 3 := by
    intro c k c0 ch hk
    rw [mem_closedBall, dist_eq_norm, add_sub_cancel_left, norm_smul, Real.norm_of_nonneg c0]
    have : c * ‖k‖ ≤ h * M := mul_le_mul ch hk (norm_nonneg _) h0
    linarith
  have inz : ∀ (c : ℝ) (k : E), 0 ≤ c → c ≤ h → ‖k‖ ≤ M → z + c • k ∈ closedBall x 3 := by
    intro c k c0 ch hk
    rw [mem_closedBall, dist_eq_norm, show z + c • k - x = (z - x) + c • k by abel]
    have : c * ‖k‖ ≤ h * M := mul_le_mul ch hk (norm_nonneg _) h0
    have := norm_add_le (z - x) (c • k)
    rw [norm_smul, Real.norm_of_nonneg c0] at this
    linarith
  have stage : ∀ (c : ℝ) (k l : E) (B : ℝ), 0 ≤ c → c ≤ h → ‖k‖ ≤ M → ‖l‖ ≤ M → ‖k - l‖ ≤ M * B * d → 0 ≤ B → 1 + M * B ≤ B * (1 + M) →
      ‖g (z + c • k)‖ ≤ M ∧ ‖g (x + c • l)‖ ≤ M ∧ ‖g (z + c • k) - g (x + c • l)‖ ≤ M * (B * (1 + M)) * d := by
    intro c k l B c0 ch hk hl hkl hB hB'
    refine ⟨T.bnd _ (inz c k c0 ch hk), T.bnd _ (inx c l c0 ch hl), (T.lip _ (inz c k c0 ch hk) _ (inx c l c0 ch hl)).trans ?_⟩
    rw [show z + c • k - (x + c • l) = (z - x) + c • (k - l) by module, mul_assoc]
    refine mul_le_mul_of_nonneg_left ?_ M0.le
    have := norm_add_le (z - x) (c • (k - l))
    rw [norm_smul, Real.norm_of_nonneg c0] at this
    have h1 : c * ‖k - l‖ ≤ 1 * (M * B * d) := mul_le_mul (ch.trans s1) hkl (norm_nonneg _) zero_le_one
    have h2 : (1 + M * B) * d ≤ B * (1 + M) * d := mul_le_mul_of_nonneg_right hB' d0
    nlinarith
  have hx3 : x ∈ closedBall x 3 := mem_closedBall_self (by norm_num)
  have hz3 : z ∈ closedBall x 3 := by rw [mem_closedBall, dist_eq_norm]; linarith
  have k1 : ‖g z - g x‖ ≤ M * 1 * d := by rw [mul_one]; exact T.lip z hz3 x hx3
  have half : (1 / 2 * h) ≤ h := by linarith
  have hm2 : 1 + M * (1 + M) ≤ (1 + M) * (1 + M) := by nlinarith
  have hm3 : 1 + M * ((1 + M) * (1 + M)) ≤ (1 + M) * (1 + M) * (1 + M) := by nlinarith [mul_self_nonneg M]
  obtain ⟨b2, b2', k2⟩ := stage (1 / 2 * h) (g z) (g x) 1 (by positivity) half (T.bnd z hz3) (T.bnd x hx3) k1 (by norm_num) (by linarith)
  rw [one_mul] at k2
  obtain ⟨b3, b3', k3⟩ := stage (1 / 2 * h) _ _ (1 + M) (by positivity) half b2 b2' k2 (by positivity) hm2
  obtain ⟨b4, b4', k4⟩ := stage h _ _ ((1 + M) * (1 + M)) h0 le_rfl b3 b3' k3 (by positivity) hm3
  set u1 := g z
  set u2 := g (z + (1 / 2 * h) • u1)
  set u3 := g (z + (1 / 2 * h) • u2)
  set u4 := g (z + h • u3)
  set w1 := g x
  set w2 := g (x + (1 / 2 * h) • w1)
  set w3 := g (x + (1 / 2 * h) • w2)
  set w4 := g (x + h • w3)
  have e : step g z h - step g x h = (z - x) + (h / 6) • ((u1 - w1) + (2 : ℝ) • (u2 - w2) + (2 : ℝ) • (u3 - w3) + (u4 - w4)) := by
    show z + (h / 6) • (u1 + (2 : ℝ) • u2 + (2 : ℝ) • u3 + u4) - (x + (h / 6) • (w1 + (2 : ℝ) • w2 + (2 : ℝ) • w3 + w4)) = _
    module
  rw [e]
  have n2 : ‖(2 : ℝ) • (u2 - w2)‖ = 2 * ‖u2 - w2‖ := by rw [norm_smul, Real.norm_of_nonneg two_pos.le]
  have n3 : ‖(2 : ℝ) • (u3 - w3)‖ = 2 * ‖u3 - w3‖ := by rw [norm_smul, Real.norm_of_nonneg two_pos.le]
  have sum : ‖(u1 - w1) + (2 : ℝ) • (u2 - w2) + (2 : ℝ) • (u3 - w3) + (u4 - w4)‖ ≤ 6 * (Lam M * d) := by
    refine (norm_add_le _ _).trans ((add_le_add (norm_add₃_le (a := u1 - w1)) le_rfl).trans ?_)
    rw [n2, n3]
    unfold Lam
    have q : 0 ≤ M * d := by positivity
    have q1 : M * d * 1 ≤ M * d * (1 + M) ^ 3 := mul_le_mul_of_nonneg_left (one_le_pow₀ (by linarith)) q
    have q2 : M * d * (1 + M) ≤ M * d * (1 + M) ^ 3 := mul_le_mul_of_nonneg_left (le_self_pow₀ (by linarith) (by norm_num)) q
    have q3 : M * d * (1 + M) ^ 2 ≤ M * d * (1 + M) ^ 3 := mul_le_mul_of_nonneg_left (pow_le_pow_right₀ (by linarith) (by norm_num)) q
    nlinarith
  have := norm_add_le (z - x) ((h / 6) • ((u1 - w1) + (2 : ℝ) • (u2 - w2) + (2 : ℝ) • (u3 - w3) + (u4 - w4)))
  rw [norm_smul, Real.norm_of_nonneg (by positivity)] at this
  have s6 : h / 6 * ‖(u1 - w1) + (2 : ℝ) • (u2 - w2) + (2 : ℝ) • (u3 - w3) + (u4 - w4)‖ ≤ h / 6 * (6 * (Lam M * d)) :=
    mul_le_mul_of_nonneg_left sum (by positivity)
  nlinarith

/-- Growth of errors over many steps of any method of order `q`. -/
theorem accumulate {q : ℕ} {c L H T : ℝ} (c0 : 0 ≤ c) (L0 : 0 ≤ L) {N : ℕ} {h τ e : ℕ → ℝ} (h0 : ∀ k < N, 0 ≤ h k) (hH : ∀ k < N, h k ≤ H)
    (hτ : ∀ k < N, τ (k + 1) = τ k + h k) (hT : τ N - τ 0 ≤ T) (he0 : e 0 ≤ 0) (small : c * H ^ q * T * Real.exp (L * T) ≤ 1)
    (he : ∀ k < N, e k ≤ 1 → e (k + 1) ≤ (1 + h k * L) * e k + c * h k ^ (q + 1)) (en : ∀ k ≤ N, 0 ≤ e k) (H0 : 0 ≤ H) :
    ∀ k ≤ N, e k ≤ c * H ^ q * (τ k - τ 0) * Real.exp (L * (τ k - τ 0)) := by
  have mono : ∀ j ≤ N, ∀ k ≤ j, τ k ≤ τ j := by
    intro j
    induction j with
    | zero => intro _ k hk; rw [Nat.le_zero.mp hk]
    | succ j ih =>
      intro hj k hk
      rcases Nat.le_succ_iff.mp hk with g | rfl
      · have := ih (by omega) k g
        rw [hτ j (by omega)]
        linarith [h0 j (by omega)]
      · exact le_rfl
  intro k
  induction k with
  | zero => intro _; simpa using he0
  | succ k ih =>
    intro hk
    have ih := ih (by omega)
    have hk' : k < N := hk
    set a := τ k - τ 0 with ha
    have a0 : 0 ≤ a := sub_nonneg.mpr (mono k (by omega) 0 (Nat.zero_le _))
    have aT : a ≤ T := by have := mono N le_rfl k (by omega); linarith
    have T0 : 0 ≤ T := a0.trans aT
    have cH : 0 ≤ c * H ^ q := by positivity
    have ek1 : e k ≤ 1 := by
      refine ih.trans (le_trans ?_ small)
      gcongr
    have st := he k hk' ek1
    rw [show τ (k + 1) - τ 0 = a + h k by rw [hτ k hk']; ring]
    set b := h k with hb
    have b0 := h0 k hk'
    have bH := hH k hk'
    have x1 : (1 + b * L) * e k ≤ Real.exp (L * b) * (c * H ^ q * a * Real.exp (L * a)) := by
      have : 1 + b * L ≤ Real.exp (L * b) := by have := Real.add_one_le_exp (L * b); linarith
      exact mul_le_mul this ih (en k hk'.le) (Real.exp_pos _).le
    have x2 : c * b ^ (q + 1) ≤ c * H ^ q * b * Real.exp (L * (a + b)) := by
      have e1 : b ^ (q + 1) ≤ H ^ q * b := by rw [pow_succ]; gcongr
      have e2 : 1 ≤ Real.exp (L * (a + b)) := Real.one_le_exp (by positivity)
      calc c * b ^ (q + 1) ≤ c * (H ^ q * b) := mul_le_mul_of_nonneg_left e1 c0
        _ = c * H ^ q * b * 1 := by ring
        _ ≤ _ := mul_le_mul_of_nonneg_left e2 (by positivity)
    have x3 : Real.exp (L * b) * (c * H ^ q * a * Real.exp (L * a)) = c * H ^ q * a * Real.exp (L * (a + b)) := by
      rw [mul_add, Real.exp_add]; ring
    rw [x3] at x1
    have : c * H ^ q * (a + b) * Real.exp (L * (a + b)) = c * H ^ q * a * Real.exp (L * (a + b)) + c * H ^ q * b * Real.exp (L * (a + b)) := by ring
    linarith

/-- Many steps. -/
theorem global_error (hM : 1 ≤ M) {H T : ℝ} (H0 : 0 ≤ H) (hs : H * sc M ≤ 1) (small : lc M * H ^ 4 * T * Real.exp (Lam M * T) ≤ 1)
    {N : ℕ} {h τ : ℕ → ℝ} {G : ℕ → E → E} {z : ℕ → E} {y : ℝ → E} (h0 : ∀ k < N, 0 ≤ h k) (hH : ∀ k < N, h k ≤ H)
    (hτ : ∀ k < N, τ (k + 1) = τ k + h k) (hT : τ N - τ 0 ≤ T) (hz : ∀ k < N, z (k + 1) = step (G k) (z k) (h k)) (hz0 : z 0 = y (τ 0))
    (hy : ∀ k < N, Solves (G k) y (τ k) (τ (k + 1))) (ht : ∀ k < N, Tame (G k) (y (τ k)) M)
    (hb : ∀ k < N, ∀ t ∈ Ico (τ k) (τ (k + 1)), ‖G k (y t)‖ ≤ M) :
    ∀ k ≤ N, ‖z k - y (τ k)‖ ≤ lc M * H ^ 4 * (τ k - τ 0) * Real.exp (Lam M * (τ k - τ 0)) := by
  refine accumulate (lc_nonneg hM) (by unfold Lam; positivity) h0 hH hτ hT (by rw [hz0, sub_self, norm_zero]) small (fun k hk h1 => ?_)
    (fun _ _ => norm_nonneg _) H0
  have hk0 := h0 k hk
  have hks : h k * sc M ≤ 1 := (mul_le_mul_of_nonneg_right (hH k hk) (by linarith [sc_pos hM])).trans hs
  have l := local_error hM (ht k hk) hk0 hks (by rw [← hτ k hk]; exact hy k hk) rfl (by rw [← hτ k hk]; exact hb k hk)
  have p := step_lip hM (ht k hk) hk0 hks h1
  rw [hz k hk, hτ k hk]
  have e : step (G k) (z k) (h k) - y (τ k + h k) = (step (G k) (z k) (h k) - step (G k) (y (τ k)) (h k)) +
    (step (G k) (y (τ k)) (h k) - y (τ k + h k)) := by abel
  rw [e]
  exact (norm_add_le _ _).trans (add_le_add p l)

end Altro.RK
