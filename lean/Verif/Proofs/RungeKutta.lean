import Mathlib.Analysis.ODE.Gronwall
import Mathlib.Analysis.Calculus.Deriv.Pow
import Mathlib.Tactic.Module

/-!
# Order of the classical Runge-Kutta method

Expansion of the stages and of the solution in powers of the step, with remainders that are bounded by a constant depending on
one bound `M` of the vector field and its derivatives.
-/

set_option maxSynthPendingDepth 3

namespace Altro.RK
open Set Metric

variable {E : Type} [NormedAddCommGroup E] [NormedSpace ℝ E]

/-- One step of the classical method for `y' = g y`. -/
noncomputable def step (g : E → E) (x : E) (h : ℝ) : E :=
  let k1 := g x
  let k2 := g (x + (1 / 2 * h) • k1)
  let k3 := g (x + (1 / 2 * h) • k2)
  let k4 := g (x + h • k3)
  x + (h / 6) • (k1 + (2 : ℝ) • k2 + (2 : ℝ) • k3 + k4)

/-- Derivatives of `g` at `x` up to the third, bounded by `M`, with the remainder of the Taylor polynomial. -/
structure Jet (g : E → E) (x : E) (M : ℝ) where
  g1 : E →L[ℝ] E
  g2 : E →L[ℝ] E →L[ℝ] E
  g3 : E →L[ℝ] E →L[ℝ] E →L[ℝ] E
  n0 : ‖g x‖ ≤ M
  n1 : ‖g1‖ ≤ M
  n2 : ‖g2‖ ≤ M
  n3 : ‖g3‖ ≤ M
  rem : ∀ v, ‖v‖ ≤ 1 → ‖g (x + v) - (g x + g1 v + (1 / 2 : ℝ) • g2 v v + (1 / 6 : ℝ) • g3 v v v)‖ ≤ M * ‖v‖ ^ 4

variable {g : E → E} {x : E} {M : ℝ}

namespace Jet

theorem M_nonneg (J : Jet g x M) : 0 ≤ M := (norm_nonneg _).trans J.n0

theorem b1 (J : Jet g x M) {a : E} {α : ℝ} (h : ‖a‖ ≤ α) : ‖J.g1 a‖ ≤ M * α :=
  (J.g1.le_opNorm a).trans (mul_le_mul J.n1 h (norm_nonneg _) J.M_nonneg)

theorem b2 (J : Jet g x M) {a b : E} {α β : ℝ} (ha : ‖a‖ ≤ α) (hb : ‖b‖ ≤ β) : ‖J.g2 a b‖ ≤ M * α * β := by
  have h1 : ‖J.g2 a‖ ≤ M * α := (J.g2.le_opNorm a).trans (mul_le_mul J.n2 ha (norm_nonneg _) J.M_nonneg)
  exact ((J.g2 a).le_opNorm b).trans (mul_le_mul h1 hb (norm_nonneg _) ((norm_nonneg _).trans h1))

theorem b3 (J : Jet g x M) {a b c : E} {α β γ : ℝ} (ha : ‖a‖ ≤ α) (hb : ‖b‖ ≤ β) (hc : ‖c‖ ≤ γ) : ‖J.g3 a b c‖ ≤ M * α * β * γ := by
  have h1 : ‖J.g3 a‖ ≤ M * α := (J.g3.le_opNorm a).trans (mul_le_mul J.n3 ha (norm_nonneg _) J.M_nonneg)
  have h2 : ‖J.g3 a b‖ ≤ M * α * β := ((J.g3 a).le_opNorm b).trans (mul_le_mul h1 hb (norm_nonneg _) ((norm_nonneg _).trans h1))
  exact ((J.g3 a b).le_opNorm c).trans (mul_le_mul h2 hc (norm_nonneg _) ((norm_nonneg _).trans h2))

end Jet

/-- The constant of `expand`. -/
noncomputable def ec (M A B : ℝ) : ℝ :=
  M * (3 * A + B) ^ 4 + M * B + M * ((3 * A + B) * (A + B) + (A + B) * (2 * A) + A * A) +
    M * ((2 * A + B) * (3 * A + B) * (3 * A + B) + A * (2 * A + B) * (3 * A + B) + A * A * (2 * A + B))

theorem ec_nonneg {A B : ℝ} (hM : 0 ≤ M) (hA : 0 ≤ A) (hB : 0 ≤ B) : 0 ≤ ec M A B := by unfold ec; positivity

/-- `g` at a point that is known up to the fourth power of `h`. -/
theorem expand (J : Jet g x M) {A B h : ℝ} {a1 a2 a3 e : E} (h0 : 0 ≤ h) (h1 : h ≤ 1) (ha1 : ‖a1‖ ≤ A) (ha2 : ‖a2‖ ≤ A) (ha3 : ‖a3‖ ≤ A)
    (he : ‖e‖ ≤ B * h ^ 4) (hB : 0 ≤ B) (hv : h * (3 * A + B) ≤ 1) :
    ‖g (x + (h • a1 + h ^ 2 • a2 + h ^ 3 • a3 + e)) - (g x + h • J.g1 a1 + h ^ 2 • (J.g1 a2 + (1 / 2 : ℝ) • J.g2 a1 a1) +
      h ^ 3 • (J.g1 a3 + (1 / 2 : ℝ) • (J.g2 a1 a2 + J.g2 a2 a1) + (1 / 6 : ℝ) • J.g3 a1 a1 a1))‖ ≤ ec M A B * h ^ 4 := by
  have hM := J.M_nonneg
  have hA : 0 ≤ A := (norm_nonneg _).trans ha1
  have p2 : h ^ 2 ≤ h := by nlinarith
  have p3 : h ^ 3 ≤ h ^ 2 := by nlinarith [sq_nonneg h]
  have p4 : h ^ 4 ≤ h ^ 3 := by nlinarith [pow_nonneg h0 3]
  have q2 := pow_nonneg h0 2
  have q3 := pow_nonneg h0 3
  have q4 := pow_nonneg h0 4
  set q : E := h ^ 3 • a3 + e with hq
  set r : E := h ^ 2 • a2 + q with hr
  set v : E := h • a1 + h ^ 2 • a2 + h ^ 3 • a3 + e with hvd
  have ev : v = h • a1 + r := by rw [hr, hq, hvd]; abel
  have nq : ‖q‖ ≤ (A + B) * h ^ 3 := by
    have := norm_add_le (h ^ 3 • a3) e
    rw [norm_smul, Real.norm_of_nonneg q3] at this
    nlinarith [mul_le_mul_of_nonneg_left ha3 q3, mul_le_mul_of_nonneg_left p4 hB]
  have nr : ‖r‖ ≤ (2 * A + B) * h ^ 2 := by
    have := norm_add_le (h ^ 2 • a2) q
    rw [norm_smul, Real.norm_of_nonneg q2] at this
    nlinarith [mul_le_mul_of_nonneg_left ha2 q2, mul_le_mul_of_nonneg_left p3 (add_nonneg hA hB)]
  have nv : ‖v‖ ≤ (3 * A + B) * h := by
    have := norm_add_le (h • a1) r
    rw [norm_smul, Real.norm_of_nonneg h0, ← ev] at this
    nlinarith [mul_le_mul_of_nonneg_left ha1 h0, mul_le_mul_of_nonneg_left p2 (add_nonneg (mul_nonneg two_pos.le hA) hB)]
  have nh1 : ‖h • a1‖ ≤ A * h := by rw [norm_smul, Real.norm_of_nonneg h0, mul_comm]; exact mul_le_mul_of_nonneg_right ha1 h0
  have nh2 : ‖h • a1 + h ^ 2 • a2‖ ≤ (2 * A) * h := by
    have := norm_add_le (h • a1) (h ^ 2 • a2)
    rw [norm_smul (h ^ 2), Real.norm_of_nonneg q2] at this
    nlinarith [mul_le_mul_of_nonneg_left ha2 q2, mul_le_mul_of_nonneg_left p2 hA]
  have nh3 : ‖h ^ 2 • a2‖ ≤ A * h ^ 2 := by rw [norm_smul, Real.norm_of_nonneg q2, mul_comm]; exact mul_le_mul_of_nonneg_right ha2 q2
  have R0 : ‖g (x + v) - (g x + J.g1 v + (1 / 2 : ℝ) • J.g2 v v + (1 / 6 : ℝ) • J.g3 v v v)‖ ≤ M * ((3 * A + B) * h) ^ 4 :=
    (J.rem v (nv.trans (by linarith))).trans (mul_le_mul_of_nonneg_left (pow_le_pow_left₀ (norm_nonneg _) nv 4) hM)
  have key : g (x + v) - (g x + h • J.g1 a1 + h ^ 2 • (J.g1 a2 + (1 / 2 : ℝ) • J.g2 a1 a1) +
      h ^ 3 • (J.g1 a3 + (1 / 2 : ℝ) • (J.g2 a1 a2 + J.g2 a2 a1) + (1 / 6 : ℝ) • J.g3 a1 a1 a1)) =
      (g (x + v) - (g x + J.g1 v + (1 / 2 : ℝ) • J.g2 v v + (1 / 6 : ℝ) • J.g3 v v v)) + J.g1 e +
      (1 / 2 : ℝ) • (J.g2 v q + J.g2 q (h • a1 + h ^ 2 • a2) + J.g2 (h ^ 2 • a2) (h ^ 2 • a2)) +
      (1 / 6 : ℝ) • (J.g3 r v v + J.g3 (h • a1) r v + J.g3 (h • a1) (h • a1) r) := by
    have e1 : J.g1 v = h • J.g1 a1 + h ^ 2 • J.g1 a2 + h ^ 3 • J.g1 a3 + J.g1 e := by simp only [hvd, map_add, map_smul]
    have ev2 : v = h • a1 + h ^ 2 • a2 + q := by rw [hq, hvd]; abel
    have e2 : J.g2 v v = h ^ 2 • J.g2 a1 a1 + h ^ 3 • (J.g2 a1 a2 + J.g2 a2 a1) +
        (J.g2 v q + J.g2 q (h • a1 + h ^ 2 • a2) + J.g2 (h ^ 2 • a2) (h ^ 2 • a2)) := by
      have : J.g2 v v = J.g2 v (h • a1 + h ^ 2 • a2 + q) := by rw [← ev2]
      rw [this, map_add (J.g2 v) _ q]
      have : J.g2 v (h • a1 + h ^ 2 • a2) = J.g2 (h • a1 + h ^ 2 • a2) (h • a1 + h ^ 2 • a2) + J.g2 q (h • a1 + h ^ 2 • a2) := by
        rw [ev2, map_add J.g2 _ q, ContinuousLinearMap.add_apply]
      rw [this]
      simp only [map_add, map_smul, ContinuousLinearMap.add_apply, ContinuousLinearMap.smul_apply]
      module
    have e3 : J.g3 v v v = h ^ 3 • J.g3 a1 a1 a1 + (J.g3 r v v + J.g3 (h • a1) r v + J.g3 (h • a1) (h • a1) r) := by
      have s1 : J.g3 v v v = J.g3 (h • a1) v v + J.g3 r v v := by
        conv_lhs => rw [show J.g3 v = J.g3 (h • a1) + J.g3 r by rw [← map_add, ← ev]]
        simp only [ContinuousLinearMap.add_apply]
      have s2 : J.g3 (h • a1) v v = J.g3 (h • a1) (h • a1) v + J.g3 (h • a1) r v := by
        conv_lhs => rw [show J.g3 (h • a1) v = J.g3 (h • a1) (h • a1) + J.g3 (h • a1) r by rw [← map_add, ← ev]]
        simp only [ContinuousLinearMap.add_apply]
      have s3 : J.g3 (h • a1) (h • a1) v = J.g3 (h • a1) (h • a1) (h • a1) + J.g3 (h • a1) (h • a1) r := by
        rw [← map_add, ← ev]
      have s4 : J.g3 (h • a1) (h • a1) (h • a1) = h ^ 3 • J.g3 a1 a1 a1 := by
        simp only [map_smul, ContinuousLinearMap.smul_apply]
        module
      rw [s1, s2, s3, s4]
      module
    rw [e1, e2, e3]
    module
  rw [key]
  have t1 : ‖J.g1 e‖ ≤ M * (B * h ^ 4) := J.b1 he
  have t2 : ‖J.g2 v q‖ ≤ M * ((3 * A + B) * h) * ((A + B) * h ^ 3) := J.b2 nv nq
  have t3 : ‖J.g2 q (h • a1 + h ^ 2 • a2)‖ ≤ M * ((A + B) * h ^ 3) * ((2 * A) * h) := J.b2 nq nh2
  have t4 : ‖J.g2 (h ^ 2 • a2) (h ^ 2 • a2)‖ ≤ M * (A * h ^ 2) * (A * h ^ 2) := J.b2 nh3 nh3
  have t5 : ‖J.g3 r v v‖ ≤ M * ((2 * A + B) * h ^ 2) * ((3 * A + B) * h) * ((3 * A + B) * h) := J.b3 nr nv nv
  have t6 : ‖J.g3 (h • a1) r v‖ ≤ M * (A * h) * ((2 * A + B) * h ^ 2) * ((3 * A + B) * h) := J.b3 nh1 nr nv
  have t7 : ‖J.g3 (h • a1) (h • a1) r‖ ≤ M * (A * h) * (A * h) * ((2 * A + B) * h ^ 2) := J.b3 nh1 nh1 nr
  have half : ∀ (c : ℝ) (w : E), 0 ≤ c → c ≤ 1 → ‖c • w‖ ≤ ‖w‖ := fun c w c0 c1 => by
    rw [norm_smul, Real.norm_of_nonneg c0]; nlinarith [norm_nonneg w]
  refine (norm_add_le _ _).trans ?_
  refine (add_le_add (norm_add_le _ _) (half _ _ (by norm_num) (by norm_num))).trans ?_
  refine (add_le_add (add_le_add (norm_add_le _ _) (half _ _ (by norm_num) (by norm_num))) le_rfl).trans ?_
  have u1 := (norm_add₃_le (a := J.g2 v q) (b := J.g2 q (h • a1 + h ^ 2 • a2)) (c := J.g2 (h ^ 2 • a2) (h ^ 2 • a2)))
  have u2 := (norm_add₃_le (a := J.g3 r v v) (b := J.g3 (h • a1) r v) (c := J.g3 (h • a1) (h • a1) r))
  have : ec M A B * h ^ 4 = M * ((3 * A + B) * h) ^ 4 + M * (B * h ^ 4) + (M * ((3 * A + B) * h) * ((A + B) * h ^ 3) +
      M * ((A + B) * h ^ 3) * ((2 * A) * h) + M * (A * h ^ 2) * (A * h ^ 2)) +
      (M * ((2 * A + B) * h ^ 2) * ((3 * A + B) * h) * ((3 * A + B) * h) + M * (A * h) * ((2 * A + B) * h ^ 2) * ((3 * A + B) * h) +
        M * (A * h) * (A * h) * ((2 * A + B) * h ^ 2)) := by unfold ec; ring
  rw [this]
  linarith

/-! ## The Taylor polynomial of the solution -/

namespace Jet

/-- `g' g` -/
noncomputable def F2 (J : Jet g x M) : E := J.g1 (g x)
/-- `g'' (g, g) + g' g' g` -/
noncomputable def F3 (J : Jet g x M) : E := J.g2 (g x) (g x) + J.g1 J.F2
/-- `g''' (g, g, g) + 3 g'' (g, g' g) + g' g'' (g, g) + g' g' g' g` -/
noncomputable def F4 (J : Jet g x M) : E :=
  J.g3 (g x) (g x) (g x) + (3 / 2 : ℝ) • (J.g2 (g x) J.F2 + J.g2 J.F2 (g x)) + J.g1 J.F3

/-- The Taylor polynomial of the solution that starts at `x`. -/
noncomputable def poly (J : Jet g x M) (t : ℝ) : E :=
  x + (t • g x + t ^ 2 • ((1 / 2 : ℝ) • J.F2) + t ^ 3 • ((1 / 6 : ℝ) • J.F3) + t ^ 4 • ((1 / 24 : ℝ) • J.F4))

/-- Its derivative. -/
noncomputable def dpoly (J : Jet g x M) (t : ℝ) : E :=
  g x + t • J.F2 + t ^ 2 • ((1 / 2 : ℝ) • J.F3) + t ^ 3 • ((1 / 6 : ℝ) • J.F4)

theorem poly_deriv (J : Jet g x M) (t : ℝ) : HasDerivAt J.poly (J.dpoly t) t := by
  have h1 : HasDerivAt (fun t : ℝ => t • g x) ((1 : ℝ) • g x) t := (hasDerivAt_id t).smul_const _
  have h2 : HasDerivAt (fun t : ℝ => t ^ 2 • ((1 / 2 : ℝ) • J.F2)) ((2 * t : ℝ) • ((1 / 2 : ℝ) • J.F2)) t := by
    have := (hasDerivAt_pow 2 t).smul_const ((1 / 2 : ℝ) • J.F2)
    simpa using this
  have h3 : HasDerivAt (fun t : ℝ => t ^ 3 • ((1 / 6 : ℝ) • J.F3)) ((3 * t ^ 2 : ℝ) • ((1 / 6 : ℝ) • J.F3)) t := by
    have := (hasDerivAt_pow 3 t).smul_const ((1 / 6 : ℝ) • J.F3)
    simpa using this
  have h4 : HasDerivAt (fun t : ℝ => t ^ 4 • ((1 / 24 : ℝ) • J.F4)) ((4 * t ^ 3 : ℝ) • ((1 / 24 : ℝ) • J.F4)) t := by
    have := (hasDerivAt_pow 4 t).smul_const ((1 / 24 : ℝ) • J.F4)
    simpa using this
  have := (((h1.add h2).add h3).add h4).const_add x
  refine this.congr_deriv ?_
  unfold dpoly
  module

variable (J : Jet g x M) (hM : 1 ≤ M)
include hM

theorem n2F : ‖J.F2‖ ≤ M ^ 2 := by have := J.b1 J.n0; unfold F2; nlinarith
theorem n3F : ‖J.F3‖ ≤ 2 * M ^ 3 := by
  have h1 := J.b2 J.n0 J.n0
  have h2 := J.b1 (J.n2F hM)
  have := norm_add_le (J.g2 (g x) (g x)) (J.g1 J.F2)
  unfold F3
  nlinarith
theorem n4F : ‖J.F4‖ ≤ 6 * M ^ 4 := by
  have h1 := J.b3 J.n0 J.n0 J.n0
  have h2 := J.b2 J.n0 (J.n2F hM)
  have h3 := J.b2 (J.n2F hM) J.n0
  have h4 := J.b1 (J.n3F hM)
  have := norm_add₃_le (a := J.g3 (g x) (g x) (g x)) (b := (3 / 2 : ℝ) • (J.g2 (g x) J.F2 + J.g2 J.F2 (g x))) (c := J.g1 J.F3)
  rw [norm_smul, Real.norm_of_nonneg (by norm_num)] at this
  have h5 := norm_add_le (J.g2 (g x) J.F2) (J.g2 J.F2 (g x))
  unfold F4
  nlinarith

theorem small {c : ℝ} {a : E} {α : ℝ} (h : ‖a‖ ≤ α) (c0 : 0 ≤ c) : ‖c • a‖ ≤ c * α := by
  rw [norm_smul, Real.norm_of_nonneg c0]; exact mul_le_mul_of_nonneg_left h c0

/-- The defect of the polynomial. -/
theorem defect {t : ℝ} (h0 : 0 ≤ t) (h1 : t ≤ 1) (hv : t * (3 * M ^ 3 + M ^ 4) ≤ 1) :
    ‖J.dpoly t - g (J.poly t)‖ ≤ ec M (M ^ 3) (M ^ 4) * t ^ 4 ∧ ‖J.poly t - x‖ ≤ 1 := by
  have a1 : ‖g x‖ ≤ M ^ 3 := J.n0.trans (by nlinarith [mul_self_nonneg M])
  have a2 : ‖(1 / 2 : ℝ) • J.F2‖ ≤ M ^ 3 := (small hM (J.n2F hM) (by norm_num)).trans (by nlinarith [mul_self_nonneg M])
  have a3 : ‖(1 / 6 : ℝ) • J.F3‖ ≤ M ^ 3 := (small hM (J.n3F hM) (by norm_num)).trans (by nlinarith [mul_self_nonneg M])
  have a4 : ‖t ^ 4 • ((1 / 24 : ℝ) • J.F4)‖ ≤ M ^ 4 * t ^ 4 :=
    (small hM (small hM (J.n4F hM) (by norm_num)) (by positivity)).trans (by nlinarith [pow_nonneg h0 4, sq_nonneg (M ^ 2), mul_nonneg (pow_nonneg h0 4) (sq_nonneg (M ^ 2))])
  constructor
  · have := expand J h0 h1 a1 a2 a3 a4 (by positivity) hv
    rw [norm_sub_rev]
    refine le_trans (le_of_eq ?_) this
    congr 1
    unfold poly dpoly F4 F3 F2
    congr 1
    simp only [map_add, map_smul, ContinuousLinearMap.add_apply, ContinuousLinearMap.smul_apply]
    module
  · have e : J.poly t - x = t • g x + t ^ 2 • ((1 / 2 : ℝ) • J.F2) + t ^ 3 • ((1 / 6 : ℝ) • J.F3) + t ^ 4 • ((1 / 24 : ℝ) • J.F4) := by
      unfold poly; abel
    rw [e]
    have p2 : t ^ 2 ≤ t := by nlinarith
    have p3 : t ^ 3 ≤ t := by nlinarith [sq_nonneg t]
    have p4 : t ^ 4 ≤ t := by nlinarith [pow_nonneg h0 3]
    have pM : 0 ≤ M ^ 3 := by positivity
    have pM4 : 0 ≤ M ^ 4 := by positivity
    have s1 := small hM a1 h0
    have s2 := small hM a2 (pow_nonneg h0 2)
    have s3 := small hM a3 (pow_nonneg h0 3)
    refine (norm_add_le _ _).trans ((add_le_add (norm_add₃_le (a := t • g x)) a4).trans ?_)
    nlinarith [mul_le_mul_of_nonneg_left p2 pM, mul_le_mul_of_nonneg_left p3 pM, mul_le_mul_of_nonneg_left p4 pM4]

/-- The constants of the stages. -/
noncomputable def c2 (M : ℝ) : ℝ := ec M (M ^ 3) 0
noncomputable def c3 (M : ℝ) : ℝ := ec M (M ^ 3) (M ^ 4 + c2 M)
noncomputable def c4 (M : ℝ) : ℝ := ec M (M ^ 3) (M ^ 4 + M ^ 4 + M ^ 4 + c3 M)

set_option maxHeartbeats 2000000 in
/-- The step is the polynomial up to the fifth power of the step size. -/
theorem step_poly {h : ℝ} (h0 : 0 ≤ h) (h1 : h ≤ 1) (hv2 : h * (3 * M ^ 3 + 0) ≤ 1) (hv3 : h * (3 * M ^ 3 + (M ^ 4 + c2 M)) ≤ 1)
    (hv4 : h * (3 * M ^ 3 + (M ^ 4 + M ^ 4 + M ^ 4 + c3 M)) ≤ 1) : ‖step g x h - J.poly h‖ ≤ (c2 M + c3 M + c4 M) * h ^ 5 := by
  have M0 : 0 ≤ M := by linarith
  have C2 : 0 ≤ c2 M := ec_nonneg M0 (by positivity) le_rfl
  have C3 : 0 ≤ c3 M := ec_nonneg M0 (by positivity) (by positivity)
  have C4 : 0 ≤ c4 M := ec_nonneg M0 (by positivity) (by positivity)
  have pM2 : 1 ≤ M ^ 2 := one_le_pow₀ hM
  have m13 : M ≤ M ^ 3 := by nlinarith
  have m23 : M ^ 2 ≤ M ^ 3 := by nlinarith
  have z : ‖(0 : E)‖ ≤ M ^ 3 := by rw [norm_zero]; positivity
  have h4 := pow_nonneg h0 4
  have ng := J.n0
  have nF2 := J.n2F hM
  have n22 : ‖J.g2 (g x) (g x)‖ ≤ M ^ 3 := (J.b2 ng ng).trans (by nlinarith)
  have n33 : ‖J.g3 (g x) (g x) (g x)‖ ≤ M ^ 4 := (J.b3 ng ng ng).trans (le_of_eq (by ring))
  have n11 : ‖J.g1 J.F2‖ ≤ M ^ 3 := (J.b1 nF2).trans (le_of_eq (by ring))
  -- second stage
  have E2 := expand J (a1 := (1 / 2 : ℝ) • g x) (a2 := 0) (a3 := 0) (e := 0) (A := M ^ 3) (B := 0) h0 h1
    ((small hM ng (by norm_num)).trans (by linarith)) z z (by simp) le_rfl hv2
  set k2 := g (x + (1 / 2 * h) • g x) with hk2
  have E2' : ‖k2 - (g x + h • ((1 / 2 : ℝ) • J.F2) + h ^ 2 • ((1 / 8 : ℝ) • J.g2 (g x) (g x)) +
      h ^ 3 • ((1 / 48 : ℝ) • J.g3 (g x) (g x) (g x)))‖ ≤ c2 M * h ^ 4 := by
    refine le_trans (le_of_eq ?_) E2
    congr 1
    rw [hk2]
    congr 1
    · congr 1
      module
    · unfold F2
      simp only [map_smul, map_zero, ContinuousLinearMap.smul_apply, ContinuousLinearMap.zero_apply]
      module
  obtain ⟨e2, he2⟩ : ∃ e2, k2 = g x + h • ((1 / 2 : ℝ) • J.F2) + h ^ 2 • ((1 / 8 : ℝ) • J.g2 (g x) (g x)) +
      h ^ 3 • ((1 / 48 : ℝ) • J.g3 (g x) (g x) (g x)) + e2 := ⟨_, (add_sub_cancel _ _).symm⟩
  have ne2 : ‖e2‖ ≤ c2 M * h ^ 4 := by rw [he2, add_sub_cancel_left] at E2'; exact E2'
  -- third stage
  have ne3 : ‖(1 / 2 * h) • (h ^ 3 • ((1 / 48 : ℝ) • J.g3 (g x) (g x) (g x)) + e2)‖ ≤ (M ^ 4 + c2 M) * h ^ 4 := by
    have s1 : ‖h ^ 3 • ((1 / 48 : ℝ) • J.g3 (g x) (g x) (g x))‖ ≤ h ^ 3 * (1 / 48 * M ^ 4) :=
      small hM (small hM n33 (by norm_num)) (by positivity)
    refine (small hM ((norm_add_le _ _).trans (add_le_add s1 ne2)) (by positivity)).trans ?_
    have hh : h * (c2 M * h ^ 4) ≤ c2 M * h ^ 4 := mul_le_of_le_one_left (by positivity) h1
    have : 0 ≤ M ^ 4 * h ^ 4 := by positivity
    nlinarith
  have E3 := expand J (a1 := (1 / 2 : ℝ) • g x) (a2 := (1 / 4 : ℝ) • J.F2) (a3 := (1 / 16 : ℝ) • J.g2 (g x) (g x)) (A := M ^ 3) h0 h1
    ((small hM ng (by norm_num)).trans (by linarith)) ((small hM nF2 (by norm_num)).trans (by nlinarith))
    ((small hM n22 (by norm_num)).trans (by nlinarith)) ne3 (by positivity) hv3
  set k3 := g (x + (1 / 2 * h) • k2) with hk3
  have E3' : ‖k3 - (g x + h • ((1 / 2 : ℝ) • J.F2) + h ^ 2 • ((1 / 4 : ℝ) • J.g1 J.F2 + (1 / 8 : ℝ) • J.g2 (g x) (g x)) +
      h ^ 3 • ((1 / 16 : ℝ) • J.g1 (J.g2 (g x) (g x)) + (1 / 16 : ℝ) • (J.g2 (g x) J.F2 + J.g2 J.F2 (g x)) +
        (1 / 48 : ℝ) • J.g3 (g x) (g x) (g x)))‖ ≤ c3 M * h ^ 4 := by
    refine le_trans (le_of_eq ?_) E3
    congr 1
    rw [hk3]
    congr 1
    · congr 1
      rw [he2]
      module
    · unfold F2
      simp only [map_smul, ContinuousLinearMap.smul_apply]
      module
  obtain ⟨e3, he3⟩ : ∃ e3, k3 = g x + h • ((1 / 2 : ℝ) • J.F2) + h ^ 2 • ((1 / 4 : ℝ) • J.g1 J.F2 + (1 / 8 : ℝ) • J.g2 (g x) (g x)) +
      h ^ 3 • ((1 / 16 : ℝ) • J.g1 (J.g2 (g x) (g x)) + (1 / 16 : ℝ) • (J.g2 (g x) J.F2 + J.g2 J.F2 (g x)) +
        (1 / 48 : ℝ) • J.g3 (g x) (g x) (g x)) + e3 := ⟨_, (add_sub_cancel _ _).symm⟩
  have nee3 : ‖e3‖ ≤ c3 M * h ^ 4 := by rw [he3, add_sub_cancel_left] at E3'; exact E3'
  -- fourth stage
  have n12 : ‖J.g1 (J.g2 (g x) (g x))‖ ≤ M ^ 4 := (J.b1 n22).trans (le_of_eq (by ring))
  have n2a : ‖J.g2 (g x) J.F2‖ ≤ M ^ 4 := (J.b2 ng nF2).trans (le_of_eq (by ring))
  have n2b : ‖J.g2 J.F2 (g x)‖ ≤ M ^ 4 := (J.b2 nF2 ng).trans (le_of_eq (by ring))
  have ne4 : ‖h • (h ^ 3 • ((1 / 16 : ℝ) • J.g1 (J.g2 (g x) (g x)) + (1 / 16 : ℝ) • (J.g2 (g x) J.F2 + J.g2 J.F2 (g x)) +
        (1 / 48 : ℝ) • J.g3 (g x) (g x) (g x)) + e3)‖ ≤ (M ^ 4 + M ^ 4 + M ^ 4 + c3 M) * h ^ 4 := by
    have s0 : ‖(1 / 16 : ℝ) • J.g1 (J.g2 (g x) (g x)) + (1 / 16 : ℝ) • (J.g2 (g x) J.F2 + J.g2 J.F2 (g x)) +
        (1 / 48 : ℝ) • J.g3 (g x) (g x) (g x)‖ ≤ 1 / 16 * M ^ 4 + 1 / 16 * (M ^ 4 + M ^ 4) + 1 / 48 * M ^ 4 :=
      (norm_add₃_le (a := (1 / 16 : ℝ) • J.g1 (J.g2 (g x) (g x)))).trans (add_le_add (add_le_add (small hM n12 (by norm_num))
        (small hM ((norm_add_le _ _).trans (add_le_add n2a n2b)) (by norm_num))) (small hM n33 (by norm_num)))
    refine (small hM ((norm_add_le _ _).trans (add_le_add (small hM s0 (by positivity)) nee3)) h0).trans ?_
    have hh : h * (c3 M * h ^ 4) ≤ c3 M * h ^ 4 := mul_le_of_le_one_left (by positivity) h1
    have : 0 ≤ M ^ 4 * h ^ 4 := by positivity
    nlinarith
  have E4 := expand J (a1 := g x) (a2 := (1 / 2 : ℝ) • J.F2) (a3 := (1 / 4 : ℝ) • J.g1 J.F2 + (1 / 8 : ℝ) • J.g2 (g x) (g x)) (A := M ^ 3) h0 h1
    (ng.trans m13) ((small hM nF2 (by norm_num)).trans (by nlinarith))
    ((norm_add_le _ _).trans ((add_le_add (small hM n11 (by norm_num)) (small hM n22 (by norm_num))).trans (by nlinarith))) ne4 (by positivity) hv4
  set k4 := g (x + h • k3) with hk4
  have E4' : ‖k4 - (g x + h • J.F2 + h ^ 2 • ((1 / 2 : ℝ) • J.g1 J.F2 + (1 / 2 : ℝ) • J.g2 (g x) (g x)) +
      h ^ 3 • ((1 / 4 : ℝ) • J.g1 (J.g1 J.F2) + (1 / 8 : ℝ) • J.g1 (J.g2 (g x) (g x)) + (1 / 4 : ℝ) • (J.g2 (g x) J.F2 + J.g2 J.F2 (g x)) +
        (1 / 6 : ℝ) • J.g3 (g x) (g x) (g x)))‖ ≤ c4 M * h ^ 4 := by
    refine le_trans (le_of_eq ?_) E4
    congr 1
    rw [hk4]
    congr 1
    · congr 1
      rw [he3]
      module
    · unfold F2
      simp only [map_add, map_smul, ContinuousLinearMap.smul_apply]
      module
  obtain ⟨e4, he4⟩ : ∃ e4, k4 = g x + h • J.F2 + h ^ 2 • ((1 / 2 : ℝ) • J.g1 J.F2 + (1 / 2 : ℝ) • J.g2 (g x) (g x)) +
      h ^ 3 • ((1 / 4 : ℝ) • J.g1 (J.g1 J.F2) + (1 / 8 : ℝ) • J.g1 (J.g2 (g x) (g x)) + (1 / 4 : ℝ) • (J.g2 (g x) J.F2 + J.g2 J.F2 (g x)) +
        (1 / 6 : ℝ) • J.g3 (g x) (g x) (g x)) + e4 := ⟨_, (add_sub_cancel _ _).symm⟩
  have nee4 : ‖e4‖ ≤ c4 M * h ^ 4 := by rw [he4, add_sub_cancel_left] at E4'; exact E4'
  have final : step g x h - J.poly h = (h / 6) • ((2 : ℝ) • e2 + (2 : ℝ) • e3 + e4) := by
    show x + (h / 6) • (g x + (2 : ℝ) • k2 + (2 : ℝ) • k3 + k4) - J.poly h = _
    rw [he2, he3, he4]
    unfold poly F4 F3
    simp only [map_add, map_smul]
    module
  rw [final]
  have := small hM ((norm_add₃_le (a := (2 : ℝ) • e2) (b := (2 : ℝ) • e3) (c := e4)).trans
    (add_le_add (add_le_add (small hM ne2 two_pos.le) (small hM nee3 two_pos.le)) nee4)) (show 0 ≤ h / 6 by positivity)
  refine this.trans ?_
  have q1 : 0 ≤ c2 M * h ^ 5 := by positivity
  have q2 : 0 ≤ c3 M * h ^ 5 := by positivity
  have q3 : 0 ≤ c4 M * h ^ 5 := by positivity
  nlinarith

end Jet

end Altro.RK
