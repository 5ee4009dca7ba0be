import Verif.Model.FloatIntegration
import Verif.Spec.FloatIntegration
import Verif.Spec.IntegrationOrder
import Verif.Proofs.Float

/-!
# Rounding errors of the integrators
-/

namespace Altro.Rounded
open Altro.Spec
variable {n m : ℕ} {R : Rounding ℚ} {ε ε' : ℝ}

theorem rnd (hR : RoundsTo R ε ε') {q : ℚ} {B : ℝ} (h0 : 0 ≤ ε) (h1 : ε ≤ 1) (hB : |(q : ℝ)| ≤ B) :
    |((R.r64 q : ℚ) : ℝ) - q| ≤ ε * (B + 1) ∧ |((R.r64 q : ℚ) : ℝ)| ≤ 2 * B + 1 := by
  have h := (hR.r64 q).trans (mul_le_mul_of_nonneg_left (by linarith : |(q : ℝ)| + 1 ≤ B + 1) h0)
  have B0 : 0 ≤ B := (abs_nonneg _).trans hB
  refine ⟨h, ?_⟩
  have := abs_sub_abs_le_abs_sub ((R.r64 q : ℚ) : ℝ) q
  nlinarith

theorem rnd32 (hR : RoundsTo R ε ε') {q : ℚ} {B : ℝ} (h0 : 0 ≤ ε') (hB : |(q : ℝ)| ≤ B) : |((R.r32 q : ℚ) : ℝ) - q| ≤ ε' * (B + 1) :=
  (hR.r32 q).trans (mul_le_mul_of_nonneg_left (by linarith) h0)

theorem abs_mul_h {a B h : ℝ} (ha : |a| ≤ B) (h0 : 0 ≤ h) (h1 : h ≤ 1) : |a * h| ≤ B := by
  rw [abs_mul, abs_of_nonneg h0]
  exact (mul_le_of_le_one_right (abs_nonneg a) h1).trans ha

theorem tri {a b c A B : ℝ} (h1 : |a - b| ≤ A) (h2 : |b - c| ≤ B) : |a - c| ≤ A + B := (abs_sub_le a b c).trans (add_le_add h1 h2)

/-- The rounding error of a half step. -/
theorem halfStage_err (hR : RoundsTo R ε ε') (h0 : 0 ≤ ε) (h1 : ε ≤ 1) {x k : Fin n → ℚ} {h : ℚ} {X Q : ℝ} (hh0 : (0 : ℝ) ≤ h)
    (hh1 : (h : ℝ) ≤ 1) {i : Fin n} (hx : |(x i : ℝ)| ≤ X) (hk : |(k i : ℝ)| ≤ Q) :
    |((halfStage R x k h i : ℚ) : ℝ) - (x i + 1 / 2 * h * k i)| ≤ ε * (X + 5 * Q + 7) := by
  have Q0 : 0 ≤ Q := (abs_nonneg _).trans hk
  have X0 : 0 ≤ X := (abs_nonneg _).trans hx
  have p1 : |((k i * (1 / 2) : ℚ) : ℝ)| ≤ Q / 2 := by
    push_cast; rw [abs_mul]; norm_num; linarith
  obtain ⟨a1, a2⟩ := rnd hR h0 h1 p1
  set a := R.r64 (k i * (1 / 2))
  have p2 : |((a * h : ℚ) : ℝ)| ≤ Q + 1 := by
    push_cast; exact (abs_mul_h a2 hh0 hh1).trans (by linarith)
  obtain ⟨b1, b2⟩ := rnd hR h0 h1 p2
  set b := R.r64 (a * h)
  have p3 : |((x i + b : ℚ) : ℝ)| ≤ X + (2 * Q + 3) := by
    push_cast; exact (abs_add_le _ _).trans (by linarith)
  obtain ⟨c1, -⟩ := rnd hR h0 h1 p3
  have q1 : |(a : ℝ) * h - 1 / 2 * h * k i| ≤ ε * (Q / 2 + 1) := by
    rw [show (a : ℝ) * h - 1 / 2 * h * k i = (a - ((k i * (1 / 2) : ℚ) : ℝ)) * h by push_cast; ring]
    exact abs_mul_h a1 hh0 hh1
  push_cast at b1 c1
  have t1 := tri b1 q1
  have t2 : |((x i : ℝ) + b) - (x i + 1 / 2 * h * k i)| ≤ ε * (Q + 1 + 1) + ε * (Q / 2 + 1) := by
    rw [add_sub_add_left_eq_sub]; exact t1
  have t3 := tri c1 t2
  refine t3.trans (le_of_le_of_eq ?_ rfl)
  have : ε * (X + (2 * Q + 3) + 1) + (ε * (Q + 1 + 1) + ε * (Q / 2 + 1)) = ε * (X + 7 / 2 * Q + 7) := by ring
  rw [this]
  exact mul_le_mul_of_nonneg_left (by linarith) h0

/-- The rounding error of a full step. -/
theorem fullStage_err (hR : RoundsTo R ε ε') (h0 : 0 ≤ ε) (h1 : ε ≤ 1) {x k : Fin n → ℚ} {h : ℚ} {X Q : ℝ} (hh0 : (0 : ℝ) ≤ h)
    (hh1 : (h : ℝ) ≤ 1) {i : Fin n} (hx : |(x i : ℝ)| ≤ X) (hk : |(k i : ℝ)| ≤ Q) :
    |((fullStage R x k h i : ℚ) : ℝ) - (x i + h * k i)| ≤ ε * (X + 5 * Q + 7) := by
  have Q0 : 0 ≤ Q := (abs_nonneg _).trans hk
  have X0 : 0 ≤ X := (abs_nonneg _).trans hx
  have p2 : |((k i * h : ℚ) : ℝ)| ≤ Q := by
    push_cast; exact abs_mul_h hk hh0 hh1
  obtain ⟨b1, b2⟩ := rnd hR h0 h1 p2
  set b := R.r64 (k i * h)
  have p3 : |((x i + b : ℚ) : ℝ)| ≤ X + (2 * Q + 1) := by
    push_cast; exact (abs_add_le _ _).trans (by linarith)
  obtain ⟨c1, -⟩ := rnd hR h0 h1 p3
  push_cast at b1 c1
  have t2 : |((x i : ℝ) + b) - (x i + h * k i)| ≤ ε * (Q + 1) := by
    rw [add_sub_add_left_eq_sub, mul_comm (h : ℝ)]; exact b1
  refine (tri c1 t2).trans ?_
  have : ε * (X + (2 * Q + 1) + 1) + ε * (Q + 1) = ε * (X + 3 * Q + 3) := by ring
  rw [this]
  exact mul_le_mul_of_nonneg_left (by linarith) h0

/-- The rounding error of the combination of the stages. -/
theorem combine_err (hR : RoundsTo R ε ε') (h0 : 0 ≤ ε) (h1 : ε ≤ 1) {x k1 k2 k3 k4 : Fin n → ℚ} {h : ℚ} {X Q : ℝ} (hh0 : (0 : ℝ) ≤ h)
    (hh1 : (h : ℝ) ≤ 1) {i : Fin n} (hx : |(x i : ℝ)| ≤ X) (e1 : |(k1 i : ℝ)| ≤ Q) (e2 : |(k2 i : ℝ)| ≤ Q) (e3 : |(k3 i : ℝ)| ≤ Q)
    (e4 : |(k4 i : ℝ)| ≤ Q) :
    |((combine R x k1 k2 k3 k4 h i : ℚ) : ℝ) - (x i + h / 6 * (k1 i + 2 * k2 i + 2 * k3 i + k4 i))| ≤ ε * (X + 170 * Q + 63) := by
  have Q0 : 0 ≤ Q := (abs_nonneg _).trans e1
  have X0 : 0 ≤ X := (abs_nonneg _).trans hx
  have two : ∀ q : ℚ, |(q : ℝ)| ≤ Q → |((2 * q : ℚ) : ℝ)| ≤ 2 * Q := fun q hq => by
    push_cast; rw [abs_mul]; norm_num; linarith
  obtain ⟨a1, a2⟩ := rnd hR h0 h1 (two _ e2)
  obtain ⟨b1, b2⟩ := rnd hR h0 h1 (two _ e3)
  set p2 := R.r64 (2 * k2 i)
  set p3 := R.r64 (2 * k3 i)
  have s1 : |((k1 i + p2 : ℚ) : ℝ)| ≤ 5 * Q + 1 := by
    push_cast; exact (abs_add_le _ _).trans (by linarith)
  obtain ⟨c1, c2⟩ := rnd hR h0 h1 s1
  set u1 := R.r64 (k1 i + p2)
  have s2 : |((u1 + p3 : ℚ) : ℝ)| ≤ 14 * Q + 4 := by
    push_cast; exact (abs_add_le _ _).trans (by linarith)
  obtain ⟨d1, d2⟩ := rnd hR h0 h1 s2
  set u2 := R.r64 (u1 + p3)
  have s3 : |((u2 + k4 i : ℚ) : ℝ)| ≤ 29 * Q + 9 := by
    push_cast; exact (abs_add_le _ _).trans (by linarith)
  obtain ⟨f1, f2⟩ := rnd hR h0 h1 s3
  set u3 := R.r64 (u2 + k4 i)
  have s4 : |((h * u3 : ℚ) : ℝ)| ≤ 58 * Q + 19 := by
    push_cast; rw [mul_comm]; exact (abs_mul_h f2 hh0 hh1).trans (by linarith)
  obtain ⟨g1, g2⟩ := rnd hR h0 h1 s4
  set u4 := R.r64 (h * u3)
  have s5 : |((u4 / 6 : ℚ) : ℝ)| ≤ 20 * Q + 7 := by
    push_cast; rw [abs_div, abs_of_pos (by norm_num : (0 : ℝ) < 6), div_le_iff₀ (by norm_num)]; linarith
  obtain ⟨l1, l2⟩ := rnd hR h0 h1 s5
  set u5 := R.r64 (u4 / 6)
  have s6 : |((x i + u5 : ℚ) : ℝ)| ≤ X + 40 * Q + 15 := by
    push_cast; exact (abs_add_le _ _).trans (by linarith)
  obtain ⟨o1, -⟩ := rnd hR h0 h1 s6
  push_cast at a1 b1 c1 d1 f1 g1 l1 o1
  -- the sum of the stages
  have t3 : |(u3 : ℝ) - (k1 i + 2 * k2 i + 2 * k3 i + k4 i)| ≤ ε * (52 * Q + 19) := by
    have e : (u3 : ℝ) - (k1 i + 2 * k2 i + 2 * k3 i + k4 i) = (u3 - (u2 + k4 i)) + (u2 - (u1 + p3)) + (u1 - (k1 i + p2)) + (p2 - 2 * k2 i) +
      (p3 - 2 * k3 i) := by ring
    rw [e]
    refine (abs_add_le _ _).trans ((add_le_add ((abs_add_le _ _).trans (add_le_add ((abs_add_le _ _).trans (add_le_add (abs_add_le _ _)
      le_rfl)) le_rfl)) le_rfl).trans ?_)
    refine (add_le_add (add_le_add (add_le_add (add_le_add f1 d1) c1) a1) b1).trans (le_of_eq_of_le ?_ (le_refl (ε * (52 * Q + 19))) )
    ring
  have t4 : |(u4 : ℝ) / 6 - h / 6 * (k1 i + 2 * k2 i + 2 * k3 i + k4 i)| ≤ ε * (58 * Q + 20) + ε * (52 * Q + 19) := by
    have e : (u4 : ℝ) / 6 - h / 6 * (k1 i + 2 * k2 i + 2 * k3 i + k4 i) =
      ((u4 - h * u3) + (u3 - (k1 i + 2 * k2 i + 2 * k3 i + k4 i)) * h) / 6 := by ring
    rw [e, abs_div, abs_of_pos (by norm_num : (0 : ℝ) < 6), div_le_iff₀ (by norm_num)]
    have y1 := (abs_add_le ((u4 : ℝ) - h * u3) ((u3 - (k1 i + 2 * k2 i + 2 * k3 i + k4 i)) * h)).trans
      (add_le_add g1 (abs_mul_h t3 hh0 hh1))
    have y2 : 0 ≤ ε * (58 * Q + 20) := by positivity
    have y3 : 0 ≤ ε * (52 * Q + 19) := by positivity
    have y4 : ε * (58 * Q + 19 + 1) = ε * (58 * Q + 20) := by ring
    linarith
  have t5 := tri l1 t4
  have t6 : |((x i : ℝ) + u5) - (x i + h / 6 * (k1 i + 2 * k2 i + 2 * k3 i + k4 i))| ≤
      ε * (20 * Q + 7 + 1) + (ε * (58 * Q + 20) + ε * (52 * Q + 19)) := by
    rw [add_sub_add_left_eq_sub]; exact t5
  refine (tri o1 t6).trans ?_
  have : ε * (X + 40 * Q + 15 + 1) + (ε * (20 * Q + 7 + 1) + (ε * (58 * Q + 20) + ε * (52 * Q + 19))) = ε * (X + 170 * Q + 63) := by ring
  rw [this]

theorem halfTime_err (hR : RoundsTo R ε ε') (h0 : 0 ≤ ε) (h1 : ε ≤ 1) (h0' : 0 ≤ ε') {t h : ℚ} {T : ℝ} (hh0 : (0 : ℝ) ≤ h)
    (hh1 : (h : ℝ) ≤ 1) (ht : |(t : ℝ)| ≤ T) : |((halfTime R t h : ℚ) : ℝ) - (t + 1 / 2 * h)| ≤ ε * (T + 6) + ε' * (2 * T + 8) := by
  have T0 : 0 ≤ T := (abs_nonneg _).trans ht
  have p1 : |((1 / 2 * h : ℚ) : ℝ)| ≤ 1 / 2 := by push_cast; rw [abs_of_nonneg (by positivity)]; linarith
  obtain ⟨a1, a2⟩ := rnd hR h0 h1 p1
  set a := R.r64 (1 / 2 * h)
  have p2 : |((t + a : ℚ) : ℝ)| ≤ T + 2 := by push_cast; exact (abs_add_le _ _).trans (by linarith)
  obtain ⟨b1, b2⟩ := rnd hR h0 h1 p2
  set b := R.r64 (t + a)
  have c1 := rnd32 hR h0' b2
  push_cast at a1 b1
  have t1 : |((t : ℝ) + a) - (t + 1 / 2 * h)| ≤ ε * (1 / 2 + 1) := by rw [add_sub_add_left_eq_sub]; exact a1
  refine (tri c1 (tri b1 t1)).trans ?_
  have e : ε' * (2 * (T + 2) + 1 + 1) + (ε * (T + 2 + 1) + ε * (1 / 2 + 1)) = ε * (T + 9 / 2) + ε' * (2 * T + 6) := by ring
  rw [e]
  exact add_le_add (mul_le_mul_of_nonneg_left (by linarith) h0) (mul_le_mul_of_nonneg_left (by linarith) h0')

theorem fullTime_err (hR : RoundsTo R ε ε') (h0 : 0 ≤ ε) (h0' : 0 ≤ ε') {t h : ℚ} {T : ℝ} (hh0 : (0 : ℝ) ≤ h)
    (hh1 : (h : ℝ) ≤ 1) (ht : |(t : ℝ)| ≤ T) : |((fullTime R t h : ℚ) : ℝ) - (t + h)| ≤ ε * (T + 6) + ε' * (2 * T + 8) := by
  have T0 : 0 ≤ T := (abs_nonneg _).trans ht
  have p2 : |((t + h : ℚ) : ℝ)| ≤ T + 1 := by
    push_cast; refine (abs_add_le _ _).trans ?_; rw [abs_of_nonneg hh0]; linarith
  have c1 := rnd32 hR h0' p2
  push_cast at c1
  refine c1.trans ?_
  have : 0 ≤ ε * (T + 6) := by positivity
  have : ε' * (T + 1 + 1) ≤ ε' * (2 * T + 8) := mul_le_mul_of_nonneg_left (by linarith) h0'
  linarith

/-! ## Whole steps -/

theorem real_stage {x k s : Fin n → ℚ} {c B : ℝ} (B0 : 0 ≤ B) (h : ∀ i, |(s i : ℝ) - (x i + c * k i)| ≤ B) :
    ‖real s - (real x + c • real k)‖ ≤ B := (pi_norm_le_iff_of_nonneg B0).mpr fun i => h i

theorem real_abs {x : Fin n → ℚ} {X : ℝ} (h : ‖real x‖ ≤ X) (i : Fin n) : |(x i : ℝ)| ≤ X := (norm_le_pi_norm (real x) i).trans h

section
variable {f : (Fin n → ℚ) → (Fin m → ℚ) → ℚ → Fin n → ℚ} {d : ContDyn n m ℝ} {U : Set (Fin m → ℝ)} {η σ T X Q L Lt ρ H : ℝ}

/-- A state `S` near `s` is in the region, and what is computed there is near what should be. -/
theorem eval_err (ok : RoundedSetting R f d U ε ε' η σ T X Q L Lt ρ H) {S : Fin n → ℚ} {s : Fin n → ℝ} {u : Fin m → ℚ} {t : ℚ} {τ B : ℝ} (hu : real u ∈ U)
    (hS : ‖real S‖ ≤ ρ) (hs : ‖s‖ ≤ ρ) (ht : |(t : ℝ)| ≤ ρ) (hτ : |τ| ≤ ρ) (hB : ‖real S - s‖ ≤ B) (hω : |(t : ℝ) - τ| ≤ timeError ε ε' σ T) :
    ‖real (f S u t)‖ ≤ Q ∧ ‖d.f s (real u) τ‖ ≤ Q ∧ ‖real (f S u t) - d.f s (real u) τ‖ ≤ L * B + (η + Lt * timeError ε ε' σ T) := by
  refine ⟨ok.ev.bound S u t hu hS ht, ok.reg.bound _ hu s τ hs hτ, ?_⟩
  have h1 := ok.ev.near S u t hu hS ht
  have h2 := ok.reg.lip _ hu (real S) t s τ hS ht hs hτ
  have h3 := mul_le_mul_of_nonneg_left hB ok.L0
  have h4 := mul_le_mul_of_nonneg_left hω ok.Lt0
  have := norm_sub_le_norm_sub_add_norm_sub (real (f S u t)) (d.f (real S) (real u) t) (d.f s (real u) τ)
  linarith

/-- One step of the Runge-Kutta method with rounding from `x`, against the exact step from `z`. -/
theorem rk4_err (ok : RoundedSetting R f d U ε ε' η σ T X Q L Lt ρ H) {x : Fin n → ℚ} {z : Fin n → ℝ} {u : Fin m → ℚ} {t h : ℚ} {τ : ℝ}
    (hu : real u ∈ U) (hx : ‖real x‖ ≤ X) (hz : ‖real x - z‖ ≤ 1) (ht : |(t : ℝ)| ≤ T) (hτ : |(t : ℝ) - τ| ≤ σ) (hh0 : (0 : ℝ) ≤ h)
    (hH : (h : ℝ) ≤ H) (hL : (h : ℝ) * L ≤ 1) :
    ‖real (rk4 R f x u t h) - d.rk4 z (real u) τ h‖ ≤
      (1 + 2 * h * L) * ‖real x - z‖ + 2 * h * (η + Lt * timeError ε ε' σ T) + ε * roundings X Q := by
  obtain ⟨hR, e0, e1, e0', eta, sig, Q0, L0, Lt0, H1, reg, ev, room, roomT⟩ := id ok
  have hh1 : (h : ℝ) ≤ 1 := hH.trans H1
  have H0 : 0 ≤ H := hh0.trans hH
  have HQ : 0 ≤ H * Q := by positivity
  have X0 : 0 ≤ X := (norm_nonneg _).trans hx
  have T0 : 0 ≤ T := (abs_nonneg _).trans ht
  set e := ‖real x - z‖ with he
  have en : 0 ≤ e := norm_nonneg _
  set W := ε * (X + 5 * Q + 7) with hW
  have W0 : 0 ≤ W := by rw [hW]; positivity
  set ω := timeError ε ε' σ T with hω
  have ω1 : ω = σ + (ε * (T + 6) + ε' * (2 * T + 8)) := by rw [hω]; unfold timeError; ring
  have ω2 : 0 ≤ ε * (T + 6) + ε' * (2 * T + 8) := by positivity
  set μ := η + Lt * ω with hμ
  have μ0 : 0 ≤ μ := by rw [hμ, ω1]; positivity
  have zX : ‖z‖ ≤ X + 1 := by
    have := norm_sub_norm_le z (real x)
    rw [norm_sub_rev] at this
    linarith
  -- states of stages
  have hxρ : ‖real x‖ ≤ ρ := by linarith
  have hzρ : ‖z‖ ≤ ρ := by linarith
  have inS : ∀ (c : ℝ) (k S : Fin n → ℚ), 0 ≤ c → c ≤ h → ‖real k‖ ≤ Q → ‖real S - (real x + c • real k)‖ ≤ W → ‖real S‖ ≤ ρ := by
    intro c k S c0 ch hk hS
    have a1 : ‖c • real k‖ ≤ H * Q := by
      rw [norm_smul, Real.norm_of_nonneg c0]
      exact mul_le_mul (ch.trans hH) hk (norm_nonneg _) H0
    have a2 := norm_add_le (real x) (c • real k)
    have a3 := norm_sub_norm_le (real S) (real x + c • real k)
    linarith
  have ins : ∀ (c : ℝ) (k : Fin n → ℝ), 0 ≤ c → c ≤ h → ‖k‖ ≤ Q → ‖z + c • k‖ ≤ ρ := by
    intro c k c0 ch hk
    have a1 : ‖c • k‖ ≤ H * Q := by
      rw [norm_smul, Real.norm_of_nonneg c0]
      exact mul_le_mul (ch.trans hH) hk (norm_nonneg _) H0
    have a2 := norm_add_le z (c • k)
    linarith
  have diff : ∀ (c : ℝ) (k S : Fin n → ℚ) (l : Fin n → ℝ) (D : ℝ), 0 ≤ c → ‖real k - l‖ ≤ D → ‖real S - (real x + c • real k)‖ ≤ W →
      ‖real S - (z + c • l)‖ ≤ W + e + c * D := by
    intro c k S l D c0 hD hS
    have a : real S - (z + c • l) = (real S - (real x + c • real k)) + (real x - z) + c • (real k - l) := by module
    rw [a]
    refine (norm_add₃_le (a := real S - (real x + c • real k))).trans ?_
    rw [norm_smul, Real.norm_of_nonneg c0]
    exact add_le_add (add_le_add hS le_rfl) (mul_le_mul_of_nonneg_left hD c0)
  -- times of stages
  have tτ : |τ| ≤ T + σ := by
    have := abs_sub_abs_le_abs_sub τ (t : ℝ)
    rw [abs_sub_comm] at this
    linarith
  have hT : ∀ (c : ℝ) (s : ℚ), 0 ≤ c → c ≤ 1 → |(s : ℝ) - (t + c)| ≤ ε * (T + 6) + ε' * (2 * T + 8) →
      |(s : ℝ)| ≤ ρ ∧ |τ + c| ≤ ρ ∧ |(s : ℝ) - (τ + c)| ≤ ω := by
    intro c s c0 c1 hs
    have a1 := abs_sub_abs_le_abs_sub (s : ℝ) (t + c)
    have a2 := abs_add_le (t : ℝ) c
    have a3 := abs_add_le τ c
    rw [abs_of_nonneg c0] at a2 a3
    refine ⟨by linarith, by linarith, ?_⟩
    have : |((t : ℝ) + c) - (τ + c)| ≤ σ := by rw [add_sub_add_right_eq_sub]; exact hτ
    rw [ω1]
    linarith [tri hs this]
  have half0 : (0 : ℝ) ≤ 1 / 2 * h := by positivity
  have halfh : (1 / 2 * h : ℝ) ≤ h := by linarith
  obtain ⟨th1, th2, th3⟩ := hT (1 / 2 * h) _ half0 (by linarith) (halfTime_err hR e0 e1 e0' hh0 hh1 ht)
  obtain ⟨tf1, tf2, tf3⟩ := hT h _ hh0 hh1 (fullTime_err hR e0 e0' hh0 hh1 ht)
  -- the stages
  obtain ⟨q1, p1, d1⟩ := eval_err ok (S := x) (s := z) (t := t) (τ := τ) hu hxρ hzρ (by linarith) (by linarith) le_rfl (by linarith)
  set k1 := f x u t
  set l1 := d.f z (real u) τ
  have S2 : ‖real (halfStage R x k1 h) - (real x + (1 / 2 * h : ℝ) • real k1)‖ ≤ W :=
    real_stage W0 fun i => halfStage_err hR e0 e1 hh0 hh1 (real_abs hx i) (real_abs q1 i)
  obtain ⟨q2, p2, d2⟩ := eval_err ok hu (inS _ k1 _ half0 halfh q1 S2) (ins _ l1 half0 halfh p1) th1 th2 (diff _ k1 _ l1 _ half0 d1 S2) th3
  set k2 := f (halfStage R x k1 h) u (halfTime R t h)
  set l2 := d.f (z + (1 / 2 * h : ℝ) • l1) (real u) (τ + 1 / 2 * h)
  have S3 : ‖real (halfStage R x k2 h) - (real x + (1 / 2 * h : ℝ) • real k2)‖ ≤ W :=
    real_stage W0 fun i => halfStage_err hR e0 e1 hh0 hh1 (real_abs hx i) (real_abs q2 i)
  obtain ⟨q3, p3, d3⟩ := eval_err ok hu (inS _ k2 _ half0 halfh q2 S3) (ins _ l2 half0 halfh p2) th1 th2 (diff _ k2 _ l2 _ half0 d2 S3) th3
  set k3 := f (halfStage R x k2 h) u (halfTime R t h)
  set l3 := d.f (z + (1 / 2 * h : ℝ) • l2) (real u) (τ + 1 / 2 * h)
  have S4 : ‖real (fullStage R x k3 h) - (real x + (h : ℝ) • real k3)‖ ≤ W :=
    real_stage W0 fun i => fullStage_err hR e0 e1 hh0 hh1 (real_abs hx i) (real_abs q3 i)
  obtain ⟨q4, p4, d4⟩ := eval_err ok hu (inS _ k3 _ hh0 le_rfl q3 S4) (ins _ l3 hh0 le_rfl p3) tf1 tf2 (diff _ k3 _ l3 _ hh0 d3 S4) tf3
  set k4 := f (fullStage R x k3 h) u (fullTime R t h)
  set l4 := d.f (z + (h : ℝ) • l3) (real u) (τ + h)
  -- sizes of the differences
  set a := L * e + μ + L * W with ha
  have a0 : 0 ≤ a := by rw [ha]; positivity
  have LW : 0 ≤ L * W := by positivity
  have D1 : ‖real k1 - l1‖ ≤ a := by linarith
  have contr : ∀ c D : ℝ, 0 ≤ c → c * L ≤ 1 → 0 ≤ D → L * (c * D) ≤ D := fun c D c0 hc hD => by
    rw [← mul_assoc, mul_comm L c]; exact mul_le_of_le_one_left hD hc
  have hhL : 1 / 2 * (h : ℝ) * L ≤ 1 / 2 := by linarith
  have D2 : ‖real k2 - l2‖ ≤ 3 / 2 * a := by
    have : L * (1 / 2 * h * (L * e + (η + Lt * timeError ε ε' σ T))) ≤ 1 / 2 * a := by
      rw [← mul_assoc, mul_comm L]
      exact mul_le_mul hhL (by linarith) (by positivity) (by norm_num)
    refine d2.trans ?_
    rw [mul_add, mul_add]
    linarith
  have D3 : ‖real k3 - l3‖ ≤ 7 / 4 * a := by
    have b0 : (0 : ℝ) ≤ L * (W + e + 1 / 2 * h * (L * e + (η + Lt * timeError ε ε' σ T))) + (η + Lt * timeError ε ε' σ T) := (norm_nonneg _).trans d2
    have b1 : L * (W + e + 1 / 2 * h * (L * e + (η + Lt * timeError ε ε' σ T))) + (η + Lt * timeError ε ε' σ T) ≤ 3 / 2 * a := by
      have : L * (1 / 2 * h * (L * e + (η + Lt * timeError ε ε' σ T))) ≤ 1 / 2 * a := by
        rw [← mul_assoc, mul_comm L]
        exact mul_le_mul hhL (by linarith) (by positivity) (by norm_num)
      rw [mul_add, mul_add]
      linarith
    have : L * (1 / 2 * h * (L * (W + e + 1 / 2 * h * (L * e + (η + Lt * timeError ε ε' σ T))) + (η + Lt * timeError ε ε' σ T))) ≤ 3 / 4 * a := by
      rw [← mul_assoc, mul_comm L (1 / 2 * (h : ℝ))]
      exact (mul_le_mul hhL b1 b0 (by norm_num)).trans (by linarith)
    refine d3.trans ?_
    rw [mul_add L (W + e), mul_add L W e]
    linarith
  have D4 : ‖real k4 - l4‖ ≤ 11 / 4 * a := by
    obtain ⟨-, -, d4'⟩ := eval_err ok hu (inS _ k3 _ hh0 le_rfl q3 S4) (ins _ l3 hh0 le_rfl p3) tf1 tf2 (diff _ k3 _ l3 _ hh0 D3 S4) tf3
    have := contr h (7 / 4 * a) hh0 hL (by positivity)
    refine d4'.trans ?_
    rw [mul_add, mul_add]
    linarith
  have C : ‖real (combine R x k1 k2 k3 k4 h) - (real x + (h / 6 : ℝ) • (real k1 + (2 : ℝ) • real k2 + (2 : ℝ) • real k3 + real k4))‖ ≤
      ε * (X + 170 * Q + 63) := by
    refine (pi_norm_le_iff_of_nonneg (by positivity)).mpr fun i => ?_
    have := combine_err hR e0 e1 hh0 hh1 (real_abs hx i) (real_abs q1 i) (real_abs q2 i) (real_abs q3 i) (real_abs q4 i)
    exact this
  have hstep : d.rk4 z (real u) τ h = z + (h / 6 : ℝ) • (l1 + (2 : ℝ) • l2 + (2 : ℝ) • l3 + l4) := rfl
  have hm : rk4 R f x u t h = combine R x k1 k2 k3 k4 h := rfl
  rw [hstep, hm]
  have dec : real (combine R x k1 k2 k3 k4 h) - (z + (h / 6 : ℝ) • (l1 + (2 : ℝ) • l2 + (2 : ℝ) • l3 + l4)) =
      (real (combine R x k1 k2 k3 k4 h) - (real x + (h / 6 : ℝ) • (real k1 + (2 : ℝ) • real k2 + (2 : ℝ) • real k3 + real k4))) + (real x - z) +
      (h / 6 : ℝ) • ((real k1 - l1) + (2 : ℝ) • (real k2 - l2) + (2 : ℝ) • (real k3 - l3) + (real k4 - l4)) := by module
  rw [dec]
  have sum : ‖(real k1 - l1) + (2 : ℝ) • (real k2 - l2) + (2 : ℝ) • (real k3 - l3) + (real k4 - l4)‖ ≤ 12 * a := by
    refine (norm_add_le _ _).trans ((add_le_add (norm_add₃_le (a := real k1 - l1)) le_rfl).trans ?_)
    rw [norm_smul, norm_smul, Real.norm_of_nonneg two_pos.le]
    linarith
  refine (norm_add₃_le (a := real (combine R x k1 k2 k3 k4 h) - _)).trans ?_
  rw [norm_smul, Real.norm_of_nonneg (by positivity)]
  have s1 := mul_le_mul_of_nonneg_left sum (by positivity : (0 : ℝ) ≤ h / 6)
  have s2 : (h : ℝ) / 6 * (12 * a) = 2 * h * L * e + 2 * h * μ + 2 * (h * L) * W := by rw [ha]; ring
  have s3 : 2 * ((h : ℝ) * L) * W ≤ 2 * W := by
    have := mul_le_mul_of_nonneg_right hL W0
    linarith
  have s4 : ε * (X + 170 * Q + 63) + 2 * W = ε * roundings X Q := by rw [hW]; unfold roundings; ring
  rw [add_mul, one_mul]
  linarith

/-- The same for one step of Euler's method. -/
theorem euler_err (ok : RoundedSetting R f d U ε ε' η σ T X Q L Lt ρ H) {x : Fin n → ℚ} {z : Fin n → ℝ} {u : Fin m → ℚ} {t h : ℚ} {τ : ℝ}
    (hu : real u ∈ U) (hx : ‖real x‖ ≤ X) (hz : ‖real x - z‖ ≤ 1) (ht : |(t : ℝ)| ≤ T) (hτ : |(t : ℝ) - τ| ≤ σ) (hh0 : (0 : ℝ) ≤ h)
    (hH : (h : ℝ) ≤ H) :
    ‖real (euler R f x u t h) - d.euler z (real u) τ h‖ ≤
      (1 + 2 * h * L) * ‖real x - z‖ + 2 * h * (η + Lt * timeError ε ε' σ T) + ε * roundings X Q := by
  obtain ⟨hR, e0, e1, e0', eta, sig, Q0, L0, Lt0, H1, reg, ev, room, roomT⟩ := id ok
  have hh1 : (h : ℝ) ≤ 1 := hH.trans H1
  have H0 : 0 ≤ H := hh0.trans hH
  have HQ : 0 ≤ H * Q := by positivity
  have X0 : 0 ≤ X := (norm_nonneg _).trans hx
  have T0 : 0 ≤ T := (abs_nonneg _).trans ht
  have W0 : 0 ≤ ε * (X + 5 * Q + 7) := by positivity
  have ω2 : 0 ≤ ε * (T + 6) + ε' * (2 * T + 8) := by positivity
  have ω1 : timeError ε ε' σ T = σ + (ε * (T + 6) + ε' * (2 * T + 8)) := by unfold timeError; ring
  have zX : ‖z‖ ≤ X + 1 := by
    have := norm_sub_norm_le z (real x)
    rw [norm_sub_rev] at this
    linarith
  have tτ : |τ| ≤ T + σ := by
    have := abs_sub_abs_le_abs_sub τ (t : ℝ)
    rw [abs_sub_comm] at this
    linarith
  obtain ⟨q1, p1, d1⟩ := eval_err ok (S := x) (s := z) (t := t) (τ := τ) hu (by linarith) (by linarith) (by linarith) (by linarith) le_rfl (by linarith)
  have S : ‖real (fullStage R x (f x u t) h) - (real x + (h : ℝ) • real (f x u t))‖ ≤ ε * (X + 5 * Q + 7) :=
    real_stage W0 fun i => fullStage_err hR e0 e1 hh0 hh1 (real_abs hx i) (real_abs q1 i)
  have e : real (euler R f x u t h) - d.euler z (real u) τ h = (real (fullStage R x (f x u t) h) - (real x + (h : ℝ) • real (f x u t))) +
      (real x - z) + (h : ℝ) • (real (f x u t) - d.f z (real u) τ) := by
    show real (fullStage R x (f x u t) h) - (z + (h : ℝ) • d.f z (real u) τ) = _
    module
  rw [e]
  refine (norm_add₃_le (a := real (fullStage R x (f x u t) h) - _)).trans ?_
  rw [norm_smul, Real.norm_of_nonneg hh0]
  have a1 := mul_le_mul_of_nonneg_left d1 hh0
  have a2 : ε * (X + 5 * Q + 7) ≤ ε * roundings X Q := mul_le_mul_of_nonneg_left (by unfold roundings; linarith) e0
  have a3 : 0 ≤ h * (L * ‖real x - z‖) := by positivity
  have a4 : 0 ≤ h * (η + Lt * timeError ε ε' σ T) := by rw [ω1]; positivity
  have a5 : (1 + 2 * h * L) * ‖real x - z‖ = ‖real x - z‖ + 2 * (h * (L * ‖real x - z‖)) := by ring
  rw [a5]
  rw [mul_add] at a1
  linarith

end

/-- Growth of errors with a contribution of every step and one of every unit of time. -/
theorem accumulate_drift {a b c L : ℝ} (b0 : 0 ≤ b) (c0 : 0 ≤ c) (a0 : 0 ≤ a) (L0 : 0 ≤ L) {N : ℕ} {h τ e : ℕ → ℝ}
    (h0 : ∀ k < N, 0 ≤ h k) (hτ : ∀ k < N, τ (k + 1) = τ k + h k) (he0 : e 0 ≤ a)
    (small : (a + N * b + (τ N - τ 0) * c) * Real.exp (L * (τ N - τ 0)) ≤ 1)
    (he : ∀ k < N, e k ≤ 1 → e (k + 1) ≤ (1 + h k * L) * e k + h k * c + b) (en : ∀ k ≤ N, 0 ≤ e k) :
    ∀ k ≤ N, e k ≤ (a + k * b + (τ k - τ 0) * c) * Real.exp (L * (τ k - τ 0)) ∧ e k ≤ 1 := by
  have mono : ∀ j ≤ N, ∀ k ≤ j, τ k ≤ τ j := by
    intro j
    induction j with
    | zero => intro _ k hk; rw [Nat.le_zero.mp hk]
    | succ j ih =>
      intro hj k hk
      rcases Nat.le_succ_iff.mp hk with g | rfl
      · have := ih (by omega) k g
        rw [hτ j (by omega)]
        linarith [h0 j (by omega)]
      · exact le_rfl
  have fin : ∀ k ≤ N, (a + k * b + (τ k - τ 0) * c) * Real.exp (L * (τ k - τ 0)) ≤ 1 := fun k hk => by
    refine le_trans ?_ small
    have m0 := mono k hk 0 (Nat.zero_le _)
    have m1 := mono N le_rfl k hk
    have kN : (k : ℝ) ≤ N := by exact_mod_cast hk
    have x1 : a + k * b + (τ k - τ 0) * c ≤ a + N * b + (τ N - τ 0) * c := by
      have := mul_le_mul_of_nonneg_right kN b0
      have := mul_le_mul_of_nonneg_right (by linarith : τ k - τ 0 ≤ τ N - τ 0) c0
      linarith
    have x2 : Real.exp (L * (τ k - τ 0)) ≤ Real.exp (L * (τ N - τ 0)) :=
      Real.exp_le_exp.mpr (mul_le_mul_of_nonneg_left (by linarith) L0)
    have x3 : 0 ≤ a + N * b + (τ N - τ 0) * c := by
      have := mul_nonneg (by linarith : (0 : ℝ) ≤ τ N - τ 0) c0
      positivity
    exact mul_le_mul x1 x2 (Real.exp_pos _).le x3
  intro k
  induction k with
  | zero =>
    intro hk
    have : e 0 ≤ (a + (0 : ℕ) * b + (τ 0 - τ 0) * c) * Real.exp (L * (τ 0 - τ 0)) := by simpa using he0
    exact ⟨this, this.trans (fin 0 hk)⟩
  | succ k ih =>
    intro hk
    obtain ⟨ih, i1⟩ := ih (by omega)
    have st := he k hk i1
    have hk0 := h0 k hk
    have m0 := mono k (by omega) 0 (Nat.zero_le _)
    suffices e (k + 1) ≤ (a + (k + 1 : ℕ) * b + (τ (k + 1) - τ 0) * c) * Real.exp (L * (τ (k + 1) - τ 0)) from ⟨this, this.trans (fin _ hk)⟩
    rw [show τ (k + 1) - τ 0 = (τ k - τ 0) + h k by rw [hτ k hk]; ring]
    set s := τ k - τ 0 with hs
    have s0 : 0 ≤ s := by linarith
    have x1 : (1 + h k * L) * e k ≤ Real.exp (L * h k) * ((a + k * b + s * c) * Real.exp (L * s)) := by
      have : 1 + h k * L ≤ Real.exp (L * h k) := by have := Real.add_one_le_exp (L * h k); linarith
      exact mul_le_mul this ih (en k (by omega)) (Real.exp_pos _).le
    have x2 : Real.exp (L * h k) * ((a + k * b + s * c) * Real.exp (L * s)) = (a + k * b + s * c) * Real.exp (L * (s + h k)) := by
      rw [mul_add, Real.exp_add]; ring
    have x3 : 1 ≤ Real.exp (L * (s + h k)) := Real.one_le_exp (by positivity)
    have x4 : h k * c + b ≤ (h k * c + b) * Real.exp (L * (s + h k)) := le_mul_of_one_le_right (by positivity) x3
    have x5 : (a + (k + 1 : ℕ) * b + (s + h k) * c) * Real.exp (L * (s + h k)) =
        (a + k * b + s * c) * Real.exp (L * (s + h k)) + (h k * c + b) * Real.exp (L * (s + h k)) := by push_cast; ring
    linarith

end Altro.Rounded
