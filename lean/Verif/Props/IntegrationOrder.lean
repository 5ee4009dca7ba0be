import Verif.Proofs.IntegrationOrder
import Verif.Props.ALSolver
import Verif.Model.Examples
import Mathlib.Analysis.SpecialFunctions.Trigonometric.Deriv
import Mathlib.Analysis.Calculus.Deriv.Pi
import Mathlib.Analysis.SpecialFunctions.ExpDeriv
import Verif.Model.KnotPoint

/-!
# C108: accuracy of the integrators on nonlinear, time-dependent dynamics
-/

namespace Altro.Props
open Set Altro.Spec Altro.RK
variable {n m : ℕ}

/-- C108: steps of `RungeKutta4::Integrate` follow the motion of the system with an error of the fourth power of the longest step. -/
theorem C108_rk4 (d : ContDyn n m ℝ) (hd : FourTimes d) : Tracks d d.rk4 4 := rk4_tracks hd

/-- C108: steps of `ExplicitEuler::Integrate` follow it with an error proportional to the longest step. -/
theorem C108_euler (d : ContDyn n m ℝ) (hd : FourTimes d) : Tracks d d.euler 1 := euler_tracks hd

/-- C108: what the augmented Lagrangian solver returns is within `C * H ^ 4` of the motion of the continuous system under the returned
controls, at all knot points; one `C` for all problems with these dynamics, all options and all starting points. -/
theorem C108_solve (d : ContDyn n m ℝ) (hd : FourTimes d) {K : Set (Fin m → ℝ)} (hK : IsCompact K) (r T : ℝ) :
    ∃ B H0 : ℝ, 0 < H0 ∧ ∀ {C D : Type} (P : Kernel (Fin n → ℝ) (Fin m → ℝ) ℝ C D) (A : CostOps C ℝ) (o : Opts ℝ) (fuel : ℕ)
      (s s' : ALSt (Fin n → ℝ) (Fin m → ℝ) ℝ C D) (H : ℝ) (y : ℝ → Fin n → ℝ),
      (∀ k < P.N, P.dyn k = d.rk4) → 1 ≤ o.maxOuter → AL.solve P A o (ILQR.solve P o fuel) s = some s' → 0 ≤ H → H ≤ H0 →
      TimeGrid P.N s.st.Z.t s.st.Z.h H → -T ≤ s.st.Z.t 0 → s.st.Z.t P.N ≤ T → (∀ k < P.N, s'.st.Z.u k ∈ K) →
      Motion d P.N s.st.Z.t s'.st.Z.u y → (∀ t ∈ Icc (s.st.Z.t 0) (s.st.Z.t P.N), ‖y t‖ ≤ r) → y (s.st.Z.t 0) = P.x0 →
      ∀ k ≤ P.N, ‖s'.st.Z.x k - y (s.st.Z.t k)‖ ≤ B * H ^ 4 := by
  obtain ⟨B, H0, p, key⟩ := C108_rk4 d hd K hK r T
  refine ⟨B, H0, p, fun P A o fuel s s' H y hdyn hmax hs h1 h2 g a b hu hy hb hy0 => ?_⟩
  obtain ⟨f1, f2⟩ := C17_outer fuel hmax s s' hs
  refine key P.N s.st.Z.t s.st.Z.h H s'.st.Z.u y s'.st.Z.x h1 h2 g a b hu hy hb (f1.init.trans hy0.symm) fun k hk => ?_
  rw [f1.step k hk, hdyn k hk, f2.t k hk.le, f2.h k hk]

/-! ## The exponents cannot be improved -/

/-- Growth at the rate of the state. -/
def expDyn : ContDyn 1 0 ℝ := ⟨fun x _ _ => x, fun _ _ _ _ => Matrix.fromCols 1 0⟩

theorem expDyn_fourTimes : FourTimes expDyn := contDiff_fst

theorem expDyn_motion (N : ℕ) (τ : ℕ → ℝ) (u : ℕ → Fin 0 → ℝ) : Motion expDyn N τ u fun t _ => Real.exp t :=
  ⟨(continuous_pi fun _ => Real.continuous_exp).continuousOn, fun _ _ t _ =>
    (hasDerivAt_pi.mpr fun _ => Real.hasDerivAt_exp t).hasDerivWithinAt⟩

theorem pow_gap {a b : ℝ} (hb : 1 ≤ b) (hab : b ≤ a) : ∀ N : ℕ, N * (a - b) ≤ a ^ N - b ^ N
  | 0 => by simp
  | N + 1 => by
    have ih := pow_gap hb hab N
    have h1 : 1 ≤ b ^ N := one_le_pow₀ hb
    have h2 : b ^ N ≤ a ^ N := pow_le_pow_left₀ (by linarith) hab N
    rw [pow_succ, pow_succ, Nat.cast_add, Nat.cast_one]
    nlinarith

/-- The factor of one step of each method. -/
theorem expDyn_rk4 (x : Fin 1 → ℝ) (u : Fin 0 → ℝ) (t h : ℝ) :
    expDyn.rk4 x u t h = (1 + h + h ^ 2 / 2 + h ^ 3 / 6 + h ^ 4 / 24) • x := by
  ext i
  simp [ContDyn.rk4, ContDyn.k1, ContDyn.k2, ContDyn.k3, ContDyn.k4, expDyn]
  ring

theorem expDyn_euler (x : Fin 1 → ℝ) (u : Fin 0 → ℝ) (t h : ℝ) : expDyn.euler x u t h = (1 + h) • x := by
  ext i
  simp [ContDyn.euler, expDyn]
  ring

theorem exp_gap4 {h : ℝ} (h0 : 0 ≤ h) : 1 + h + h ^ 2 / 2 + h ^ 3 / 6 + h ^ 4 / 24 + h ^ 5 / 120 ≤ Real.exp h := by
  have := Real.sum_le_exp_of_nonneg h0 6
  simp [Finset.sum_range_succ, Nat.factorial] at this
  linarith

theorem exp_gap1 {h : ℝ} (h0 : 0 ≤ h) : 1 + h + h ^ 2 / 2 ≤ Real.exp h := by
  have := Real.sum_le_exp_of_nonneg h0 3
  simp [Finset.sum_range_succ, Nat.factorial] at this
  linarith

theorem expDyn_gap {Φ : (Fin 1 → ℝ) → (Fin 0 → ℝ) → ℝ → ℝ → Fin 1 → ℝ} {N : ℕ} (hN : 0 < N) {b c : ℝ} (hb : 1 ≤ b)
    (hbc : b + c ≤ Real.exp (1 / N)) (hc : 0 ≤ c) (hΦ : ∀ x u t, Φ x u t (1 / N) = b • x) {x : ℕ → Fin 1 → ℝ} (x0 : x 0 = 1)
    (u : Fin 0 → ℝ) (hx : ∀ k < N, x (k + 1) = Φ (x k) u (k / N) (1 / N)) : N * c ≤ ‖x N - fun _ => Real.exp 1‖ := by
  have hk : ∀ k ≤ N, x k = fun _ => b ^ k := by
    intro k
    induction k with
    | zero => intro _; rw [x0]; ext; simp
    | succ k ih =>
      intro h
      rw [hx k h, hΦ, ih (by omega)]
      ext
      simp [pow_succ, mul_comm]
  rw [hk N le_rfl]
  have e : Real.exp 1 = Real.exp (1 / N) ^ N := by
    rw [← Real.exp_nat_mul, mul_one_div_cancel (by exact_mod_cast hN.ne')]
  have g := pow_gap hb (a := Real.exp (1 / N)) (by linarith) N
  have : N * c ≤ N * (Real.exp (1 / N) - b) := mul_le_mul_of_nonneg_left (by linarith) (Nat.cast_nonneg _)
  refine le_trans ?_ (norm_le_pi_norm _ (0 : Fin 1))
  rw [Pi.sub_apply, Real.norm_eq_abs, abs_sub_comm, e]
  exact (this.trans g).trans (le_abs_self _)

/-- C108: on the system that grows at the rate of its state, `N` equal steps of the Runge-Kutta method over a unit of time leave an error
of at least `(1 / N) ^ 4 / 120`. -/
theorem C108_rk4_sharp {N : ℕ} (hN : 0 < N) {x : ℕ → Fin 1 → ℝ} (x0 : x 0 = 1) (u : Fin 0 → ℝ)
    (hx : ∀ k < N, x (k + 1) = expDyn.rk4 (x k) u (k / N) (1 / N)) : (1 / N : ℝ) ^ 4 / 120 ≤ ‖x N - fun _ => Real.exp 1‖ := by
  have p : (0 : ℝ) < N := by exact_mod_cast hN
  have h0 : (0 : ℝ) ≤ 1 / N := by positivity
  refine le_trans (le_of_eq ?_) (expDyn_gap hN (c := (1 / N : ℝ) ^ 5 / 120) ?_ (exp_gap4 h0) (by positivity) (fun x u t => expDyn_rk4 x u t _) x0 u hx)
  · field_simp
  · have : (0 : ℝ) ≤ 1 / N + (1 / N : ℝ) ^ 2 / 2 + (1 / N : ℝ) ^ 3 / 6 + (1 / N : ℝ) ^ 4 / 24 := by positivity
    linarith

/-- C108: Euler's method leaves an error of at least `(1 / N) / 2` there. -/
theorem C108_euler_sharp {N : ℕ} (hN : 0 < N) {x : ℕ → Fin 1 → ℝ} (x0 : x 0 = 1) (u : Fin 0 → ℝ)
    (hx : ∀ k < N, x (k + 1) = expDyn.euler (x k) u (k / N) (1 / N)) : (1 / N : ℝ) / 2 ≤ ‖x N - fun _ => Real.exp 1‖ := by
  have p : (0 : ℝ) < N := by exact_mod_cast hN
  have h0 : (0 : ℝ) ≤ 1 / N := by positivity
  refine le_trans (le_of_eq ?_) (expDyn_gap hN (c := (1 / N : ℝ) ^ 2 / 2) ?_ (exp_gap1 h0) (by positivity) (fun x u t => expDyn_euler x u t _) x0 u hx)
  · field_simp
  · linarith

/-- C108: so Euler's method has no bound with the square of the step, on dynamics as smooth as one likes. -/
theorem C108_euler_not_second : ¬ Tracks expDyn expDyn.euler 2 := by
  intro h
  obtain ⟨C, H0, p, key⟩ := h Set.univ isCompact_univ (Real.exp 1) 1
  obtain ⟨N, hN⟩ := exists_nat_gt (1 / H0 + 2 * |C|)
  have a1 : 0 < 1 / H0 := by positivity
  have Np : (0 : ℝ) < N := by linarith [abs_nonneg C]
  have N0 : 0 < N := by exact_mod_cast Np
  let x : ℕ → Fin 1 → ℝ := fun k => Nat.rec 1 (fun k z => expDyn.euler z 0 (k / N) (1 / N)) k
  have hx : ∀ k < N, x (k + 1) = expDyn.euler (x k) 0 (k / N) (1 / N) := fun k _ => rfl
  have low := C108_euler_sharp N0 (x := x) rfl 0 hx
  have up := key N (fun k => k / N) (fun _ => 1 / N) (1 / N) (fun _ => 0) (fun t _ => Real.exp t) x (by positivity)
    (by rw [div_le_iff₀ Np]; have := (div_lt_iff₀ p).mp (show 1 / H0 < N by linarith [abs_nonneg C]); linarith)
    ⟨fun _ _ => by positivity, fun _ _ => le_rfl, fun k _ => by push_cast; ring⟩ (by simp) (by rw [div_self Np.ne'])
    (fun _ _ => trivial) (expDyn_motion _ _ _) (fun t ht => by
      rw [div_self Np.ne'] at ht
      refine (pi_norm_le_iff_of_nonneg (Real.exp_pos 1).le).mpr fun _ => ?_
      rw [Real.norm_of_nonneg (Real.exp_pos t).le]
      exact Real.exp_le_exp.mpr ht.2) (by ext; simp [x]) hx N le_rfl
  rw [div_self Np.ne'] at up
  have h1 : (1 / N : ℝ) / 2 ≤ C * (1 / N) ^ 2 := low.trans up
  have h2 : (1 / N : ℝ) / 2 * N ^ 2 ≤ C * (1 / N) ^ 2 * N ^ 2 := mul_le_mul_of_nonneg_right h1 (by positivity)
  have h3 : (1 / N : ℝ) / 2 * N ^ 2 = N / 2 := by field_simp
  have h4 : C * (1 / N : ℝ) ^ 2 * N ^ 2 = C := by field_simp
  rw [h3, h4] at h2
  linarith [le_abs_self C]

/-! ## The models of the examples -/

/-- C108: the unicycle. -/
theorem C108_unicycle : FourTimes unicycle := by
  refine contDiff_pi.mpr fun i => ?_
  have c : ∀ j, ContDiff ℝ 4 fun p : (Fin 3 → ℝ) × (Fin 2 → ℝ) × ℝ => p.1 j := fun j => (contDiff_apply ℝ ℝ j).comp contDiff_fst
  have v : ∀ j, ContDiff ℝ 4 fun p : (Fin 3 → ℝ) × (Fin 2 → ℝ) × ℝ => p.2.1 j := fun j => (contDiff_apply ℝ ℝ j).comp contDiff_snd.fst
  fin_cases i
  · exact (v 0).mul (Real.contDiff_cos.comp (c 2))
  · exact (v 0).mul (Real.contDiff_sin.comp (c 2))
  · exact v 1

/-- The unicycle with speed `R * ω` and turning rate `ω` drives a circle of radius `R`. -/
noncomputable def circle (R ω t : ℝ) : Fin 3 → ℝ := ![R * Real.sin (ω * t), R * (1 - Real.cos (ω * t)), ω * t]

theorem circle_motion (R ω : ℝ) (N : ℕ) (τ : ℕ → ℝ) : Motion unicycle N τ (fun _ => ![R * ω, ω]) (circle R ω) := by
  have h : ∀ t, HasDerivAt (circle R ω) (unicycle.f (circle R ω t) ![R * ω, ω] t) t := fun t => by
    have l : HasDerivAt (fun t => ω * t) ω t := by simpa using (hasDerivAt_id t).const_mul ω
    refine hasDerivAt_pi.mpr fun i => ?_
    fin_cases i
    · exact (l.sin.const_mul R).congr_deriv (by simp [unicycle, circle]; ring)
    · exact ((l.cos.const_sub 1).const_mul R).congr_deriv (by simp [unicycle, circle]; ring)
    · exact l
  exact ⟨fun t _ => (h t).continuousAt.continuousWithinAt, fun _ _ t _ => (h t).hasDerivWithinAt⟩

/-- The hypotheses of C108 are met by one radian of a circle of radius two, in `N` equal steps: the states that the Runge-Kutta method
reaches are within `C / N ^ 4` of the circle, for all large `N`. -/
example : ∃ C : ℝ, ∃ N0 : ℕ, ∀ N ≥ N0, ∀ x : ℕ → Fin 3 → ℝ, x 0 = 0 →
    (∀ k < N, x (k + 1) = unicycle.rk4 (x k) ![2 * 1, 1] (k / N) (1 / N)) → ∀ k ≤ N, ‖x k - circle 2 1 (k / N)‖ ≤ C * (1 / N) ^ 4 := by
  obtain ⟨C, H0, p, key⟩ := C108_rk4 unicycle C108_unicycle {![2 * 1, 1]} isCompact_singleton 5 1
  obtain ⟨N0, hN0⟩ := exists_nat_gt (1 / H0)
  refine ⟨C, N0, fun N hN x x0 hx k hk => ?_⟩
  have a1 : 0 < 1 / H0 := by positivity
  have h1 : 1 / H0 < N := hN0.trans_le (by exact_mod_cast hN)
  have Np : (0 : ℝ) < N := a1.trans h1
  refine key N (fun k => k / N) (fun _ => 1 / N) (1 / N) (fun _ => ![2 * 1, 1]) (circle 2 1) x (by positivity)
    (by rw [div_le_iff₀ Np]; have := (div_lt_iff₀ p).mp h1; linarith)
    ⟨fun _ _ => by positivity, fun _ _ => le_rfl, fun k _ => by push_cast; ring⟩ (by simp) (by rw [div_self Np.ne'])
    (fun _ _ => rfl) (circle_motion 2 1 _ _) (fun t ht => ?_) (by rw [x0]; ext i; fin_cases i <;> simp [circle]) hx k hk
  rw [div_self Np.ne'] at ht
  have t0 : 0 ≤ t := by simpa using ht.1
  refine (pi_norm_le_iff_of_nonneg (by norm_num)).mpr fun i => ?_
  have s1 := Real.neg_one_le_sin t
  have s2 := Real.sin_le_one t
  have s3 := Real.neg_one_le_cos t
  have s4 := Real.cos_le_one t
  rw [Real.norm_eq_abs, abs_le]
  fin_cases i
  · show -5 ≤ 2 * Real.sin (1 * t) ∧ 2 * Real.sin (1 * t) ≤ 5
    rw [one_mul]; constructor <;> linarith
  · show -5 ≤ 2 * (1 - Real.cos (1 * t)) ∧ 2 * (1 - Real.cos (1 * t)) ≤ 5
    rw [one_mul]; constructor <;> linarith
  · show -5 ≤ 1 * t ∧ 1 * t ≤ 5
    constructor <;> linarith [ht.2]

end Altro.Props
