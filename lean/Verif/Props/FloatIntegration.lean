import Verif.Proofs.FloatIntegration
import Verif.Props.IntegrationOrder
import Verif.Props.Trajectory

/-!
# C109: rollouts in floating point against the exact dynamics
-/

namespace Altro.Props
open Set Altro.Spec Altro.Rounded
variable {n m : ℕ}

/-- C109: the roundings of the hardware. -/
theorem C109_ieee : RoundsTo Rounding.ieee754 ((2 : ℝ) ^ (-53 : ℤ)) ((2 : ℝ) ^ (-24 : ℤ)) := by
  have key : ∀ (p : ℕ) (emin : ℤ), emin - 1 ≤ -(p : ℤ) → ∀ q : ℚ, |((ieee p emin q : ℚ) : ℝ) - q| ≤ (2 : ℝ) ^ (-(p : ℤ)) * (|(q : ℝ)| + 1) := by
    intro p emin he q
    have h := ieee_rel p emin q
    have h2 : (2 : ℚ) ^ (emin - 1) ≤ (2 : ℚ) ^ (-(p : ℤ)) := zpow_le_zpow_right₀ (by norm_num) he
    have h3 : |ieee p emin q - q| ≤ (2 : ℚ) ^ (-(p : ℤ)) * (|q| + 1) := by rw [mul_add, mul_one, mul_comm]; linarith
    have h4 : ((|ieee p emin q - q| : ℚ) : ℝ) ≤ (((2 : ℚ) ^ (-(p : ℤ)) * (|q| + 1) : ℚ) : ℝ) := Rat.cast_le.mpr h3
    push_cast at h4
    exact h4
  exact ⟨key 53 (-1074) (by norm_num), key 24 (-149) (by norm_num)⟩

/-- C109: without rounding, the machine integrators are those of C33, C34 and C108. -/
theorem C109_exact {K : Type} [Field K] (d : ContDyn n m K) (x : Fin n → K) (u : Fin m → K) (t h : K) :
    Rounded.rk4 .exact d.f x u t h = d.rk4 x u t h ∧ Rounded.euler .exact d.f x u t h = d.euler x u t h := by
  have e1 : ∀ k : Fin n → K, halfStage .exact x k h = x + (1 / 2 * h) • k := fun k => by
    ext i; simp [halfStage, Rounding.exact]; ring
  have e2 : ∀ k : Fin n → K, fullStage .exact x k h = x + h • k := fun k => by
    ext i; simp [fullStage, Rounding.exact]; ring
  constructor
  · simp only [Rounded.rk4, ContDyn.rk4, ContDyn.k1, ContDyn.k2, ContDyn.k3, ContDyn.k4, e1, e2]
    ext i
    simp only [combine, halfTime, fullTime, Rounding.exact, id_eq, Pi.add_apply, Pi.smul_apply, smul_eq_mul]
    ring
  · simp only [Rounded.euler, ContDyn.euler, e2]

section
variable {R : Rounding ℚ} {f : (Fin n → ℚ) → (Fin m → ℚ) → ℚ → Fin n → ℚ} {d : ContDyn n m ℝ} {U : Set (Fin m → ℝ)}
variable {ε ε' η σ T X Q L Lt ρ H a : ℝ} {N : ℕ} {x : ℕ → Fin n → ℚ} {z : ℕ → Fin n → ℝ} {u : ℕ → Fin m → ℚ} {t h : ℕ → ℚ} {τ : ℕ → ℝ}

/-- From one step to many. -/
theorem shadow_steps (ok : RoundedSetting R f d U ε ε' η σ T X Q L Lt ρ H) {hr : ℕ → ℝ} (h0 : ∀ k < N, 0 ≤ hr k)
    (next : ∀ k < N, τ (k + 1) = τ k + hr k) (hT : ∀ k < N, |(t k : ℝ)| ≤ T) (hb : ∀ k < N, ‖real (x k)‖ ≤ X ∨ ‖z k‖ + 1 ≤ X)
    (step : ∀ k < N, ‖real (x k)‖ ≤ X → ‖real (x k) - z k‖ ≤ 1 → ‖real (x (k + 1)) - z (k + 1)‖ ≤
      (1 + 2 * hr k * L) * ‖real (x k) - z k‖ + 2 * hr k * (η + Lt * timeError ε ε' σ T) + ε * roundings X Q)
    (ha : ‖real (x 0) - z 0‖ ≤ a) (small : drift ε ε' η σ T X Q L Lt a N (τ N - τ 0) ≤ 1) :
    ∀ k ≤ N, ‖real (x k) - z k‖ ≤ drift ε ε' η σ T X Q L Lt a k (τ k - τ 0) := by
  have shape : ∀ (k : ℕ) (s : ℝ), drift ε ε' η σ T X Q L Lt a k s =
      (a + k * (ε * roundings X Q) + s * (2 * (η + Lt * timeError ε ε' σ T))) * Real.exp (2 * L * s) := fun k s => by unfold drift; ring
  intro k hk
  rw [shape]
  rw [shape] at small
  by_cases hN : N = 0
  · obtain rfl : k = 0 := by omega
    simpa using ha
  have X0 : 0 ≤ X := by
    rcases hb 0 (by omega) with e | e
    · exact (norm_nonneg _).trans e
    · linarith [norm_nonneg (z 0)]
  have T0 : 0 ≤ T := (abs_nonneg _).trans (hT 0 (by omega))
  obtain ⟨-, e0, -, e0', eta, sig, Q0, L0, Lt0, -, -, -, -, -⟩ := id ok
  refine (accumulate_drift (e := fun k => ‖real (x k) - z k‖) (by unfold roundings; positivity) (by unfold timeError; positivity)
    ((norm_nonneg _).trans ha) (by positivity) h0 next ha small (fun j hj h1 => ?_) (fun _ _ => norm_nonneg _) k hk).1
  have hxj : ‖real (x j)‖ ≤ X := by
    rcases hb j hj with e | e
    · exact e
    · have := norm_sub_norm_le (real (x j)) (z j)
      linarith
  refine (step j hj hxj h1).trans (le_of_eq ?_)
  ring

/-- C109: a rollout of the Runge-Kutta method in floating point (`x`) and the exact rollout (`z`) of the same controls differ by at most
`drift`: the error at the start, a rounding error for every step, and the errors of `Evaluate` and of the times for every unit of time,
all growing with twice the Lipschitz constant.  One of the two rollouts has to be bounded. -/
theorem C109_shadow (ok : RoundedSetting R f d U ε ε' η σ T X Q L Lt ρ H) (grid : TimeGrid N τ (fun k => (h k : ℝ)) H) (hL : H * L ≤ 1)
    (ht : ∀ k < N, |(t k : ℝ)| ≤ T) (hτ : ∀ k < N, |(t k : ℝ) - τ k| ≤ σ) (hu : ∀ k < N, real (u k) ∈ U)
    (hb : ∀ k < N, ‖real (x k)‖ ≤ X ∨ ‖z k‖ + 1 ≤ X) (hx : ∀ k < N, x (k + 1) = Rounded.rk4 R f (x k) (u k) (t k) (h k))
    (hz : ∀ k < N, z (k + 1) = d.rk4 (z k) (real (u k)) (τ k) (h k)) (h0 : ‖real (x 0) - z 0‖ ≤ a)
    (small : drift ε ε' η σ T X Q L Lt a N (τ N - τ 0) ≤ 1) :
    ∀ k ≤ N, ‖real (x k) - z k‖ ≤ drift ε ε' η σ T X Q L Lt a k (τ k - τ 0) :=
  shadow_steps ok grid.nonneg grid.next ht hb (fun j hj hxj h1 => by
    rw [hx j hj, hz j hj]
    exact rk4_err ok (hu j hj) hxj h1 (ht j hj) (hτ j hj) (grid.nonneg j hj) (grid.le j hj)
      ((mul_le_mul_of_nonneg_right (grid.le j hj) ok.L0).trans hL)) h0 small

/-- C109: the same for Euler's method. -/
theorem C109_shadow_euler (ok : RoundedSetting R f d U ε ε' η σ T X Q L Lt ρ H) (grid : TimeGrid N τ (fun k => (h k : ℝ)) H)
    (ht : ∀ k < N, |(t k : ℝ)| ≤ T) (hτ : ∀ k < N, |(t k : ℝ) - τ k| ≤ σ) (hu : ∀ k < N, real (u k) ∈ U)
    (hb : ∀ k < N, ‖real (x k)‖ ≤ X ∨ ‖z k‖ + 1 ≤ X) (hx : ∀ k < N, x (k + 1) = Rounded.euler R f (x k) (u k) (t k) (h k))
    (hz : ∀ k < N, z (k + 1) = d.euler (z k) (real (u k)) (τ k) (h k)) (h0 : ‖real (x 0) - z 0‖ ≤ a)
    (small : drift ε ε' η σ T X Q L Lt a N (τ N - τ 0) ≤ 1) :
    ∀ k ≤ N, ‖real (x k) - z k‖ ≤ drift ε ε' η σ T X Q L Lt a k (τ k - τ 0) :=
  shadow_steps ok grid.nonneg grid.next ht hb (fun j hj hxj h1 => by
    rw [hx j hj, hz j hj]
    exact euler_err ok (hu j hj) hxj h1 (ht j hj) (hτ j hj) (grid.nonneg j hj) (grid.le j hj)) h0 small

end

/-- C109: against the motion of the continuous system, the error is that of the method (C108) plus `drift`. -/
theorem C109_motion (d : ContDyn n m ℝ) (hd : FourTimes d) {K : Set (Fin m → ℝ)} (hK : IsCompact K) (r S : ℝ) :
    ∃ C H0 : ℝ, 0 < H0 ∧ ∀ (R : Rounding ℚ) (f : (Fin n → ℚ) → (Fin m → ℚ) → ℚ → Fin n → ℚ) (ε ε' η σ T X Q L Lt ρ H a : ℝ) (N : ℕ)
      (x : ℕ → Fin n → ℚ) (u : ℕ → Fin m → ℚ) (t h : ℕ → ℚ) (τ : ℕ → ℝ) (y : ℝ → Fin n → ℝ),
      RoundedSetting R f d K ε ε' η σ T X Q L Lt ρ H → TimeGrid N τ (fun k => (h k : ℝ)) H → 0 ≤ H → H ≤ H0 → H * L ≤ 1 →
      -S ≤ τ 0 → τ N ≤ S → (∀ k < N, |(t k : ℝ)| ≤ T) → (∀ k < N, |(t k : ℝ) - τ k| ≤ σ) → (∀ k < N, real (u k) ∈ K) →
      (∀ k < N, ‖real (x k)‖ ≤ X) → (∀ k < N, x (k + 1) = Rounded.rk4 R f (x k) (u k) (t k) (h k)) →
      Motion d N τ (fun k => real (u k)) y → (∀ t ∈ Icc (τ 0) (τ N), ‖y t‖ ≤ r) → ‖real (x 0) - y (τ 0)‖ ≤ a →
      drift ε ε' η σ T X Q L Lt a N (τ N - τ 0) ≤ 1 →
      ∀ k ≤ N, ‖real (x k) - y (τ k)‖ ≤ drift ε ε' η σ T X Q L Lt a k (τ k - τ 0) + C * H ^ 4 := by
  obtain ⟨C, H0, p, key⟩ := C108_rk4 d hd K hK r S
  refine ⟨C, H0, p, fun R f ε ε' η σ T X Q L Lt ρ H a N x u t h τ y ok grid h0 h1 hL a1 a2 ht hτ hu hX hx hy hr ha small k hk => ?_⟩
  let z : ℕ → Fin n → ℝ := fun k => Nat.rec (y (τ 0)) (fun j w => d.rk4 w (real (u j)) (τ j) (h j)) k
  have hz : ∀ k < N, z (k + 1) = d.rk4 (z k) (real (u k)) (τ k) (h k) := fun _ _ => rfl
  have s1 := C109_shadow ok grid hL ht hτ hu (fun k hk => .inl (hX k hk)) hx hz ha small k hk
  have s2 := key N τ (fun k => (h k : ℝ)) H (fun k => real (u k)) y z h0 h1 grid a1 a2 hu hy hr rfl hz k hk
  exact (norm_sub_le_norm_sub_add_norm_sub _ (z k) _).trans (add_le_add s1 s2)

/-- C109: the trajectory that the augmented Lagrangian solver returns shadows the exact rollout of the returned controls.  States,
controls and times may have any representation (`vx`, `vu`, `vt` give their values), as long as the dynamics of the kernel compute the
Runge-Kutta step of the model on the values of the returned trajectory. -/
theorem C109_solve {X' U' F C D : Type} [Arith F] {P : Kernel X' U' F C D} {A : CostOps C F} {o : Opts F} {R : Rounding ℚ}
    {f : (Fin n → ℚ) → (Fin m → ℚ) → ℚ → Fin n → ℚ} {d : ContDyn n m ℝ} {U : Set (Fin m → ℝ)} {ε ε' η σ T X Q L Lt ρ H a : ℝ}
    (vx : X' → Fin n → ℚ) (vu : U' → Fin m → ℚ) (vt : F → ℚ) (ok : RoundedSetting R f d U ε ε' η σ T X Q L Lt ρ H) (hL : H * L ≤ 1)
    (fuel : ℕ) (hmax : 1 ≤ o.maxOuter) (s s' : ALSt X' U' F C D) (hs : AL.solve P A o (ILQR.solve P o fuel) s = some s')
    (τ : ℕ → ℝ) (grid : TimeGrid P.N τ (fun k => (vt (s.st.Z.h k) : ℝ)) H) (ht : ∀ k < P.N, |(vt (s.st.Z.t k) : ℝ)| ≤ T)
    (hτ : ∀ k < P.N, |(vt (s.st.Z.t k) : ℝ) - τ k| ≤ σ) (hu : ∀ k < P.N, real (vu (s'.st.Z.u k)) ∈ U)
    (hX : ∀ k < P.N, ‖real (vx (s'.st.Z.x k))‖ ≤ X)
    (hdyn : ∀ k < P.N, vx (P.dyn k (s'.st.Z.x k) (s'.st.Z.u k) (s'.st.Z.t k) (s'.st.Z.h k)) =
      Rounded.rk4 R f (vx (s'.st.Z.x k)) (vu (s'.st.Z.u k)) (vt (s'.st.Z.t k)) (vt (s'.st.Z.h k)))
    {z : ℕ → Fin n → ℝ} (hz0 : ‖real (vx P.x0) - z 0‖ ≤ a)
    (hz : ∀ k < P.N, z (k + 1) = d.rk4 (z k) (real (vu (s'.st.Z.u k))) (τ k) (vt (s.st.Z.h k)))
    (small : drift ε ε' η σ T X Q L Lt a P.N (τ P.N - τ 0) ≤ 1) :
    ∀ k ≤ P.N, ‖real (vx (s'.st.Z.x k)) - z k‖ ≤ drift ε ε' η σ T X Q L Lt a k (τ k - τ 0) := by
  obtain ⟨f1, f2⟩ := C17_outer fuel hmax s s' hs
  refine C109_shadow (x := fun k => vx (s'.st.Z.x k)) (u := fun k => vu (s'.st.Z.u k)) (t := fun k => vt (s.st.Z.t k)) (h := fun k => vt (s.st.Z.h k))
    ok grid hL ht hτ hu (fun k hk => .inl (hX k hk)) (fun k hk => ?_) hz (by rw [f1.init]; exact hz0) small
  rw [f1.step k hk, hdyn k hk, f2.t k hk.le, f2.h k hk]

/-- C109: the times that `SetUniformStep` stores are multiples of the step up to rounding to `float`. -/
theorem C109_times {X U : Type} {R : Rounding ℚ} {ε ε' : ℝ} (hR : RoundsTo R ε ε') (h0 : 0 ≤ ε') (h1 : ε' ≤ 1) (h : ℚ) (hh : 0 ≤ h)
    (Z : List (KnotPt X U ℚ)) (k : ℕ) (z : KnotPt X U ℚ) (hz : (Traj.setUniformStep R h Z)[k]? = some z) :
    |(z.t : ℝ) - k * h| ≤ ε' * (3 * (k + 1) * h + 1) := by
  have hh' : (0 : ℝ) ≤ h := by exact_mod_cast hh
  have e : z.t = R.r32 (R.r32 (k : ℚ) * h) := by
    rw [Traj.setUniformStep, List.getElem?_mapIdx] at hz
    cases hk : Z[k]? with
    | none => rw [hk] at hz; cases hz
    | some w =>
      rw [hk] at hz
      obtain rfl := Option.some.inj hz
      split
      · show R.r32 (h * R.r32 (k : ℚ)) = _
        rw [mul_comm]
      · rfl
  have a1 := hR.r32 (k : ℚ)
  have a2 := hR.r32 (R.r32 (k : ℚ) * h)
  rw [← e] at a2
  push_cast at a1 a2
  rw [abs_of_nonneg (Nat.cast_nonneg k : (0 : ℝ) ≤ k)] at a1
  have b1 : |((R.r32 (k : ℚ) : ℚ) : ℝ) * h - k * h| ≤ ε' * (k + 1) * h := by
    rw [← sub_mul, abs_mul, abs_of_nonneg hh']
    exact mul_le_mul_of_nonneg_right a1 hh'
  have kp : (0 : ℝ) ≤ k := Nat.cast_nonneg k
  have kh : (0 : ℝ) ≤ (k + 1) * h := by positivity
  have b2 : |((R.r32 (k : ℚ) : ℚ) : ℝ) * h| ≤ 2 * ((k + 1) * h) := by
    have := abs_sub_abs_le_abs_sub (((R.r32 (k : ℚ) : ℚ) : ℝ) * h) (k * h)
    rw [abs_of_nonneg (by positivity : (0 : ℝ) ≤ k * h)] at this
    have : ε' * (k + 1) * h ≤ (k + 1) * h := by rw [mul_assoc]; exact mul_le_of_le_one_left kh h1
    linarith
  refine (tri a2 b1).trans ?_
  have := mul_le_mul_of_nonneg_left b2 h0
  nlinarith

/-! ## A thousand steps in double precision -/

/-- `Evaluate` of the system `x' = x`: no rounding, no error. -/
def expEval (x : Fin 1 → ℚ) (_ : Fin 0 → ℚ) (_ : ℚ) : Fin 1 → ℚ := x

/-- The growing system in IEEE arithmetic, with steps of `2^-10` for a unit of time. -/
theorem exp_setting : RoundedSetting Rounding.ieee754 expEval expDyn univ ((2 : ℝ) ^ (-53 : ℤ)) ((2 : ℝ) ^ (-24 : ℤ)) 0 0 1 4 8 1 0 8 (1 / 1024) := by
  refine ⟨C109_ieee, by positivity, ?_, by positivity, le_rfl, le_rfl, by norm_num, zero_le_one, le_rfl, by norm_num,
    ⟨fun _ _ x t hx _ => hx, fun u _ x t x' t' _ _ _ _ => ?_⟩, ⟨fun x u t _ hx _ => hx, fun x u t _ _ _ => ?_⟩, ?_, ?_⟩
  · norm_num
  · show ‖x - x'‖ ≤ _
    linarith
  · show ‖real x - real x‖ ≤ 0
    simp
  · norm_num
  · unfold timeError
    norm_num

/-- The hypotheses of C109 are met: 1024 steps of the Runge-Kutta method in double precision from `x = 1`, with the `float` times of
`SetUniformStep`, end within `3 * 10^-9` of the exact method. -/
example {x : ℕ → Fin 1 → ℚ} (x0 : x 0 = 1) (hx : ∀ k < 1024, x (k + 1) = Rounded.rk4 .ieee754 expEval (x k) 0 (k / 1024) (1 / 1024))
    {z : ℕ → Fin 1 → ℝ} (z0 : z 0 = 1) (hz : ∀ k < 1024, z (k + 1) = expDyn.rk4 (z k) 0 (k / 1024) (1 / 1024)) :
    ‖real (x 1024) - z 1024‖ ≤ 3 / 10 ^ 9 := by
  have zk : ∀ k ≤ 1024, z k = fun _ => (1 + 1 / 1024 + (1 / 1024) ^ 2 / 2 + (1 / 1024) ^ 3 / 6 + (1 / 1024 : ℝ) ^ 4 / 24) ^ k := by
    intro k
    induction k with
    | zero => intro _; rw [z0]; ext; simp
    | succ k ih =>
      intro h
      rw [hz k (by omega), expDyn_rk4, ih (by omega)]
      ext
      simp [pow_succ, mul_comm]
  have e3 : Real.exp 1 < 3 := by linarith [Real.exp_one_lt_d9]
  have bz : ∀ k < 1024, ‖z k‖ + 1 ≤ 4 := fun k hk => by
    rw [zk k hk.le]
    have h1 : (1 + 1 / 1024 + (1 / 1024) ^ 2 / 2 + (1 / 1024) ^ 3 / 6 + (1 / 1024 : ℝ) ^ 4 / 24) ^ k ≤ Real.exp 1 := by
      have a := exp_gap4 (h := 1 / 1024) (by norm_num)
      have b : (1 + 1 / 1024 + (1 / 1024) ^ 2 / 2 + (1 / 1024) ^ 3 / 6 + (1 / 1024 : ℝ) ^ 4 / 24) ≤ Real.exp (1 / 1024) :=
        le_trans (le_add_of_nonneg_right (by norm_num)) a
      refine (pow_le_pow_left₀ (by norm_num) b k).trans ?_
      rw [← Real.exp_nat_mul]
      refine Real.exp_le_exp.mpr ?_
      have : (k : ℝ) ≤ 1024 := by exact_mod_cast hk.le
      linarith
    have h2 : ‖(fun _ : Fin 1 => (1 + 1 / 1024 + (1 / 1024) ^ 2 / 2 + (1 / 1024) ^ 3 / 6 + (1 / 1024 : ℝ) ^ 4 / 24) ^ k)‖ ≤ 3 := by
      refine (pi_norm_le_iff_of_nonneg (by norm_num)).mpr fun _ => ?_
      rw [Real.norm_of_nonneg (by positivity)]
      linarith
    linarith
  have dr : drift ((2 : ℝ) ^ (-53 : ℤ)) ((2 : ℝ) ^ (-24 : ℤ)) 0 0 1 4 8 1 0 0 1024 ((1024 : ℕ) / 1024 - (0 : ℕ) / 1024) ≤ 3 / 10 ^ 9 := by
    have e9 : Real.exp 2 ≤ 9 := by
      have : Real.exp 2 = Real.exp 1 * Real.exp 1 := by rw [← Real.exp_add]; norm_num
      rw [this]; nlinarith [Real.exp_pos 1]
    unfold drift roundings
    have : (2 * 1 * (((1024 : ℕ) : ℝ) / 1024 - ((0 : ℕ) : ℝ) / 1024)) = 2 := by norm_num
    rw [this]
    have e0 := Real.exp_pos 2
    norm_num
    nlinarith
  have key := C109_shadow (N := 1024) (x := x) (z := z) (u := fun _ => 0) (t := fun k => k / 1024) (h := fun _ => 1 / 1024) (τ := fun k => k / 1024)
    (a := 0) exp_setting ⟨fun _ _ => by norm_num, fun _ _ => by norm_num, fun k _ => by push_cast; ring⟩ (by norm_num)
    (fun k hk => by
      have : (k : ℝ) ≤ 1024 := by exact_mod_cast hk.le
      push_cast
      rw [abs_of_nonneg (by positivity)]
      linarith) (fun k _ => by push_cast; simp) (fun _ _ => trivial) (fun k hk => .inr (bz k hk)) hx
    (fun k hk => by
      rw [hz k hk]
      congr 1
      · ext i; exact i.elim0
      · push_cast; rfl)
    (by
      rw [x0, z0]
      have : real (1 : Fin 1 → ℚ) = 1 := by ext; simp [real]
      rw [this, sub_self, norm_zero]) (dr.trans (by norm_num)) 1024 le_rfl
  exact key.trans dr

end Altro.Props
