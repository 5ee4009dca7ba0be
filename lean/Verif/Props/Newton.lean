import Verif.Proofs.NewtonProblem
import Verif.Props.Limits
import Verif.Model.Options

/-!
# C100: near a minimiser iLQR is Newton's method
-/

namespace Altro.Props
open Altro.Spec Matrix ILQR
variable {n m : ℕ} {p : DynProblem n m ℝ} {cs : ℕ → ALCost n m ℝ} {Y : Traj (Fin n → ℝ) (Fin m → ℝ) ℝ} {μ M L R ρ : ℝ}

theorem NewtonSmall.mono {N : ℕ} {a C rb rb' E0 : ℝ} (h : NewtonSmall N μ M L a C rb E0) (hμ : 0 < μ) (hM : 0 ≤ M) (ha : 0 ≤ a)
    (hC : 0 < C) (h0 : 0 ≤ rb') (h1 : rb' ≤ rb) : NewtonSmall N μ M L a C rb' E0 where
  rb0 := h0
  rb1 := h1.trans h.rb1
  reg := (mul_le_mul_of_nonneg_left (pow_le_pow_left₀ h0 h1 2) (regRate_nonneg N hμ hM ha)).trans h.reg
  quad := h.quad
  line := (mul_le_mul_of_nonneg_right h1 (by positivity)).trans h.line
  step := h.step

theorem newtonSmall_exists (N : ℕ) {a C : ℝ} (hμ : 0 < μ) (hM : 0 ≤ M) (ha : 0 ≤ a) (hC : 0 < C) {R : ℝ} (hR : 0 < R) :
    ∃ rb E0, 0 < rb ∧ 0 < E0 ∧ NewtonSmall N μ M L a C rb E0 ∧ (1 + growth N a) * E0 ≤ R := by
  have hg := growth_nonneg N ha
  have h1 := regRate_nonneg N hμ hM ha
  have h2 := quadRate_nonneg (L := L) N hμ ha
  set A := quadRate N μ L a
  set B := regRate N μ M a
  set D := (8 * L * C) ^ 2 * (4 * (1 + growth N a)) with hD
  have hD0 : 0 ≤ D := by positivity
  have frac : ∀ {x c e : ℝ}, 0 ≤ x → 0 ≤ c → e ≤ c / (x + 1) → x * e ≤ c := by
    intro x c e hx hc he
    refine (mul_le_mul_of_nonneg_left he hx).trans ?_
    rw [mul_div_assoc', div_le_iff₀ (by positivity)]
    nlinarith
  refine ⟨min 1 (min ((1 / 4) / (B + 1)) ((μ / 2) / (3 * C + 1))),
    min ((1 / 4) / (A + 1)) (min (μ ^ 2 / (D + 1)) (R / (growth N a + 1))), ?_, ?_, ⟨?_, ?_, ?_, ?_, ?_, ?_⟩, ?_⟩
  · exact lt_min one_pos (lt_min (by positivity) (by positivity))
  · exact lt_min (by positivity) (lt_min (by positivity) (by positivity))
  · exact le_min zero_le_one (le_min (by positivity) (by positivity))
  · exact min_le_left _ _
  · have h0 : 0 ≤ min 1 (min ((1 / 4) / (B + 1)) ((μ / 2) / (3 * C + 1))) :=
      le_min zero_le_one (le_min (by positivity) (by positivity))
    have h1' : min 1 (min ((1 / 4) / (B + 1)) ((μ / 2) / (3 * C + 1))) ^ 2 ≤ (1 / 4) / (B + 1) := by
      rw [sq]
      exact (mul_le_of_le_one_left h0 (min_le_left _ _)).trans ((min_le_right _ _).trans (min_le_left _ _))
    exact frac h1 (by norm_num) h1'
  · exact frac h2 (by norm_num) (min_le_left _ _)
  · have := ((min_le_right _ _).trans (min_le_right _ _) :
      min 1 (min ((1 / 4) / (B + 1)) ((μ / 2) / (3 * C + 1))) ≤ (μ / 2) / (3 * C + 1))
    exact (le_div_iff₀ (by positivity)).mp this
  · have h3 := frac hD0 (sq_nonneg μ) ((min_le_right _ _).trans (min_le_left _ _) :
      min ((1 / 4) / (A + 1)) (min (μ ^ 2 / (D + 1)) (R / (growth N a + 1))) ≤ μ ^ 2 / (D + 1))
    rw [hD, mul_assoc] at h3
    exact h3
  · have := ((min_le_right _ _).trans (min_le_right _ _) :
      min ((1 / 4) / (A + 1)) (min (μ ^ 2 / (D + 1)) (R / (growth N a + 1))) ≤ R / (growth N a + 1))
    rw [mul_comm, add_comm 1]
    exact (le_div_iff₀ (by positivity)).mp this

/-- Near the trajectory with the least augmented cost, with a regularization of at most `b`: after `i` iterations the squared distance `E`
of the controls from the best ones is at most what `i` steps of `E ↦ (A E + B b²) E` make of it, and the solve returns with `kSolved`
when this is small compared with the tolerances.  The constants depend on the problem only; nothing is asked of the line search beyond
bounds around the expected decrease, which the default options meet. -/
theorem C100_newton (h : NewtonProblem p cs Y μ M L R ρ) (hμ : 0 < μ) (hM : 0 ≤ M) (hL : 0 ≤ L) (hR : 0 < R) (hρ : 0 < ρ)
    (hN : p.N ≠ 0) :
    ∃ A B Q r rb : ℝ, 0 ≤ A ∧ 0 ≤ B ∧ 0 ≤ Q ∧ 0 < r ∧ 0 < rb ∧ A * r ≤ 1 / 4 ∧ B * rb ^ 2 ≤ 1 / 4 ∧ (L = 0 → A = 0) ∧ (0 < L → 0 < A) ∧
      ∀ (o : Opts ℝ) (fuel : ℕ) (b : ℝ), FullStep o b → b ≤ rb → 0 < o.costTol → 0 < o.gradTol →
      ∀ q : St (Fin n → ℝ) (Fin m → ℝ) ℝ (ALCost n m ℝ) (KP n m ℝ), q.cs = cs → SameTimes (alKernel p) q.Z Y →
        Aligned q.stats → gapSq p.N q.Z Y ≤ r →
        ∀ T : ℕ, Q * decay A (B * b ^ 2) T (gapSq p.N q.Z Y) < o.costTol →
          Q * decay A (B * b ^ 2) T (gapSq p.N q.Z Y) < o.gradTol ^ 2 →
          (T : ℤ) + 1 < o.maxInner → (q.stats.total : ℤ) + T + 1 < o.maxTotal →
          ∃ t i, ILQR.solve (alKernel p) o (fuel + 1) q = some t ∧ t.status = .kSolved ∧ DynFeasible (alKernel p) t.Z ∧
            SameTimes (alKernel p) t.Z Y ∧ 1 ≤ i ∧ i ≤ T + 2 ∧ t.stats.total ≤ q.stats.total + i ∧
            gapSq p.N t.Z Y ≤ decay A (B * b ^ 2) i (gapSq p.N q.Z Y) := by
  obtain ⟨M', R', hM', hR', hc⟩ := h.core hμ hM hR hρ
  obtain ⟨a, ha, hdyn⟩ := dynBound_exists (p := p) h.dyn Y
  obtain ⟨C, hC0, hC⟩ := sweep_bounds n m p.N hμ hM' ha
  obtain ⟨rb, E0, hrb, hE0, hsm, hE0R⟩ := newtonSmall_exists (L := L) p.N hμ hM' ha hC0 hR'
  have hg := growth_nonneg p.N ha
  have hsig := sig_nonneg hM' ha p.N
  refine ⟨quadRate p.N μ L a, regRate p.N μ M' a, dropRate p.N μ M' a, E0, rb, quadRate_nonneg p.N hμ ha, regRate_nonneg p.N hμ hM' ha,
    by unfold dropRate; positivity, hE0, hrb, hsm.quad, hsm.reg, fun e => by rw [quadRate, e]; ring,
    fun hL' => by unfold quadRate; positivity, ?_⟩
  intro o fuel b ho hb hJ hgt q hcs ht hal hE T h1 h2 hi htot
  subst hcs
  obtain ⟨t, i, e1, e2, e3, e4, e5, e6⟩ := hc.solves (s := q) (o := o) (fuel := fuel) hμ hM' hL ha hC hC0
    (hsm.mono hμ hM' ha hC0 (ho.reg0.trans ho.reg1) hb) ho hN hJ hgt
    (fun k hk => by
      have h1 : q.Z.t k = Y.t k := ht.t k (Nat.le_of_lt hk)
      have h2 : q.Z.h k = Y.h k := ht.h k hk
      rw [h1, h2]; exact hdyn k hk) ht hE0R hal hE T h1 h2 hi htot
  exact ⟨t, i, e1, e2.status, e2.feas, ⟨fun k hk => (e2.times.t k hk).trans (ht.t k hk), fun k hk => (e2.times.h k hk).trans (ht.h k hk)⟩,
    e3, e4, e5, e6⟩

/-- So iLQR converges from every start that is near enough, with the default line search: the squared distance at least halves in
every iteration, and the number of iterations does not depend on the start. -/
theorem C100_converges (h : NewtonProblem p cs Y μ M L R ρ) (hμ : 0 < μ) (hM : 0 ≤ M) (hL : 0 ≤ L) (hR : 0 < R) (hρ : 0 < ρ)
    (hN : p.N ≠ 0) :
    ∃ r rb : ℝ, 0 < r ∧ 0 < rb ∧ ∀ d, 0 < d → ∃ T : ℕ, ∀ (o : Opts ℝ) (fuel : ℕ), FullStep o rb → d ≤ o.costTol → 0 < o.gradTol →
      d ≤ o.gradTol ^ 2 → ∀ q : St (Fin n → ℝ) (Fin m → ℝ) ℝ (ALCost n m ℝ) (KP n m ℝ), q.cs = cs → SameTimes (alKernel p) q.Z Y →
        Aligned q.stats → gapSq p.N q.Z Y ≤ r → (T : ℤ) + 1 < o.maxInner → (q.stats.total : ℤ) + T + 1 < o.maxTotal →
          ∃ t i, ILQR.solve (alKernel p) o (fuel + 1) q = some t ∧ t.status = .kSolved ∧ DynFeasible (alKernel p) t.Z ∧
            1 ≤ i ∧ i ≤ T + 2 ∧ t.stats.total ≤ q.stats.total + i ∧ gapSq p.N t.Z Y ≤ (1 / 2) ^ i * gapSq p.N q.Z Y := by
  obtain ⟨A, B, Q, r, rb, hA, hB, hQ, hr, hrb, hAr, hBr, -, -, H⟩ := C100_newton h hμ hM hL hR hρ hN
  refine ⟨r, rb, hr, hrb, fun d hd => ?_⟩
  have hB' : 0 ≤ B * rb ^ 2 := by positivity
  have key : ∀ (i : ℕ) {E : ℝ}, 0 ≤ E → E ≤ r → decay A (B * rb ^ 2) i E ≤ (1 / 2) ^ i * E := fun i E h0 h1 =>
    decay_geometric hA hB' (by norm_num) i h0 (by linarith [mul_le_mul_of_nonneg_left h1 hA])
  obtain ⟨T, hT⟩ := exists_pow_lt_of_lt_one (show 0 < d / (Q * r + 1) by positivity) (show (1 / 2 : ℝ) < 1 by norm_num)
  refine ⟨T, fun o fuel ho hJ hg hG q hcs ht hal hE hi htot => ?_⟩
  have h0 := gapSq_nonneg p.N q.Z Y
  have hlt : Q * decay A (B * rb ^ 2) T (gapSq p.N q.Z Y) < d := by
    have h1 := mul_le_mul_of_nonneg_left (key T h0 hE) hQ
    have h2 : (1 / 2 : ℝ) ^ T * gapSq p.N q.Z Y ≤ (1 / 2) ^ T * r := mul_le_mul_of_nonneg_left hE (by positivity)
    have h3 := mul_le_mul_of_nonneg_left h2 hQ
    rw [lt_div_iff₀ (by positivity)] at hT
    have h4 : (0 : ℝ) < (1 / 2) ^ T := by positivity
    nlinarith
  obtain ⟨t, i, e1, e2, e3, e4, e5, e6, e7, e8⟩ := H o fuel rb ho le_rfl (lt_of_lt_of_le hd hJ) hg q hcs ht hal hE T (lt_of_lt_of_le hlt hJ)
    (lt_of_lt_of_le hlt hG) hi htot
  exact ⟨t, i, e1, e2, e3, e5, e6, e7, e8.trans (key i h0 hE)⟩

theorem _root_.Altro.Spec.NewtonProblem.mono (h : NewtonProblem p cs Y μ M L R ρ) (hL : 0 ≤ L) {L' : ℝ} (hL' : L ≤ L') :
    NewtonProblem p cs Y μ M L' R ρ :=
  { h with
    follow := fun k hk x u δx δu h1 h2 h3 => (h.follow k hk x u δx δu h1 h2 h3).trans (by
      have h4 : 0 ≤ δx ⬝ᵥ δx + δu ⬝ᵥ δu := add_nonneg (nsq_nonneg δx) (nsq_nonneg δu)
      exact pow_le_pow_left₀ (mul_nonneg hL h4) (mul_le_mul_of_nonneg_right hL' h4) 2) }

/-- Without regularization the convergence is quadratic. -/
theorem C100_quadratic (h : NewtonProblem p cs Y μ M L R ρ) (hμ : 0 < μ) (hM : 0 ≤ M) (hL : 0 ≤ L) (hR : 0 < R) (hρ : 0 < ρ)
    (hN : p.N ≠ 0) :
    ∃ A Q r : ℝ, 0 < A ∧ 0 ≤ Q ∧ 0 < r ∧ A * r ≤ 1 / 4 ∧
      ∀ (o : Opts ℝ) (fuel : ℕ), FullStep o 0 → 0 < o.costTol → 0 < o.gradTol →
      ∀ q : St (Fin n → ℝ) (Fin m → ℝ) ℝ (ALCost n m ℝ) (KP n m ℝ), q.cs = cs → SameTimes (alKernel p) q.Z Y →
        Aligned q.stats → gapSq p.N q.Z Y ≤ r →
        ∀ T : ℕ, Q * (A * gapSq p.N q.Z Y) ^ 2 ^ T < o.costTol → Q * (A * gapSq p.N q.Z Y) ^ 2 ^ T < o.gradTol ^ 2 →
          (T : ℤ) + 1 < o.maxInner → (q.stats.total : ℤ) + T + 1 < o.maxTotal →
          ∃ t i, ILQR.solve (alKernel p) o (fuel + 1) q = some t ∧ t.status = .kSolved ∧ DynFeasible (alKernel p) t.Z ∧
            1 ≤ i ∧ i ≤ T + 2 ∧ t.stats.total ≤ q.stats.total + i ∧ A * gapSq p.N t.Z Y ≤ (A * gapSq p.N q.Z Y) ^ 2 ^ i := by
  obtain ⟨A, B, Q, r, rb, -, hB, hQ, hr, hrb, hAr, hBr, -, hA, H⟩ := C100_newton (h.mono hL (L' := L + 1) (by linarith)) hμ hM
    (by linarith) hR hρ hN
  have hA := hA (by linarith)
  refine ⟨A, Q / A, r, hA, by positivity, hr, hAr, fun o fuel ho hJ hg q hcs ht hal hE T h1 h2 hi htot => ?_⟩
  have e : ∀ i, decay A (B * 0 ^ 2) i (gapSq p.N q.Z Y) = (A * gapSq p.N q.Z Y) ^ 2 ^ i / A := fun i => by
    rw [← decay_quadratic, show B * (0 : ℝ) ^ 2 = 0 by ring]
    field_simp
  have e' : Q * ((A * gapSq p.N q.Z Y) ^ 2 ^ T / A) = Q / A * (A * gapSq p.N q.Z Y) ^ 2 ^ T := by ring
  obtain ⟨t, i, e1, e2, e3, e4, e5, e6, e7, e8⟩ := H o fuel 0 ho hrb.le hJ hg q hcs ht hal hE T (by rw [e, e']; exact h1)
    (by rw [e, e']; exact h2) hi htot
  refine ⟨t, i, e1, e2, e3, e5, e6, e7, ?_⟩
  rw [e] at e8
  calc A * gapSq p.N t.Z Y ≤ A * ((A * gapSq p.N q.Z Y) ^ 2 ^ i / A) := mul_le_mul_of_nonneg_left e8 hA.le
    _ = _ := by field_simp

theorem gapSq_zero {N : ℕ} {Z Y : Traj (Fin n → ℝ) (Fin m → ℝ) ℝ} (h : gapSq N Z Y ≤ 0) : ∀ k < N, Z.u k = Y.u k := by
  intro k hk
  have h1 : nsq (Z.u k - Y.u k) ≤ gapSq N Z Y :=
    Finset.single_le_sum (f := fun k => nsq (Z.u k - Y.u k)) (fun _ _ => nsq_nonneg _) (Finset.mem_range.mpr hk)
  exact sub_eq_zero.mp (nsq_eq_zero (le_antisymm (h1.trans h) (nsq_nonneg _)))

/-- With a quadratic objective and without regularization, a start near enough for the right constraints to be active is enough to get
the best trajectory exactly, whatever the tolerances. -/
theorem C100_exact (h : NewtonProblem p cs Y μ M 0 R ρ) (hμ : 0 < μ) (hM : 0 ≤ M) (hR : 0 < R) (hρ : 0 < ρ) (hN : p.N ≠ 0) :
    ∃ r : ℝ, 0 < r ∧ ∀ (o : Opts ℝ) (fuel : ℕ), FullStep o 0 → 0 < o.costTol → 0 < o.gradTol →
      ∀ q : St (Fin n → ℝ) (Fin m → ℝ) ℝ (ALCost n m ℝ) (KP n m ℝ), q.cs = cs → SameTimes (alKernel p) q.Z Y →
        Aligned q.stats → gapSq p.N q.Z Y ≤ r → 2 < o.maxInner → (q.stats.total : ℤ) + 2 < o.maxTotal →
          ∃ t, ILQR.solve (alKernel p) o (fuel + 1) q = some t ∧ t.status = .kSolved ∧ t.stats.total ≤ q.stats.total + 3 ∧
            (∀ k < p.N, t.Z.u k = Y.u k) ∧ ∀ k ≤ p.N, t.Z.x k = Y.x k := by
  obtain ⟨A, B, Q, r, rb, -, hB, hQ, hr, hrb, hAr, hBr, hA, -, H⟩ := C100_newton h hμ hM le_rfl hR hρ hN
  obtain rfl := hA rfl
  refine ⟨r, hr, fun o fuel ho hJ hg q hcs ht hal hE hi htot => ?_⟩
  have e : ∀ i, 1 ≤ i → decay 0 (B * 0 ^ 2) i (gapSq p.N q.Z Y) = 0 := fun i hi => by
    obtain ⟨i, rfl⟩ : ∃ j, i = j + 1 := ⟨i - 1, by omega⟩
    show decay 0 (B * 0 ^ 2) i ((0 * _ + B * 0 ^ 2) * _) = 0
    rw [show (0 * gapSq p.N q.Z Y + B * 0 ^ 2) * gapSq p.N q.Z Y = 0 by ring, decay_zero]
  obtain ⟨t, i, e1, e2, e3, e4, e5, e6, e7, e8⟩ := H o fuel 0 ho hrb.le hJ hg q hcs ht hal hE 1 (by rw [e 1 le_rfl, mul_zero]; exact hJ)
    (by rw [e 1 le_rfl, mul_zero]; positivity) (by norm_num; omega) (by push_cast; omega)
  rw [e i e5] at e8
  have hu := gapSq_zero e8
  refine ⟨t, e1, e2, by omega, hu, fun k => ?_⟩
  induction k with
  | zero => intro _; exact e3.init.trans h.feas.init.symm
  | succ k ih =>
    intro hk
    have h1 := e3.step k hk
    have h2 := h.feas.step k hk
    have h3 : t.Z.t k = Y.t k := e4.t k (Nat.le_of_lt hk)
    have h4 : t.Z.h k = Y.h k := e4.h k hk
    rw [h1, h2, ih (Nat.le_of_lt hk), hu k hk, h3, h4]

/-- The default options, but for the test of states and controls, are as in `FullStep`; the test changes nothing when the limits are large
(C99). -/
theorem C100_default : FullStep (unlimited (Opts.default fun q : ℚ => (q : ℝ))) (1 / 10 ^ 8) := by
  refine ⟨?_, ?_, ?_, ?_, ?_, ?_, rfl, ?_, ?_, ?_⟩ <;> simp only [unlimited, Opts.default] <;> norm_num

end Altro.Props
