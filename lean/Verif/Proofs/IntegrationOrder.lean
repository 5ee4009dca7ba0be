import Verif.Spec.IntegrationOrder
import Verif.Proofs.RungeKuttaJets
import Mathlib.Analysis.Calculus.Deriv.Prod

/-!
# The integrators of the model as methods for an autonomous system
-/

set_option maxSynthPendingDepth 3

namespace Altro.RK
open Set Metric Altro.Spec
variable {n m : ℕ}

/-- The dynamics with the time as one more state. -/
def aug (d : ContDyn n m ℝ) (p : ((Fin n → ℝ) × ℝ) × (Fin m → ℝ)) : (Fin n → ℝ) × ℝ := (d.f p.1.1 p.2 p.1.2, 1)

theorem aug_contDiff {d : ContDyn n m ℝ} (h : FourTimes d) : ContDiff ℝ 4 (aug d) := by
  have e : ContDiff ℝ 4 fun p : ((Fin n → ℝ) × ℝ) × (Fin m → ℝ) => (p.1.1, p.2, p.1.2) :=
    contDiff_fst.fst.prodMk (contDiff_snd.prodMk contDiff_fst.snd)
  exact (ContDiff.comp h e).prodMk contDiff_const

theorem step_aug (d : ContDyn n m ℝ) (x : Fin n → ℝ) (u : Fin m → ℝ) (t h : ℝ) :
    step (fun z => aug d (z, u)) (x, t) h = (d.rk4 x u t h, t + h) := by
  refine Prod.ext ?_ ?_
  · simp only [step, aug, ContDyn.rk4, ContDyn.k1, ContDyn.k2, ContDyn.k3, ContDyn.k4, Prod.fst_add, Prod.smul_fst, Prod.snd_add,
      Prod.smul_snd, smul_eq_mul, mul_one]
  · simp only [step, aug, Prod.snd_add, Prod.smul_snd, smul_eq_mul, mul_one]
    ring

theorem euler_aug (d : ContDyn n m ℝ) (x : Fin n → ℝ) (u : Fin m → ℝ) (t h : ℝ) :
    (x, t) + h • aug d ((x, t), u) = (d.euler x u t h, t + h) := by
  refine Prod.ext ?_ ?_
  · simp [aug, ContDyn.euler]
  · simp [aug]

section
variable {N : ℕ} {τ h : ℕ → ℝ} {H : ℝ} {u : ℕ → Fin m → ℝ} {y : ℝ → Fin n → ℝ} {d : ContDyn n m ℝ}

theorem TimeGrid.mono (g : TimeGrid N τ h H) : ∀ j ≤ N, ∀ k ≤ j, τ k ≤ τ j := by
  intro j
  induction j with
  | zero => intro _ k hk; rw [Nat.le_zero.mp hk]
  | succ j ih =>
    intro hj k hk
    rcases Nat.le_succ_iff.mp hk with e | rfl
    · have := ih (by omega) k e
      rw [g.next j (by omega)]
      linarith [g.nonneg j (by omega)]
    · exact le_rfl

theorem motion_aug (g : TimeGrid N τ h H) (hy : Motion d N τ u y) {k : ℕ} (hk : k < N) :
    Solves (fun z => aug d (z, u k)) (fun t => (y t, t)) (τ k) (τ (k + 1)) := by
  refine ⟨?_, fun t ht => ?_⟩
  · refine (hy.cont.mono (Icc_subset_Icc ?_ ?_)).prodMk continuousOn_id
    · exact TimeGrid.mono g k hk.le 0 (Nat.zero_le _)
    · exact TimeGrid.mono g N le_rfl (k + 1) hk
  · exact (hy.deriv k hk t ht).prodMk (hasDerivWithinAt_id t _)

theorem norm_aug {r T : ℝ} (g : TimeGrid N τ h H) (h0 : -T ≤ τ 0) (hN : τ N ≤ T) (hb : ∀ t ∈ Icc (τ 0) (τ N), ‖y t‖ ≤ r) {t : ℝ}
    (ht : t ∈ Icc (τ 0) (τ N)) : ‖((y t, t) : (Fin n → ℝ) × ℝ)‖ ≤ max r T := by
  rw [Prod.norm_def]
  refine max_le_max (hb t ht) ?_
  rw [Real.norm_eq_abs, abs_le]
  exact ⟨by linarith [ht.1], by linarith [ht.2]⟩

end

/-- A step length below which both smallness conditions hold. -/
theorem exists_small {s c : ℝ} (hs : 1 ≤ s) (hc : 0 ≤ c) (q : ℕ) : ∃ H0 : ℝ, 0 < H0 ∧ ∀ H, 0 ≤ H → H ≤ H0 → H * s ≤ 1 ∧ c * H ^ (q + 1) ≤ 1 := by
  refine ⟨1 / (s + c), by positivity, fun H h0 hH => ?_⟩
  have p : 0 < s + c := by linarith
  rw [le_div_iff₀ p] at hH
  have H1 : H ≤ 1 := by nlinarith
  refine ⟨by nlinarith, ?_⟩
  have : H ^ (q + 1) ≤ H := by
    rw [pow_succ]
    exact mul_le_of_le_one_left h0 (pow_le_one₀ h0 H1)
  nlinarith

theorem fst_sub_le (z : (Fin n → ℝ) × ℝ) (v : Fin n → ℝ) (s : ℝ) : ‖z.1 - v‖ ≤ ‖z - (v, s)‖ := by
  have := norm_fst_le (z - (v, s))
  simpa using this

/-- What the bounds at all points of the motion give for the two methods. -/
theorem rk4_tracks {d : ContDyn n m ℝ} (hd : FourTimes d) : Tracks d d.rk4 4 := by
  intro K hK r T
  obtain ⟨M, hM, tame⟩ := uniform_tame (aug_contDiff hd) hK (max r T)
  have c0 : 0 ≤ lc M * (2 * max T 0) * Real.exp (Lam M * (2 * max T 0)) := by
    have := lc_nonneg hM
    have := le_max_right T 0
    positivity
  obtain ⟨H0, p, small⟩ := exists_small (sc_pos hM) c0 3
  refine ⟨lc M * (2 * max T 0) * Real.exp (Lam M * (2 * max T 0)), H0, p, ?_⟩
  intro N τ h H u y x H1 H2 g a b hu hy hb hx0 hx k hk
  obtain ⟨s1, s2⟩ := small H H1 H2
  have hL : 0 ≤ Lam M := by unfold Lam; positivity
  have len : ∀ j ≤ N, 0 ≤ τ j - τ 0 ∧ τ j - τ 0 ≤ 2 * max T 0 := fun j hj => by
    have e1 := TimeGrid.mono g j hj 0 (Nat.zero_le _)
    have e2 := TimeGrid.mono g N le_rfl j hj
    have := le_max_left T 0
    exact ⟨by linarith, by linarith⟩
  have at_ : ∀ j ≤ N, τ j ∈ Icc (τ 0) (τ N) := fun j hj => ⟨TimeGrid.mono g j hj 0 (Nat.zero_le _), TimeGrid.mono g N le_rfl j hj⟩
  have key := global_error hM H1 s1 (T := 2 * max T 0) (le_trans (le_of_eq (by ring)) s2) (N := N) (h := h) (τ := τ)
    (G := fun k z => aug d (z, u k)) (z := fun k => (x k, τ k)) (y := fun t => (y t, t)) g.nonneg g.le g.next (len N le_rfl).2
    (fun j hj => by rw [step_aug, hx j hj, g.next j hj]) (by rw [hx0]) (fun j hj => motion_aug g hy hj)
    (fun j hj => tame (u j) (hu j hj) _ (norm_aug g a b hb (at_ j hj.le)))
    (fun j hj t ht => (tame (u j) (hu j hj) _ (norm_aug g a b hb (t := t)
      ⟨(at_ j hj.le).1.trans ht.1, ht.2.le.trans (at_ (j + 1) hj).2⟩)).bnd _ (mem_closedBall_self (by norm_num))) k hk
  refine (fst_sub_le (x k, τ k) (y (τ k)) (τ k)).trans (key.trans ?_)
  have hlc := lc_nonneg hM
  obtain ⟨l1, l2⟩ := len k hk
  calc lc M * H ^ 4 * (τ k - τ 0) * Real.exp (Lam M * (τ k - τ 0))
      ≤ lc M * H ^ 4 * (2 * max T 0) * Real.exp (Lam M * (2 * max T 0)) := by gcongr
    _ = _ := by ring

theorem euler_tracks {d : ContDyn n m ℝ} (hd : FourTimes d) : Tracks d d.euler 1 := by
  intro K hK r T
  obtain ⟨M, hM, tame⟩ := uniform_tame (aug_contDiff hd) hK (max r T)
  have M0 : 0 < M := by linarith
  have c0 : 0 ≤ M ^ 2 * (2 * max T 0) * Real.exp (M * (2 * max T 0)) := by
    have := le_max_right T 0
    positivity
  obtain ⟨H0, p, small⟩ := exists_small hM c0 0
  refine ⟨M ^ 2 * (2 * max T 0) * Real.exp (M * (2 * max T 0)), H0, p, ?_⟩
  intro N τ h H u y x H1 H2 g a b hu hy hb hx0 hx k hk
  obtain ⟨s1, s2⟩ := small H H1 H2
  have len : ∀ j ≤ N, 0 ≤ τ j - τ 0 ∧ τ j - τ 0 ≤ 2 * max T 0 := fun j hj => by
    have e1 := TimeGrid.mono g j hj 0 (Nat.zero_le _)
    have e2 := TimeGrid.mono g N le_rfl j hj
    have := le_max_left T 0
    exact ⟨by linarith, by linarith⟩
  have at_ : ∀ j ≤ N, τ j ∈ Icc (τ 0) (τ N) := fun j hj => ⟨TimeGrid.mono g j hj 0 (Nat.zero_le _), TimeGrid.mono g N le_rfl j hj⟩
  have key := accumulate (q := 1) (c := M ^ 2) (L := M) (H := H) (T := 2 * max T 0) (by positivity) M0.le (N := N) (h := h) (τ := τ)
    (e := fun k => ‖((x k, τ k) : (Fin n → ℝ) × ℝ) - (y (τ k), τ k)‖) g.nonneg g.le g.next (len N le_rfl).2
    (by rw [hx0, sub_self, norm_zero]) (by simpa [mul_comm, mul_left_comm, mul_assoc] using s2)
    (fun j hj e1 => by
      set z : (Fin n → ℝ) × ℝ := (y (τ j), τ j) with hz
      set w : (Fin n → ℝ) × ℝ := (x j, τ j) with hw
      set G : (Fin n → ℝ) × ℝ → (Fin n → ℝ) × ℝ := fun z => aug d (z, u j) with hG
      have tm : Tame G z M := tame (u j) (hu j hj) _ (norm_aug g a b hb (at_ j hj.le))
      have sol := motion_aug g hy hj
      have hj0 := g.nonneg j hj
      have hjH : h j * M ≤ 1 := (mul_le_mul_of_nonneg_right (g.le j hj) M0.le).trans s1
      rw [g.next j hj] at sol ⊢
      have hbd : ∀ t ∈ Ico (τ j) (τ j + h j), ‖G (y t, t)‖ ≤ M := fun t ht => by
        refine (tame (u j) (hu j hj) _ (norm_aug g a b hb (t := t) ⟨(at_ j hj.le).1.trans ht.1, ?_⟩)).bnd _ (mem_closedBall_self (by norm_num))
        rw [← g.next j hj] at ht
        exact ht.2.le.trans (at_ (j + 1) hj).2
      have near : ∀ t ∈ Icc (τ j) (τ j + h j), ‖((y t, t) : (Fin n → ℝ) × ℝ) - z‖ ≤ M * h j := fun t ht =>
        (norm_image_sub_le_of_norm_deriv_right_le_segment sol.cont sol.deriv hbd t ht).trans
          (mul_le_mul_of_nonneg_left (by linarith [ht.2]) M0.le)
      have near3 : ∀ t ∈ Icc (τ j) (τ j + h j), ((y t, t) : (Fin n → ℝ) × ℝ) ∈ closedBall z 3 := fun t ht => by
        rw [mem_closedBall, dist_eq_norm]; linarith [near t ht]
      have loc := norm_image_sub_le_of_norm_deriv_right_le_segment (f := fun t => ((y t, t) : (Fin n → ℝ) × ℝ) - (t - τ j) • G z)
        (f' := fun t => G (y t, t) - G z) (C := M * (M * h j)) (a := τ j) (b := τ j + h j)
        (sol.cont.sub ((continuousOn_id.sub continuousOn_const).smul continuousOn_const))
        (fun t ht => by
          have q := ((hasDerivWithinAt_id t (Ici t)).sub_const (τ j)).smul_const (G z)
          rw [one_smul] at q
          exact (sol.deriv t ht).sub q)
        (fun t ht => (tm.lip _ (near3 t ⟨ht.1, ht.2.le⟩) _ (mem_closedBall_self (by norm_num))).trans
          (mul_le_mul_of_nonneg_left (near t ⟨ht.1, ht.2.le⟩) M0.le)) (τ j + h j) ⟨by linarith, le_rfl⟩
      simp only [sub_self, zero_smul, sub_zero, add_sub_cancel_left] at loc
      have wz : w ∈ closedBall z 3 := by rw [mem_closedBall, dist_eq_norm]; linarith
      have lp := tm.lip w wz z (mem_closedBall_self (by norm_num))
      have e : ((x (j + 1), τ j + h j) : (Fin n → ℝ) × ℝ) = w + h j • G w := by rw [hx j hj, hw, hG, euler_aug]
      rw [e, show w + h j • G w - (y (τ j + h j), τ j + h j) = (w - z) + h j • (G w - G z) - ((y (τ j + h j), τ j + h j) - h j • G z - z)
        by module]
      refine (norm_sub_le _ _).trans ((add_le_add (norm_add_le _ _) loc).trans ?_)
      rw [norm_smul, Real.norm_of_nonneg hj0]
      have := mul_le_mul_of_nonneg_left lp hj0
      have e2 : (1 + h j * M) * ‖w - z‖ + M ^ 2 * h j ^ (1 + 1) = ‖w - z‖ + h j * (M * ‖w - z‖) + M * (M * h j) * h j := by ring
      rw [e2]
      linarith)
    (fun _ _ => norm_nonneg _) H1 k hk
  refine (fst_sub_le (x k, τ k) (y (τ k)) (τ k)).trans (key.trans ?_)
  obtain ⟨l1, l2⟩ := len k hk
  calc M ^ 2 * H ^ 1 * (τ k - τ 0) * Real.exp (M * (τ k - τ 0))
      ≤ M ^ 2 * H ^ 1 * (2 * max T 0) * Real.exp (M * (2 * max T 0)) := by gcongr
    _ = _ := by ring

end Altro.RK
