import Verif.Props.ConvexWhole
import Verif.Props.NearOptimalExamples

/-!
# C94: a concrete convex problem

One segment, dynamics `x' = x + u`, objective `½ (u - 1)²`, constraint `u² + u ≤ 0` (Props.KKTLimitExamples).  The solution is `u = 0`
with multiplier `-1`.
-/

namespace Altro.Props
open Altro.Spec Matrix ILQR AL

noncomputable def paraCon : Con 1 1 ℝ := tinyCon (fun a => a ^ 2 + a) fun a => 2 * a + 1

/-- The cost objects of the solution: its multiplier is `-1`. -/
noncomputable def paraStar (k : ℕ) : ALCost 1 1 ℝ :=
  if k < 1 then ⟨(QuadCost.lqr 0 1 0 1).costFun, [], [⟨paraCon, 0, fun _ => -1, 1, 0, 10⟩]⟩
  else ALCost.new (QuadCost.lqr 0 0 0 1).costFun [] []

theorem para_deriv (a : ℝ) : HasDerivAt (fun a : ℝ => a ^ 2 + a) (2 * a + 1) a := (sq_deriv a).add (hasDerivAt_id a)

theorem para_smooth (Y : Traj (Fin 1 → ℝ) (Fin 1 → ℝ) ℝ) : SmoothProblem tinyP (tinyCosts [] [paraCon]) Y 1 :=
  tiny_smooth (fun c hc => absurd hc List.not_mem_nil) (fun c hc => by
    obtain rfl := List.mem_singleton.mp hc
    exact tinyCon_smooth para_deriv (by fun_prop)) Y

theorem para_convex : ConvexProblem tinyP (tinyCosts [] [paraCon]) where
  dyn k _ x x' u u' τ h t _ _ := by
    show (x + t • (x' - x)) + (u + t • (u' - u)) = (x + u) + t • ((x' + u') - (x + u))
    module
  cost := tiny_cases (fun x x' u u' t h0 h1 => by
      show (QuadCost.lqr (0 : Matrix (Fin 1) (Fin 1) ℝ) 1 0 1).costFun.eval _ _ ≤ (1 - t) * (QuadCost.lqr (0 : Matrix (Fin 1) (Fin 1) ℝ) 1 0 1).costFun.eval _ _
        + t * (QuadCost.lqr (0 : Matrix (Fin 1) (Fin 1) ℝ) 1 0 1).costFun.eval _ _
      rw [stage_eval, stage_eval, stage_eval]
      simp only [Pi.add_apply, Pi.smul_apply, Pi.sub_apply, smul_eq_mul]
      nlinarith [mul_nonneg (mul_nonneg h0 (sub_nonneg.mpr h1)) (sq_nonneg (u' 0 - u 0))]) (fun x x' u u' t h0 h1 => by
      show (QuadCost.lqr (0 : Matrix (Fin 1) (Fin 1) ℝ) 0 0 1).costFun.eval _ _ ≤ (1 - t) * (QuadCost.lqr (0 : Matrix (Fin 1) (Fin 1) ℝ) 0 0 1).costFun.eval _ _
        + t * (QuadCost.lqr (0 : Matrix (Fin 1) (Fin 1) ℝ) 0 0 1).costFun.eval _ _
      rw [term_eval, term_eval, term_eval]
      simp)
  eq := tiny_cases (fun v hv => absurd hv List.not_mem_nil) (fun v hv => absurd hv List.not_mem_nil)
  ineq := tiny_cases (fun v hv i x x' u u' t h0 h1 => by
      obtain rfl := List.mem_singleton.mp hv
      show (u 0 + t * (u' 0 - u 0)) ^ 2 + (u 0 + t * (u' 0 - u 0)) ≤ (1 - t) * (u 0 ^ 2 + u 0) + t * (u' 0 ^ 2 + u' 0)
      nlinarith [mul_nonneg (mul_nonneg h0 (sub_nonneg.mpr h1)) (sq_nonneg (u' 0 - u 0))]) (fun v hv => absurd hv List.not_mem_nil)

theorem para_strong (Z : Traj (Fin 1 → ℝ) (Fin 1 → ℝ) ℝ) : StrongFrom tinyP (tinyCosts [] [paraCon]) Z 1 := by
  intro k hk δx δu
  have : k < 1 := hk
  obtain rfl : k = 0 := by omega
  exact (stage_strong (Z.x 0) (Z.u 0) δx δu).le

theorem para_kkt : KKT tinyP paraStar (tinyZ 0) := by
  have hk : ∀ k ≤ tinyP.N, k = 0 ∨ k = 1 := fun k hk => by
    have : k ≤ 1 := hk
    omega
  refine ⟨(tinyZ_dyn 0).1, (tinyZ_dyn 0).2, ⟨fun k h v hv i => ?_, fun k h v hv i => ?_⟩, fun v hv => ?_, fun k h v hv i => ?_, fun k h v hv i => ?_⟩
  · rcases hk k h with rfl | rfl <;> exact nomatch hv
  · rcases hk k h with rfl | rfl
    · obtain rfl := List.mem_singleton.mp hv
      show (0 : ℝ) ^ 2 + 0 ≤ 0
      norm_num
    · exact nomatch hv
  · refine (tiny_deriv (θ := -1) para_deriv (fun x u => ?_) (fun x u => ?_) 0 v).congr_deriv (by ring)
    · show (QuadCost.lqr (0 : Matrix (Fin 1) (Fin 1) ℝ) 1 0 1).costFun.eval x u - 0 - ((∑ _i : Fin 1, -1 * (u 0 ^ 2 + u 0)) + 0) = _
      rw [stage_eval]
      simp
    · show (QuadCost.lqr (0 : Matrix (Fin 1) (Fin 1) ℝ) 0 0 1).costFun.eval x u - 0 - 0 = _
      rw [term_eval]
      simp
  · rcases hk k h with rfl | rfl
    · obtain rfl := List.mem_singleton.mp hv
      show (-1 : ℝ) ≤ 0
      norm_num
    · exact nomatch hv
  · rcases hk k h with rfl | rfl
    · obtain rfl := List.mem_singleton.mp hv
      show (-1 : ℝ) * (0 ^ 2 + 0) = 0
      norm_num
    · exact nomatch hv

theorem para_saddle : Saddle (Alternative tinyP (tinyZ 0)) (objective tinyP (tinyCosts [] [paraCon])) (rows tinyP (tinyCosts [] [paraCon])) (tinyZ 0) [-1] :=
  C94_kkt_saddle (para_smooth (tinyZ 0)) para_convex (ds := paraStar) ⟨tiny_cases rfl rfl, tiny_cases rfl rfl, tiny_cases rfl rfl⟩ para_kkt ⟨fun _ _ => rfl, fun _ _ => rfl⟩

/-- With the default tolerance `10⁻⁴`, initial penalty `1` and scaling `10`, five outer iterations are enough on this problem. -/
theorem C94_parabola {η R : ℝ} (hη : 0 < η) (hR : 0 ≤ R) :
    ∃ rb γ0 : ℝ, 0 < rb ∧ 0 < γ0 ∧ ∀ γ, 0 < γ → ∃ β : ℝ, 0 < β ∧ ∀ d, 0 < d → ∃ T : ℕ, ∀ (o : Opts ℝ) (fuel : ℕ)
      (s : ALSt (Fin 1 → ℝ) (Fin 1 → ℝ) ℝ (ALCost 1 1 ℝ) (KP 1 1 ℝ)),
      StepOptions o rb β → o.regMin * o.regFactor ≤ rb → γ ≤ o.gradTol → o.gradTol ≤ γ0 → d ≤ unitDecrease o 1 → (T : ℤ) < o.maxInner →
      1 / 10000 ≤ o.conTol → 5 < o.maxOuter → 5 * (T : ℤ) < o.maxTotal → 10 ^ 4 ≤ o.maxPenalty →
      o.resetDuals = true → o.initialPenalty = 1 →
      s.st.cs = tinyCosts [] [paraCon] → SameTimes (alKernel tinyP) s.st.Z (tinyZ 0) → |s.st.Z.u 0 0| ≤ R →
      ∃ s' j, AL.solve (alKernel tinyP) alOps o (ILQR.solve (alKernel tinyP) o (fuel + 1)) s = some s' ∧ s'.status = .kSolved ∧ j < 5 ∧
        s'.st.stats.outer = j + 1 ∧ (s'.st.Z.u 0 0) ^ 2 ≤ 1 / 10 ^ j + η ∧
        objective tinyP (tinyCosts [] [paraCon]) s'.st.Z ≤ 1 / 2 + 2 / 10 ^ j + η ∧
        1 / 2 ≤ objective tinyP (tinyCosts [] [paraCon]) s'.st.Z + (o.conTol + η) := by
  have hsc : ∀ k ≤ tinyP.N, ScaleU (tinyCosts [] [paraCon] k) 10 := tiny_cases
    ⟨fun v hv => absurd hv List.not_mem_nil, fun v hv => by obtain rfl := List.mem_singleton.mp hv; rfl⟩
    ⟨fun v hv => absurd hv List.not_mem_nil, fun v hv => absurd hv List.not_mem_nil⟩
  have hq : (([-1] : List ℝ).map (· ^ 2)).sum = 1 := by norm_num
  have ha : (([-1] : List ℝ).map (|·|)).sum = 1 := by norm_num
  have hz : objective tinyP (tinyCosts [] [paraCon]) (tinyZ 0) = 1 / 2 := by
    show ∑ k ∈ Finset.range 2, _ = _
    rw [Finset.sum_range_succ, Finset.sum_range_one]
    show (QuadCost.lqr (0 : Matrix (Fin 1) (Fin 1) ℝ) 1 0 1).costFun.eval _ _ + (QuadCost.lqr (0 : Matrix (Fin 1) (Fin 1) ℝ) 0 0 1).costFun.eval _ _ = _
    rw [stage_eval, term_eval]
    simp [tinyZ]
  have key := C94_solves_convex (para_smooth (tinyZ 0)) one_pos one_ne_zero (φ := 10) (by norm_num) hsc para_convex para_strong zero_le_one para_saddle hη
    (ρ := 1) (τ := 1 / 10000) one_pos (by norm_num) hR 5 (by rw [hq]; simp only [Finset.sum_range_succ, Finset.sum_range_zero]; norm_num)
  obtain ⟨W, rb, γ0, h1, h2, H⟩ := key
  refine ⟨rb, γ0, h1, h2, fun γ hγ => ?_⟩
  obtain ⟨β, h3, H⟩ := H γ hγ
  refine ⟨β, h3, fun d hd => ?_⟩
  obtain ⟨T, H⟩ := H d hd
  refine ⟨T, fun o fuel s ho hr g1 g0 hdo hi hct oJ htot hmp hrd hpen hcs hY hu => ?_⟩
  obtain ⟨s', j, prev, c1, c2, c3, c4, -, -, c5, c6, c7, -⟩ := H o fuel s ho.unlimited (fun h => ho.noLimit h) hr g1 g0 hdo hi hct oJ htot
    (fun j hj => by
      rw [one_mul]
      exact (pow_le_pow_right₀ (by norm_num) (by omega)).trans hmp) hrd hpen hcs hY
    (fun k hk i => by
      have : k < 1 := hk
      obtain rfl : k = 0 := by omega
      obtain rfl : i = 0 := Subsingleton.elim i 0
      exact hu)
  rw [hq, one_mul, mul_one, hz] at c5
  rw [ha, mul_one, hz] at c6
  rw [hq, one_mul, one_mul, controlDist_sq] at c7
  refine ⟨s', j, c1, c2, c3, c4, ?_, c5, c6⟩
  have e : ∑ k ∈ Finset.range tinyP.N, ((tinyZ 0).u k - s'.st.Z.u k) ⬝ᵥ ((tinyZ 0).u k - s'.st.Z.u k) = s'.st.Z.u 0 0 ^ 2 := by
    show ∑ k ∈ Finset.range 1, _ = _
    rw [Finset.sum_range_one]
    simp [tinyZ, dotProduct, sq]
  rwa [e] at c7

end Altro.Props
