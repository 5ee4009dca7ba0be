import Verif.Props.Slater
import Verif.Props.ConvexWholeExamples

/-!
# C96: concrete problems with and without a strictly feasible trajectory
-/

namespace Altro.Props
open Altro.Spec Matrix ILQR AL

theorem tiny_objective (eqs ineqs : List (Con 1 1 ℝ)) (Z : Traj (Fin 1 → ℝ) (Fin 1 → ℝ) ℝ) :
    objective tinyP (tinyCosts eqs ineqs) Z = 1 / 2 * (Z.u 0 0 - 1) ^ 2 := by
  show ∑ k ∈ Finset.range 2, _ = _
  rw [Finset.sum_range_succ, Finset.sum_range_one]
  show (QuadCost.lqr (0 : Matrix (Fin 1) (Fin 1) ℝ) 1 0 1).costFun.eval _ _ + (QuadCost.lqr (0 : Matrix (Fin 1) (Fin 1) ℝ) 0 0 1).costFun.eval _ _ = _
  rw [stage_eval, term_eval, add_zero]

theorem tinyZ_alt (a b : ℝ) : Alternative tinyP (tinyZ b) (tinyZ a) := ⟨(tinyZ_dyn a).1, (tinyZ_dyn a).2⟩

/-- `u = -1/2` satisfies `u² + u ≤ 0` with margin `1/4`. -/
theorem para_margin : Margin tinyP (tinyCosts [] [paraCon]) (tinyZ 0) (tinyZ (-1 / 2)) (1 / 4) where
  alt := tinyZ_alt _ _
  eq := tiny_cases rfl rfl
  ineq := tiny_cases (fun v hv i => by
      obtain rfl := List.mem_singleton.mp hv
      show (-1 / 2 : ℝ) ^ 2 + -1 / 2 ≤ -(1 / 4)
      norm_num) (fun v hv => absurd hv List.not_mem_nil)

/-- Six outer iterations are enough on this problem, with the default tolerance `10⁻⁴`, initial penalty `1` and scaling `10`; nothing has to be
known about its solution. -/
theorem C96_parabola {η R : ℝ} (hη : 0 < η) (hR : 0 ≤ R) :
    ∃ rb γ0 : ℝ, 0 < rb ∧ 0 < γ0 ∧ ∀ γ, 0 < γ → ∃ β : ℝ, 0 < β ∧ ∀ d, 0 < d → ∃ T : ℕ, ∀ (o : Opts ℝ) (fuel : ℕ)
      (s : ALSt (Fin 1 → ℝ) (Fin 1 → ℝ) ℝ (ALCost 1 1 ℝ) (KP 1 1 ℝ)),
      StepOptions o rb β → o.regMin * o.regFactor ≤ rb → γ ≤ o.gradTol → o.gradTol ≤ γ0 → d ≤ unitDecrease o 1 → (T : ℤ) < o.maxInner →
      1 / 10000 ≤ o.conTol → 6 < o.maxOuter → 6 * (T : ℤ) < o.maxTotal → 10 ^ 5 ≤ o.maxPenalty →
      o.resetDuals = true → o.initialPenalty = 1 →
      s.st.cs = tinyCosts [] [paraCon] → SameTimes (alKernel tinyP) s.st.Z (tinyZ 0) → |s.st.Z.u 0 0| ≤ R →
      ∃ s', AL.solve (alKernel tinyP) alOps o (ILQR.solve (alKernel tinyP) o (fuel + 1)) s = some s' ∧ s'.status = .kSolved ∧
        s'.st.stats.outer ≤ 6 ∧ SatisfiesUpTo tinyP (tinyCosts [] [paraCon]) s'.st.Z (o.conTol + η) := by
  have hsc : ∀ k ≤ tinyP.N, ScaleU (tinyCosts [] [paraCon] k) 10 := tiny_cases
    ⟨fun v hv => absurd hv List.not_mem_nil, fun v hv => by obtain rfl := List.mem_singleton.mp hv; rfl⟩
    ⟨fun v hv => absurd hv List.not_mem_nil, fun v hv => absurd hv List.not_mem_nil⟩
  have hz : objective tinyP (tinyCosts [] [paraCon]) (tinyZ (-1 / 2)) = 9 / 8 := by
    rw [tiny_objective]
    show (1 : ℝ) / 2 * (-1 / 2 - 1) ^ 2 = 9 / 8
    norm_num
  have key := C96_iterations (para_smooth (tinyZ 0)) one_pos one_ne_zero (φ := 10) (by norm_num) hsc para_convex para_strong zero_le_one
    (by norm_num) para_margin (b := 0) (fun Z _ _ => by rw [tiny_objective]; positivity) hη (ρ := 1) (τ := 1 / 10000) one_pos (by norm_num) hR 6
    (by rw [hz]; simp only [Finset.sum_range_succ, Finset.sum_range_zero]; norm_num)
  obtain ⟨zs, -, W, rb, γ0, h1, h2, H⟩ := key
  refine ⟨rb, γ0, h1, h2, fun γ hγ => ?_⟩
  obtain ⟨β, h3, H⟩ := H γ hγ
  refine ⟨β, h3, fun d hd => ?_⟩
  obtain ⟨T, H⟩ := H d hd
  refine ⟨T, fun o fuel s ho hr g1 g0 hdo hi hct oJ htot hmp hrd hpen hcs hY hu => ?_⟩
  obtain ⟨s', j, c1, c2, c3, c4, -, c5, -⟩ := H o fuel s ho.unlimited (fun h => ho.noLimit h) hr g1 g0 hdo hi hct oJ htot
    (fun j hj => by
      rw [one_mul]
      exact (pow_le_pow_right₀ (by norm_num) (by omega)).trans hmp) hrd hpen hcs hY
    (fun k hk i => by
      have : k < 1 := hk
      obtain rfl : k = 0 := by omega
      obtain rfl : i = 0 := Subsingleton.elim i 0
      exact hu)
  exact ⟨s', c1, c2, by omega, c5⟩

/-- The constraint `u² ≤ 0`. -/
noncomputable def flatCon : Con 1 1 ℝ := tinyCon (fun a => a ^ 2) fun a => 2 * a

/-- Strictness is needed: `½ (u - 1)²` subject to `u² ≤ 0` is a smooth convex problem with the solution `u = 0`, which has no multipliers. -/
theorem C96_strict_needed : SmoothProblem tinyP (tinyCosts [] [flatCon]) (tinyZ 0) 1 ∧ ConvexProblem tinyP (tinyCosts [] [flatCon]) ∧
    Solution tinyP (tinyCosts [] [flatCon]) (tinyZ 0) (tinyZ 0) ∧
    ∀ zs star, ¬ Saddle (Alternative tinyP (tinyZ 0)) (objective tinyP (tinyCosts [] [flatCon])) (rows tinyP (tinyCosts [] [flatCon])) zs star := by
  refine ⟨tiny_smooth (fun c hc => absurd hc List.not_mem_nil) (fun c hc => by
    obtain rfl := List.mem_singleton.mp hc
    exact tinyCon_smooth sq_deriv (by fun_prop)) _, ⟨para_convex.dyn, tiny_cases (para_convex.cost 0 zero_le_one) (para_convex.cost 1 le_rfl),
    tiny_cases (fun v hv => absurd hv List.not_mem_nil) (fun v hv => absurd hv List.not_mem_nil), ?_⟩, ⟨tinyZ_alt _ _, ⟨?_, ?_⟩, fun Z' _ hs => ?_⟩, fun zs star hs => ?_⟩
  · refine tiny_cases (fun v hv i x x' u u' t h0 h1 => ?_) (fun v hv => absurd hv List.not_mem_nil)
    obtain rfl := List.mem_singleton.mp hv
    show (u 0 + t * (u' 0 - u 0)) ^ 2 ≤ (1 - t) * u 0 ^ 2 + t * u' 0 ^ 2
    nlinarith [mul_nonneg (mul_nonneg h0 (sub_nonneg.mpr h1)) (sq_nonneg (u' 0 - u 0))]
  · exact tiny_cases (fun v hv => absurd hv List.not_mem_nil) (fun v hv => absurd hv List.not_mem_nil)
  · refine tiny_cases (fun v hv i => ?_) (fun v hv => absurd hv List.not_mem_nil)
    obtain rfl := List.mem_singleton.mp hv
    show (0 : ℝ) ^ 2 ≤ 0
    norm_num
  · have : (Z'.u 0 0) ^ 2 ≤ 0 := hs.ineq 0 zero_le_one _ (List.mem_singleton.mpr rfl) (0 : Fin 1)
    have h0 : Z'.u 0 0 = 0 := pow_eq_zero_iff two_ne_zero |>.mp (le_antisymm this (sq_nonneg _))
    rw [tiny_objective, tiny_objective, h0]
    exact le_rfl
  · have hsol := solution_of_saddle hs
    have : (zs.u 0 0) ^ 2 ≤ 0 := hsol.sat.ineq 0 zero_le_one _ (List.mem_singleton.mpr rfl) (0 : Fin 1)
    have h0 : zs.u 0 0 = 0 := pow_eq_zero_iff two_ne_zero |>.mp (le_antisymm this (sq_nonneg _))
    have hrows : rows tinyP (tinyCosts [] [flatCon]) = [⟨.inequality, fun Z => (Z.u 0 0) ^ 2, 0, 1⟩] := rfl
    have hlen := hs.len
    rw [hrows, List.length_singleton, List.length_eq_one_iff] at hlen
    obtain ⟨l, rfl⟩ := hlen
    have hl : ∀ a : ℝ, 1 / 2 ≤ 1 / 2 * (a - 1) ^ 2 - l * a ^ 2 := by
      intro a
      have := hs.lag (tinyZ a) (tinyZ_alt _ _)
      rw [tiny_objective, tiny_objective, hrows, h0] at this
      have e : (tinyZ a).u 0 0 = a := rfl
      simp only [List.zip_cons_cons, List.zip_nil_right, List.map_cons, List.map_nil, List.sum_cons, List.sum_nil, h0, e] at this
      linarith
    have hpos : 0 < 1 / (1 + |l|) := by positivity
    have := hl (1 / (1 + |l|))
    have hm : (1 / (1 + |l|)) * (1 + |l|) = 1 := div_mul_cancel₀ _ (by positivity)
    set a := 1 / (1 + |l|)
    have h2 := neg_abs_le l
    have h3 : -l * a ^ 2 ≤ |l| * a ^ 2 := mul_le_mul_of_nonneg_right (by linarith) (sq_nonneg a)
    have h4 : |l| * a = 1 - a := by linarith
    have h5 : |l| * a ^ 2 = (1 - a) * a := by rw [← h4]; ring
    nlinarith

/-- With an equality constraint, `2 u + 1 = 0`, as well. -/
theorem C96_with_equality : Strict tinyP (tinyCosts [tinyCon (fun a => 2 * a + 1) fun _ => 2] [paraCon]) (tinyZ 0) (tinyZ (-1 / 2)) ∧
    ∃ star, Saddle (Alternative tinyP (tinyZ 0)) (objective tinyP (tinyCosts [tinyCon (fun a => 2 * a + 1) fun _ => 2] [paraCon]))
      (rows tinyP (tinyCosts [tinyCon (fun a => 2 * a + 1) fun _ => 2] [paraCon])) (tinyZ (-1 / 2)) star := by
  have hs : Strict tinyP (tinyCosts [tinyCon (fun a => 2 * a + 1) fun _ => 2] [paraCon]) (tinyZ 0) (tinyZ (-1 / 2)) := by
    refine ⟨tinyZ_alt _ _, tiny_cases (fun v hv i => ?_) (fun v hv => absurd hv List.not_mem_nil), tiny_cases (fun v hv i => ?_) (fun v hv => absurd hv List.not_mem_nil)⟩
    · obtain rfl := List.mem_singleton.mp hv
      show 2 * (-1 / 2 : ℝ) + 1 = 0
      norm_num
    · obtain rfl := List.mem_singleton.mp hv
      show (-1 / 2 : ℝ) ^ 2 + -1 / 2 < 0
      norm_num
  refine ⟨hs, C96_multipliers ⟨para_convex.dyn, tiny_cases (para_convex.cost 0 zero_le_one) (para_convex.cost 1 le_rfl), ?_,
    tiny_cases (para_convex.ineq 0 zero_le_one) (para_convex.ineq 1 le_rfl)⟩ hs
    ⟨hs.alt, ⟨hs.eq, fun k hk v hv i => (hs.ineq k hk v hv i).le⟩, fun Z' _ h => ?_⟩⟩
  · refine tiny_cases (fun v hv i x x' u u' t h0 h1 => ?_) (fun v hv => absurd hv List.not_mem_nil)
    obtain rfl := List.mem_singleton.mp hv
    show 2 * (u 0 + t * (u' 0 - u 0)) + 1 = (1 - t) * (2 * u 0 + 1) + t * (2 * u' 0 + 1)
    ring
  · have : 2 * (Z'.u 0 0) + 1 = 0 := h.eq 0 zero_le_one _ (List.mem_singleton.mpr rfl) (0 : Fin 1)
    have e : Z'.u 0 0 = -1 / 2 := by linarith
    rw [tiny_objective, tiny_objective, e]
    exact le_rfl

end Altro.Props
