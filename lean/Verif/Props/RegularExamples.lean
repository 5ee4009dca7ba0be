import Verif.Props.Regular
import Verif.Props.QualificationExamples

/-!
# C105: concrete regular solutions

One segment, dynamics `x' = x + u`, objective `½ (u - 1)²`, one inequality on the control.
-/

namespace Altro.Props
open Altro.Spec Matrix ILQR AL

/-- The constraint `f u ≤ 0` with multiplier `lam`. -/
noncomputable def oneCon (f f' : ℝ → ℝ) (lam : ℝ) (k : ℕ) : ALCost 1 1 ℝ :=
  if k < 1 then ⟨(QuadCost.lqr 0 1 0 1).costFun, [], [⟨tinyCon f f', 0, fun _ => lam, 1, 0, 10⟩]⟩
  else ALCost.new (QuadCost.lqr 0 0 0 1).costFun [] []

theorem oneCon_twice {f f' : ℝ → ℝ} (hf : ContDiff ℝ 2 f) (lam a : ℝ) : TwiceSmooth tinyP (oneCon f f' lam) (tinyZ a) where
  dyn k _ := contDiff_fst.add contDiff_snd
  cost := tiny_cases (by
      show ContDiff ℝ 2 fun z : (Fin 1 → ℝ) × (Fin 1 → ℝ) => (QuadCost.lqr (0 : Matrix (Fin 1) (Fin 1) ℝ) 1 0 1).costFun.eval z.1 z.2
      simp only [stage_eval]
      fun_prop) (by
      show ContDiff ℝ 2 fun z : (Fin 1 → ℝ) × (Fin 1 → ℝ) => (QuadCost.lqr (0 : Matrix (Fin 1) (Fin 1) ℝ) 0 0 1).costFun.eval z.1 z.2
      simp only [term_eval]
      exact contDiff_const)
  eq := tiny_cases (fun v hv => absurd hv List.not_mem_nil) (fun v hv => absurd hv List.not_mem_nil)
  ineq := tiny_cases (fun v hv => by
      obtain rfl := List.mem_singleton.mp hv
      exact contDiff_pi.mpr fun _ => hf.comp ((contDiff_apply ℝ ℝ (0 : Fin 1)).comp contDiff_snd)) (fun v hv => absurd hv List.not_mem_nil)
  term x u u' := by
    show (QuadCost.lqr (0 : Matrix (Fin 1) (Fin 1) ℝ) 0 0 1).costFun.eval x u = (QuadCost.lqr (0 : Matrix (Fin 1) (Fin 1) ℝ) 0 0 1).costFun.eval x u'
    rw [term_eval, term_eval]
  termEq v hv := absurd hv List.not_mem_nil
  termIneq v hv := absurd hv List.not_mem_nil

theorem oneCon_same (f f' : ℝ → ℝ) (lam lam' : ℝ) : SameProblem tinyP (oneCon f f' lam) (oneCon f f' lam') :=
  ⟨tiny_cases rfl rfl, tiny_cases rfl rfl, tiny_cases rfl rfl⟩

theorem oneCon_lag (f f' : ℝ → ℝ) (lam : ℝ) : (∀ x u, lagrangian (oneCon f f' lam 0) x u = 1 / 2 * (u 0 - 1) ^ 2 - lam * f (u 0)) ∧
    ∀ x u, lagrangian (oneCon f f' lam 1) x u = 0 := by
  refine ⟨fun x u => ?_, fun x u => ?_⟩
  · show (QuadCost.lqr (0 : Matrix (Fin 1) (Fin 1) ℝ) 1 0 1).costFun.eval x u - 0 - ((∑ _i : Fin 1, lam * f (u 0)) + 0) = _
    rw [stage_eval]
    simp
  · show (QuadCost.lqr (0 : Matrix (Fin 1) (Fin 1) ℝ) 0 0 1).costFun.eval x u - 0 - 0 = _
    rw [term_eval]
    simp

theorem oneCon_kkt {f f' : ℝ → ℝ} (h : ∀ a, HasDerivAt f (f' a) a) {lam a : ℝ} (h1 : f a ≤ 0) (h2 : lam ≤ 0) (h3 : lam * f a = 0) (h4 : a - 1 = lam * f' a) :
    KKT tinyP (oneCon f f' lam) (tinyZ a) := by
  refine ⟨(tinyZ_dyn a).1, (tinyZ_dyn a).2, ⟨tiny_cases (fun v hv => absurd hv List.not_mem_nil) (fun v hv => absurd hv List.not_mem_nil), tiny_cases ?_ (fun v hv => absurd hv List.not_mem_nil)⟩,
    fun v hv => ?_, tiny_cases ?_ (fun v hv => absurd hv List.not_mem_nil), tiny_cases ?_ (fun v hv => absurd hv List.not_mem_nil)⟩
  · intro v hv i
    obtain rfl := List.mem_singleton.mp hv
    exact h1
  · refine (tiny_deriv h (oneCon_lag f f' lam).1 (oneCon_lag f f' lam).2 a v).congr_deriv ?_
    rw [h4]; ring
  · intro v hv i
    obtain rfl := List.mem_singleton.mp hv
    exact h2
  · intro v hv i
    obtain rfl := List.mem_singleton.mp hv
    exact h3

/-- Derivatives of the active constraint that do not vanish are independent. -/
theorem oneCon_licq {f f' : ℝ → ℝ} (h : ∀ a, HasDerivAt f (f' a) a) {a : ℝ} (ha : f' a ≠ 0) (lam : ℝ) : LICQ tinyP (oneCon f f' lam) (tinyZ a) :=
  fun cs' hs => tiny_licq h ha cs' ⟨fun k hk => (hs.cost k hk).trans (tiny_cases (P := fun k => (oneCon f f' lam k).cost = (tinyCosts [] [tinyCon f f'] k).cost) rfl rfl k hk),
    fun k hk => (hs.eqCons k hk).trans (tiny_cases (P := fun k => (oneCon f f' lam k).eq.map (·.con) = (tinyCosts [] [tinyCon f f'] k).eq.map (·.con)) rfl rfl k hk),
    fun k hk => (hs.ineqCons k hk).trans (tiny_cases (P := fun k => (oneCon f f' lam k).ineq.map (·.con) = (tinyCosts [] [tinyCon f f'] k).ineq.map (·.con)) rfl rfl k hk)⟩

theorem oneCon_along {f f' : ℝ → ℝ} (h : ∀ a, HasDerivAt f (f' a) a) (a : ℝ) (d : ℕ → Fin 1 → ℝ) (i : Fin 1) :
    HasDerivAt (along tinyP (tinyZ a) (tinyCon f f') 0 i d) (f' a * d 0 0) 0 := by
  show HasDerivAt (fun b : ℝ => f (a + b * d 0 0)) _ 0
  have h1 : HasDerivAt (fun b : ℝ => a + b * d 0 0) (d 0 0) 0 := by
    simpa using ((hasDerivAt_id (0 : ℝ)).mul_const (d 0 0)).const_add a
  have h2 : HasDerivAt f (f' a) (a + 0 * d 0 0) := by rw [zero_mul, add_zero]; exact h a
  exact h2.comp (0 : ℝ) h1

/-- The solution `u = 0` of the problem with the constraint `u² + u ≤ 0` is regular; its multiplier is `-1`. -/
theorem active_regular : RegularSolution tinyP (oneCon (fun a => a ^ 2 + a) (fun a => 2 * a + 1) (-1)) (tinyZ 0) where
  kkt := oneCon_kkt para_deriv (by norm_num) (by norm_num) (by norm_num) (by norm_num)
  licq := oneCon_licq para_deriv (by norm_num) _
  strict := tiny_cases (fun v hv i _ => by
      obtain rfl := List.mem_singleton.mp hv
      show (-1 : ℝ) ≠ 0
      norm_num) (fun v hv => absurd hv List.not_mem_nil)
  second d hd hne := by
    obtain ⟨k, hk, hne⟩ := hne
    obtain rfl : k = 0 := by have : k < 1 := hk; omega
    have h1 := hd.ineq 0 (Nat.zero_le _) _ (List.mem_singleton.mpr rfl) (0 : Fin 1) (show (0 : ℝ) ^ 2 + 0 = 0 by norm_num)
    have h2 := h1.unique (oneCon_along para_deriv 0 d 0)
    refine absurd ?_ hne
    funext i
    rw [Subsingleton.elim i 0]
    have : (0 : ℝ) = (2 * 0 + 1) * d 0 0 := h2
    show d 0 0 = 0
    linarith

/-- The solution `u = 1` of the problem with the constraint `u² + u ≤ 6` is regular; its multiplier is zero, and the second-order condition is about all changes. -/
theorem inactive_regular : RegularSolution tinyP (oneCon (fun a => a ^ 2 + a - 6) (fun a => 2 * a + 1) 0) (tinyZ 1) where
  kkt := oneCon_kkt (fun a => (para_deriv a).sub_const 6) (by norm_num) (by norm_num) (by norm_num) (by norm_num)
  licq := oneCon_licq (fun a => (para_deriv a).sub_const 6) (by norm_num) _
  strict := tiny_cases (fun v hv i h => by
      obtain rfl := List.mem_singleton.mp hv
      have : (1 : ℝ) ^ 2 + 1 - 6 = 0 := h
      norm_num at this) (fun v hv => absurd hv List.not_mem_nil)
  second d hd hne := by
    obtain ⟨k, hk, hne⟩ := hne
    obtain rfl : k = 0 := by have : k < 1 := hk; omega
    have hd0 : d 0 0 ≠ 0 := fun h => hne (funext fun i => by rw [Subsingleton.elim i 0]; exact h)
    have e : (fun b : ℝ => controlCostOf tinyP (fun k => lagrangian (oneCon (fun a => a ^ 2 + a - 6) (fun a => 2 * a + 1) 0 k)) (tinyZ 1)
        fun k => (tinyZ 1).u k + b • d k) = fun b => 1 / 2 * (1 + b * d 0 0 - 1) ^ 2 := by
      funext b
      show ∑ k ∈ Finset.range 2, _ = _
      rw [Finset.sum_range_succ, Finset.sum_range_one]
      beta_reduce
      rw [(oneCon_lag _ _ 0).1, (oneCon_lag _ _ 0).2, add_zero, zero_mul, sub_zero]
      rfl
    rw [e]
    have e1 : deriv (fun b : ℝ => 1 / 2 * (1 + b * d 0 0 - 1) ^ 2) = fun b => b * d 0 0 ^ 2 := by
      funext b
      have h1 : HasDerivAt (fun b : ℝ => 1 / 2 * (1 + b * d 0 0 - 1) ^ 2) (b * d 0 0 ^ 2) b := by
        have h2 : HasDerivAt (fun b : ℝ => 1 + b * d 0 0 - 1) (d 0 0) b := by
          simpa using (((hasDerivAt_id b).mul_const (d 0 0)).const_add 1).sub_const 1
        refine ((h2.pow 2).const_mul (1 / 2)).congr_deriv ?_
        push_cast
        ring
      exact h1.deriv
    rw [iteratedDeriv_succ, iteratedDeriv_one, e1]
    have h3 : HasDerivAt (fun b : ℝ => b * d 0 0 ^ 2) (d 0 0 ^ 2) 0 := by
      simpa using (hasDerivAt_id (0 : ℝ)).mul_const (d 0 0 ^ 2)
    rw [h3.deriv]
    positivity

/-- A solve of the problem with the constraint `u² + u ≤ 0`: all hypotheses of the theorem are met, with `1` as the distance of the initial
multipliers. -/
example {R : ℝ} (hR : 0 ≤ R) :
    ∃ κ r : ℝ, 0 < κ ∧ 0 < r ∧ ∀ ρ, 2 * κ * (2 + 1) ≤ ρ → ∀ J : ℕ, ∃ W : ℝ, ∀ ε, 0 < ε → ε ≤ r → ∃ rb γ0 : ℝ, 0 < rb ∧ 0 < γ0 ∧ ∀ γ, 0 < γ →
      ∃ β : ℝ, 0 < β ∧ ∀ d, 0 < d → ∃ T : ℕ, ∀ (o : Opts ℝ) (fuel : ℕ) (s : ALSt (Fin 1 → ℝ) (Fin 1 → ℝ) ℝ (ALCost 1 1 ℝ) (KP 1 1 ℝ)),
      StepOptions (unlimited o) rb β → (o.checkBounds = true → Clears tinyP W o.stateMax o.controlMax) → o.regMin * o.regFactor ≤ rb → γ ≤ o.gradTol → o.gradTol ≤ γ0 →
      d ≤ unitDecrease o 1 → (T : ℤ) < o.maxInner → 1 ≤ o.maxOuter → o.maxOuter ≤ J → o.maxOuter * T < o.maxTotal → o.resetDuals = true →
      o.initialPenalty = ρ → s.st.cs = tinyCosts [] [paraCon] → SameTimes (alKernel tinyP) s.st.Z (tinyZ 0) → (∀ k < tinyP.N, ∀ i, |s.st.Z.u k i| ≤ R) →
      ∃ s' j prev, AL.solve (alKernel tinyP) alOps o (ILQR.solve (alKernel tinyP) o (fuel + 1)) s = some s' ∧ s'.st.stats.outer = j + 1 ∧
        NearSolved tinyP o (tinyCosts [] [paraCon]) (ρ * 10 ^ j) ε s' prev ∧
        (OuterStays (alKernel tinyP) alOps o (fuel + 1) (fun Z' => ControlsWithin tinyP (tinyZ 0) Z' r) o.maxOuter.toNat (AL.init (alKernel tinyP) alOps o s) →
          ∃ B, B ≤ 2 * κ * ε + (∏ i ∈ Finset.range (j + 1), κ / (ρ * 10 ^ i)) * 1 ∧
            ControlsWithin tinyP (tinyZ 0) s'.st.Z B ∧ StatesWithin tinyP (tinyZ 0) s'.st.Z B ∧
            MultsWithin tinyP (oneCon (fun a => a ^ 2 + a) (fun a => 2 * a + 1) (-1)) s'.st.cs B) :=
  C105_run (para_smooth (tinyZ 0)) one_pos one_ne_zero (φ := 10) (by norm_num)
    (tiny_cases ⟨fun v hv => absurd hv List.not_mem_nil, fun v hv => by obtain rfl := List.mem_singleton.mp hv; rfl⟩
      ⟨fun v hv => absurd hv List.not_mem_nil, fun v hv => absurd hv List.not_mem_nil⟩)
    (oneCon_twice (by fun_prop) _ _) active_regular ⟨tiny_cases rfl rfl, tiny_cases rfl rfl, tiny_cases rfl rfl⟩ ⟨fun _ _ => rfl, fun _ _ => rfl⟩ zero_le_one
    (tiny_cases (fun j i => ⟨by simp [oneCon, mulAt], by
        match j with
        | 0 =>
          show |if h : i < 1 then (-1 : ℝ) else 0| ≤ 1
          split <;> simp
        | j + 1 => simp [oneCon, mulAt]⟩) (fun j i => by simp [oneCon, mulAt, ALCost.new])) hR

/-! ## The rate is sharp -/

/-- The problem with the constraint `u ≤ 0` before an update: multiplier `lam`, penalty `ρ`, stored value `a`. -/
noncomputable def beforeUpdate (lam ρ a : ℝ) (k : ℕ) : ALCost 1 1 ℝ :=
  if k < 1 then ⟨(QuadCost.lqr 0 1 0 1).costFun, [], [⟨tinyCon (fun a => a) (fun _ => 1), fun _ => a, fun _ => lam, fun _ => ρ, 0, 10⟩]⟩
  else ALCost.new (QuadCost.lqr 0 0 0 1).costFun [] []

theorem line_regular : RegularSolution tinyP (oneCon (fun a => a) (fun _ => 1) (-1)) (tinyZ 0) where
  kkt := oneCon_kkt (fun a => hasDerivAt_id a) le_rfl (by norm_num) (by norm_num) (by norm_num)
  licq := oneCon_licq (fun a => hasDerivAt_id a) one_ne_zero _
  strict := tiny_cases (fun v hv i _ => by
      obtain rfl := List.mem_singleton.mp hv
      show (-1 : ℝ) ≠ 0
      norm_num) (fun v hv => absurd hv List.not_mem_nil)
  second d hd hne := by
    obtain ⟨k, hk, hne⟩ := hne
    obtain rfl : k = 0 := by have : k < 1 := hk; omega
    have h1 := hd.ineq 0 (Nat.zero_le _) _ (List.mem_singleton.mpr rfl) (0 : Fin 1) (show (0 : ℝ) = 0 from rfl)
    have h2 := h1.unique (oneCon_along (fun a => hasDerivAt_id a) 0 d 0)
    refine absurd ?_ hne
    funext i
    rw [Subsingleton.elim i 0]
    have : (0 : ℝ) = 1 * d 0 0 := h2
    show d 0 0 = 0
    linarith

/-- The factor in the rate is of the right order: on the problem with the constraint `u ≤ 0`, whose solution is regular, exact inner solves multiply the distance of the multiplier
by `1 / (1 + ρ)`.  All hypotheses of the rate are met, without errors. -/
theorem C105_sharp {lam ρ : ℝ} (hρ : 0 < ρ) (hl : lam ≤ ρ) :
    RegularSolution tinyP (oneCon (fun a => a) (fun _ => 1) (-1)) (tinyZ 0) ∧
    SameProblem tinyP (oneCon (fun a => a) (fun _ => 1) (-1)) (beforeUpdate lam ρ ((1 + lam) / (1 + ρ))) ∧
    (∀ k ≤ tinyP.N, PenU (beforeUpdate lam ρ ((1 + lam) / (1 + ρ)) k) ρ) ∧
    ControlsWithin tinyP (tinyZ 0) (tinyZ ((1 + lam) / (1 + ρ))) (|1 + lam| / (1 + ρ)) ∧
    DynFeasible (alKernel tinyP) (tinyZ ((1 + lam) / (1 + ρ))) ∧
    ValuesWithin tinyP (beforeUpdate lam ρ ((1 + lam) / (1 + ρ))) (tinyZ ((1 + lam) / (1 + ρ))) 0 ∧
    NearlyStationaryOf tinyP (fun k => lagrangian (beforeUpdate lam ρ ((1 + lam) / (1 + ρ)) k).updateDuals) (tinyZ ((1 + lam) / (1 + ρ))) 0 ∧
    mulAt (beforeUpdate lam ρ ((1 + lam) / (1 + ρ)) 0).ineq 0 0 - -1 = lam - -1 ∧
    mulAt (beforeUpdate lam ρ ((1 + lam) / (1 + ρ)) 0).updateDuals.ineq 0 0 - -1 = (lam - -1) / (1 + ρ) := by
  set a := (1 + lam) / (1 + ρ) with ha
  have h1 : (1 + ρ) ≠ 0 := by positivity
  have hm : min 0 (lam - ρ * a) = a - 1 := by
    have e : lam - ρ * a = a - 1 := by rw [ha]; field_simp; ring
    rw [e]
    refine min_eq_right ?_
    rw [ha, sub_nonpos, div_le_one (by positivity)]
    linarith
  refine ⟨line_regular, ⟨tiny_cases rfl rfl, tiny_cases rfl rfl, tiny_cases rfl rfl⟩, tiny_cases ⟨fun v hv => absurd hv List.not_mem_nil, fun v hv i => ?_⟩
      ⟨fun v hv => absurd hv List.not_mem_nil, fun v hv => absurd hv List.not_mem_nil⟩, fun k hk i => ?_, ⟨(tinyZ_dyn a).1, (tinyZ_dyn a).2⟩,
    tiny_cases ⟨fun v hv => absurd hv List.not_mem_nil, fun v hv i => ?_⟩ ⟨fun v hv => absurd hv List.not_mem_nil, fun v hv => absurd hv List.not_mem_nil⟩,
    fun v hv => ⟨0, ?_, by simp⟩, rfl, ?_⟩
  · obtain rfl := List.mem_singleton.mp hv
    rfl
  · obtain rfl : k = 0 := by have : k < 1 := hk; omega
    show |a - 0| ≤ _
    rw [sub_zero, ha, abs_div, abs_of_pos (show 0 < 1 + ρ by positivity)]
  · obtain rfl := List.mem_singleton.mp hv
    show |a - a| ≤ 0
    simp
  · refine (tiny_deriv (θ := a - 1) (f := fun a => a) (f' := fun _ => 1) (fun a => hasDerivAt_id a) (fun x u => ?_) (fun x u => ?_) a v).congr_deriv (by ring)
    · show (QuadCost.lqr (0 : Matrix (Fin 1) (Fin 1) ℝ) 1 0 1).costFun.eval x u - 0 - ((∑ _i : Fin 1, min 0 (lam - ρ * a) * u 0) + 0) = _
      rw [stage_eval, hm]
      simp
    · show (QuadCost.lqr (0 : Matrix (Fin 1) (Fin 1) ℝ) 0 0 1).costFun.eval x u - 0 - 0 = _
      rw [term_eval]
      simp
  · show min 0 (lam - ρ * a) - -1 = _
    rw [hm, ha]
    ring

end Altro.Props
