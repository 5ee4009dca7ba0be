import Verif.Props.KKTLimit

/-!
# C92: a convergent sequence, and why the bound on the multipliers is needed

One segment, dynamics `x' = x + u`, objective `½ (u - 1)²`, one scalar constraint on the control.
-/

namespace Altro.Props
open Altro.Spec Matrix ILQR AL Filter
open scoped Topology

noncomputable def tinyP : DynProblem 1 1 ℝ where
  N := 1
  x0 := 0
  f _ x u _ _ := x + u
  jac _ _ _ _ _ := (1, 1)
  normX _ := 0
  normU _ := 0

/-- A constraint on the control. -/
noncomputable def tinyCon (f f' : ℝ → ℝ) : Con 1 1 ℝ where
  p := 1
  hp := one_pos
  eval _ u _ := f (u 0)
  jac _ u _ c := Sum.elim (fun _ => 0) (fun _ => f' (u 0)) c

noncomputable def tinyCosts (eqs ineqs : List (Con 1 1 ℝ)) (k : ℕ) : ALCost 1 1 ℝ :=
  if k < 1 then ALCost.new (QuadCost.lqr 0 1 0 1).costFun eqs ineqs else ALCost.new (QuadCost.lqr 0 0 0 1).costFun [] []

theorem tinyCon_smooth {f f' : ℝ → ℝ} (h : ∀ a, HasDerivAt f (f' a) a) (hc : Continuous f') : SmoothCon (tinyCon f f') := by
  refine ⟨fun x u i => ?_, ?_⟩
  · show HasFDerivAt (fun z : Altro.Spec.Z 1 1 => f (z.2 0)) _ (x, u)
    have h1 : HasFDerivAt (fun z : Altro.Spec.Z 1 1 => z.2 0)
        ((ContinuousLinearMap.proj 0 : (Fin 1 → ℝ) →L[ℝ] ℝ).comp (ContinuousLinearMap.snd ℝ (Fin 1 → ℝ) (Fin 1 → ℝ))) (x, u) :=
      ((ContinuousLinearMap.proj 0 : (Fin 1 → ℝ) →L[ℝ] ℝ).comp (ContinuousLinearMap.snd ℝ (Fin 1 → ℝ) (Fin 1 → ℝ))).hasFDerivAt
    refine ((h (u 0)).comp_hasFDerivAt (x, u) h1).congr_fderiv ?_
    ext z <;> simp [gradCLM, tinyCon, dotProduct]
  · refine continuous_pi fun i => continuous_pi fun c => ?_
    rcases c with c | c
    · exact continuous_const
    · exact hc.comp ((continuous_apply 0).comp continuous_snd)

theorem tiny_smooth {eqs ineqs : List (Con 1 1 ℝ)} (h1 : ∀ c ∈ eqs, SmoothCon c) (h2 : ∀ c ∈ ineqs, SmoothCon c)
    (Y : Traj (Fin 1 → ℝ) (Fin 1 → ℝ) ℝ) : SmoothProblem tinyP (tinyCosts eqs ineqs) Y 1 := by
  have s0 : (0 : Matrix (Fin 1) (Fin 1) ℝ).IsSymm := transpose_zero
  have s1 : (1 : Matrix (Fin 1) (Fin 1) ℝ).IsSymm := transpose_one
  have p0 : ∀ u : Fin 1 → ℝ, 0 ≤ u ⬝ᵥ (0 : Matrix (Fin 1) (Fin 1) ℝ) *ᵥ u := fun u => by rw [zero_mulVec, dotProduct_zero]
  have p1 : ∀ u : Fin 1 → ℝ, 1 * (u ⬝ᵥ u) ≤ u ⬝ᵥ (1 : Matrix (Fin 1) (Fin 1) ℝ) *ᵥ u := fun u => by rw [one_mulVec, one_mul]
  have p1' : ∀ u : Fin 1 → ℝ, 0 ≤ u ⬝ᵥ (1 : Matrix (Fin 1) (Fin 1) ℝ) *ᵥ u := fun u => by rw [one_mulVec]; exact nsq_nonneg u
  have e0 : tinyCosts eqs ineqs 0 = ALCost.new (QuadCost.lqr 0 1 0 1).costFun eqs ineqs := rfl
  have e1 : tinyCosts eqs ineqs 1 = ALCost.new (QuadCost.lqr 0 0 0 1).costFun [] [] := rfl
  have hk : ∀ k ≤ tinyP.N, k = 0 ∨ k = 1 := fun k hk => by
    have : k ≤ 1 := hk
    omega
  have hk' : ∀ k < tinyP.N, k = 0 := fun k hk => by
    have : k < 1 := hk
    omega
  have hlin : ∀ x u : Fin 1 → ℝ, IsJacAt (fun x u : Fin 1 → ℝ => x + u) (fromCols (1 : Matrix (Fin 1) (Fin 1) ℝ) (1 : Matrix (Fin 1) (Fin 1) ℝ)) x u := by
    intro x u i
    obtain rfl : i = 0 := Subsingleton.elim i 0
    show HasFDerivAt (fun z : Altro.Spec.Z 1 1 => z.1 0 + z.2 0) _ (x, u)
    have a1 := ((ContinuousLinearMap.proj 0 : (Fin 1 → ℝ) →L[ℝ] ℝ).comp (ContinuousLinearMap.fst ℝ (Fin 1 → ℝ) (Fin 1 → ℝ))
      + (ContinuousLinearMap.proj 0 : (Fin 1 → ℝ) →L[ℝ] ℝ).comp (ContinuousLinearMap.snd ℝ (Fin 1 → ℝ) (Fin 1 → ℝ))).hasFDerivAt (x := (x, u))
    refine a1.congr_fderiv ?_
    ext z <;> simp [gradCLM, dotProduct]
  refine ⟨⟨fun k h x u => ?_, fun k h x u dx du => ?_, fun k h v hv i => ?_, fun k h v hv i => ?_⟩, fun k h x u => hlin x u,
    fun k h => continuous_const, fun k h => ?_, ⟨1 / 4, 1 / 2, by norm_num, fun k h x u => ?_, fun x u => ?_⟩, fun x u u' => ?_,
    fun x u u' => rfl, fun v hv => absurd hv List.not_mem_nil, fun v hv => absurd hv List.not_mem_nil⟩
  · rcases hk k h with rfl | rfl
    · exact lqr_psd _ _ _ _ s0 s1 p0 p1' x u
    · exact lqr_psd _ _ _ _ s0 s0 p0 p0 x u
  · obtain rfl := hk' k h
    exact lqr_strong _ _ _ _ p0 p1 x u dx du
  · rcases hk k h with rfl | rfl
    · obtain ⟨c, -, rfl⟩ := List.mem_map.mp hv
      exact zero_le_one
    · exact nomatch hv
  · rcases hk k h with rfl | rfl
    · obtain ⟨c, -, rfl⟩ := List.mem_map.mp hv
      exact zero_le_one
    · exact nomatch hv
  · rcases hk k h with rfl | rfl
    · refine smoothKnot_lqr _ _ _ _ s0 s1 (congrArg ALCost.cost e0) (fun v hv => ?_) (fun v hv => ?_) fun v hv => ?_
      · obtain ⟨c, hc, rfl⟩ := List.mem_map.mp hv
        exact ⟨h1 c hc, fun _ => one_pos⟩
      · obtain ⟨c, hc, rfl⟩ := List.mem_map.mp hv
        exact ⟨h2 c hc, fun _ => one_pos⟩
      · obtain ⟨c, hc, rfl⟩ := List.mem_map.mp hv
        exact fun _ _ _ => rfl
    · exact smoothKnot_lqr _ _ _ _ s0 s0 (congrArg ALCost.cost e1) (fun v hv => absurd hv List.not_mem_nil) (fun v hv => absurd hv List.not_mem_nil) fun v hv => absurd hv List.not_mem_nil
  · obtain rfl := hk' k h
    have := lqr_lower (0 : Matrix (Fin 1) (Fin 1) ℝ) (1 : Matrix (Fin 1) (Fin 1) ℝ) 0 1 one_pos s0 s1 p0 p1 x u
    have e : (1 : Fin 1 → ℝ) ⬝ᵥ 1 = 1 := by simp [dotProduct]
    rw [e] at this
    show _ ≤ (QuadCost.lqr 0 1 0 1).costFun.eval x u
    linarith
  · show _ ≤ (QuadCost.lqr 0 0 0 1).costFun.eval x u
    rw [C37_lqr _ _ s0 s0]
    simp
  · show (QuadCost.lqr 0 0 0 1).costFun.eval x u = (QuadCost.lqr 0 0 0 1).costFun.eval x u'
    rw [C37_lqr _ _ s0 s0, C37_lqr _ _ s0 s0]
    simp

/-- The trajectory with control `a`. -/
noncomputable def tinyZ (a : ℝ) : Traj (Fin 1 → ℝ) (Fin 1 → ℝ) ℝ where
  x k _ := if k = 0 then 0 else a
  u k _ := if k = 0 then a else 0
  t k := k
  h _ := 1

theorem tinyZ_dyn (a : ℝ) : (tinyZ a).x 0 = tinyP.x0 ∧ ∀ k < tinyP.N, (tinyZ a).x (k + 1) = tinyP.f k ((tinyZ a).x k) ((tinyZ a).u k) ((tinyZ a).t k) ((tinyZ a).h k) := by
  refine ⟨rfl, fun k hk => ?_⟩
  have : k < 1 := hk
  obtain rfl : k = 0 := by omega
  funext i
  show a = 0 + a
  rw [zero_add]

theorem stage_eval (x u : Fin 1 → ℝ) : (QuadCost.lqr (0 : Matrix (Fin 1) (Fin 1) ℝ) 1 0 1).costFun.eval x u = 1 / 2 * (u 0 - 1) ^ 2 := by
  rw [C37_lqr _ _ transpose_zero transpose_one]
  simp [dotProduct, sq]

theorem term_eval (x u : Fin 1 → ℝ) : (QuadCost.lqr (0 : Matrix (Fin 1) (Fin 1) ℝ) 0 0 1).costFun.eval x u = 0 := by
  rw [C37_lqr _ _ transpose_zero transpose_zero]
  simp

/-- The derivative of the total Lagrangian, when the Lagrangian of the first knot point has the form `½ (u - 1)² - θ f(u)`. -/
theorem tiny_deriv {f f' : ℝ → ℝ} (h : ∀ a, HasDerivAt f (f' a) a) {ℓ : ℕ → (Fin 1 → ℝ) → (Fin 1 → ℝ) → ℝ} {θ : ℝ}
    (e0 : ∀ x u, ℓ 0 x u = 1 / 2 * (u 0 - 1) ^ 2 - θ * f (u 0)) (e1 : ∀ x u, ℓ 1 x u = 0) (a : ℝ) (v : ℕ → Fin 1 → ℝ) :
    HasDerivAt (fun b : ℝ => controlCostOf tinyP ℓ (tinyZ a) fun k => (tinyZ a).u k + b • v k) ((a - 1 - θ * f' a) * v 0 0) 0 := by
  have e : (fun b : ℝ => controlCostOf tinyP ℓ (tinyZ a) fun k => (tinyZ a).u k + b • v k)
      = fun b => 1 / 2 * (a + b * v 0 0 - 1) ^ 2 - θ * f (a + b * v 0 0) := by
    funext b
    show ∑ k ∈ Finset.range 2, _ = _
    rw [Finset.sum_range_succ, Finset.sum_range_one, e0, e1, add_zero]
    rfl
  rw [e]
  have h1 : HasDerivAt (fun b : ℝ => a + b * v 0 0) (v 0 0) 0 := by
    simpa using ((hasDerivAt_id (0 : ℝ)).mul_const (v 0 0)).const_add a
  have h2 : HasDerivAt (fun b : ℝ => f (a + b * v 0 0)) (f' a * v 0 0) 0 := by
    have : HasDerivAt f (f' a) (a + 0 * v 0 0) := by rw [zero_mul, add_zero]; exact h a
    exact this.comp (0 : ℝ) h1
  have h3 := (((h1.sub_const 1).pow 2).const_mul (1 / 2 : ℝ)).sub (h2.const_mul θ)
  refine h3.congr_deriv ?_
  simp
  ring

/-! ## A convergent sequence

Constraint `u ≤ 0`; the solution is `u = 0` with multiplier `-1`. -/

noncomputable def tinyIneq (lam : ℝ) (k : ℕ) : ALCost 1 1 ℝ :=
  if k < 1 then ⟨(QuadCost.lqr 0 1 0 1).costFun, [], [⟨tinyCon (fun a => a) (fun _ => 1), 0, fun _ => lam, 1, 0, 10⟩]⟩
  else ALCost.new (QuadCost.lqr 0 0 0 1).costFun [] []

theorem tinyIneq_same (lam : ℝ) : SameProblem tinyP (tinyCosts [] [tinyCon (fun a => a) (fun _ => 1)]) (tinyIneq lam) := by
  have hk : ∀ k ≤ tinyP.N, k = 0 ∨ k = 1 := fun k hk => by
    have : k ≤ 1 := hk
    omega
  refine ⟨fun k h => ?_, fun k h => ?_, fun k h => ?_⟩ <;> rcases hk k h with rfl | rfl <;> rfl

theorem tinyIneq_lag (lam : ℝ) : (∀ x u, lagrangian (tinyIneq lam 0) x u = 1 / 2 * (u 0 - 1) ^ 2 - lam * u 0) ∧
    ∀ x u, lagrangian (tinyIneq lam 1) x u = 0 := by
  refine ⟨fun x u => ?_, fun x u => ?_⟩
  · show (QuadCost.lqr (0 : Matrix (Fin 1) (Fin 1) ℝ) 1 0 1).costFun.eval x u - 0 - ((∑ _i : Fin 1, lam * u 0) + 0) = _
    rw [stage_eval]
    simp
  · show (QuadCost.lqr (0 : Matrix (Fin 1) (Fin 1) ℝ) 0 0 1).costFun.eval x u - 0 - 0 = _
    rw [term_eval]
    simp

theorem tinyIneq_near {a : ℝ} (h0 : 0 ≤ a) (h1 : a ≤ 1) : NearKKT tinyP (tinyIneq (a - 1)) (tinyZ a) 0 a 0 := by
  have hk : ∀ k ≤ tinyP.N, k = 0 ∨ k = 1 := fun k hk => by
    have : k ≤ 1 := hk
    omega
  refine ⟨(tinyZ_dyn a).1, (tinyZ_dyn a).2, fun k h v hv i => ?_, fun k h v hv i => ?_, fun v hv => ⟨0, ?_, by simp⟩, fun k h v hv i => ?_,
    fun k h v hv i => ?_⟩
  · rcases hk k h with rfl | rfl <;> exact nomatch hv
  · rcases hk k h with rfl | rfl
    · obtain rfl := List.mem_singleton.mp hv
      exact le_refl a
    · exact nomatch hv
  · refine (tiny_deriv (f := fun a => a) (f' := fun _ => 1) (fun a => hasDerivAt_id a) (tinyIneq_lag (a - 1)).1 (tinyIneq_lag (a - 1)).2 a v).congr_deriv ?_
    ring
  · rcases hk k h with rfl | rfl
    · obtain rfl := List.mem_singleton.mp hv
      show a - 1 ≤ 0
      linarith
    · exact nomatch hv
  · rcases hk k h with rfl | rfl
    · obtain rfl := List.mem_singleton.mp hv
      right
      show -0 ≤ a
      linarith
    · exact nomatch hv

theorem inv_tendsto : Tendsto (fun l : ℕ => 1 / ((l : ℝ) + 1)) atTop (𝓝 0) := tendsto_one_div_add_atTop_nhds_zero_nat

theorem inv_range (l : ℕ) : 0 < 1 / ((l : ℝ) + 1) ∧ 1 / ((l : ℝ) + 1) ≤ 1 := by
  have : (0 : ℝ) ≤ l := Nat.cast_nonneg l
  exact ⟨by positivity, by rw [div_le_one (by positivity)]; linarith⟩

theorem tinyZ_tendsto {k : ℕ} {b : ℕ → ℝ} {b0 : ℝ} (hb : Tendsto b atTop (𝓝 b0)) (i : Fin 1) :
    Tendsto (fun l => (tinyZ (b l)).x k i) atTop (𝓝 ((tinyZ b0).x k i)) ∧ Tendsto (fun l => (tinyZ (b l)).u k i) atTop (𝓝 ((tinyZ b0).u k i)) := by
  unfold tinyZ
  by_cases h : k = 0
  · simp only [if_pos h]; exact ⟨tendsto_const_nhds, hb⟩
  · simp only [if_neg h]; exact ⟨hb, tendsto_const_nhds⟩

example : KKT tinyP (tinyIneq (-1)) (tinyZ 0) := by
  have hk : ∀ k ≤ tinyP.N, k = 0 ∨ k = 1 := fun k hk => by
    have : k ≤ 1 := hk
    omega
  refine C92_limit (ds := fun l => tinyIneq (1 / ((l : ℝ) + 1) - 1)) (Zs := fun l => tinyZ (1 / ((l : ℝ) + 1))) (ε := fun _ => 0)
    (ν := fun l => 1 / ((l : ℝ) + 1)) (δ := fun _ => 0)
    (tiny_smooth (fun c hc => absurd hc List.not_mem_nil) (fun c hc => by
      obtain rfl := List.mem_singleton.mp hc
      exact tinyCon_smooth (fun a => hasDerivAt_id a) continuous_const) (tinyZ 0))
    (fun l => tinyIneq_same _) (fun l => ⟨fun _ _ => rfl, fun _ _ => rfl⟩) (fun l => tinyIneq_near (inv_range l).1.le (inv_range l).2)
    tendsto_const_nhds inv_tendsto tendsto_const_nhds (tinyIneq_same _) ⟨fun _ _ => rfl, fun _ _ => rfl⟩
    ⟨fun k _ i => (tinyZ_tendsto inv_tendsto i).1, fun k _ i => (tinyZ_tendsto inv_tendsto i).2, fun k h j i => ?_, fun k h j i => ?_⟩
  · rcases hk k h with rfl | rfl <;> exact tendsto_const_nhds
  · rcases hk k h with rfl | rfl
    · rcases j with _ | j
      · rcases Nat.eq_zero_or_pos i with rfl | hi
        · show Tendsto (fun l : ℕ => 1 / ((l : ℝ) + 1) - 1) atTop (𝓝 (-1))
          simpa using inv_tendsto.sub_const 1
        · have e : ∀ lam, mulAt (tinyIneq lam 0).ineq 0 i = 0 := fun lam => dif_neg (by show ¬i < 1; omega)
          simp only [e]; exact tendsto_const_nhds
      · exact tendsto_const_nhds
    · exact tendsto_const_nhds

/-! ## Unbounded multipliers

Constraint `u² = 0`: the only feasible control is `0`, where no multiplier makes the Lagrangian stationary. -/

noncomputable def tinyEq (lam : ℝ) (k : ℕ) : ALCost 1 1 ℝ :=
  if k < 1 then ⟨(QuadCost.lqr 0 1 0 1).costFun, [⟨tinyCon (fun a => a ^ 2) (fun a => 2 * a), 0, fun _ => lam, 1, 0, 10⟩], []⟩
  else ALCost.new (QuadCost.lqr 0 0 0 1).costFun [] []

theorem sq_deriv (a : ℝ) : HasDerivAt (fun a : ℝ => a ^ 2) (2 * a) a := by simpa using hasDerivAt_pow 2 a

/-- Without the bound on the multipliers the conclusion of `C92_accumulation` fails: for this smooth problem there are trajectories that
converge, with multipliers that make them approximate Karush-Kuhn-Tucker points with vanishing errors, but no multipliers make the limit a
Karush-Kuhn-Tucker point. -/
theorem C92_bound_needed : SmoothProblem tinyP (tinyCosts [tinyCon (fun a => a ^ 2) (fun a => 2 * a)] []) (tinyZ 0) 1 ∧
    (∃ lam : ℕ → ℝ, ∀ l, SameProblem tinyP (tinyCosts [tinyCon (fun a => a ^ 2) (fun a => 2 * a)] []) (tinyEq (lam l)) ∧
      NearKKT tinyP (tinyEq (lam l)) (tinyZ (1 / ((l : ℝ) + 1))) 0 ((1 / ((l : ℝ) + 1)) ^ 2) 0) ∧
    ∀ cs', SameProblem tinyP (tinyCosts [tinyCon (fun a => a ^ 2) (fun a => 2 * a)] []) cs' → ¬KKT tinyP cs' (tinyZ 0) := by
  have hk : ∀ k ≤ tinyP.N, k = 0 ∨ k = 1 := fun k hk => by
    have : k ≤ 1 := hk
    omega
  refine ⟨tiny_smooth (fun c hc => by
      obtain rfl := List.mem_singleton.mp hc
      exact tinyCon_smooth sq_deriv (continuous_const.mul continuous_id)) (fun c hc => absurd hc List.not_mem_nil) _,
    ⟨fun l => (1 / ((l : ℝ) + 1) - 1) / (2 * (1 / ((l : ℝ) + 1))), fun l => ⟨?_, ?_⟩⟩, fun cs' hs hK => ?_⟩
  · refine ⟨fun k h => ?_, fun k h => ?_, fun k h => ?_⟩ <;> rcases hk k h with rfl | rfl <;> rfl
  · set a : ℝ := 1 / ((l : ℝ) + 1) with ha
    have ha0 : 0 < a := (inv_range l).1
    refine ⟨(tinyZ_dyn a).1, (tinyZ_dyn a).2, fun k h v hv i => ?_, fun k h v hv i => ?_, fun v hv => ⟨0, ?_, by simp⟩, fun k h v hv i => ?_,
      fun k h v hv i => ?_⟩
    · rcases hk k h with rfl | rfl
      · obtain rfl := List.mem_singleton.mp hv
        show |a ^ 2| ≤ a ^ 2
        rw [abs_of_nonneg (sq_nonneg a)]
      · exact nomatch hv
    · rcases hk k h with rfl | rfl <;> exact nomatch hv
    · refine (tiny_deriv (θ := (a - 1) / (2 * a)) sq_deriv (fun x u => ?_) (fun x u => ?_) a v).congr_deriv ?_
      · show (QuadCost.lqr (0 : Matrix (Fin 1) (Fin 1) ℝ) 1 0 1).costFun.eval x u - ((∑ _i : Fin 1, (a - 1) / (2 * a) * (u 0) ^ 2) + 0) - 0 = _
        rw [stage_eval]
        simp
      · show (QuadCost.lqr (0 : Matrix (Fin 1) (Fin 1) ℝ) 0 0 1).costFun.eval x u - 0 - 0 = _
        rw [term_eval]
        simp
      · field_simp
        ring
    · rcases hk k h with rfl | rfl <;> exact nomatch hv
    · rcases hk k h with rfl | rfl <;> exact nomatch hv
  · have e0 : lagrangian (cs' 0) = _ := lagrangian_withMul (hs.cost 0 (Nat.zero_le _)) (hs.eqCons 0 (Nat.zero_le _)) (hs.ineqCons 0 (Nat.zero_le _))
    have e1 : lagrangian (cs' 1) = _ := lagrangian_withMul (hs.cost 1 le_rfl) (hs.eqCons 1 le_rfl) (hs.ineqCons 1 le_rfl)
    have h1 := hK.stationary (fun k _ => if k = 0 then 1 else 0) rfl
    have h2 := tiny_deriv (θ := mulOf (cs' 0) true 0 0) sq_deriv (ℓ := fun k => lagrangian (cs' k)) (fun x u => by
        show lagrangian (cs' 0) x u = _
        rw [e0]
        show (QuadCost.lqr (0 : Matrix (Fin 1) (Fin 1) ℝ) 1 0 1).costFun.eval x u - ((∑ i : Fin 1, mulOf (cs' 0) true 0 i * (u 0) ^ 2) + 0) - 0 = _
        rw [stage_eval]
        simp) (fun x u => by
        show lagrangian (cs' 1) x u = _
        rw [e1]
        show (QuadCost.lqr (0 : Matrix (Fin 1) (Fin 1) ℝ) 0 0 1).costFun.eval x u - 0 - 0 = _
        rw [term_eval]
        simp) 0 (fun k _ => if k = 0 then 1 else 0)
    have := h1.unique h2
    simp at this

end Altro.Props
