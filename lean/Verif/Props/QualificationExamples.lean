import Verif.Props.QualificationExact
import Verif.Props.SlaterExamples

/-!
# C98: concrete problems that meet the constraint qualifications, and one that does not

One segment, dynamics `x' = x + u`, objective `½ (u - 1)²`, one scalar constraint on the control (Props.KKTLimitExamples).
-/

namespace Altro.Props
open Altro.Spec Matrix ILQR AL Filter
open scoped Topology

/-- The derivative of the weighted sum of the constraints. -/
theorem tiny_weighted_deriv {f f' : ℝ → ℝ} (h : ∀ a, HasDerivAt f (f' a) a) {cs : ℕ → ALCost 1 1 ℝ} {θ : ℝ}
    (e0 : ∀ x u, weighted (cs 0) x u = θ * f (u 0)) (e1 : ∀ x u, weighted (cs 1) x u = 0) (a : ℝ) (v : ℕ → Fin 1 → ℝ) :
    HasDerivAt (fun b : ℝ => controlCostOf tinyP (fun k => weighted (cs k)) (tinyZ a) fun k => (tinyZ a).u k + b • v k) (θ * f' a * v 0 0) 0 := by
  have e : (fun b : ℝ => controlCostOf tinyP (fun k => weighted (cs k)) (tinyZ a) fun k => (tinyZ a).u k + b • v k) = fun b => θ * f (a + b * v 0 0) := by
    funext b
    show ∑ k ∈ Finset.range 2, _ = _
    rw [Finset.sum_range_succ, Finset.sum_range_one]
    beta_reduce
    rw [e0, e1, add_zero]
    rfl
  rw [e]
  have h1 : HasDerivAt (fun b : ℝ => a + b * v 0 0) (v 0 0) 0 := by
    simpa using ((hasDerivAt_id (0 : ℝ)).mul_const (v 0 0)).const_add a
  have h2 : HasDerivAt (fun b : ℝ => f (a + b * v 0 0)) (f' a * v 0 0) 0 := by
    have : HasDerivAt f (f' a) (a + 0 * v 0 0) := by rw [zero_mul, add_zero]; exact h a
    exact this.comp (0 : ℝ) h1
  refine (h2.const_mul θ).congr_deriv ?_
  ring

/-- One inequality with a nonzero derivative is linearly independent. -/
theorem tiny_licq {f f' : ℝ → ℝ} (h : ∀ a, HasDerivAt f (f' a) a) {a : ℝ} (ha : f' a ≠ 0) : LICQ tinyP (tinyCosts [] [tinyCon f f']) (tinyZ a) := by
  intro cs' hs _ hd
  have q0 : (cs' 0).eq = [] := List.map_eq_nil_iff.mp (hs.eqCons 0 (Nat.zero_le _))
  have q1 : (cs' 1).eq = [] := List.map_eq_nil_iff.mp (hs.eqCons 1 le_rfl)
  have i1 : (cs' 1).ineq = [] := List.map_eq_nil_iff.mp (hs.ineqCons 1 le_rfl)
  obtain ⟨⟨con, c, lam, pen, viol, φ⟩, i0, e⟩ := List.map_eq_singleton_iff.mp (hs.ineqCons 0 (Nat.zero_le _))
  simp only at e
  subst e
  have h1 := hd (fun k _ => if k = 0 then 1 else 0) rfl
  have h2 := tiny_weighted_deriv h (cs := cs') (θ := lam (0 : Fin 1)) (fun x u => by
      unfold weighted
      rw [q0, i0]
      show 0 + ((∑ i : Fin 1, lam i * f (u 0)) + 0) = _
      simp) (fun x u => by
      unfold weighted
      rw [q1, i1]
      simp) a fun k _ => if k = 0 then 1 else 0
  have h3 := h1.unique h2
  have h4 : lam (0 : Fin 1) = 0 := by
    have : lam (0 : Fin 1) * f' a = 0 := by simpa using h3.symm
    exact (mul_eq_zero.mp this).resolve_right ha
  refine ⟨tiny_cases (by rw [q0]; exact fun v hv => absurd hv List.not_mem_nil) (by rw [q1]; exact fun v hv => absurd hv List.not_mem_nil),
    tiny_cases ?_ (by rw [i1]; exact fun v hv => absurd hv List.not_mem_nil)⟩
  rw [i0]
  intro v hv i
  obtain rfl := List.mem_singleton.mp hv
  have : i = (0 : Fin 1) := Subsingleton.elim (α := Fin 1) i 0
  rw [this]
  exact h4

theorem tinyIneq_smooth : SmoothProblem tinyP (tinyCosts [] [tinyCon (fun a => a) fun _ => 1]) (tinyZ 0) 1 :=
  tiny_smooth (fun c hc => absurd hc List.not_mem_nil) (fun c hc => by
      obtain rfl := List.mem_singleton.mp hc
      exact tinyCon_smooth (fun a => hasDerivAt_id a) continuous_const) (tinyZ 0)

/-- The multipliers of the trajectories with control `1/(l+1)` on the problem with the constraint `u ≤ 0` converge, without any bound assumed. -/
example : ∃ cs', SameProblem tinyP (tinyCosts [] [tinyCon (fun a => a) fun _ => 1]) cs' ∧ KKT tinyP cs' (tinyZ 0) ∧
    ConvergesTo tinyP (fun l => tinyIneq (1 / ((l : ℝ) + 1) - 1)) (fun l => tinyZ (1 / ((l : ℝ) + 1))) cs' (tinyZ 0) :=
  C98_converges (ε := fun _ => 0) (ν := fun l => 1 / ((l : ℝ) + 1)) (δ := fun _ => 0) tinyIneq_smooth (fun l => tinyIneq_same _)
    (fun l => ⟨fun _ _ => rfl, fun _ _ => rfl⟩) (fun l => tinyIneq_near (inv_range l).1.le (inv_range l).2) tendsto_const_nhds inv_tendsto
    tendsto_const_nhds ⟨fun _ _ => rfl, fun _ _ => rfl⟩ ⟨fun k _ i => (tinyZ_tendsto inv_tendsto i).1, fun k _ i => (tinyZ_tendsto inv_tendsto i).2⟩
    (tiny_licq (fun a => hasDerivAt_id a) one_ne_zero)

/-- The set of all multipliers of the solution of the problem with the constraint `u² + u ≤ 0` is bounded. -/
example : ∃ M, ∀ c, SameProblem tinyP (tinyCosts [] [paraCon]) c → KKT tinyP c (tinyZ 0) → MultipliersLE tinyP c M :=
  (C98_exact (c1 := paraStar) (para_smooth (tinyZ 0)) ⟨fun _ _ => rfl, fun _ _ => rfl⟩ ⟨tiny_cases rfl rfl, tiny_cases rfl rfl, tiny_cases rfl rfl⟩ para_kkt).mpr
    (C98_licq (tiny_licq para_deriv (by norm_num)))

/-- Convex problems: `u = -1/2` satisfies `u² + u ≤ 0` strictly, so every trajectory meets the Mangasarian-Fromovitz qualification. -/
example (a : ℝ) : MFCQ tinyP (tinyCosts [] [paraCon]) (tinyZ a) :=
  C98_strict (z0 := tinyZ (-1 / 2)) (para_smooth (tinyZ 0)) para_convex
    ⟨tinyZ_alt _ _, tiny_cases (fun v hv => absurd hv List.not_mem_nil) (fun v hv => absurd hv List.not_mem_nil),
      tiny_cases (fun v hv i => by
        obtain rfl := List.mem_singleton.mp hv
        show (-1 / 2 : ℝ) ^ 2 + -1 / 2 < 0
        norm_num) (fun v hv => absurd hv List.not_mem_nil)⟩
    ⟨(tinyZ_dyn a).1, (tinyZ_dyn a).2⟩ ⟨fun _ _ => rfl, fun _ _ => rfl⟩
    (tiny_cases (fun v hv => absurd hv List.not_mem_nil) (fun v hv => absurd hv List.not_mem_nil))
    fun cs' hs hz _ => ⟨tiny_cases (by
        rw [List.map_eq_nil_iff.mp (hs.eqCons 0 (Nat.zero_le _))]; exact fun v hv => absurd hv List.not_mem_nil) (by
        rw [List.map_eq_nil_iff.mp (hs.eqCons 1 le_rfl)]; exact fun v hv => absurd hv List.not_mem_nil), hz⟩

/-- The qualification is needed: with the constraint `u² = 0` it fails at the only feasible trajectory, and there are approximate
Karush-Kuhn-Tucker points with vanishing errors that converge to it, but whose multipliers are unbounded. -/
theorem C98_qualification_needed : SmoothProblem tinyP (tinyCosts [tinyCon (fun a => a ^ 2) fun a => 2 * a] []) (tinyZ 0) 1 ∧
    ¬Qualified tinyP (tinyCosts [tinyCon (fun a => a ^ 2) fun a => 2 * a] []) (tinyZ 0) ∧
    TrajConverges tinyP (fun l : ℕ => tinyZ (1 / ((l : ℝ) + 1))) (tinyZ 0) ∧
    ∃ lam : ℕ → ℝ, (∀ l, NearKKT tinyP (tinyEq (lam l)) (tinyZ (1 / ((l : ℝ) + 1))) 0 ((1 / ((l : ℝ) + 1)) ^ 2) 0) ∧
      ¬∃ M, ∀ l, MultipliersLE tinyP (tinyEq (lam l)) M := by
  obtain ⟨h1, ⟨lam, h2⟩, h3⟩ := C92_bound_needed
  refine ⟨h1, fun hQ => ?_, ⟨fun k _ i => (tinyZ_tendsto inv_tendsto i).1, fun k _ i => (tinyZ_tendsto inv_tendsto i).2⟩, lam, fun l => (h2 l).2, ?_⟩
  · have hno := hQ (tinyEq 1) ⟨tiny_cases rfl rfl, tiny_cases rfl rfl, tiny_cases rfl rfl⟩
      (tiny_cases (fun v hv => absurd hv List.not_mem_nil) (fun v hv => absurd hv List.not_mem_nil))
      (tiny_cases (fun v hv => absurd hv List.not_mem_nil) (fun v hv => absurd hv List.not_mem_nil)) fun v hv => by
        refine (tiny_weighted_deriv sq_deriv (cs := tinyEq 1) (θ := 1) (fun x u => ?_) (fun x u => ?_) 0 v).congr_deriv (by simp)
        · show (∑ _i : Fin 1, 1 * (u 0) ^ 2) + 0 + 0 = _
          simp
        · show (0 : ℝ) + 0 = 0
          simp
    have : (1 : ℝ) = 0 := hno.eq 0 (Nat.zero_le _) _ (List.mem_singleton.mpr rfl) (0 : Fin 1)
    exact one_ne_zero this
  · rintro ⟨M, hM⟩
    have hsq : Tendsto (fun l : ℕ => (1 / ((l : ℝ) + 1)) ^ 2) atTop (𝓝 0) := by simpa using inv_tendsto.pow 2
    obtain ⟨σ, cs', Z, hσ, a1, a2, a3, a4⟩ := C92_accumulation (R := 1) (Zs := fun l => tinyZ (1 / ((l : ℝ) + 1))) (ε := fun _ => 0)
      (ν := fun l => (1 / ((l : ℝ) + 1)) ^ 2) (δ := fun _ => 0) h1 (fun l => (h2 l).1) (fun l => ⟨fun _ _ => rfl, fun _ _ => rfl⟩) (fun l => (h2 l).2)
      tendsto_const_nhds hsq tendsto_const_nhds (fun l k hk i => by
        obtain rfl : k = 0 := by have : k < 1 := hk; omega
        show |1 / ((l : ℝ) + 1)| ≤ 1
        rw [abs_of_pos (inv_range l).1]
        exact (inv_range l).2) hM
    have hc : ConvergesTo tinyP (fun l => tinyEq (lam (σ l))) (fun l => tinyZ (1 / ((σ l : ℝ) + 1))) cs' (tinyZ 0) :=
      ⟨fun k _ i => (tinyZ_tendsto (inv_tendsto.comp hσ.tendsto_atTop) i).1, fun k _ i => (tinyZ_tendsto (inv_tendsto.comp hσ.tendsto_atTop) i).2, a3.eq, a3.ineq⟩
    exact h3 cs' a1 (C92_limit (Zs := fun l => tinyZ (1 / ((σ l : ℝ) + 1))) (ε := fun _ => 0) (ν := fun l => (1 / ((σ l : ℝ) + 1)) ^ 2) (δ := fun _ => 0) h1 (fun l => (h2 (σ l)).1) (fun l => ⟨fun _ _ => rfl, fun _ _ => rfl⟩) (fun l => (h2 (σ l)).2) tendsto_const_nhds
      (hsq.comp hσ.tendsto_atTop) tendsto_const_nhds a1 ⟨fun _ _ => rfl, fun _ _ => rfl⟩ hc)

end Altro.Props
