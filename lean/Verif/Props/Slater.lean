import Verif.Proofs.Solution
import Verif.Props.ConvexWhole

/-!
# C96: the whole solver solves every smooth convex problem that has a strictly feasible trajectory
-/

namespace Altro.Props
open Altro.Spec Matrix ILQR AL
variable {n m : ℕ} {p : DynProblem n m ℝ} {cs : ℕ → ALCost n m ℝ} {Y zs z0 : Traj (Fin n → ℝ) (Fin m → ℝ) ℝ} {star : List ℝ} {μ φ θ : ℝ}

/-- A smooth problem with a feasible trajectory has a solution. -/
theorem C96_solution (h : SmoothProblem p cs Y μ) (h0 : Alternative p Y z0) (s0 : Satisfies p cs z0) : ∃ zs, Solution p cs Y zs :=
  solution_exists h h0 s0

/-- In a convex problem with a strictly feasible trajectory, every solution has multipliers. -/
theorem C96_multipliers (hc : ConvexProblem p cs) (h0 : Strict p cs Y z0) (hs : Solution p cs Y zs) :
    ∃ star, Saddle (Alternative p Y) (objective p cs) (rows p cs) zs star :=
  saddle_of_strict hc hs h0

/-- What has multipliers is a solution. -/
theorem C96_saddle_solution (hs : Saddle (Alternative p Y) (objective p cs) (rows p cs) zs star) : Solution p cs Y zs :=
  solution_of_saddle hs

/-- Without equality constraints, multipliers are bounded by the objective of any trajectory with margin `σ`. -/
theorem C96_bound {σ : ℝ} (hσ : 0 < σ) (h0 : Margin p cs Y z0 σ) (hs : Saddle (Alternative p Y) (objective p cs) (rows p cs) zs star) :
    (star.map (|·|)).sum ≤ (objective p cs z0 - objective p cs zs) / σ := by
  refine saddle_bound hs h0.alt hσ fun r hr => ?_
  obtain ⟨k, hk, ⟨v, hv, i, rfl⟩ | ⟨v, hv, i, rfl⟩⟩ := (mem_rows p cs r).mp hr
  · rw [h0.eq k hk] at hv
    exact absurd hv List.not_mem_nil
  · exact ⟨rfl, h0.ineq k hk v hv i⟩

theorem sum_sq_le_sq_sum : ∀ l : List ℝ, (l.map (· ^ 2)).sum ≤ (l.map (|·|)).sum ^ 2
  | [] => by simp
  | a :: l => by
    have ih := sum_sq_le_sq_sum l
    have h0 : 0 ≤ (l.map (|·|)).sum := normOne_nonneg l
    simp only [List.map_cons, List.sum_cons]
    have := sq_abs a
    have := mul_nonneg (abs_nonneg a) h0
    nlinarith

/-- Solutions of a strictly convex problem have the same controls. -/
theorem C96_unique (hc : ConvexProblem p cs) (hm : ∀ Z, StrongFrom p cs Z θ) (hθ : 0 < θ) {zs' : Traj (Fin n → ℝ) (Fin m → ℝ) ℝ}
    (h1 : Solution p cs Y zs) (h2 : Solution p cs Y zs') : ∀ k < p.N, zs.u k = zs'.u k := by
  have hC := hc.convex Y
  set mid := segTraj (1 / 2 : ℝ) zs zs' with hmid
  have ha : Alternative p Y mid := hC.mem zs zs' (1 / 2) h1.alt h2.alt (by norm_num) (by norm_num)
  have hsat : Satisfies p cs mid := by
    refine rows_holds.mp fun r hr => ?_
    have k1 := rows_holds.mpr h1.sat r hr
    have k2 := rows_holds.mpr h2.sat r hr
    unfold Row.Holds at *
    cases hk : r.kind
    · rw [hk] at k1 k2
      have k1 : r.fn zs = 0 := k1
      have k2 : r.fn zs' = 0 := k2
      have := hC.eq r hr hk zs zs' (1 / 2) h1.alt h2.alt (by norm_num) (by norm_num)
      rw [k1, k2, mul_zero, mul_zero, add_zero] at this
      exact this
    · rw [hk] at k1 k2
      have k1 : r.fn zs ≤ 0 := k1
      have k2 : r.fn zs' ≤ 0 := k2
      have := hC.ineq r hr hk zs zs' (1 / 2) h1.alt h2.alt (by norm_num) (by norm_num)
      show r.fn mid ≤ 0
      linarith
  have b1 := h1.best mid ha hsat
  have b2 := h2.best mid ha hsat
  have hx : ∀ k, mid.x k = zs.x k + (1 / 2 : ℝ) • (zs'.x k - zs.x k) := fun _ => rfl
  have hu : ∀ k, mid.u k = zs.u k + (1 / 2 : ℝ) • (zs'.u k - zs.u k) := fun _ => rfl
  -- every knot point
  have key : ∀ k ∈ Finset.range (p.N + 1), 2 * (cs k).cost.eval (mid.x k) (mid.u k)
      + (if k < p.N then θ / 4 * ((zs'.u k - zs.u k) ⬝ᵥ (zs'.u k - zs.u k)) else 0)
      ≤ (cs k).cost.eval (zs.x k) (zs.u k) + (cs k).cost.eval (zs'.x k) (zs'.u k) := by
    intro k hk
    have hk : k ≤ p.N := by have := Finset.mem_range.mp hk; omega
    by_cases hkN : k < p.N
    · rw [if_pos hkN]
      have m1 := hm mid k hkN ((1 / 2 : ℝ) • (zs'.x k - zs.x k)) ((1 / 2 : ℝ) • (zs'.u k - zs.u k))
      have m2 := hm mid k hkN (-((1 / 2 : ℝ) • (zs'.x k - zs.x k))) (-((1 / 2 : ℝ) • (zs'.u k - zs.u k)))
      rw [show mid.x k + (1 / 2 : ℝ) • (zs'.x k - zs.x k) = zs'.x k by rw [hx]; module,
        show mid.u k + (1 / 2 : ℝ) • (zs'.u k - zs.u k) = zs'.u k by rw [hu]; module] at m1
      rw [show mid.x k + -((1 / 2 : ℝ) • (zs'.x k - zs.x k)) = zs.x k by rw [hx]; module,
        show mid.u k + -((1 / 2 : ℝ) • (zs'.u k - zs.u k)) = zs.u k by rw [hu]; module] at m2
      simp only [dotProduct_neg, neg_dotProduct, neg_neg, dotProduct_smul, smul_dotProduct, smul_eq_mul] at m1 m2
      linarith
    · rw [if_neg hkN]
      have := hc.cost k hk (zs.x k) (zs'.x k) (zs.u k) (zs'.u k) (1 / 2) (by norm_num) (by norm_num)
      rw [← hx, ← hu] at this
      linarith
  have hsum := Finset.sum_le_sum key
  rw [Finset.sum_add_distrib, Finset.sum_add_distrib, ← Finset.mul_sum] at hsum
  have e : ∑ k ∈ Finset.range (p.N + 1), (if k < p.N then θ / 4 * ((zs'.u k - zs.u k) ⬝ᵥ (zs'.u k - zs.u k)) else 0) ≤ 0 := by
    have o1 : ∀ Z, objective p cs Z = ∑ k ∈ Finset.range (p.N + 1), (cs k).cost.eval (Z.x k) (Z.u k) := fun _ => rfl
    rw [← o1, ← o1, ← o1] at hsum
    linarith
  have hnn : ∀ k ∈ Finset.range (p.N + 1), 0 ≤ (if k < p.N then θ / 4 * ((zs'.u k - zs.u k) ⬝ᵥ (zs'.u k - zs.u k)) else 0) := by
    intro k _
    split
    · exact mul_nonneg (by linarith) (nsq_nonneg _)
    · exact le_rfl
  intro k hk
  have := (Finset.sum_eq_zero_iff_of_nonneg hnn).mp (le_antisymm e (Finset.sum_nonneg hnn)) k (Finset.mem_range.mpr (by omega))
  rw [if_pos hk] at this
  have := dotProduct_self_eq_zero.mp ((mul_eq_zero.mp this).resolve_left (by linarith))
  exact (sub_eq_zero.mp this).symm

theorem NearSolved.satisfies {o : Opts ℝ} {ρ ε : ℝ} {s : ALSt (Fin n → ℝ) (Fin m → ℝ) ℝ (ALCost n m ℝ) (KP n m ℝ)} {prev : ℕ → ALCost n m ℝ}
    (h : NearSolved p o cs ρ ε s prev) (hst : s.status = .kSolved) : SatisfiesUpTo p cs s.st.Z (o.conTol + ε) := by
  have hv : (alKernel p).viol s.st.cs ≤ o.conTol := by
    rcases h.status with h1 | ⟨-, ⟨h1, -⟩ | ⟨h1, -⟩⟩
    · exact h1.2.le
    · rw [hst] at h1; cases h1
    · rw [hst] at h1; cases h1
  have hK := h.kkt (((rows p prev).map fun r => |r.lam|).sum) fun k hk v hv i =>
    List.single_le_sum (l := (rows p prev).map fun r => |r.lam|) (by
      intro x hx
      obtain ⟨r, -, rfl⟩ := List.mem_map.mp hx
      exact abs_nonneg _) _ (List.mem_map.mpr ⟨_, (mem_rows p prev _).mpr ⟨k, hk, .inr ⟨v, hv, i, rfl⟩⟩, rfl⟩)
  refine SatisfiesUpTo.congr (NearSolved.same h) ⟨fun k hk v hv' i => (hK.eq k hk v hv' i).trans ?_, fun k hk v hv' i => (hK.ineq k hk v hv' i).trans ?_⟩ <;>
    linarith

/-- Every smooth convex problem with a strictly feasible trajectory can be solved to any accuracy: given all other options and the starting
point, there are tolerances, an initial penalty and limits with which the solver reports success, with a trajectory that satisfies the
constraints up to `η`, has an objective within `η` of the optimum and, with curvature `θ` in the controls, controls within `η / θ` (squared)
of those of a solution. -/
theorem C96_solves (hμ : 0 < μ) (hN : p.N ≠ 0) (hφ : 1 ≤ φ) (d : Opts ℝ) {η : ℝ} (hη : 0 < η)
    (s : ALSt (Fin n → ℝ) (Fin m → ℝ) ℝ (ALCost n m ℝ) (KP n m ℝ)) (h : SmoothProblem p s.st.cs s.st.Z μ) (hsc : ∀ k ≤ p.N, ScaleU (s.st.cs k) φ)
    (hc : ConvexProblem p s.st.cs) (hm : ∀ Z, StrongFrom p s.st.cs Z θ) (hθ : 0 ≤ θ) (h0 : Strict p s.st.cs s.st.Z z0)
    (d1 : 0 ≤ d.regMax) (d2 : 1 ≤ d.regFactor) (d3 : 0 < d.lsLower) (d4 : d.lsLower ≤ 1 / 4) (d5 : 3 ≤ d.lsUpper) (d6 : 1 < d.lsFactor)
    (d7 : 0 < d.costTol) (d8 : d.resetDuals = true) :
    ∃ zs, Solution p s.st.cs s.st.Z zs ∧ ∃ (τ ρ γ r mp W : ℝ) (i j k l : ℤ), 0 < τ ∧ 0 < ρ ∧ 0 < γ ∧ 0 < r ∧ ∀ (o : Opts ℝ) (w1 w2 : ℝ),
      (d.checkBounds = true → Clears p W w1 w2) →
      o = { d with conTol := τ, initialPenalty := ρ, gradTol := γ, regInitial := 0, regMin := r, lsMax := i, maxInner := j, maxTotal := k,
                   maxOuter := l, maxPenalty := mp, stateMax := w1, controlMax := w2 } →
      ∀ fuel, ∃ s', AL.solve (alKernel p) alOps o (ILQR.solve (alKernel p) o (fuel + 1)) s = some s' ∧ s'.status = .kSolved ∧
        Alternative p s.st.Z s'.st.Z ∧ SatisfiesUpTo p s.st.cs s'.st.Z η ∧ |objective p s.st.cs s'.st.Z - objective p s.st.cs zs| ≤ η ∧
        θ * controlDist p s'.st.Z zs ^ 2 ≤ η := by
  obtain ⟨zs, hzs⟩ := C96_solution h h0.alt ⟨h0.eq, fun k hk v hv i => (h0.ineq k hk v hv i).le⟩
  obtain ⟨star, hst⟩ := C96_multipliers hc h0 hzs
  refine ⟨zs, hzs, ?_⟩
  set Q := (star.map (· ^ 2)).sum with hQ
  set A := (star.map (|·|)).sum with hA
  have hA0 : 0 ≤ A := normOne_nonneg star
  have hQ0 : 0 ≤ Q := normSq_nonneg star
  let τ := η / (2 * (A + 1))
  let ρ := 4 * Q / η + 1
  have hτ : 0 < τ := by positivity
  have hρ : 0 < ρ := by positivity
  have hτ1 : τ ≤ η / 2 := by
    show η / (2 * (A + 1)) ≤ η / 2
    exact div_le_div_of_nonneg_left hη.le (by norm_num) (by linarith)
  have hτA : (τ + τ) * A ≤ η := by
    have : τ * (2 * (A + 1)) = η := div_mul_cancel₀ _ (by positivity)
    nlinarith
  have hQρ : 2 * Q / ρ ≤ η / 2 := by
    rw [div_le_iff₀ hρ]
    have : η / 2 * (4 * Q / η + 1) = 2 * Q + η / 2 := by field_simp; ring
    show _ ≤ η / 2 * (4 * Q / η + 1)
    linarith
  obtain ⟨γ, r, mp, W, i, j, k, l, hγ, hr, H⟩ := C94_solves hμ hN hφ { d with conTol := τ, initialPenalty := ρ } hτ s h hsc hc hm hθ hst d1 d2 d3 d4 d5 d6
    d7 d8 hρ hτ
  refine ⟨τ, ρ, γ, r, mp, W, i, j, k, l, hτ, hρ, hγ, hr, fun o w1 w2 hw ho fuel => ?_⟩
  obtain ⟨s', a, prev, c1, c2, c3, c4, c5, c6, c7⟩ := H o w1 w2 hw ho fuel
  have hpow : ρ ≤ ρ * φ ^ a := le_mul_of_one_le_right hρ.le (one_le_pow₀ hφ)
  have hdiv : ∀ x : ℝ, 0 ≤ x → x / (ρ * φ ^ a) ≤ x / ρ := fun x hx => div_le_div_of_nonneg_left hx hρ hpow
  have e1 := hdiv (2 * Q) (by positivity)
  have e2 := hdiv Q hQ0
  have e3 : Q / ρ ≤ 2 * Q / ρ := div_le_div_of_nonneg_right (by linarith) hρ.le
  have hsat := NearSolved.satisfies c3 c2
  have hco : o.conTol = τ := by rw [ho]
  rw [hco] at hsat
  change objective p s.st.cs s'.st.Z ≤ objective p s.st.cs zs + 2 * Q / (ρ * φ ^ a) + τ at c4
  change objective p s.st.cs zs ≤ objective p s.st.cs s'.st.Z + (τ + τ) * A at c5
  change θ * controlDist p s'.st.Z zs ^ 2 ≤ Q / (ρ * φ ^ a) + τ at c6
  refine ⟨s', c1, c2, c7, ⟨fun k hk v hv i => (hsat.eq k hk v hv i).trans (by linarith), fun k hk v hv i => (hsat.ineq k hk v hv i).trans (by linarith)⟩,
    abs_le.mpr ⟨by linarith, by linarith⟩, by linarith⟩

/-- How many outer iterations are enough, from the data of the problem: `b` bounds the objective of feasible trajectories from below, `z0` has margin
`σ`. -/
theorem C96_iterations (h : SmoothProblem p cs Y μ) (hμ : 0 < μ) (hN : p.N ≠ 0) (hφ : 1 ≤ φ) (hsc : ∀ k ≤ p.N, ScaleU (cs k) φ)
    (hc : ConvexProblem p cs) (hm : ∀ Z, StrongFrom p cs Z θ) (hθ : 0 ≤ θ) {σ b : ℝ} (hσ : 0 < σ) (h0 : Margin p cs Y z0 σ)
    (hb : ∀ Z, Alternative p Y Z → Satisfies p cs Z → b ≤ objective p cs Z) {η ρ τ R : ℝ} (hη : 0 < η) (hρ : 0 < ρ) (hτ : 0 ≤ τ) (hR : 0 ≤ R) (J : ℕ)
    (hJ : ((objective p cs z0 - b) / σ) ^ 2 < ∑ i ∈ Finset.range J, (ρ * φ ^ i * τ) ^ 2) :
    ∃ zs, Solution p cs Y zs ∧ ∃ W rb γ0 : ℝ, 0 < rb ∧ 0 < γ0 ∧ ∀ γ, 0 < γ → ∃ β : ℝ, 0 < β ∧ ∀ d, 0 < d → ∃ T : ℕ, ∀ (o : Opts ℝ) (fuel : ℕ)
      (s : ALSt (Fin n → ℝ) (Fin m → ℝ) ℝ (ALCost n m ℝ) (KP n m ℝ)),
      StepOptions (unlimited o) rb β →
      (o.checkBounds = true → Clears p W o.stateMax o.controlMax) → o.regMin * o.regFactor ≤ rb → γ ≤ o.gradTol → o.gradTol ≤ γ0 → d ≤ unitDecrease o μ → (T : ℤ) < o.maxInner →
      τ ≤ o.conTol → (J : ℤ) < o.maxOuter → (J : ℤ) * T < o.maxTotal → (∀ j < J, ρ * φ ^ j ≤ o.maxPenalty) →
      o.resetDuals = true → o.initialPenalty = ρ →
      s.st.cs = cs → SameTimes (alKernel p) s.st.Z Y → (∀ k < p.N, ∀ i, |s.st.Z.u k i| ≤ R) →
      ∃ s' j, AL.solve (alKernel p) alOps o (ILQR.solve (alKernel p) o (fuel + 1)) s = some s' ∧ s'.status = .kSolved ∧ j < J ∧
        s'.st.stats.outer = j + 1 ∧ s'.st.stats.total ≤ J * T ∧ SatisfiesUpTo p cs s'.st.Z (o.conTol + η) ∧
        objective p cs s'.st.Z ≤ objective p cs zs + 2 * ((objective p cs z0 - b) / σ) ^ 2 / (ρ * φ ^ j) + η ∧
        objective p cs zs ≤ objective p cs s'.st.Z + (o.conTol + η) * ((objective p cs z0 - b) / σ) ∧
        θ * controlDist p s'.st.Z zs ^ 2 ≤ ((objective p cs z0 - b) / σ) ^ 2 / (ρ * φ ^ j) + η := by
  have hstrict : Strict p cs Y z0 := ⟨h0.alt, fun k hk v hv => by rw [h0.eq k hk] at hv; exact absurd hv List.not_mem_nil,
    fun k hk v hv i => by have := h0.ineq k hk v hv i; linarith⟩
  obtain ⟨zs, hzs⟩ := C96_solution h h0.alt ⟨hstrict.eq, fun k hk v hv i => (hstrict.ineq k hk v hv i).le⟩
  obtain ⟨star, hst⟩ := C96_multipliers hc hstrict hzs
  have hA : (star.map (|·|)).sum ≤ (objective p cs z0 - b) / σ :=
    (C96_bound hσ h0 hst).trans (div_le_div_of_nonneg_right (by have := hb zs hzs.alt hzs.sat; linarith) hσ.le)
  have hA0 : 0 ≤ (star.map (|·|)).sum := normOne_nonneg star
  have hQ : (star.map (· ^ 2)).sum ≤ ((objective p cs z0 - b) / σ) ^ 2 := (sum_sq_le_sq_sum star).trans (pow_le_pow_left₀ hA0 hA 2)
  obtain ⟨W, rb, γ0, h1, h2, H⟩ := C94_solves_convex h hμ hN hφ hsc hc hm hθ hst hη hρ hτ hR J (lt_of_le_of_lt hQ hJ)
  refine ⟨zs, hzs, W, rb, γ0, h1, h2, fun γ hγ => ?_⟩
  obtain ⟨β, h3, H⟩ := H γ hγ
  refine ⟨β, h3, fun d hd => ?_⟩
  obtain ⟨T, H⟩ := H d hd
  refine ⟨T, fun o fuel s ho hw hr g1 g0 hdo hi hct oJ htot hmp hrd hpen hcs hY hu => ?_⟩
  obtain ⟨s', j, prev, c1, c2, c3, c4, c5, c6, c7, c8, c9, -⟩ := H o fuel s ho hw hr g1 g0 hdo hi hct oJ htot hmp hrd hpen hcs hY hu
  have hden : 0 < ρ * φ ^ j := mul_pos hρ (pow_pos (by linarith) _)
  refine ⟨s', j, c1, c2, c3, c4, c5, NearSolved.satisfies c6 c2, ?_, ?_, ?_⟩
  · have := div_le_div_of_nonneg_right (mul_le_mul_of_nonneg_left hQ (show (0:ℝ) ≤ 2 by norm_num)) hden.le
    linarith
  · have := mul_le_mul_of_nonneg_left hA (show 0 ≤ o.conTol + η by linarith)
    linarith
  · have := div_le_div_of_nonneg_right hQ hden.le
    linarith

end Altro.Props
