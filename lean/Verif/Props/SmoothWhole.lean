import Verif.Proofs.SmoothAL
import Verif.Props.SmoothExamples

/-!
# C88: the whole solver on smooth nonlinear problems ends in an approximate Karush-Kuhn-Tucker point
-/

namespace Altro.Props
open Altro.Spec Matrix ILQR AL
variable {n m : ℕ} {p : DynProblem n m ℝ} {cs : ℕ → ALCost n m ℝ} {Y : Traj (Fin n → ℝ) (Fin m → ℝ) ℝ} {μ φ : ℝ}

/-- Without errors the notion is that of C81. -/
theorem C88_exact (Z : Traj (Fin n → ℝ) (Fin m → ℝ) ℝ) : NearKKT p cs Z 0 0 0 ↔ KKT p cs Z := by
  constructor
  · intro h
    refine ⟨h.init, h.step, ⟨fun k hk v hv i => abs_nonpos_iff.mp (h.eq k hk v hv i), h.ineq⟩, fun v hv => ?_, h.dual, fun k hk v hv i => ?_⟩
    · obtain ⟨d, h1, h2⟩ := h.stationary v hv
      have : d = 0 := by
        rw [zero_pow two_ne_zero, zero_mul] at h2
        exact pow_eq_zero_iff two_ne_zero |>.mp (le_antisymm h2 (sq_nonneg d))
      rw [this] at h1; exact h1
    · rcases h.slack k hk v hv i with h1 | h1
      · rw [h1, zero_mul]
      · rw [le_antisymm (h.ineq k hk v hv i) (by linarith), mul_zero]
  · intro h
    refine ⟨h.init, h.step, fun k hk v hv i => (abs_eq_zero.mpr (h.primal.eq k hk v hv i)).le, h.primal.ineq,
      fun v hv => ⟨0, h.stationary v hv, by simp⟩, h.dual, fun k hk v hv i => ?_⟩
    rcases mul_eq_zero.mp (h.slack k hk v hv i) with h1 | h1
    · exact .inl h1
    · exact .inr (by rw [h1, neg_zero])

/-- Larger errors are weaker. -/
theorem C88_mono {Z : Traj (Fin n → ℝ) (Fin m → ℝ) ℝ} {ε ν δ ε' ν' δ' : ℝ} (h : NearKKT p cs Z ε ν δ) (h0 : 0 ≤ ε) (h1 : ε ≤ ε') (h2 : ν ≤ ν')
    (h3 : δ ≤ δ') : NearKKT p cs Z ε' ν' δ' := by
  refine ⟨h.init, h.step, fun k hk v hv i => (h.eq k hk v hv i).trans h2, fun k hk v hv i => (h.ineq k hk v hv i).trans h2, fun v hv => ?_, h.dual,
    fun k hk v hv i => (h.slack k hk v hv i).imp_right fun h' => by linarith⟩
  obtain ⟨d, h4, h5⟩ := h.stationary v hv
  exact ⟨d, h4, h5.trans (mul_le_mul_of_nonneg_right (pow_le_pow_left₀ h0 h1 2) (Finset.sum_nonneg fun k _ => nsq_nonneg (v k)))⟩

theorem near_init {o : Opts ℝ} (hr : o.resetDuals = true) (hpos : 0 < o.initialPenalty)
    {s : ALSt (Fin n → ℝ) (Fin m → ℝ) ℝ (ALCost n m ℝ) (KP n m ℝ)} (hs : s.st.cs = cs) :
    Near p cs o.initialPenalty 0 (AL.init (alKernel p) alOps o s).st.cs := by
  have h := C14_alcost_reset p o hr hpos s
  refine ⟨fun k hk => by rw [init_static p o s k hk, hs], fun k hk => ⟨fun v hv => ((h k hk).1 v hv).2.1, fun v hv => ((h k hk).2 v hv).2.1⟩,
    fun k hk v hv i => ?_, fun k hk v hv i => ?_⟩
  · rw [((h k hk).1 v hv).1]; simp
  · rw [((h k hk).2 v hv).1]; simp

theorem NearSolved.limits {o : Opts ℝ} {ρ ε : ℝ} {s : ALSt (Fin n → ℝ) (Fin m → ℝ) ℝ (ALCost n m ℝ) (KP n m ℝ)} {prev : ℕ → ALCost n m ℝ}
    (h : NearSolved p (unlimited o) cs ρ ε s prev) : NearSolved p o cs ρ ε s prev :=
  ⟨h.cost, h.eqCons, h.ineqCons, h.eqPen, h.ineqPen, h.update, h.kkt, h.status⟩

theorem solve_trace (h : SmoothProblem p cs Y μ) (hμ : 0 < μ) (hN : p.N ≠ 0) (hφ : 0 < φ) (hs : ∀ k ≤ p.N, ScaleU (cs k) φ) {ρ R : ℝ}
    (hρ : 0 < ρ) (hR : 0 ≤ R) (J : ℕ) :
    ∃ W : ℝ, ∀ ε, 0 < ε → ∃ rb γ0 : ℝ, 0 < rb ∧ 0 < γ0 ∧ ∀ γ, 0 < γ → ∃ β : ℝ, 0 < β ∧ ∀ d, 0 < d → ∃ T : ℕ, ∀ (o : Opts ℝ) (fuel : ℕ)
      (s : ALSt (Fin n → ℝ) (Fin m → ℝ) ℝ (ALCost n m ℝ) (KP n m ℝ)),
      StepOptions (unlimited o) rb β →
      (o.checkBounds = true → Clears p W o.stateMax o.controlMax) → o.regMin * o.regFactor ≤ rb → γ ≤ o.gradTol → o.gradTol ≤ γ0 → d ≤ unitDecrease o μ → (T : ℤ) < o.maxInner →
      1 ≤ o.maxOuter → o.maxOuter ≤ J → o.maxOuter * T < o.maxTotal → o.resetDuals = true → o.initialPenalty = ρ →
      s.st.cs = cs → SameTimes (alKernel p) s.st.Z Y → (∀ k < p.N, ∀ i, |s.st.Z.u k i| ≤ R) →
      ∃ s' j prev, AL.solve (alKernel p) alOps o (ILQR.solve (alKernel p) o (fuel + 1)) s = some s' ∧ s'.st.stats.outer = j + 1 ∧
        (s'.st.stats.total : ℤ) ≤ o.maxOuter * T ∧ NearSolved p o cs (ρ * φ ^ j) ε s' prev ∧
        OuterTrace p cs Y φ ε W (unlimited o) (fuel + 1) s' j ρ (AL.init (alKernel p) alOps o s) ∧ j < o.maxOuter.toNat ∧
        ∀ good, OuterStays (alKernel p) alOps o (fuel + 1) good o.maxOuter.toNat (AL.init (alKernel p) alOps o s) →
          OuterStays (alKernel p) alOps (unlimited o) (fuel + 1) good o.maxOuter.toNat (AL.init (alKernel p) alOps o s) := by
  obtain ⟨W, H⟩ := outer_loop h hμ hN hφ hs J ρ 0 R hρ le_rfl
  refine ⟨W, fun ε hε => ?_⟩
  obtain ⟨rb, γ0, h1, h2, H⟩ := H ε hε
  refine ⟨rb, γ0, h1, h2, fun γ hγ => ?_⟩
  obtain ⟨β, h3, H⟩ := H γ hγ
  refine ⟨β, h3, fun d hd => ?_⟩
  obtain ⟨T, H⟩ := H d hd
  refine ⟨T, fun o fuel s ho hw hr g1 g0 hdo hi o1 oJ htot hrd hpen hc hY hu => ?_⟩
  subst hpen
  obtain ⟨i1, i2, i3, i4⟩ := AL.init_facts (alKernel p) alOps o s
  obtain ⟨r, hr'⟩ := Int.eq_ofNat_of_zero_le (show 0 ≤ o.maxOuter by omega)
  obtain ⟨w, s', j, prev, c1, c2, c3, c4, c5, c6⟩ := H (unlimited o) fuel ho hr g1 g0 hdo hi r (AL.init (alKernel p) alOps o s) (by omega) (by omega)
    (by rw [i1]; show _ = o.maxOuter; push_cast; omega) (by rw [i2]; show _ < o.maxTotal; push_cast; rw [hr'] at htot; omega) (near_init hrd hρ hc) (by rw [i4]; exact hY) aligned_init
    (by
      rw [i4]
      intro k i
      unfold ctl
      split
      · rename_i hk; exact hu k hk i
      · simpa using hR)
  refine ⟨s', j, prev, ?_, by rw [c3, i1]; omega, ?_, NearSolved.limits c5, c6, by rw [hr']; exact c2, fun good hg => ?_⟩
  · unfold AL.solve
    rw [hr', Int.toNat_natCast]
    exact (outer_either r fun hb => w _ _ (hw hb)).trans c1
  · rw [i2, zero_add] at c4
    rw [hr']
    exact_mod_cast c4
  · rw [hr'] at hg ⊢
    exact stays_either r (fun hb => w _ _ (hw hb)) hg

/-- The whole solver on a smooth problem.  For every initial penalty `ρ`, number of outer iterations `J` and size `R` of the
initial controls there is a bound `W` on states and controls, and for every accuracy `ε` there are bounds on the options such that (if limits on
states and controls are tested, these leave room for `W`) every solve within them returns, with `kSolved`, `kMaxPenalty` or
`kMaxOuterIterations`, and the trajectory with the final multipliers is an approximate Karush-Kuhn-Tucker point. -/
theorem C88_near_kkt (h : SmoothProblem p cs Y μ) (hμ : 0 < μ) (hN : p.N ≠ 0) (hφ : 0 < φ) (hs : ∀ k ≤ p.N, ScaleU (cs k) φ) {ρ R : ℝ}
    (hρ : 0 < ρ) (hR : 0 ≤ R) (J : ℕ) :
    ∃ W : ℝ, ∀ ε, 0 < ε → ∃ rb γ0 : ℝ, 0 < rb ∧ 0 < γ0 ∧ ∀ γ, 0 < γ → ∃ β : ℝ, 0 < β ∧ ∀ d, 0 < d → ∃ T : ℕ, ∀ (o : Opts ℝ) (fuel : ℕ)
      (s : ALSt (Fin n → ℝ) (Fin m → ℝ) ℝ (ALCost n m ℝ) (KP n m ℝ)),
      StepOptions (unlimited o) rb β →
      (o.checkBounds = true → Clears p W o.stateMax o.controlMax) → o.regMin * o.regFactor ≤ rb → γ ≤ o.gradTol → o.gradTol ≤ γ0 → d ≤ unitDecrease o μ → (T : ℤ) < o.maxInner →
      1 ≤ o.maxOuter → o.maxOuter ≤ J → o.maxOuter * T < o.maxTotal → o.resetDuals = true → o.initialPenalty = ρ →
      s.st.cs = cs → SameTimes (alKernel p) s.st.Z Y → (∀ k < p.N, ∀ i, |s.st.Z.u k i| ≤ R) →
      ∃ s' j prev, AL.solve (alKernel p) alOps o (ILQR.solve (alKernel p) o (fuel + 1)) s = some s' ∧ s'.st.stats.outer = j + 1 ∧
        (s'.st.stats.total : ℤ) ≤ o.maxOuter * T ∧ NearSolved p o cs (ρ * φ ^ j) ε s' prev := by
  obtain ⟨W, H⟩ := solve_trace h hμ hN hφ hs hρ hR J
  refine ⟨W, fun ε hε => ?_⟩
  obtain ⟨rb, γ0, h1, h2, H⟩ := H ε hε
  refine ⟨rb, γ0, h1, h2, fun γ hγ => ?_⟩
  obtain ⟨β, h3, H⟩ := H γ hγ
  refine ⟨β, h3, fun d hd => ?_⟩
  obtain ⟨T, H⟩ := H d hd
  refine ⟨T, fun o fuel s ho hw hr g1 g0 hdo hi o1 oJ htot hrd hpen hc hY hu => ?_⟩
  obtain ⟨s', j, prev, c1, c2, c3, c4, -⟩ := H o fuel s ho hw hr g1 g0 hdo hi o1 oJ htot hrd hpen hc hY hu
  exact ⟨s', j, prev, c1, c2, c3, c4⟩

/-- When the status is `kSolved`, the violation is within the tolerance. -/
theorem C88_solved {o : Opts ℝ} {ρ ε : ℝ} {s : ALSt (Fin n → ℝ) (Fin m → ℝ) ℝ (ALCost n m ℝ) (KP n m ℝ)} {prev : ℕ → ALCost n m ℝ}
    (h : NearSolved p o cs ρ ε s prev) (hε : 0 ≤ ε) (hst : s.status = .kSolved) {Λ : ℝ} (hΛ : ∀ k ≤ p.N, ∀ v ∈ (prev k).ineq, ∀ i, |v.lam i| ≤ Λ) :
    NearKKT p s.st.cs s.st.Z ε (o.conTol + ε) (Λ / ρ + ε) := by
  refine C88_mono (h.kkt Λ hΛ) hε le_rfl ?_ le_rfl
  rcases h.status with ⟨_, h1⟩ | ⟨_, ⟨h1, _⟩ | ⟨h1, _⟩⟩
  · linarith
  · rw [h1] at hst; cases hst
  · rw [h1] at hst; cases hst

/-- Such options exist: from every start, other options given, the solver returns with every accuracy. -/
theorem C88_solves (hμ : 0 < μ) (hN : p.N ≠ 0) (hφ : 0 < φ) (d : Opts ℝ) {ε : ℝ} (hε : 0 < ε)
    (s : ALSt (Fin n → ℝ) (Fin m → ℝ) ℝ (ALCost n m ℝ) (KP n m ℝ)) (h : SmoothProblem p s.st.cs s.st.Z μ) (hs : ∀ k ≤ p.N, ScaleU (s.st.cs k) φ)
    (d1 : 0 ≤ d.regMax) (d2 : 1 ≤ d.regFactor) (d3 : 0 < d.lsLower) (d4 : d.lsLower ≤ 1 / 4) (d5 : 3 ≤ d.lsUpper) (d6 : 1 < d.lsFactor)
    (d7 : 0 < d.costTol) (d8 : d.resetDuals = true) (d9 : 0 < d.initialPenalty) (d10 : 1 ≤ d.maxOuter) :
    ∃ (γ r W : ℝ) (i j k : ℤ), 0 < γ ∧ 0 < r ∧ ∀ a b, (d.checkBounds = true → Clears p W a b) → ∀ fuel, ∃ s' l prev,
      AL.solve (alKernel p) alOps
        { d with gradTol := γ, regInitial := 0, regMin := r, lsMax := i, maxInner := j, maxTotal := k, stateMax := a, controlMax := b }
        (ILQR.solve (alKernel p)
          { d with gradTol := γ, regInitial := 0, regMin := r, lsMax := i, maxInner := j, maxTotal := k, stateMax := a, controlMax := b } (fuel + 1)) s
        = some s' ∧ s'.st.stats.outer = l + 1 ∧ NearSolved p
        { d with gradTol := γ, regInitial := 0, regMin := r, lsMax := i, maxInner := j, maxTotal := k, stateMax := a, controlMax := b }
        s.st.cs (d.initialPenalty * φ ^ l) ε s' prev := by
  obtain ⟨J, hJ⟩ := Int.eq_ofNat_of_zero_le (show 0 ≤ d.maxOuter by omega)
  let R := ∑ k ∈ Finset.range p.N, ∑ i, |s.st.Z.u k i|
  have hR : 0 ≤ R := Finset.sum_nonneg fun k _ => Finset.sum_nonneg fun i _ => abs_nonneg _
  have hu : ∀ k < p.N, ∀ i, |s.st.Z.u k i| ≤ R := fun k hk i =>
    (Finset.single_le_sum (f := fun i => |s.st.Z.u k i|) (fun i _ => abs_nonneg _) (Finset.mem_univ i)).trans
      (Finset.single_le_sum (f := fun k => ∑ i, |s.st.Z.u k i|) (fun k _ => Finset.sum_nonneg fun i _ => abs_nonneg _) (Finset.mem_range.mpr hk))
  obtain ⟨W, h3⟩ := C88_near_kkt h hμ hN hφ hs d9 hR J
  obtain ⟨rb, γ0, h1, h2, h3⟩ := h3 ε hε
  obtain ⟨β, h4, h5⟩ := h3 γ0 h2
  obtain ⟨i, hi⟩ := stepLength_small d6 h4
  have hf : 0 < d.regFactor := lt_of_lt_of_le one_pos d2
  have hr : 0 < rb / d.regFactor := by positivity
  let o : Opts ℝ := { d with gradTol := γ0, regInitial := 0, regMin := rb / d.regFactor, lsMax := (i + 1 : ℕ) }
  have hS : ∀ j k a b, StepOptions (unlimited { o with maxInner := j, maxTotal := k, stateMax := a, controlMax := b }) rb β := fun j k a b =>
    ⟨le_rfl, h1.le, hr.le, div_le_self h1.le d2, d1, d2, rfl, d3, d4, d5, d6.le,
      ⟨i, by show (i : ℤ) < ((i + 1 : ℕ) : ℤ); omega, ((hi i).2 le_rfl).le⟩, d7, h2⟩
  obtain ⟨T, hT⟩ := h5 _ (unitDecrease_pos (hS 0 0 0 0) hμ)
  refine ⟨γ0, rb / d.regFactor, W, (i + 1 : ℕ), T + 1, d.maxOuter * T + 1, h2, hr, fun a b hw fuel => ?_⟩
  obtain ⟨s', l, prev, c1, c2, -, c4⟩ := hT { o with maxInner := T + 1, maxTotal := d.maxOuter * T + 1, stateMax := a, controlMax := b } fuel s (hS _ _ _ _) hw
    (by show rb / d.regFactor * d.regFactor ≤ rb; rw [div_mul_cancel₀ _ hf.ne']) le_rfl le_rfl le_rfl (by show (T : ℤ) < T + 1; omega)
    d10 hJ.le (by show d.maxOuter * T < d.maxOuter * T + 1; omega) d8 rfl rfl ⟨fun _ _ => rfl, fun _ _ => rfl⟩ hu
  exact ⟨s', l, prev, c1, c2, c4⟩

/-! ## The unicycle example -/

theorem uniCosts_scale (f : UniFields) (add : Bool) (k : ℕ) : ScaleU (uniCosts f add k) 10 := by
  constructor <;>
  · intro v hv
    obtain ⟨c, -, rfl⟩ := List.mem_map.mp hv
    rfl

/-- The unicycle problem (goal and control bounds, or obstacles) as it comes, in both scenarios, with the default options except for those that
are tuned: one call of `Solve` ends in an approximate Karush-Kuhn-Tucker point. -/
theorem C88_unicycle (c : Scenario) (normX : (Fin 3 → ℝ) → ℝ) (normU : (Fin 2 → ℝ) → ℝ) {ε : ℝ} (hε : 0 < ε) :
    ∃ (γ r W : ℝ) (i j k : ℤ), 0 < γ ∧ 0 < r ∧ ∀ a b,
      Clears (uniProblem ((uniDefault.setScenario c).configure fun t N => t / N) normX normU) W a b → ∀ fuel, ∃ s' l prev,
      AL.solve (alKernel (uniProblem ((uniDefault.setScenario c).configure fun t N => t / N) normX normU)) alOps
        { Opts.default (fun q : ℚ => (q : ℝ)) with
          gradTol := γ, regInitial := 0, regMin := r, lsMax := i, maxInner := j, maxTotal := k, stateMax := a, controlMax := b }
        (ILQR.solve (alKernel (uniProblem ((uniDefault.setScenario c).configure fun t N => t / N) normX normU))
          { Opts.default (fun q : ℚ => (q : ℝ)) with
            gradTol := γ, regInitial := 0, regMin := r, lsMax := i, maxInner := j, maxTotal := k, stateMax := a, controlMax := b } (fuel + 1))
        ⟨uniStart ((uniDefault.setScenario c).configure fun t N => t / N) true, .kUnsolved⟩ = some s' ∧ s'.st.stats.outer = l + 1 ∧
        NearSolved (uniProblem ((uniDefault.setScenario c).configure fun t N => t / N) normX normU)
          { Opts.default (fun q : ℚ => (q : ℝ)) with
            gradTol := γ, regInitial := 0, regMin := r, lsMax := i, maxInner := j, maxTotal := k, stateMax := a, controlMax := b }
          (uniCosts ((uniDefault.setScenario c).configure fun t N => t / N) true) (10 ^ l) ε s' prev := by
  have hd : (Opts.default fun q : ℚ => (q : ℝ)).initialPenalty = 1 := by simp only [Opts.default]; norm_num
  have key := C88_solves (p := uniProblem ((uniDefault.setScenario c).configure fun t N => t / N) normX normU) (μ := 1e-2 * (3 / 100)) (φ := 10)
    (by norm_num) (by show ((uniDefault.setScenario c).configure _).N ≠ 0; rw [(configure_facts _ _).1]; show (100 : ℕ) ≠ 0; norm_num) (by norm_num)
    (Opts.default fun q : ℚ => (q : ℝ)) hε ⟨uniStart ((uniDefault.setScenario c).configure fun t N => t / N) true, .kUnsolved⟩
    (uni_smooth _ (by norm_num) (uniDefault_weights c) true normX normU _ (fun k _ => rfl) (fun k _ => uniCosts_pen _ _ k) _)
    (fun k _ => uniCosts_scale _ _ k)
  obtain ⟨γ, r, W, i, j, k, h1, h2, h3⟩ := key (by simp only [Opts.default]; norm_num) (by simp only [Opts.default]; norm_num)
    (by simp only [Opts.default]; norm_num) (by simp only [Opts.default]; norm_num) (by simp only [Opts.default]; norm_num)
    (by simp only [Opts.default]; norm_num) (by simp only [Opts.default]; norm_num) rfl (by rw [hd]; exact one_pos)
    (by simp only [Opts.default]; norm_num)
  refine ⟨γ, r, W, i, j, k, h1, h2, fun a b hw fuel => ?_⟩
  obtain ⟨s', l, prev, c1, c2, c3⟩ := h3 a b (fun _ => hw) fuel
  have e : (Opts.default fun q : ℚ => (q : ℝ)).initialPenalty * 10 ^ l = 10 ^ l := by rw [hd, one_mul]
  exact ⟨s', l, prev, c1, c2, e ▸ c3⟩

end Altro.Props
