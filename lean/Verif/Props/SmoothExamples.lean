import Verif.Proofs.SmoothModels
import Verif.Model.Options

/-!
# C86 for the unicycle problem of the examples
-/

namespace Altro.Props
open Altro.Spec Matrix ILQR Prob
variable {n m : ℕ}

/-! ## Costs with the same constraints -/

theorem static_mem_eq {c c' : ALCost n m ℝ} (h : c.static = c'.static) : c.cost = c'.cost ∧
    (∀ v ∈ c.eq, ∃ v' ∈ c'.eq, v'.con = v.con) ∧
    ∀ v ∈ c.ineq, ∃ v' ∈ c'.ineq, v'.con = v.con ∧
      ((∀ i j, i ≠ j → v'.projJac i j = 0) → ∀ i j, i ≠ j → v.projJac i j = 0) := by
  refine ⟨show c.static.cost = c'.static.cost by rw [h], fun v hv => ?_, fun v hv => ?_⟩
  · have h1 : c.eq.map (·.static) = c'.eq.map (·.static) := congrArg ALCost.eq h
    have h2 : v.static ∈ c'.eq.map (·.static) := by rw [← h1]; exact List.mem_map.mpr ⟨v, hv, rfl⟩
    obtain ⟨v', h3, h4⟩ := List.mem_map.mp h2
    exact ⟨v', h3, show v'.static.con = v.static.con by rw [h4]⟩
  · have h1 : c.ineq.map (·.static) = c'.ineq.map (·.static) := congrArg ALCost.ineq h
    have h2 : v.static ∈ c'.ineq.map (·.static) := by rw [← h1]; exact List.mem_map.mpr ⟨v, hv, rfl⟩
    obtain ⟨v', h3, h4⟩ := List.mem_map.mp h2
    refine ⟨v', h3, show v'.static.con = v.static.con by rw [h4], fun hb => ?_⟩
    have h5 : ∀ w : ConVal .inequality n m ℝ, (∀ i j, i ≠ j → w.static.projJac i j = 0) ↔ ∀ i j, i ≠ j → w.projJac i j = 0 := by
      intro w
      have h6 : ∀ {p : ℕ} (M : Matrix (Fin p) (Fin p) ℝ), (∀ i j, i ≠ j → ConKind.inequality.stale M i j = 0) ↔
          ∀ i j, i ≠ j → M i j = 0 := fun M => forall₃_congr fun i j hij => by simp [ConKind.stale, hij]
      exact h6 w.projJac
    rw [← h5, ← h4, h5]
    exact hb

/-! ## The problem -/

theorem eqsAt_mem {C M E K : Type} {l : List (Call C M E K)} {k : ℤ} {e : E} (h : e ∈ eqsAt l k) : .equality (some e) k ∈ l := by
  obtain ⟨c, hc, he⟩ := List.mem_filterMap.mp h
  cases c with
  | equality e' j =>
    cases e' with
    | none => cases he
    | some e' =>
      dsimp only at he
      by_cases hj : j = k
      · subst hj; rw [if_pos rfl] at he; cases he; exact hc
      · rw [if_neg hj] at he; cases he
  | _ => cases he

theorem ineqsAt_mem {C M E K : Type} {l : List (Call C M E K)} {k : ℤ} {e : E} (h : e ∈ ineqsAt l k) :
    .inequality (some e) k ∈ l := by
  obtain ⟨c, hc, he⟩ := List.mem_filterMap.mp h
  cases c with
  | inequality e' j =>
    cases e' with
    | none => cases he
    | some e' =>
      dsimp only at he
      by_cases hj : j = k
      · subst hj; rw [if_pos rfl] at he; cases he; exact hc
      · rw [if_neg hj] at he; cases he
  | _ => cases he

theorem costAt_eq {C M E K : Type} {l : List (Call C M E K)} {k : ℤ} {c : C} (hc : .cost (some c) k ∈ l)
    (h : ∀ d, .cost d k ∈ l → d = some c) : costAt l k = some c := by
  unfold costAt
  refine lastOf_ind (fun o => o.join = some c) _ hc (by simp) fun d hd b e => ?_
  cases d with
  | cost c' j =>
    dsimp only at e
    by_cases hj : j = k
    · subst hj
      rw [if_pos rfl] at e
      obtain rfl := Option.some.inj e
      exact h _ hd
    · rw [if_neg hj] at e; cases e
  | _ => cases e

section unicycle
variable (s : UniFields)

/-- The dynamics of the unicycle problem: the unicycle with a fourth order Runge-Kutta step (problems/unicycle.hpp:33;
`CalcDynamicsExpansion` clears the buffer of the Jacobian first, knot_point_function_type.hpp:121-128). -/
noncomputable def uniProblem (normX : (Fin 3 → ℝ) → ℝ) (normU : (Fin 2 → ℝ) → ℝ) : DynProblem 3 2 ℝ where
  N := s.N
  x0 := s.x0
  f _ x u t h := unicycle.rk4 x u t h
  jac _ x u t h := ((unicycle.rk4Jac x u t h 0).toCols₁, (unicycle.rk4Jac x u t h 0).toCols₂)
  normX := normX
  normU := normU

/-- What `BuildAugLagProblem` puts at a knot point: `mk` of C09. -/
noncomputable def exAL (c : QuadCost 3 2 ℝ) (es is : List (ExCon 3 2)) : ALCost 3 2 ℝ := ALCost.new c.costFun (exCons es) (exCons is)

/-- The augmented Lagrangian costs of the unicycle problem. -/
noncomputable def uniCosts (add : Bool) (k : ℕ) : ALCost 3 2 ℝ :=
  exAL (if k < s.N then s.stageCost else s.termCost) (eqsAt (s.calls add) k) (ineqsAt (s.calls add) k)

/-- They are the costs of the calls of `MakeProblem`, so those of the solver that is built from its result (C09). -/
theorem uniCosts_built (add : Bool) {k : ℕ} (hk : k ≤ s.N) : alAt exAL (s.calls add) k = some (uniCosts s add k) := by
  unfold alAt uniCosts
  have : costAt (s.calls add) k = some (if k < s.N then s.stageCost else s.termCost) := by
    by_cases hkN : k < s.N
    · rw [if_pos hkN]
      refine costAt_eq ((uni_mem s add _).mpr (.inr (.inl ⟨k, hkN, rfl⟩))) fun d hd => ?_
      have := (uni_mem s add _).mp hd
      simp at this
      rcases this with ⟨_, rfl⟩ | ⟨rfl, _⟩
      · rfl
      · omega
    · obtain rfl : k = s.N := by omega
      rw [if_neg hkN]
      refine costAt_eq ((uni_mem s add _).mpr (.inr (.inr (.inl rfl)))) fun d hd => ?_
      have := (uni_mem s add _).mp hd
      simp at this
      rcases this with rfl
      rfl
  rw [this]
  rfl

/-- The weights are symmetric, positive semidefinite, and at least `μ` in the controls. -/
structure UniWeights (μ : ℝ) : Prop where
  symQ : s.Q.IsSymm
  symR : s.R.IsSymm
  symQf : s.Qf.IsSymm
  Q : ∀ x, 0 ≤ x ⬝ᵥ s.Q *ᵥ x
  Qf : ∀ x, 0 ≤ x ⬝ᵥ s.Qf *ᵥ x
  R : ∀ u, μ * (u ⬝ᵥ u) ≤ u ⬝ᵥ s.R *ᵥ u

/-- The unicycle problem is smooth: with control bounds, goal and obstacles, for all multipliers, all positive penalties, every time
grid. -/
theorem uni_smooth {μ : ℝ} (hμ : 0 < μ) (hw : UniWeights s μ) (add : Bool) (normX : (Fin 3 → ℝ) → ℝ) (normU : (Fin 2 → ℝ) → ℝ)
    (cs : ℕ → ALCost 3 2 ℝ) (hs : ∀ k ≤ s.N, (cs k).static = (uniCosts s add k).static)
    (hp : ∀ k ≤ s.N, (∀ v ∈ (cs k).eq, ∀ i, 0 < v.pen i) ∧ ∀ v ∈ (cs k).ineq, ∀ i, 0 < v.pen i)
    (Y : Traj (Fin 3 → ℝ) (Fin 2 → ℝ) ℝ) : SmoothProblem (uniProblem s normX normU) cs Y μ := by
  have hcost : ∀ k ≤ s.N, (cs k).cost = (if k < s.N then s.stageCost else s.termCost).costFun := fun k hk => (static_mem_eq (hs k hk)).1
  have hst : ∀ k < s.N, (cs k).cost = (QuadCost.lqr s.Q s.R s.xf s.uref).costFun := fun k hk => by
    rw [hcost k hk.le, if_pos hk]; rfl
  have htm : (cs s.N).cost = (QuadCost.lqr s.Qf (0 : Matrix _ _ ℝ) s.xf s.uref).costFun := by
    rw [hcost s.N le_rfl, if_neg (lt_irrefl _)]; rfl
  have hQ0 : ∀ u : Fin 2 → ℝ, 0 ≤ u ⬝ᵥ (0 : Matrix (Fin 2) (Fin 2) ℝ) *ᵥ u := fun u => by rw [zero_mulVec, dotProduct_zero]
  have hR0 : ∀ u, 0 ≤ u ⬝ᵥ s.R *ᵥ u := fun u => (mul_nonneg hμ.le (nsq_nonneg u)).trans (hw.R u)
  have hsym0 : (0 : Matrix (Fin 2) (Fin 2) ℝ).IsSymm := transpose_zero
  have heq : ∀ k ≤ s.N, ∀ v ∈ (cs k).eq, ∃ e ∈ eqsAt (s.calls add) k, ∃ h : 0 < e.dim, v.con = e.con h := fun k hk v hv => by
    obtain ⟨v', h1, h2⟩ := (static_mem_eq (hs k hk)).2.1 v hv
    obtain ⟨c, h3, rfl⟩ := List.mem_map.mp h1
    rw [← h2]; exact exCons_mem h3
  have hineq : ∀ k ≤ s.N, ∀ v ∈ (cs k).ineq, (∃ e ∈ ineqsAt (s.calls add) k, ∃ h : 0 < e.dim, v.con = e.con h) ∧
      ∀ i j, i ≠ j → v.projJac i j = 0 := fun k hk v hv => by
    obtain ⟨v', h1, h2, h4⟩ := (static_mem_eq (hs k hk)).2.2 v hv
    obtain ⟨c, h3, rfl⟩ := List.mem_map.mp h1
    exact ⟨by rw [← h2]; exact exCons_mem h3, h4 fun i j _ => rfl⟩
  have sm : ∀ k ≤ s.N, (∀ v ∈ (cs k).eq, SmoothCon v.con ∧ ∀ i, 0 < v.pen i) ∧
      ∀ v ∈ (cs k).ineq, SmoothCon v.con ∧ ∀ i, 0 < v.pen i := fun k hk => by
    refine ⟨fun v hv => ⟨?_, (hp k hk).1 v hv⟩, fun v hv => ⟨?_, (hp k hk).2 v hv⟩⟩
    · obtain ⟨e, -, h, e1⟩ := heq k hk v hv
      rw [e1]; exact exCon_smooth e h
    · obtain ⟨⟨e, -, h, e1⟩, -⟩ := hineq k hk v hv
      rw [e1]; exact exCon_smooth e h
  refine ⟨⟨fun k hk x u => ?_, fun k hk x u dx du => ?_, fun k hk v hv i => ((hp k hk).1 v hv i).le,
    fun k hk v hv i => ((hp k hk).2 v hv i).le⟩, fun k hk x u => ?_, fun k hk => ?_, fun k hk => ?_, ?_, fun x u u' => ?_,
    fun x u u' => ?_, fun v hv x u u' => ?_, fun v hv x u u' => ?_⟩
  · by_cases hkN : k < s.N
    · rw [hst k hkN]; exact lqr_psd _ _ _ _ hw.symQ hw.symR hw.Q hR0 x u
    · obtain rfl : k = s.N := le_antisymm hk (not_lt.mp hkN)
      rw [htm]; exact lqr_psd _ _ _ _ hw.symQf hsym0 hw.Qf hQ0 x u
  · rw [hst k hk]; exact lqr_strong _ _ _ _ hw.Q hw.R x u dx du
  · show IsJacAt _ (fromCols (unicycle.rk4Jac x u (Y.t k) (Y.h k) 0).toCols₁ (unicycle.rk4Jac x u (Y.t k) (Y.h k) 0).toCols₂) x u
    rw [fromCols_toCols]
    exact C34_rk4_partial unicycle C40_unicycle C40_unicycle_invariant x u (Y.t k) (Y.h k) 0 C40_unicycle.zero
  · have h := unicycle_continuous.rk4Jac (Y.t k) (Y.h k) 0
    exact (toCols₁_continuous h).prodMk (toCols₂_continuous h)
  · have hk' : k ≤ s.N := hk
    by_cases hkN : k < s.N
    · exact smoothKnot_lqr _ _ _ _ hw.symQ hw.symR (hst k hkN) (sm k hk').1 (sm k hk').2 fun v hv => (hineq k hk' v hv).2
    · obtain rfl : k = s.N := le_antisymm hk' (not_lt.mp hkN)
      exact smoothKnot_lqr _ _ _ _ hw.symQf hsym0 htm (sm s.N le_rfl).1 (sm s.N le_rfl).2 fun v hv => (hineq s.N le_rfl v hv).2
  · refine ⟨μ / 4, μ / 2 * (s.uref ⬝ᵥ s.uref), by positivity, fun k hk x u => ?_, fun x u => ?_⟩
    · rw [hst k hk]; exact lqr_lower _ _ _ _ hμ hw.symQ hw.symR hw.Q hw.R x u
    · show _ ≤ (cs s.N).cost.eval x u
      rw [htm, C37_lqr _ _ hw.symQf hsym0]
      have h1 := hw.Qf (x - s.xf)
      have h2 := hQ0 (u - s.uref)
      have h3 : 0 ≤ μ / 2 * (s.uref ⬝ᵥ s.uref) := mul_nonneg (by positivity) (nsq_nonneg _)
      linarith
  · show (cs s.N).cost.eval x u = (cs s.N).cost.eval x u'
    rw [htm, C37_lqr _ _ hw.symQf hsym0, C37_lqr _ _ hw.symQf hsym0]
    simp
  · show (cs s.N).cost.hess x u = (cs s.N).cost.hess x u'
    rw [htm]; rfl
  · obtain ⟨e, he, h, e1⟩ := heq s.N le_rfl v hv
    have := (uni_mem s add _).mp (eqsAt_mem he)
    simp at this
    obtain ⟨-, rfl⟩ := this
    rw [e1]; rfl
  · obtain ⟨⟨e, he, h, e1⟩, -⟩ := hineq s.N le_rfl v hv
    have := (uni_mem s add _).mp (ineqsAt_mem he)
    simp at this
    omega

/-- C86 for the unicycle problem: from every start, with every multiplier and penalty the outer loop may set, default options can be
tuned so that the inner solver ends with `kSolved` in a nearly stationary trajectory. -/
theorem C86_unicycle {μ : ℝ} (hμ : 0 < μ) (hw : UniWeights s μ) (hN : s.N ≠ 0) (add : Bool) (normX : (Fin 3 → ℝ) → ℝ)
    (normU : (Fin 2 → ℝ) → ℝ) (d : Opts ℝ) {ε : ℝ} (hε : 0 < ε) (q : St (Fin 3 → ℝ) (Fin 2 → ℝ) ℝ (ALCost 3 2 ℝ) (KP 3 2 ℝ))
    (hs : ∀ k ≤ s.N, (q.cs k).static = (uniCosts s add k).static)
    (hp : ∀ k ≤ s.N, (∀ v ∈ (q.cs k).eq, ∀ i, 0 < v.pen i) ∧ ∀ v ∈ (q.cs k).ineq, ∀ i, 0 < v.pen i) (ha : Aligned q.stats)
    (d1 : 0 ≤ d.regMax) (d2 : 1 ≤ d.regFactor) (d3 : 0 < d.lsLower) (d4 : d.lsLower ≤ 1 / 4) (d5 : 3 ≤ d.lsUpper)
    (d6 : 1 < d.lsFactor) (d7 : 0 < d.costTol) :
    ∃ (γ r W : ℝ) (i j k : ℤ), 0 < γ ∧ 0 < r ∧ ∀ a b, (d.checkBounds = true → Clears (uniProblem s normX normU) W a b) →
      ∀ fuel, ∃ t, ILQR.solve (alKernel (uniProblem s normX normU))
        { d with gradTol := γ, regInitial := 0, regMin := r, lsMax := i, maxInner := j, maxTotal := k, stateMax := a, controlMax := b }
        (fuel + 1) q = some t ∧ t.status = .kSolved ∧ DynFeasible (alKernel (uniProblem s normX normU)) t.Z ∧
        NearlyStationary (uniProblem s normX normU) q.cs t.Z ε := by
  obtain ⟨γ, r, W, i, j, k, h1, h2, h3⟩ := C86_solves (uni_smooth s hμ hw add normX normU q.cs hs hp q.Z) hμ hN d hε q rfl
    ⟨fun _ _ => rfl, fun _ _ => rfl⟩ ha d1 d2 d3 d4 d5 d6 d7
  refine ⟨γ, r, W, i, j, k, h1, h2, fun a b hw fuel => ?_⟩
  obtain ⟨t, a1, a2, a3, -, -, a4⟩ := h3 a b hw fuel
  exact ⟨t, a1, a2, a3, a4⟩

theorem diag_form {k : ℕ} (c : ℝ) (u : Fin k → ℝ) : u ⬝ᵥ (diagonal fun _ => c) *ᵥ u = c * (u ⬝ᵥ u) := by
  have : (diagonal fun _ : Fin k => c) *ᵥ u = c • u := by funext i; simp [mulVec_diagonal]
  rw [this, dotProduct_smul, smul_eq_mul]

/-- The default weights qualify, in both scenarios. -/
theorem uniDefault_weights (c : Scenario) :
    UniWeights ((uniDefault.setScenario c).configure fun t N => t / N) (1e-2 * (3 / 100)) := by
  have sd : ∀ {n : ℕ} (v : Fin n → ℝ) (a : ℝ), setDiag (diagonal v) a = diagonal fun _ => a := by
    intro n v a
    ext i j
    by_cases h : i = j
    · subst h; simp [setDiag]
    · simp [setDiag, h]
  have key : ∀ (w : UniFields) (a b e : ℝ), w.Q = diagonal (fun _ => a) → w.R = diagonal (fun _ => b) →
      w.Qf = diagonal (fun _ => e) → 0 ≤ a → 1e-2 * (3 / 100) ≤ b → 0 ≤ e → UniWeights w (1e-2 * (3 / 100)) := by
    intro w a b e h1 h2 h3 h4 h5 h6
    refine ⟨by rw [h1]; exact isSymm_diagonal _, by rw [h2]; exact isSymm_diagonal _, by rw [h3]; exact isSymm_diagonal _,
      fun x => ?_, fun x => ?_, fun u => ?_⟩
    · rw [h1, diag_form]; exact mul_nonneg h4 (nsq_nonneg x)
    · rw [h3, diag_form]; exact mul_nonneg h6 (nsq_nonneg x)
    · rw [h2, diag_form]; exact mul_le_mul_of_nonneg_right h5 (nsq_nonneg u)
  cases c
  · exact key _ (1e-2 * (3 / ((100 : ℕ) : ℝ))) (1e-2 * (3 / ((100 : ℕ) : ℝ))) 100 (sd _ _) (sd _ _) (sd _ _) (by norm_num)
      (by norm_num) (by norm_num)
  · exact key _ (1 * (5 / ((100 : ℕ) : ℝ))) (0.5 * (5 / ((100 : ℕ) : ℝ))) 10 (sd _ _) (sd _ _) (sd _ _) (by norm_num)
      (by norm_num) (by norm_num)

/-- `InitialTrajectory` (problems/unicycle.hpp:83-92). -/
noncomputable def uniTraj : Traj (Fin 3 → ℝ) (Fin 2 → ℝ) ℝ where
  x _ := 0
  u k := if k < s.N then s.u0 else 0
  t k := k * (s.tf / s.N)
  h k := if k < s.N then s.tf / s.N else 0

/-- A new solver for the unicycle problem with this trajectory (problems/unicycle.hpp:94-108). -/
noncomputable def uniStart (add : Bool) : St (Fin 3 → ℝ) (Fin 2 → ℝ) ℝ (ALCost 3 2 ℝ) (KP 3 2 ℝ) where
  Z := uniTraj s
  Zbar := uniTraj s
  kd _ := KP.new
  cs := uniCosts s add
  costs _ := 0
  status := .kUnsolved
  rho := 0
  drho := 0
  dV0 := 0
  dV1 := 0
  stats := Stats.new

theorem uniCosts_pen (add : Bool) (k : ℕ) :
    (∀ v ∈ (uniCosts s add k).eq, ∀ i, 0 < v.pen i) ∧ ∀ v ∈ (uniCosts s add k).ineq, ∀ i, 0 < v.pen i := by
  constructor <;>
  · intro v hv i
    obtain ⟨c, -, rfl⟩ := List.mem_map.mp hv
    exact one_pos

/-- The example as it comes, in both scenarios, with the default options except for those that are tuned. -/
theorem C86_unicycle_default (c : Scenario) (normX : (Fin 3 → ℝ) → ℝ) (normU : (Fin 2 → ℝ) → ℝ) {ε : ℝ} (hε : 0 < ε) :
    ∃ (γ r W : ℝ) (i j k : ℤ), 0 < γ ∧ 0 < r ∧ ∀ a b,
      Clears (uniProblem ((uniDefault.setScenario c).configure fun t N => t / N) normX normU) W a b → ∀ fuel, ∃ t,
      ILQR.solve (alKernel (uniProblem ((uniDefault.setScenario c).configure fun t N => t / N) normX normU))
        { Opts.default (fun q : ℚ => (q : ℝ)) with
          gradTol := γ, regInitial := 0, regMin := r, lsMax := i, maxInner := j, maxTotal := k, stateMax := a, controlMax := b }
        (fuel + 1) (uniStart ((uniDefault.setScenario c).configure fun t N => t / N) true) = some t ∧ t.status = .kSolved ∧
        DynFeasible (alKernel (uniProblem ((uniDefault.setScenario c).configure fun t N => t / N) normX normU)) t.Z ∧
        NearlyStationary (uniProblem ((uniDefault.setScenario c).configure fun t N => t / N) normX normU)
          (uniCosts ((uniDefault.setScenario c).configure fun t N => t / N) true) t.Z ε := by
  obtain ⟨γ, r, W, i, j, k, h1, h2, h3⟩ := C86_unicycle ((uniDefault.setScenario c).configure fun t N => t / N) (by norm_num) (uniDefault_weights c)
    (by rw [(configure_facts _ _).1]; show (100 : ℕ) ≠ 0; norm_num) true normX normU
    (Opts.default fun q : ℚ => (q : ℝ)) hε (uniStart ((uniDefault.setScenario c).configure fun t N => t / N) true) (fun k _ => rfl)
    (fun k _ => uniCosts_pen _ _ k) aligned_new (by simp only [Opts.default]; norm_num) (by simp only [Opts.default]; norm_num)
    (by simp only [Opts.default]; norm_num) (by simp only [Opts.default]; norm_num) (by simp only [Opts.default]; norm_num)
    (by simp only [Opts.default]; norm_num) (by simp only [Opts.default]; norm_num)
  exact ⟨γ, r, W, i, j, k, h1, h2, fun a b hw => h3 a b fun _ => hw⟩

end unicycle

end Altro.Props
