import Verif.Proofs.RegularPoint

/-!
# The error bound near a regular solution
-/

namespace Altro.Props
open Altro.Spec Matrix ILQR AL Filter
open scoped Topology
variable {n m : ℕ} {p : DynProblem n m ℝ} {cs c' : ℕ → ALCost n m ℝ} {Z Z' : Traj (Fin n → ℝ) (Fin m → ℝ) ℝ} {κ : ConKind}

/-! ## Places of components -/

theorem sameProblem_self : SameProblem p cs cs := ⟨fun _ _ => rfl, fun _ _ => rfl, fun _ _ => rfl⟩

theorem line_ext (V : Fin p.N → Fin m → ℝ) (a : ℝ) : (fun k => Z.u k + a • zeroU p.N V k) = extU p.N Z (restU p.N Z + a • V) := by
  funext k
  unfold zeroU extU
  split
  · rfl
  · rw [smul_zero, add_zero]

theorem ext_rest : extU p.N Z (restU p.N Z) = Z.u := by
  funext k
  unfold extU
  split <;> rfl

theorem states_rest (hZ : DynFeasible (alKernel p) Z') (ht : SameTimes (alKernel p) Z' Z) :
    ∀ k ≤ p.N, openLoop p Z (extU p.N Z (restU p.N Z')) k = Z'.x k := by
  intro k hk
  rw [← openLoop_self hZ k hk]
  exact (openLoop_near (fun k hk => ⟨ht.t k (Nat.le_of_lt hk), ht.h k hk⟩) (fun k (hk : k < p.N) => (extU_lt (Z := Z) (restU p.N Z') hk).symm) k hk).symm

theorem rowOf_rest (h : TwiceSmooth p cs Z) (hZ : DynFeasible (alKernel p) Z') (ht : SameTimes (alKernel p) Z' Z) (q : Place p.N cs) :
    rowOf p cs Z q (restU p.N Z') = conRow q (Z'.x q.1) (Z'.u q.1) := by
  have hk : (q.1 : ℕ) ≤ p.N := Nat.lt_succ_iff.mp q.1.2
  unfold rowOf
  rw [states_rest hZ ht q.1 hk]
  rcases Nat.lt_or_eq_of_le hk with h1 | h1
  · rw [extU_lt _ h1]; rfl
  · obtain ⟨⟨k, hk'⟩, ⟨j, i⟩ | ⟨j, i⟩⟩ := q
    · have h1 : k = p.N := h1
      subst h1
      exact congrFun (h.termEq _ (List.get_mem _ _) _ _ _) i
    · have h1 : k = p.N := h1
      subst h1
      exact congrFun (h.termIneq _ (List.get_mem _ _) _ _ _) i

theorem mulRow_inl {N : ℕ} {c' : ℕ → ALCost n m ℝ} (hc : ∀ k ≤ N, (c' k).eq.map (·.con) = (cs k).eq.map (·.con)) (k : Fin (N + 1)) (j : Fin (cs k).eq.length)
    (i : Fin ((cs k).eq.get j).con.p) : ∃ w ∈ (c' k).eq, ∃ i' : Fin w.con.p, w.con = ((cs k).eq.get j).con ∧ (i' : ℕ) = i ∧
      mulRow (cs := cs) c' ⟨k, .inl ⟨j, i⟩⟩ = w.lam i' ∧ ∀ x u, conRow (cs := cs) ⟨k, .inl ⟨j, i⟩⟩ x u = w.con.eval x u i' := by
  have hj : (cs k).eq[(j : ℕ)]? = some ((cs k).eq.get j) := by simp
  obtain ⟨w, hw, ew⟩ := place_con (hc k (Nat.lt_succ_iff.mp k.2)) hj
  have hi : (i : ℕ) < w.con.p := by rw [ew]; exact i.2
  refine ⟨w, List.mem_iff_getElem?.mpr ⟨j, hw⟩, ⟨i, hi⟩, ew, rfl, (lam_eq hw ⟨i, hi⟩).symm, fun x u => ?_⟩
  show ((cs k).eq.get j).con.eval x u i = _
  have key : ∀ (a b : Con n m ℝ), a = b → ∀ (i : ℕ) (h1 : i < a.p) (h2 : i < b.p), a.eval x u ⟨i, h1⟩ = b.eval x u ⟨i, h2⟩ := by
    rintro a _ rfl i h1 h2; rfl
  exact key _ _ ew.symm i i.2 hi

theorem mulRow_inr {N : ℕ} {c' : ℕ → ALCost n m ℝ} (hc : ∀ k ≤ N, (c' k).ineq.map (·.con) = (cs k).ineq.map (·.con)) (k : Fin (N + 1)) (j : Fin (cs k).ineq.length)
    (i : Fin ((cs k).ineq.get j).con.p) : ∃ w ∈ (c' k).ineq, ∃ i' : Fin w.con.p, w.con = ((cs k).ineq.get j).con ∧ (i' : ℕ) = i ∧
      mulRow (cs := cs) c' ⟨k, .inr ⟨j, i⟩⟩ = w.lam i' ∧ ∀ x u, conRow (cs := cs) ⟨k, .inr ⟨j, i⟩⟩ x u = w.con.eval x u i' := by
  have hj : (cs k).ineq[(j : ℕ)]? = some ((cs k).ineq.get j) := by simp
  obtain ⟨w, hw, ew⟩ := place_con (hc k (Nat.lt_succ_iff.mp k.2)) hj
  have hi : (i : ℕ) < w.con.p := by rw [ew]; exact i.2
  refine ⟨w, List.mem_iff_getElem?.mpr ⟨j, hw⟩, ⟨i, hi⟩, ew, rfl, (lam_eq hw ⟨i, hi⟩).symm, fun x u => ?_⟩
  show ((cs k).ineq.get j).con.eval x u i = _
  have key : ∀ (a b : Con n m ℝ), a = b → ∀ (i : ℕ) (h1 : i < a.p) (h2 : i < b.p), a.eval x u ⟨i, h1⟩ = b.eval x u ⟨i, h2⟩ := by
    rintro a _ rfl i h1 h2; rfl
  exact key _ _ ew.symm i i.2 hi

/-- Every multiplier is that of a place, or zero. -/
theorem getMul_place {l l' : List (ConVal κ n m ℝ)} (e : l'.map (·.con) = l.map (·.con)) (j i : ℕ) :
    (∃ (hj : j < l.length), i < (l.get ⟨j, hj⟩).con.p) ∨ (getMul l' j i = 0 ∧ getMul l j i = 0) := by
  have hl : l'.length = l.length := by simpa using congrArg List.length e
  by_cases hj : j < l.length
  · by_cases hi : i < (l.get ⟨j, hj⟩).con.p
    · exact .inl ⟨hj, hi⟩
    · right
      have g1 : l[j]? = some (l.get ⟨j, hj⟩) := by simp [hj]
      obtain ⟨w, hw, ew⟩ := place_con e g1
      have key : ∀ {l : List (ConVal κ n m ℝ)} {v : ConVal κ n m ℝ}, l[j]? = some v → ¬ i < v.con.p → getMul l j i = 0 := fun hv hn => by
        rw [← mulAt_eq]; unfold mulAt; rw [hv]; exact dif_neg hn
      exact ⟨key hw (by rw [ew]; exact hi), key g1 hi⟩
  · exact .inr ⟨getMul_len i l' j (by omega), getMul_len i l j (by omega)⟩

theorem multsWithin_of {d : ℝ} (hd : 0 ≤ d) (hs : SameProblem p cs c') (h : ∀ q : Place p.N cs, |mulRow c' q - mulRow cs q| ≤ d) : MultsWithin p cs c' d := by
  intro k hk j i
  rw [mulAt_eq, mulAt_eq, mulAt_eq, mulAt_eq]
  constructor
  · rcases getMul_place (hs.eqCons k hk) j i with ⟨hj, hi⟩ | ⟨e1, e2⟩
    · exact h ⟨⟨k, Nat.lt_succ_of_le hk⟩, .inl ⟨⟨j, hj⟩, ⟨i, hi⟩⟩⟩
    · rw [e1, e2, sub_zero, abs_zero]; exact hd
  · rcases getMul_place (hs.ineqCons k hk) j i with ⟨hj, hi⟩ | ⟨e1, e2⟩
    · exact h ⟨⟨k, Nat.lt_succ_of_le hk⟩, .inr ⟨⟨j, hj⟩, ⟨i, hi⟩⟩⟩
    · rw [e1, e2, sub_zero, abs_zero]; exact hd

/-! ## The conditions at a regular solution -/

theorem regular_supported (hK : KKT p cs Z) : SupportedAt p cs Z cs := by
  rintro ⟨k, ⟨j, i⟩ | ⟨j, i⟩⟩ hq
  · exact absurd (hK.primal.eq k (Nat.lt_succ_iff.mp k.2) _ (List.get_mem _ _) i) hq
  · obtain ⟨w, hw, i', -, -, e1, e2⟩ := mulRow_inr (cs := cs) (c' := cs) (fun _ _ => rfl) k j i
    rw [e1]
    rw [e2] at hq
    exact (mul_eq_zero.mp (hK.slack k (Nat.lt_succ_iff.mp k.2) w hw i')).resolve_right hq

theorem regular_stationary (h : TwiceSmooth p cs Z) (hK : KKT p cs Z) :
    lagD (objOf p cs Z) (fun q : ActivePlace p cs Z => rowOf p cs Z q.1) (restU p.N Z) (actMul p cs Z cs) = 0 := by
  have h1 := lagD_near h sameProblem_self (regular_supported hK) sameTimes_self le_rfl (stationaryOf_iff.mp hK.stationary)
  rw [zero_mul] at h1
  exact norm_le_zero_iff.mp h1

theorem regular_independent (h : TwiceSmooth p cs Z) (hL : LICQ p cs Z) (hK : KKT p cs Z) (η : ActivePlace p cs Z → ℝ)
    (hη : ∑ q, η q • fderiv ℝ (rowOf p cs Z q.1) (restU p.N Z) = 0) : η = 0 := by
  classical
  let θ : Place p.N cs → ℝ := fun q => if hq : conRow q (Z.x q.1) (Z.u q.1) = 0 then η ⟨q, hq⟩ else 0
  have hs : SameProblem p cs (putRow θ) := putRow_same θ
  have hθ : ∀ q : ActivePlace p cs Z, θ q.1 = η q := fun q => dif_pos q.2
  have hact : OnActive p (putRow θ) Z := by
    intro k hk v hv i
    obtain ⟨j, hj⟩ := List.mem_iff_getElem?.mp hv
    obtain ⟨w, hw, ew⟩ := place_con (hs.ineqCons k hk).symm hj
    have hjl : j < (cs k).ineq.length := (List.getElem?_eq_some_iff.mp hw).1
    have hwg : (cs k).ineq.get ⟨j, hjl⟩ = w := by
      have := (List.getElem?_eq_some_iff.mp hw).2; simpa using this
    have hi : (i : ℕ) < ((cs k).ineq.get ⟨j, hjl⟩).con.p := by rw [hwg, ew]; exact i.2
    let q : Place p.N cs := ⟨⟨k, Nat.lt_succ_of_le hk⟩, .inr ⟨⟨j, hjl⟩, ⟨i, hi⟩⟩⟩
    have e1 : v.lam i = mulRow (putRow θ) q := lam_eq hj i
    have key : ∀ (a b : Con n m ℝ), a = b → ∀ (i : ℕ) (h1 : i < a.p) (h2 : i < b.p), a.eval (Z.x k) (Z.u k) ⟨i, h1⟩ = b.eval (Z.x k) (Z.u k) ⟨i, h2⟩ := by
      rintro a _ rfl i h1 h2; rfl
    have e2 : v.con.eval (Z.x k) (Z.u k) i = conRow q (Z.x k) (Z.u k) := key _ _ (by rw [hwg, ew]) i i.2 hi
    rw [e1, e2, mulRow_putRow]
    by_cases hq : conRow q (Z.x q.1) (Z.u q.1) = 0
    · exact .inr hq
    · exact .inl (dif_neg hq)
  have hdeg : Degenerate p (putRow θ) Z := by
    intro v hv
    let V : Fin p.N → Fin m → ℝ := fun k => v k
    have e : (fun a : ℝ => controlCostOf p (fun k => weighted (putRow θ k)) Z fun k => Z.u k + a • v k)
        = fun a : ℝ => ∑ q : ActivePlace p cs Z, η q * rowOf p cs Z q.1 (restU p.N Z + a • V) := by
      funext a
      rw [cost_shift (U := restU p.N Z + a • V) (weighted_term h hs) sameTimes_self fun k hk => rfl, total_rows hs]
      simp only [mulRow_putRow]
      rw [sum_active (Z := Z) (fun q hq => by rw [show θ q = 0 from dif_neg hq, zero_mul])]
      exact Finset.sum_congr rfl fun q _ => by rw [hθ q]; rfl
    rw [e]
    have h1 : HasDerivAt (fun a : ℝ => ∑ q : ActivePlace p cs Z, η q * rowOf p cs Z q.1 (restU p.N Z + a • V))
        (∑ q : ActivePlace p cs Z, η q * fderiv ℝ (rowOf p cs Z q.1) (restU p.N Z) V) 0 :=
      HasDerivAt.fun_sum fun q _ => (line_deriv ((rowOf_contDiff h q.1).differentiable (by norm_num)).differentiableAt.hasFDerivAt V).const_mul _
    have h2 := congrArg (fun f : (Fin p.N → Fin m → ℝ) →L[ℝ] ℝ => f V) hη
    simp only [ContinuousLinearMap.sum_apply, ContinuousLinearMap.smul_apply, ContinuousLinearMap.zero_apply, smul_eq_mul] at h2
    rwa [h2] at h1
  have hno := hL _ hs hact hdeg
  funext q
  rw [← hθ q, ← mulRow_putRow θ q.1, mulRow_none rfl hno]
  rfl

theorem regular_second (h : TwiceSmooth p cs Z) (hS : SecondOrder p cs Z) (hK : KKT p cs Z) (d : Fin p.N → Fin m → ℝ) (hd : d ≠ 0)
    (ht : ∀ q : ActivePlace p cs Z, fderiv ℝ (rowOf p cs Z q.1) (restU p.N Z) d = 0) :
    0 < fderiv ℝ (fun U => lagD (objOf p cs Z) (fun q : ActivePlace p cs Z => rowOf p cs Z q.1) U (actMul p cs Z cs)) (restU p.N Z) d d := by
  have hrow : ∀ q : Place p.N cs, HasDerivAt (fun a : ℝ => rowOf p cs Z q (restU p.N Z + a • d)) (fderiv ℝ (rowOf p cs Z q) (restU p.N Z) d) 0 := fun q =>
    line_deriv ((rowOf_contDiff h q).differentiable (by norm_num)).differentiableAt.hasFDerivAt d
  have hT : Tangent p cs Z (zeroU p.N d) := by
    refine ⟨zeroU_last p.N d, fun k hk v hv i => ?_, fun k hk v hv i h0 => ?_⟩
    · obtain ⟨j, rfl⟩ := List.mem_iff_get.mp hv
      let q : Place p.N cs := ⟨⟨k, Nat.lt_succ_of_le hk⟩, .inl ⟨j, i⟩⟩
      have h1 := hrow q
      rw [ht ⟨q, hK.primal.eq k hk _ (List.get_mem _ _) i⟩] at h1
      refine h1.congr_of_eventuallyEq (.of_forall fun a => ?_)
      show ((cs k).eq.get j).con.eval (openLoop p Z (fun k => Z.u k + a • zeroU p.N d k) k) ((fun k => Z.u k + a • zeroU p.N d k) k) i = _
      rw [line_ext]; rfl
    · obtain ⟨j, rfl⟩ := List.mem_iff_get.mp hv
      let q : Place p.N cs := ⟨⟨k, Nat.lt_succ_of_le hk⟩, .inr ⟨j, i⟩⟩
      have h1 := hrow q
      rw [ht ⟨q, h0⟩] at h1
      refine h1.congr_of_eventuallyEq (.of_forall fun a => ?_)
      show ((cs k).ineq.get j).con.eval (openLoop p Z (fun k => Z.u k + a • zeroU p.N d k) k) ((fun k => Z.u k + a • zeroU p.N d k) k) i = _
      rw [line_ext]; rfl
  have hne : ∃ k < p.N, zeroU p.N d k ≠ 0 := by
    obtain ⟨k, hk⟩ := Function.ne_iff.mp hd
    exact ⟨k, k.2, by unfold zeroU; rw [dif_pos k.2]; exact hk⟩
  have h1 := hS _ hT hne
  simp only [line_ext] at h1
  rwa [line_second (f := fun U => controlCostOf p (fun k => lagrangian (cs k)) Z (extU p.N Z U))
    (fun U => lag_hasFDeriv h sameProblem_self (regular_supported hK) U) ?_ d] at h1
  exact (fderiv_diff (objOf_contDiff h)).sub (DifferentiableAt.fun_sum fun q _ => (fderiv_diff (rowOf_contDiff h q.1)).fun_const_smul _)

/-! ## The error bound -/

theorem small_all {α : Type} [Finite α] {P : α → ℝ → Prop} (h : ∀ a, ∃ r, 0 < r ∧ ∀ r', 0 < r' → r' ≤ r → P a r') : ∀ᶠ r in 𝓝[>] (0 : ℝ), ∀ a, P a r :=
  eventually_all.mpr fun a => by
    obtain ⟨r, hr, H⟩ := h a
    filter_upwards [Ioc_mem_nhdsGT hr] with r' hr'
    exact H r' hr'.1 hr'.2

theorem norm_controls {r : ℝ} (hr : 0 ≤ r) : ‖restU p.N Z' - restU p.N Z‖ ≤ r ↔ ControlsWithin p Z Z' r := by
  rw [pi_norm_le_iff_of_nonneg hr]
  simp only [pi_norm_le_iff_of_nonneg hr, Real.norm_eq_abs]
  exact ⟨fun h k hk i => h ⟨k, hk⟩ i, fun h k i => h k k.2 i⟩

theorem mulRow_within {d : ℝ} (h : MultsWithin p cs c' d) (q : Place p.N cs) : |mulRow c' q - mulRow cs q| ≤ d := by
  obtain ⟨k, ⟨j, i⟩ | ⟨j, i⟩⟩ := q
  · have := (h k (Nat.lt_succ_iff.mp k.2) j i).1
    rwa [mulAt_eq, mulAt_eq] at this
  · have := (h k (Nat.lt_succ_iff.mp k.2) j i).2
    rwa [mulAt_eq, mulAt_eq] at this

/-- Near a regular solution a nearly stationary point has multipliers of active constraints only, does not lose an active one, and is as close as the
derivative and the active constraints are small. -/
theorem regular_core (h : TwiceSmooth p cs Z) (hR : RegularSolution p cs Z) : ∃ κ r : ℝ, 0 < κ ∧ 0 < r ∧ ∀ (c' : ℕ → ALCost n m ℝ)
    (Z' : Traj (Fin n → ℝ) (Fin m → ℝ) ℝ) (ε : ℝ), SameProblem p cs c' → SameTimes (alKernel p) Z' Z → DynFeasible (alKernel p) Z' → ControlsWithin p Z Z' r →
    0 ≤ ε → ε ≤ r → NearlyStationaryOf p (fun k => lagrangian (c' k)) Z' ε →
    (∀ k ≤ p.N, ∀ v ∈ (c' k).ineq, ∀ i, v.lam i = 0 ∨ -r ≤ v.con.eval (Z'.x k) (Z'.u k) i) →
    StrictComplementarity p c' Z ∧ ∀ e, 0 ≤ e → (∀ k ≤ p.N, ∀ v ∈ (c' k).eq, ∀ i, |v.con.eval (Z'.x k) (Z'.u k) i| ≤ e) →
      (∀ k ≤ p.N, ∀ v ∈ (c' k).ineq, ∀ i, v.con.eval (Z.x k) (Z.u k) i = 0 → |v.con.eval (Z'.x k) (Z'.u k) i| ≤ e) →
      ControlsWithin p Z Z' (κ * (ε + e)) ∧ StatesWithin p Z Z' (κ * (ε + e)) ∧ MultsWithin p cs c' (κ * (ε + e)) := by
  have hZ : DynFeasible (alKernel p) Z := ⟨hR.kkt.init, hR.kkt.step⟩
  obtain ⟨C1, r1, hC1, hr1, H1⟩ := mults_near (objOf_contDiff h) (fun q : ActivePlace p cs Z => rowOf_contDiff h q.1) (regular_stationary h hR.kkt)
    (fun η => regular_independent h hR.licq hR.kkt η)
  have h0 : ∀ q : Place p.N cs, rowOf p cs Z q (restU p.N Z) = conRow q (Z.x q.1) (Z.u q.1) := rowOf_rest h hZ sameTimes_self
  obtain ⟨κ2, r2, hκ2, hr2, H2⟩ := kkt_error_bound (objOf_contDiff h) (fun q : ActivePlace p cs Z => rowOf_contDiff h q.1) (regular_stationary h hR.kkt)
    (fun q => (h0 q.1).trans q.2) (fun η => regular_independent h hR.licq hR.kkt η) (fun d hd ht => regular_second h hR.second hR.kkt d hd ht)
  obtain ⟨C3, r3, hC3, hr3, H3⟩ := bound_near (U0 := restU p.N Z) (f := fun U : Fin p.N → Fin m → ℝ => fun k : Fin (p.N + 1) => openLoop p Z (extU p.N Z U) k)
    (differentiableAt_pi.mpr fun k => ((states_contDiff h k (Nat.lt_succ_iff.mp k.2)).differentiable (by norm_num)).differentiableAt)
  set S := √(p.N * m : ℝ) with hS
  have hS0 : 0 ≤ S := Real.sqrt_nonneg _
  -- inactive constraints stay inactive
  have hin : ∀ᶠ r in 𝓝[>] (0 : ℝ), ∀ q : Place p.N cs, rowOf p cs Z q (restU p.N Z) < 0 → ∀ U, ‖U - restU p.N Z‖ ≤ r → rowOf p cs Z q U < -r := by
    refine small_all fun q => ?_
    by_cases hq : rowOf p cs Z q (restU p.N Z) < 0
    · obtain ⟨δ, hδ, hd⟩ := Metric.continuousAt_iff.mp ((rowOf_contDiff h q).continuous.continuousAt (x := restU p.N Z)) (-(rowOf p cs Z q (restU p.N Z)) / 2) (by linarith)
      refine ⟨min (δ / 2) (-(rowOf p cs Z q (restU p.N Z)) / 3), lt_min (by positivity) (by linarith), fun r' h1 h2 _ U hU => ?_⟩
      have := hd (x := U) (by rw [dist_eq_norm]; have := h2.trans (min_le_left _ _); linarith)
      rw [Real.dist_eq, abs_lt] at this
      have := h2.trans (min_le_right _ _)
      linarith
    · exact ⟨1, one_pos, fun _ _ _ h => absurd h hq⟩
  -- multipliers of active inequalities do not vanish
  have hm : ∀ᶠ r in 𝓝[>] (0 : ℝ), ∀ q : Place p.N cs, mulRow cs q ≠ 0 → C1 * (r + r * S) < |mulRow cs q| := by
    refine small_all fun q => ?_
    by_cases hq : mulRow cs q ≠ 0
    · refine ⟨|mulRow cs q| / (2 * C1 * (1 + S)), by positivity, fun r' h1 h2 _ => ?_⟩
      rw [le_div_iff₀ (by positivity)] at h2
      have := abs_pos.mpr hq
      nlinarith
    · exact ⟨1, one_pos, fun _ _ _ h => absurd h hq⟩
  have hr2' : ∀ᶠ r in 𝓝[>] (0 : ℝ), C1 * (r + r * S) ≤ r2 := by
    filter_upwards [Ioc_mem_nhdsGT (show 0 < r2 / (C1 * (1 + S)) by positivity)] with r hr
    have := hr.2
    rw [le_div_iff₀ (by positivity)] at this
    linarith
  obtain ⟨r, hin, hm, hr2', hrr1, hrr2, hrr3, hr0⟩ := (hin.and (hm.and (hr2'.and ((eventually_nhdsWithin_of_eventually_nhds (eventually_le_nhds hr1)).and
    ((eventually_nhdsWithin_of_eventually_nhds (eventually_le_nhds hr2)).and ((eventually_nhdsWithin_of_eventually_nhds (eventually_le_nhds hr3)).and
      self_mem_nhdsWithin)))))).exists
  have hr0 : 0 < r := hr0
  refine ⟨κ2 * (S + 1) * (C3 + 1), r, by positivity, hr0, fun c' Z' ε hs ht hZ' hc hε hεr hst hsl => ?_⟩
  have hU : ‖restU p.N Z' - restU p.N Z‖ ≤ r := (norm_controls hr0.le).mpr hc
  have hrow := rowOf_rest h hZ' ht
  have hsup : SupportedAt p cs Z c' := by
    rintro ⟨k, ⟨j, i⟩ | ⟨j, i⟩⟩ hq
    · exact absurd (hR.kkt.primal.eq k (Nat.lt_succ_iff.mp k.2) _ (List.get_mem _ _) i) hq
    · have hneg := lt_of_le_of_ne (hR.kkt.primal.ineq k (Nat.lt_succ_iff.mp k.2) _ (List.get_mem _ j) i) hq
      obtain ⟨w, hw, i', -, -, e1, e2⟩ := mulRow_inr (cs := cs) hs.ineqCons k j i
      rw [e1]
      refine (hsl k (Nat.lt_succ_iff.mp k.2) w hw i').resolve_right fun hc' => ?_
      have h3 := hin ⟨k, .inr ⟨j, i⟩⟩ (by rw [h0]; exact hneg) _ hU
      rw [hrow, e2] at h3
      exact absurd hc' (not_le.mpr h3)
  have hD := lagD_near h hs hsup ht hε hst
  rw [← hS] at hD
  have hlam := H1 (restU p.N Z') (actMul p cs Z c') (hU.trans hrr1)
  have hlam2 : ‖actMul p cs Z c' - actMul p cs Z cs‖ ≤ C1 * (r + r * S) := hlam.trans (by gcongr; exact hD.trans (by gcongr))
  have hact : ∀ q : ActivePlace p cs Z, |mulRow c' q.1 - mulRow cs q.1| ≤ ‖actMul p cs Z c' - actMul p cs Z cs‖ := fun q =>
    norm_le_pi_norm (actMul p cs Z c' - actMul p cs Z cs) q
  constructor
  · intro k hk v hv i h1 h2
    obtain ⟨j, hj⟩ := List.mem_iff_getElem?.mp hv
    obtain ⟨w, hw, ew⟩ := place_con (hs.ineqCons k hk).symm hj
    have hjl : j < (cs k).ineq.length := (List.getElem?_eq_some_iff.mp hw).1
    have hwg : (cs k).ineq.get ⟨j, hjl⟩ = w := by
      have := (List.getElem?_eq_some_iff.mp hw).2; simpa using this
    have hi : (i : ℕ) < ((cs k).ineq.get ⟨j, hjl⟩).con.p := by rw [hwg, ew]; exact i.2
    let q : Place p.N cs := ⟨⟨k, Nat.lt_succ_of_le hk⟩, .inr ⟨⟨j, hjl⟩, ⟨i, hi⟩⟩⟩
    have e1 : v.lam i = mulRow c' q := lam_eq hj i
    have key : ∀ (a b : Con n m ℝ), a = b → ∀ (i : ℕ) (h1 : i < a.p) (h2 : i < b.p), a.eval (Z.x k) (Z.u k) ⟨i, h1⟩ = b.eval (Z.x k) (Z.u k) ⟨i, h2⟩ := by
      rintro a _ rfl i h1 h2; rfl
    have e2 : v.con.eval (Z.x k) (Z.u k) i = conRow q (Z.x k) (Z.u k) := key _ _ (by rw [hwg, ew]) i i.2 hi
    have hne : mulRow cs q ≠ 0 := by
      have h3 := hR.strict k hk _ (List.get_mem _ ⟨j, hjl⟩) ⟨i, hi⟩ (e2.symm.trans h1)
      rwa [lam_eq (show (cs k).ineq[j]? = some ((cs k).ineq.get ⟨j, hjl⟩) by simp [hjl]) ⟨i, hi⟩] at h3
    have h4 := (hact ⟨q, e2.symm.trans h1⟩).trans hlam2
    rw [← e1, h2, zero_sub, abs_neg] at h4
    exact absurd (hm q hne) (not_lt.mpr h4)
  · intro e he hce hci
    have hrows : ‖fun q : ActivePlace p cs Z => rowOf p cs Z q.1 (restU p.N Z')‖ ≤ e := by
      rw [pi_norm_le_iff_of_nonneg he]
      rintro ⟨⟨k, ⟨j, i⟩ | ⟨j, i⟩⟩, hq⟩
      · rw [hrow, Real.norm_eq_abs]
        obtain ⟨w, hw, i', -, -, -, e2⟩ := mulRow_inl (cs := cs) hs.eqCons k j i
        rw [e2]
        exact hce k (Nat.lt_succ_iff.mp k.2) w hw i'
      · rw [hrow, Real.norm_eq_abs]
        obtain ⟨w, hw, i', -, -, -, e2⟩ := mulRow_inr (cs := cs) hs.ineqCons k j i
        rw [e2] at hq ⊢
        exact hci k (Nat.lt_succ_iff.mp k.2) w hw i' hq
    obtain ⟨b1, b2⟩ := H2 (restU p.N Z') (actMul p cs Z c') (hU.trans hrr2) (hlam2.trans hr2')
    have hB : κ2 * (‖lagD (objOf p cs Z) (fun q : ActivePlace p cs Z => rowOf p cs Z q.1) (restU p.N Z') (actMul p cs Z c')‖
        + ‖fun q : ActivePlace p cs Z => rowOf p cs Z q.1 (restU p.N Z')‖) ≤ κ2 * (S + 1) * (ε + e) := by
      rw [mul_assoc]
      refine mul_le_mul_of_nonneg_left ?_ hκ2.le
      nlinarith [mul_nonneg hS0 he]
    have hA : 0 ≤ κ2 * (S + 1) * (ε + e) := by positivity
    have hA1 : κ2 * (S + 1) * (ε + e) ≤ κ2 * (S + 1) * (C3 + 1) * (ε + e) := by nlinarith
    have hA2 : C3 * (κ2 * (S + 1) * (ε + e)) ≤ κ2 * (S + 1) * (C3 + 1) * (ε + e) := by nlinarith
    refine ⟨(norm_controls (by positivity)).mp ((b1.trans hB).trans hA1), fun k hk i => ?_, multsWithin_of (by positivity) hs fun q => ?_⟩
    · have h1 := H3 (restU p.N Z') (hU.trans hrr3)
      have h2 := (norm_le_pi_norm ((fun k : Fin (p.N + 1) => openLoop p Z (extU p.N Z (restU p.N Z')) k) - fun k : Fin (p.N + 1) => openLoop p Z (extU p.N Z (restU p.N Z)) k)
        ⟨k, Nat.lt_succ_of_le hk⟩)
      have h3 := norm_le_pi_norm ((((fun k : Fin (p.N + 1) => openLoop p Z (extU p.N Z (restU p.N Z')) k) - fun k : Fin (p.N + 1) => openLoop p Z (extU p.N Z (restU p.N Z)) k)
        ⟨k, Nat.lt_succ_of_le hk⟩)) i
      have e1 : Z'.x k i - Z.x k i = ((((fun k : Fin (p.N + 1) => openLoop p Z (extU p.N Z (restU p.N Z')) k) - fun k : Fin (p.N + 1) => openLoop p Z (extU p.N Z (restU p.N Z)) k)
        ⟨k, Nat.lt_succ_of_le hk⟩)) i := by
        show _ = openLoop p Z (extU p.N Z (restU p.N Z')) k i - openLoop p Z (extU p.N Z (restU p.N Z)) k i
        rw [states_rest hZ' ht k hk, states_rest hZ sameTimes_self k hk]
      rw [e1, ← Real.norm_eq_abs]
      exact (((h3.trans h2).trans h1).trans (mul_le_mul_of_nonneg_left (b1.trans hB) hC3.le)).trans hA2
    · by_cases hq : conRow q (Z.x q.1) (Z.u q.1) = 0
      · exact (((hact ⟨q, hq⟩).trans b2).trans hB).trans hA1
      · rw [hsup q hq, regular_supported hR.kkt q hq, sub_zero, abs_zero]
        exact hA.trans hA1

end Altro.Props
