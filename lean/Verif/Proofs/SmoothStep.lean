import Verif.Proofs.SmoothOuter

/-!
# One outer iteration on a smooth problem
-/

namespace Altro.Props
open Altro.Spec Matrix ILQR AL
variable {n m : ℕ} {p : DynProblem n m ℝ} {cs : ℕ → ALCost n m ℝ} {Y : Traj (Fin n → ℝ) (Fin m → ℝ) ℝ} {μ ρ M : ℝ}

/-- The largest recorded violation bounds the stored values. -/
theorem stored_viol {cs' : ℕ → ALCost n m ℝ} {Zc : Traj (Fin n → ℝ) (Fin m → ℝ) ℝ} (hf : (alLaw p).Fresh cs' Zc) {ν : ℝ} (h0 : 0 ≤ ν)
    (hν : (alKernel p).viol cs' ≤ ν) : ∀ k ≤ p.N, (∀ v ∈ (cs' k).eq, ∀ i, |v.c i| ≤ ν) ∧ ∀ v ∈ (cs' k).ineq, ∀ i, v.c i ≤ ν := by
  have hst : ∀ k ≤ p.N, Stored (cs' k) (Zc.x k) (Zc.u k) := fun k hk => stored_of_values _ _ _ (hf k hk)
  have H := (viol_le_iff p cs' Zc hst h0).mp hν
  refine fun k hk => ⟨fun v hv i => ?_, fun v hv i => ?_⟩
  · have := H ⟨.equality, fun Z => v.con.eval (Z.x k) (Z.u k) i, v.lam i, v.pen i⟩ ((mem_rows p cs' _).mpr ⟨k, hk, .inl ⟨v, hv, i, rfl⟩⟩)
    rw [(hst k hk).1 v hv]
    exact this
  · have := H ⟨.inequality, fun Z => v.con.eval (Z.x k) (Z.u k) i, v.lam i, v.pen i⟩ ((mem_rows p cs' _).mpr ⟨k, hk, .inr ⟨v, hv, i, rfl⟩⟩)
    rw [(hst k hk).2 v hv]
    exact (le_max_right _ _).trans this

/-- From a small gradient of the Lagrangian and accurate stored values to an approximate Karush-Kuhn-Tucker point. -/
theorem near_kkt (h : SmoothProblem p cs Y μ) (hρ : 0 < ρ) {M' : ℝ} {cs' up : ℕ → ALCost n m ℝ} (hcs : Near p cs ρ M cs') (hup : Near p cs ρ M' up)
    (e : ∀ k ≤ p.N, up k = (cs' k).updateDuals) {Z Zc : Traj (Fin n → ℝ) (Fin m → ℝ) ℝ} (hZ : DynFeasible (alKernel p) Z)
    (ht : SameTimes (alKernel p) Z Y) (hf : (alLaw p).Fresh up Zc) {a ε : ℝ} (hst : ∀ k ≤ p.N, StoredUpTo (cs' k) (Z.x k) (Z.u k) a) (ha : a ≤ ε)
    (hg : gradSq p Y (fun k z => mulLagGrad (mulOf (up k)) (cs k) z) (ctl p.N Z) ≤ ε ^ 2) {Λ : ℝ}
    (hΛ : ∀ k ≤ p.N, ∀ v ∈ (cs' k).ineq, ∀ i, |v.lam i| ≤ Λ) :
    NearKKT p up Z ε ((alKernel p).viol up + ε) (Λ / ρ + ε) := by
  obtain ⟨hs1, hs2⟩ := lagrangian_smooth h hup.static hρ hup.pen
  have hv := stored_viol hf (viol_nonneg p up) le_rfl
  refine ⟨hZ.init, hZ.step, fun k hk => ?_, fun k hk => ?_, nearlyStationaryOf hs1 hs2 hZ ht hg, fun k hk => ?_, fun k hk => ?_⟩
  · have h1 := (hv k hk).1
    rw [e k hk] at h1 ⊢
    simp only [ALCost.updateDuals, List.forall_mem_map] at h1 ⊢
    intro v hv i
    have h2 : |v.c i| ≤ (alKernel p).viol up := h1 v hv i
    have h3 := abs_le.mp ((hst k hk).1 v hv i)
    show |v.con.eval (Z.x k) (Z.u k) i| ≤ _
    have h4 := abs_le.mp h2
    exact abs_le.mpr ⟨by linarith, by linarith⟩
  · have h1 := (hv k hk).2
    rw [e k hk] at h1 ⊢
    simp only [ALCost.updateDuals, List.forall_mem_map] at h1 ⊢
    intro v hv i
    have h2 : v.c i ≤ (alKernel p).viol up := h1 v hv i
    have h3 := abs_le.mp ((hst k hk).2 v hv i)
    show v.con.eval (Z.x k) (Z.u k) i ≤ _
    linarith
  · rw [e k hk]
    simp only [ALCost.updateDuals, List.forall_mem_map]
    exact fun v _ i => min_le_left _ _
  · rw [e k hk]
    simp only [ALCost.updateDuals, List.forall_mem_map]
    intro v hv
    show ∀ i : Fin v.con.p, min 0 (v.lam i - v.pen i * v.c i) = 0 ∨ -(Λ / ρ + ε) ≤ v.con.eval (Z.x k) (Z.u k) i
    intro i
    rcases le_or_gt 0 (v.lam i - v.pen i * v.c i) with h1 | h1
    · exact .inl (min_eq_left h1)
    · refine .inr ?_
      rw [(hcs.pen k hk).2 v hv] at h1
      have h2 := (abs_le.mp (hΛ k hk v hv i)).1
      have h3 := abs_le.mp ((hst k hk).2 v hv i)
      have h4 : -(Λ / ρ) < v.c i := by
        rw [← neg_div, div_lt_iff₀ hρ]
        nlinarith
      linarith

/-- What an outer iteration starting in `s` gets from its inner solve, which ends in `t`; `up` are the cost objects after the update of the
multipliers. -/
structure OuterStep (p : DynProblem n m ℝ) (cs : ℕ → ALCost n m ℝ) (Y : Traj (Fin n → ℝ) (Fin m → ℝ) ℝ) (ρ M M' R ε : ℝ) (T : ℕ)
    (s t : St (Fin n → ℝ) (Fin m → ℝ) ℝ (ALCost n m ℝ) (KP n m ℝ)) (up : ℕ → ALCost n m ℝ) : Prop where
  status : t.status = .kSolved
  total : t.stats.total ≤ s.stats.total + T
  times : SameTimes (alKernel p) t.Z Y
  aligned : Aligned t.stats
  controls : ∀ k i, |ctl p.N t.Z k i| ≤ R
  core : ∀ k, (t.cs k).core = (s.cs k).core
  near : Near p cs ρ M t.cs
  update : Near p cs ρ M' up
  stored : ∃ Zc, (alLaw p).Fresh t.cs Zc ∧ ∀ k ≤ p.N, StoredUpTo (t.cs k) (t.Z.x k) (t.Z.u k) ε
  kkt : ∀ Λ, (∀ k ≤ p.N, ∀ v ∈ (t.cs k).ineq, ∀ i, |v.lam i| ≤ Λ) → NearKKT p up t.Z ε ((alKernel p).viol up + ε) (Λ / ρ + ε)

theorem rollout_openLoop {s : St (Fin n → ℝ) (Fin m → ℝ) ℝ (ALCost n m ℝ) (KP n m ℝ)} (ht : SameTimes (alKernel p) s.Z Y) :
    ctl p.N (rollout (alKernel p) s).Z = ctl p.N s.Z ∧
    ∀ k ≤ p.N, (rollout (alKernel p) s).Z.x k = openLoop p Y (ctl p.N (rollout (alKernel p) s).Z) k := by
  obtain ⟨r1, r2, r3, -, -⟩ := rolloutTo_spec (alKernel p) s.Z p.N
  refine ⟨?_, fun k hk => (openLoop_ctl (rollout_feasible (alKernel p) s) ⟨fun k hk => ?_, fun k hk => ?_⟩ k hk).symm⟩
  · funext k; unfold ctl
    rw [(rollout_alternative (p := p) s).2]
  · exact (congrFun r2 k).trans (ht.t k hk)
  · exact (congrFun r3 k).trans (ht.h k hk)

theorem outer_step (h : SmoothProblem p cs Y μ) (hμ : 0 < μ) (hN : p.N ≠ 0) (hρ : 0 < ρ) (hM : 0 ≤ M) (R : ℝ) :
    ∃ M' R' W, 0 ≤ M' ∧ ∀ ε, 0 < ε → ∃ rb γ0 : ℝ, 0 < rb ∧ 0 < γ0 ∧ ∀ γ, 0 < γ → ∃ β : ℝ, 0 < β ∧ ∀ d, 0 < d → ∃ T : ℕ, ∀ (o : Opts ℝ) (fuel : ℕ)
      (s : St (Fin n → ℝ) (Fin m → ℝ) ℝ (ALCost n m ℝ) (KP n m ℝ)), StepOptions o rb β → o.regMin * o.regFactor ≤ rb → γ ≤ o.gradTol →
      o.gradTol ≤ γ0 → d ≤ unitDecrease o μ → (T : ℤ) < o.maxInner → (s.stats.total : ℤ) + T < o.maxTotal →
      Near p cs ρ M s.cs → SameTimes (alKernel p) s.Z Y → Aligned s.stats → (∀ k i, |ctl p.N s.Z k i| ≤ R) →
      (∀ a1 a2, Clears p W a1 a2 → SolveWithin (alKernel p) o (limited o a1 a2) (fuel + 1) s) ∧
      ∃ t, ILQR.solve (alKernel p) o (fuel + 1) s = some t ∧
        OuterStep p cs Y ρ M M' R' ε T s t (eachCost (alKernel p) alOps.updateDuals t).cs := by
  obtain ⟨Jb, hJ⟩ := start_bound h hρ M R
  obtain ⟨R', W, hR', H⟩ := (h.family hρ hM).solves hμ hN Jb
  obtain ⟨b, hb, hB⟩ := con_bound h R'
  refine ⟨M + ρ * (b + 1), R', W, by positivity, fun ε hε => ?_⟩
  obtain ⟨τ, hτ, hu⟩ := mult_uniform h (M + ρ * b) R' (η := ε ^ 2 / 2) (by positivity)
  set κ := min (min (τ / ρ) ε) 1 with hκ
  have hκ0 : 0 < κ := lt_min (lt_min (by positivity) hε) one_pos
  have hκ1 : ρ * κ ≤ τ := by
    have : κ ≤ τ / ρ := (min_le_left _ _).trans (min_le_left _ _)
    rw [le_div_iff₀ hρ] at this; linarith
  obtain ⟨rb, γ0, hrb, hγ0, H⟩ := H (ε / 2) κ (ctlDist p Y cs) (by positivity) hκ0 (ctlDist_continuous h) ctlDist_self
  refine ⟨rb, γ0, hrb, hγ0, fun γ hγ => ?_⟩
  obtain ⟨β, hβ, H⟩ := H γ hγ
  refine ⟨β, hβ, fun d hd => ?_⟩
  obtain ⟨T, H⟩ := H d hd
  refine ⟨T, fun o fuel s ho hrm g1 g0 hdo hi htot hs htm hal hc => ?_⟩
  obtain ⟨e1, e2⟩ := rollout_openLoop (p := p) (s := s) htm
  obtain ⟨w, t, ht, st⟩ := H o fuel s ho hrm g1 g0 hdo hi htot hs htm hal (hJ _ _ hs e2 (by rw [e1]; exact hc))
  refine ⟨w, t, ht, ?_⟩
  set up := (eachCost (alKernel p) alOps.updateDuals t).cs with hup'
  have eup : ∀ k ≤ p.N, up k = (t.cs k).updateDuals := fun k hk => if_pos hk
  have hnear : Near p cs ρ M t.cs := hs.of_core fun k _ => st.core k
  obtain ⟨Zc, hf, hx, hD⟩ := st.stored
  have hst := stored_upTo h hnear.static st.feas st.times hf hx hD
  have hcon := hB t.cs t.Z hnear.static (fun k hk => (openLoop_ctl st.feas st.times k hk).symm) st.controls
  have hκ2 : κ ≤ 1 := min_le_right _ _
  have hκε : κ ≤ ε := (min_le_left _ _).trans (min_le_right _ _)
  have hcb : ∀ k ≤ p.N, (∀ v ∈ (t.cs k).eq, ∀ i, |v.c i| ≤ b + 1) ∧ ∀ v ∈ (t.cs k).ineq, ∀ i, |v.c i| ≤ b + 1 := by
    intro k hk
    refine ⟨fun v hv i => ?_, fun v hv i => ?_⟩
    · have h1 := abs_le.mp ((hst k hk).1 v hv i)
      have h2 := abs_le.mp ((hcon k hk).1.1 v hv i)
      exact abs_le.mpr ⟨by linarith, by linarith⟩
    · have h1 := abs_le.mp ((hst k hk).2 v hv i)
      have h2 := abs_le.mp ((hcon k hk).1.2 v hv i)
      exact abs_le.mpr ⟨by linarith, by linarith⟩
  have hnup : Near p cs ρ (M + ρ * (b + 1)) up := hnear.update hρ hcb eup
  have hfu : (alLaw p).Fresh up Zc := by
    intro k hk
    have := hf k hk
    show (up k).values = (up k).static.valuesAt _ _
    rw [eup k hk, ALCost.updateDuals_static]
    refine Eq.trans ?_ this
    simp only [ALCost.values, ALCost.updateDuals, List.map_map]
    rfl
  refine ⟨st.status, st.total, st.times, st.aligned, st.controls, st.core, hnear, hnup,
    ⟨Zc, hf, fun k hk => ⟨fun v hv i => ((hst k hk).1 v hv i).trans hκε, fun v hv i => ((hst k hk).2 v hv i).trans hκε⟩⟩, fun Λ hΛ => ?_⟩
  refine near_kkt h hρ hnear hnup eup st.feas st.times hfu hst hκε ?_ hΛ
  -- the gradient of the Lagrangian with the new multipliers
  have hol := openLoop_ctl st.feas st.times
  let U := ctl p.N t.Z
  let z : ℕ → Z n m := fun k => (openLoop p Y U k, U k)
  let θ : Mults := fun k => if k ≤ p.N then mulOf (updAt (t.cs k) (z k)) else 0
  let θ' : Mults := fun k => if k ≤ p.N then mulOf (up k) else 0
  have hS := h.congr hnear.static hρ hnear.pen
  have hθ : ∀ k b' j i, |θ k b' j i| ≤ M + ρ * b := by
    intro k b' j i
    by_cases hk : k ≤ p.N
    · have hcl := (hcon k hk).2.1
      rw [← hol k hk] at hcl
      have hz : 0 ≤ M + ρ * b := by positivity
      simp only [θ, if_pos hk]
      cases b'
      · refine getMul_le hz ?_ j i
        simp only [updAt, List.forall_mem_map]
        exact fun v hv => updated_le (v.evalC (z k).1 (z k).2) hρ ((hnear.pen k hk).2 v hv) (hnear.ineq k hk v hv) (hcl.2 v hv)
      · refine getMul_le hz ?_ j i
        simp only [updAt, List.forall_mem_map]
        exact fun v hv => updated_le (v.evalC (z k).1 (z k).2) hρ ((hnear.pen k hk).1 v hv) (hnear.eq k hk v hv) (hcl.1 v hv)
    · simp only [θ, if_neg hk]
      show |(0 : ℝ)| ≤ _
      rw [abs_zero]; positivity
  have hθ' : ∀ k b' j i, |θ' k b' j i - θ k b' j i| ≤ τ := by
    intro k b' j i
    by_cases hk : k ≤ p.N
    · obtain ⟨s1, s2⟩ := hst k hk
      obtain ⟨c1, c2⟩ := eval_ctl h hnear.static t.Z hk (t.Z.x k)
      simp only [θ, θ', if_pos hk, eup k hk]
      cases b'
      · refine (getMul_close hρ hκ0.le (z k) (t.cs k).ineq (fun v hv => ⟨(hnear.pen k hk).2 v hv, ?_⟩) j i).trans hκ1
        show ∀ i, |v.c i - v.con.eval (openLoop p Y (ctl p.N t.Z) k) (ctl p.N t.Z k) i| ≤ κ
        rw [hol k hk, ← c2 v hv]
        exact s2 v hv
      · refine (getMul_close hρ hκ0.le (z k) (t.cs k).eq (fun v hv => ⟨(hnear.pen k hk).1 v hv, ?_⟩) j i).trans hκ1
        show ∀ i, |v.c i - v.con.eval (openLoop p Y (ctl p.N t.Z) k) (ctl p.N t.Z k) i| ≤ κ
        rw [hol k hk, ← c1 v hv]
        exact s1 v hv
    · simp only [θ, θ', if_neg hk]
      show |(0 : ℝ) - 0| ≤ _
      rw [sub_zero, abs_zero]; exact hτ.le
  have hfin := hu θ θ' hθ hθ' U st.controls
  have q1 : gradSq p Y (fun k z => mulLagGrad (mulOf (up k)) (cs k) z) U = gradSq p Y (fun k z => mulLagGrad (θ' k) (cs k) z) U :=
    gradSq_congr fun k hk => by simp only [θ', if_pos hk]
  have q2 : gradSq p Y (fun k z => mulLagGrad (θ k) (cs k) z) U = gradSq p Y (fun k z => ((t.cs k).gradient z.1 z.2).1) U :=
    gradSq_congr fun k hk => by
      simp only [θ, if_pos hk]
      exact (gradient_eq_upd (hnear.static k hk) (hnear.pen k hk)
        (fun v hv => stale_zero_of_buf ((hS.knot k hk).buf v hv)) (z k)).symm
  have q3 := st.grad
  rw [q1]
  rw [q2] at hfin
  show gradSq p Y (fun k z => mulLagGrad (θ' k) (cs k) z) U ≤ _
  nlinarith [sq_nonneg ε]

end Altro.Props
