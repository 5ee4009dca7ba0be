import Verif.Proofs.NewtonIter

/-!
# The loop near a minimiser
-/

namespace Altro.Props
open Altro.Spec Matrix ILQR
variable {n m : ℕ}
variable {p : DynProblem n m ℝ} {o : Opts ℝ} {fuel : ℕ} {μ M L R a C rb β : ℝ} {Zs : Traj (Fin n → ℝ) (Fin m → ℝ) ℝ}
  {cs : ℕ → ALCost n m ℝ} {s0 s s1 s' : St (Fin n → ℝ) (Fin m → ℝ) ℝ (ALCost n m ℝ) (KP n m ℝ)}

theorem decay_nonneg {A B : ℝ} (hA : 0 ≤ A) (hB : 0 ≤ B) : ∀ (i : ℕ) {E : ℝ}, 0 ≤ E → 0 ≤ decay A B i E
  | 0, _, h => h
  | i + 1, _, h => decay_nonneg hA hB i (by positivity)

theorem decay_mono {A B : ℝ} (hA : 0 ≤ A) (hB : 0 ≤ B) : ∀ (i : ℕ) {E E' : ℝ}, 0 ≤ E → E ≤ E' → decay A B i E ≤ decay A B i E'
  | 0, _, _, _, h => h
  | i + 1, E, E', h0, h => by
    have h0' := h0.trans h
    refine decay_mono hA hB i (by positivity) (mul_le_mul ?_ h h0 (by positivity))
    linarith [mul_le_mul_of_nonneg_left h hA]

theorem decay_zero (A B : ℝ) : ∀ i, decay A B i 0 = 0
  | 0 => rfl
  | i + 1 => by
    show decay A B i ((A * 0 + B) * 0) = 0
    rw [mul_zero, decay_zero A B i]

/-- Without the linear term the recursion is quadratic. -/
theorem decay_quadratic (A : ℝ) : ∀ (i : ℕ) (E : ℝ), A * decay A 0 i E = (A * E) ^ 2 ^ i
  | 0, E => by simp [decay]
  | i + 1, E => by
    show A * decay A 0 i ((A * E + 0) * E) = _
    rw [decay_quadratic A i, add_zero, pow_succ' 2 i, pow_mul]
    congr 1
    ring

/-- With it, at least geometric. -/
theorem decay_geometric {A B : ℝ} (hA : 0 ≤ A) (hB : 0 ≤ B) {θ : ℝ} (hθ1 : θ ≤ 1) :
    ∀ (i : ℕ) {E : ℝ}, 0 ≤ E → A * E + B ≤ θ → decay A B i E ≤ θ ^ i * E
  | 0, E, _, _ => by simp [decay]
  | i + 1, E, h0, h => by
    have hθ0 : 0 ≤ θ := le_trans (by positivity) h
    have h1 : (A * E + B) * E ≤ θ * E := mul_le_mul_of_nonneg_right h h0
    have h2 : (A * E + B) * E ≤ E := h1.trans (by nlinarith)
    have h3 := decay_geometric hA hB hθ1 i (E := (A * E + B) * E) (by positivity)
      (le_trans (by linarith [mul_le_mul_of_nonneg_left h2 hA]) h)
    refine h3.trans ?_
    rw [pow_succ, mul_assoc]
    exact mul_le_mul_of_nonneg_left h1 (pow_nonneg hθ0 _)

theorem NewtonAt.zero_of_optimal (h : NewtonAt p Zs μ M L R a s) (hμ : 0 < μ) (hM : 0 ≤ M) (hL : 0 ≤ L) (ha : 0 ≤ a)
    (hC : ∀ (kd r : ℕ → KP n m ℝ) (rho : ℝ), BoundedSweep p.N μ M a kd r rho → rho ≤ 1 → SweepBounds p.N μ C kd r rho)
    (hC0 : 0 < C) {E0 : ℝ} (hsm : NewtonSmall p.N μ M L a C rb E0) (hE0 : gapSq p.N s.Z Zs ≤ E0) (hopt : Optimal p s.cs s.Z) :
    gapSq p.N s.Z Zs = 0 := by
  obtain ⟨-, hs⟩ := h.prob.toCoreBase.sweep (rho := 0) le_rfl
  have hff := h.prob.still.still s (fun _ => rfl) h.feas hopt _ _ hs
  have hB := hC _ _ _ (h.bounded ha le_rfl hs) zero_le_one
  refine (h.numbers hμ hM hL ha le_rfl hsm.rb0 hs hC0 hB hsm hE0).2.2.1 ?_
  refine Finset.sum_eq_zero fun k hk => ?_
  rw [hff k (Finset.mem_range.mp hk), nsq_zero]

/-- What the loop ends with. -/
structure NewtonEnd (p : DynProblem n m ℝ) (s0 t : St (Fin n → ℝ) (Fin m → ℝ) ℝ (ALCost n m ℝ) (KP n m ℝ)) : Prop where
  status : t.status = .kSolved
  core : ∀ k, (t.cs k).core = (s0.cs k).core
  feas : DynFeasible (alKernel p) t.Z
  times : SameTimes (alKernel p) t.Z s0.Z
  fresh : (alLaw p).Fresh t.cs t.Z
  aligned : Aligned t.stats

/-- One iteration of the loop from a trajectory that is not optimal. -/
theorem NewtonCore.step (h : NewtonCore p s0.cs Zs μ M L R) (hμ : 0 < μ) (hM : 0 ≤ M) (hL : 0 ≤ L) (ha : 0 ≤ a)
    (hC : ∀ (kd r : ℕ → KP n m ℝ) (rho : ℝ), BoundedSweep p.N μ M a kd r rho → rho ≤ 1 → SweepBounds p.N μ C kd r rho)
    (hC0 : 0 < C) {E0 : ℝ} (hsm : NewtonSmall p.N μ M L a C rb E0) (ho : FullStep o rb) (hN : p.N ≠ 0)
    (hg : 0 < o.gradTol) {b : St (Fin n → ℝ) (Fin m → ℝ) ℝ (ALCost n m ℝ) (KP n m ℝ)} (hb : Running p rb s0 b)
    (hat : NewtonAt p Zs μ M L R a b) (hE : gapSq p.N b.Z Zs ≤ E0) (hopt : ¬ Optimal p s0.cs b.Z)
    (hi : (b.stats.inner : ℤ) + 1 < o.maxInner) (ht : (b.stats.total : ℤ) + 1 < o.maxTotal) :
    ∃ q, ILQR.iterate (alKernel p) o (fuel + 1) b = some q ∧ q.stats.inner = b.stats.inner + 1 ∧
      q.stats.total = b.stats.total + 1 ∧
      gapSq p.N q.Z Zs ≤ (quadRate p.N μ L a * gapSq p.N b.Z Zs + regRate p.N μ M a * rb ^ 2) * gapSq p.N b.Z Zs ∧
      gapSq p.N q.Z Zs ≤ gapSq p.N b.Z Zs ∧
      ((ILQR.isDone o q = ({ q with status := .kSolved }, true) ∧ NewtonEnd p s0 { q with status := .kSolved }) ∨
        (ILQR.isDone o q = (q, false) ∧ Running p rb s0 q ∧
          ¬ (dropRate p.N μ M a * gapSq p.N b.Z Zs < o.costTol ∧ dropRate p.N μ M a * gapSq p.N b.Z Zs < o.gradTol ^ 2))) := by
  have hcs : ∀ Z, trajCost p b.cs Z = trajCost p s0.cs Z := fun Z =>
    trajCost_congr p _ _ _ _ hb.core (fun _ _ => rfl) (fun _ _ => rfl)
  have hopt' : ¬ Optimal p b.cs b.Z := fun hh => hopt (optimal_core (fun k => (hb.core k).symm) hh)
  obtain ⟨q, hit, hd⟩ := hat.iterate (o := o) (fuel := fuel) hμ hM hL ha hC hC0 hsm ho hN hb.rho0 hb.rho1 hE hopt'
  obtain ⟨n1, n2, -, -⟩ := updateConvergence_counters (alKernel p) q
  obtain ⟨r1, r2, hc⟩ := iterate_records o (alCostLaw p) OrderLaws.ofField hb.aligned hit
  have hdrop := hd.drop
  have hup := hd.dropUp
  rw [hcs, hcs] at hdrop hup
  have hrec : Stats.back2 ((updateConvergence (alKernel p) q).stats.col .cost) = trajCost p s0.cs q.Z ∧
      Stats.back ((updateConvergence (alKernel p) q).stats.col .dJ) = trajCost p s0.cs b.Z - trajCost p s0.cs q.Z := by
    rcases hc with ⟨-, -, c2, c3⟩ | ⟨c0, -⟩
    · rw [total_eq_trajCost, hcs] at c2
      rw [hb.recorded, total_eq_trajCost, hcs] at c3
      exact ⟨c2, c3⟩
    · have : q.Z = b.Z := c0
      rw [this] at hdrop
      exact absurd hdrop (lt_irrefl _)
  have htq : SameTimes (alKernel p) q.Z s0.Z :=
    ⟨fun k hk => (hd.times.t k hk).trans (hb.times.t k hk), fun k hk => (hd.times.h k hk).trans (hb.times.h k hk)⟩
  have hcore : ∀ k, (q.cs k).core = (s0.cs k).core := fun k => (hd.core k).trans (hb.core k)
  have hgrad : Stats.back ((updateConvergence (alKernel p) q).stats.col .grad) = normalizedGain (alKernel p) q :=
    (updateConvergence_cols (P := alKernel p) q (hd.aligned hb.aligned) hd.len).2.2.2.1
  have hE00 := gapSq_nonneg p.N b.Z Zs
  refine ⟨_, hit, by rw [n1, hd.inner], by rw [n2, hd.total], hd.dist,
    (show gapSq p.N q.Z Zs ≤ gapSq p.N b.Z Zs by linarith [hd.half]), ?_⟩
  rcases isDone_converged (o := o) (updateConvergence (alKernel p) q) hd.status (by rw [n1, hd.inner]; push_cast; omega)
    (by rw [n2, hd.total]; push_cast; omega) with ⟨d1, d2, e⟩ | ⟨d, e⟩
  · exact .inl ⟨e, rfl, hcore, hd.feas, htq, hd.fresh, r1⟩
  · refine .inr ⟨e, ⟨hcore, hd.feas, htq, ?_, hd.rho0, hd.rho1, r1, hd.status, ?_⟩, ?_⟩
    · exact ⟨fun k hk => (hd.timesb.t k hk).trans (hb.times.t k hk), fun k hk => (hd.timesb.h k hk).trans (hb.times.h k hk)⟩
    · rw [if_neg (by rw [n1]; omega), if_neg r2]; exact hrec.1
    · rintro ⟨g1, g2⟩
      rw [hrec.2, hgrad] at d
      refine d ⟨by linarith, ?_⟩
      by_contra hge
      have := gain_large hN hg (not_lt.mp hge)
      linarith [hd.ff]

theorem NewtonCore.loop (h : NewtonCore p s0.cs Zs μ M L R) (hμ : 0 < μ) (hM : 0 ≤ M) (hL : 0 ≤ L) (ha : 0 ≤ a)
    (hC : ∀ (kd r : ℕ → KP n m ℝ) (rho : ℝ), BoundedSweep p.N μ M a kd r rho → rho ≤ 1 → SweepBounds p.N μ C kd r rho)
    (hC0 : 0 < C) {E0 : ℝ} (hsm : NewtonSmall p.N μ M L a C rb E0) (ho : FullStep o rb) (hN : p.N ≠ 0) (hJ : 0 < o.costTol)
    (hg : 0 < o.gradTol) (hdyn : DynBound p s0.Z a) (ht0 : SameTimes (alKernel p) s0.Z Zs) (hR : (1 + growth p.N a) * E0 ≤ R) :
    ∀ (T r : ℕ) (b : St (Fin n → ℝ) (Fin m → ℝ) ℝ (ALCost n m ℝ) (KP n m ℝ)), Running p rb s0 b → gapSq p.N b.Z Zs ≤ E0 →
      dropRate p.N μ M a * decay (quadRate p.N μ L a) (regRate p.N μ M a * rb ^ 2) T (gapSq p.N b.Z Zs) < o.costTol →
      dropRate p.N μ M a * decay (quadRate p.N μ L a) (regRate p.N μ M a * rb ^ 2) T (gapSq p.N b.Z Zs) < o.gradTol ^ 2 →
      T + 2 ≤ r → (b.stats.inner : ℤ) + T + 1 < o.maxInner → (b.stats.total : ℤ) + T + 1 < o.maxTotal →
      ∃ t i, solveLoop (alKernel p) o (fuel + 1) r b = some t ∧ NewtonEnd p s0 t ∧ 1 ≤ i ∧ i ≤ T + 2 ∧
        t.stats.total ≤ b.stats.total + i ∧
        gapSq p.N t.Z Zs ≤ decay (quadRate p.N μ L a) (regRate p.N μ M a * rb ^ 2) i (gapSq p.N b.Z Zs) := by
  have hA0 := quadRate_nonneg (L := L) p.N hμ ha
  have hreg0 := regRate_nonneg p.N hμ hM ha
  have hB0 : 0 ≤ regRate p.N μ M a * rb ^ 2 := by positivity
  have hgr := growth_nonneg p.N ha
  have hsig := sig_nonneg hM ha p.N
  have hQ0 : 0 ≤ dropRate p.N μ M a := by unfold dropRate; positivity
  set A := quadRate p.N μ L a with hA
  set B := regRate p.N μ M a * rb ^ 2 with hB
  set Q := dropRate p.N μ M a with hQ
  have hat' : ∀ b : St (Fin n → ℝ) (Fin m → ℝ) ℝ (ALCost n m ℝ) (KP n m ℝ), Running p rb s0 b → gapSq p.N b.Z Zs ≤ E0 →
      NewtonAt p Zs μ M L R a b := fun b hb hE => ⟨h.congr hb.core, hb.feas,
    ⟨fun k hk => (hb.times.t k hk).trans (ht0.t k hk), fun k hk => (hb.times.h k hk).trans (ht0.h k hk)⟩, hb.sameTimes,
    hdyn.congr hb.times, le_trans (mul_le_mul_of_nonneg_left hE (by linarith)) hR⟩
  intro T
  induction T with
  | zero =>
    intro r b hb hE h1 h2 hr hi ht
    obtain ⟨r, rfl⟩ : ∃ r', r = r' + 2 := ⟨r - 2, by omega⟩
    push_cast at hi ht
    have hat := hat' b hb hE
    by_cases hopt : Optimal p s0.cs b.Z
    · obtain ⟨t, e1, e2, e3, e4, e5, e6⟩ := hb.optimal (o := o) (fuel := fuel) h.still hopt hN ho.regMin ho.regMax ho.lim hJ hg
        (by omega) (by omega) r
      refine ⟨t, 2, e1, ⟨e3, e2.core, e2.feas, e2.times, e2.fresh, e6⟩, by omega, by omega, e4, ?_⟩
      rw [e5, hat.zero_of_optimal hμ hM hL ha hC hC0 hsm hE (optimal_core hb.core hopt), decay_zero]
    · obtain ⟨q, e1, e2, e3, e4, e5, hcase⟩ := h.step (o := o) (fuel := fuel) hμ hM hL ha hC hC0 hsm ho hN hg hb hat hE hopt
        (by omega) (by omega)
      unfold solveLoop
      rw [e1]
      simp only
      rcases hcase with ⟨d1, d2⟩ | ⟨-, -, d3⟩
      · rw [d1]
        exact ⟨_, 1, rfl, d2, le_rfl, by omega, le_of_eq e3, e4⟩
      · exact absurd ⟨h1, h2⟩ d3
  | succ T ih =>
    intro r b hb hE h1 h2 hr hi ht
    obtain ⟨r, rfl⟩ : ∃ r', r = r' + 2 := ⟨r - 2, by omega⟩
    push_cast at hi ht
    have hat := hat' b hb hE
    by_cases hopt : Optimal p s0.cs b.Z
    · obtain ⟨t, e1, e2, e3, e4, e5, e6⟩ := hb.optimal (o := o) (fuel := fuel) h.still hopt hN ho.regMin ho.regMax ho.lim hJ hg
        (by omega) (by omega) r
      refine ⟨t, 2, e1, ⟨e3, e2.core, e2.feas, e2.times, e2.fresh, e6⟩, by omega, by omega, e4, ?_⟩
      rw [e5, hat.zero_of_optimal hμ hM hL ha hC hC0 hsm hE (optimal_core hb.core hopt), decay_zero]
    · obtain ⟨q, e1, e2, e3, e4, e5, hcase⟩ := h.step (o := o) (fuel := fuel) hμ hM hL ha hC hC0 hsm ho hN hg hb hat hE hopt
        (by omega) (by omega)
      unfold solveLoop
      rw [e1]
      simp only
      rcases hcase with ⟨d1, d2⟩ | ⟨d1, d2, -⟩
      · rw [d1]
        exact ⟨_, 1, rfl, d2, le_rfl, by omega, le_of_eq e3, e4⟩
      · rw [d1]
        have hq0 := gapSq_nonneg p.N q.Z Zs
        have hmono := fun i => decay_mono hA0 hB0 i hq0 e4
        obtain ⟨t, i, f1, f2, f3, f4, f5, f6⟩ := ih (r + 1) q d2 (e5.trans hE)
          (lt_of_le_of_lt (mul_le_mul_of_nonneg_left (hmono T) hQ0) h1)
          (lt_of_le_of_lt (mul_le_mul_of_nonneg_left (hmono T) hQ0) h2) (by omega) (by rw [e2]; push_cast; omega)
          (by rw [e3]; push_cast; omega)
        exact ⟨t, i + 1, f1, f2, by omega, by omega, by omega, f6.trans (hmono i)⟩

/-- A whole inner solve from a start near the minimiser. -/
theorem NewtonCore.solves (h : NewtonCore p s.cs Zs μ M L R) (hμ : 0 < μ) (hM : 0 ≤ M) (hL : 0 ≤ L) (ha : 0 ≤ a)
    (hC : ∀ (kd r : ℕ → KP n m ℝ) (rho : ℝ), BoundedSweep p.N μ M a kd r rho → rho ≤ 1 → SweepBounds p.N μ C kd r rho)
    (hC0 : 0 < C) {E0 : ℝ} (hsm : NewtonSmall p.N μ M L a C rb E0) (ho : FullStep o rb) (hN : p.N ≠ 0) (hJ : 0 < o.costTol)
    (hg : 0 < o.gradTol) (hdyn : DynBound p s.Z a) (ht0 : SameTimes (alKernel p) s.Z Zs) (hR : (1 + growth p.N a) * E0 ≤ R)
    (hal : Aligned s.stats) (hE : gapSq p.N s.Z Zs ≤ E0) (T : ℕ)
    (h1 : dropRate p.N μ M a * decay (quadRate p.N μ L a) (regRate p.N μ M a * rb ^ 2) T (gapSq p.N s.Z Zs) < o.costTol)
    (h2 : dropRate p.N μ M a * decay (quadRate p.N μ L a) (regRate p.N μ M a * rb ^ 2) T (gapSq p.N s.Z Zs) < o.gradTol ^ 2)
    (hi : (T : ℤ) + 1 < o.maxInner) (ht : (s.stats.total : ℤ) + T + 1 < o.maxTotal) :
    ∃ t i, ILQR.solve (alKernel p) o (fuel + 1) s = some t ∧ NewtonEnd p s t ∧ 1 ≤ i ∧ i ≤ T + 2 ∧
      t.stats.total ≤ s.stats.total + i ∧
      gapSq p.N t.Z Zs ≤ decay (quadRate p.N μ L a) (regRate p.N μ M a * rb ^ 2) i (gapSq p.N s.Z Zs) := by
  obtain ⟨hr, e1, e2, e3⟩ := start_running (p := p) (o := o) (rb := rb) hal ho.reg0 ho.reg1
  have hu : gapSq p.N (start (alKernel p) o s).Z Zs = gapSq p.N s.Z Zs := by
    refine Finset.sum_congr rfl fun k _ => ?_
    rw [e1]
    show nsq ((rollout (alKernel p) s).Z.u k - _) = _
    rw [show (rollout (alKernel p) s).Z.u = s.Z.u from (rolloutTo_spec (alKernel p) s.Z p.N).1]
    rfl
  obtain ⟨t, i, f1, f2, f3, f4, f5, f6⟩ := h.loop (o := o) (fuel := fuel) hμ hM hL ha hC hC0 hsm ho hN hJ hg hdyn ht0 hR T
    o.maxInner.toNat (start (alKernel p) o s) hr (by rw [hu]; exact hE) (by rw [hu]; exact h1) (by rw [hu]; exact h2) (by omega)
    (by rw [e2]; push_cast; omega) (by rw [e3]; omega)
  rw [e3] at f5
  rw [hu] at f6
  exact ⟨t, i, f1, f2, f3, f4, f5, f6⟩

end Altro.Props
