import Verif.Proofs.ConvexAL
import Verif.Props.ALSolver

/-!
# C94: the whole solver solves smooth convex problems
-/

namespace Altro.Props
open Altro.Spec Matrix ILQR AL
variable {n m : ℕ} {p : DynProblem n m ℝ} {cs : ℕ → ALCost n m ℝ} {Y zs : Traj (Fin n → ℝ) (Fin m → ℝ) ℝ} {star : List ℝ} {μ φ θ : ℝ}

theorem NearSolved.mono {o : Opts ℝ} {ρ ε ε' : ℝ} {s : ALSt (Fin n → ℝ) (Fin m → ℝ) ℝ (ALCost n m ℝ) (KP n m ℝ)} {prev : ℕ → ALCost n m ℝ}
    (h : NearSolved p o cs ρ ε s prev) (h0 : 0 ≤ ε) (h1 : ε ≤ ε') : NearSolved p o cs ρ ε' s prev :=
  ⟨h.cost, h.eqCons, h.ineqCons, h.eqPen, h.ineqPen, h.update,
    fun Λ hΛ => C88_mono (h.kkt Λ hΛ) h0 h1 (by linarith) (by linarith), h.status⟩

/-- The whole solver on a smooth convex problem that has a solution `zs` with multipliers `star`.  For every accuracy `η`, initial penalty
`ρ`, tolerance `τ`, size `R` of the initial controls, and every number `J` of outer iterations for which the sum of squares of penalty times
tolerance exceeds the squared length of `star`, there are bounds on the options such that every solve within them (limits on states and controls, if tested, leave room for `W`; maximal penalty and
number of outer iterations large enough for `J` iterations) reports success within `J` outer iterations.  The objective is
then close to the optimum from above and below, multipliers are not further from `star` than at the start, and with
curvature `θ` in the controls these are close to those of the solution. -/
theorem C94_solves_convex (h : SmoothProblem p cs Y μ) (hμ : 0 < μ) (hN : p.N ≠ 0) (hφ : 1 ≤ φ) (hsc : ∀ k ≤ p.N, ScaleU (cs k) φ)
    (hc : ConvexProblem p cs) (hm : ∀ Z, StrongFrom p cs Z θ) (hθ : 0 ≤ θ)
    (hs : Saddle (Alternative p Y) (objective p cs) (rows p cs) zs star) {η ρ τ R : ℝ} (hη : 0 < η) (hρ : 0 < ρ) (hτ : 0 ≤ τ) (hR : 0 ≤ R) (J : ℕ)
    (hJ : (star.map (· ^ 2)).sum < ∑ i ∈ Finset.range J, (ρ * φ ^ i * τ) ^ 2) :
    ∃ W rb γ0 : ℝ, 0 < rb ∧ 0 < γ0 ∧ ∀ γ, 0 < γ → ∃ β : ℝ, 0 < β ∧ ∀ d, 0 < d → ∃ T : ℕ, ∀ (o : Opts ℝ) (fuel : ℕ)
      (s : ALSt (Fin n → ℝ) (Fin m → ℝ) ℝ (ALCost n m ℝ) (KP n m ℝ)),
      StepOptions (unlimited o) rb β →
      (o.checkBounds = true → Clears p W o.stateMax o.controlMax) → o.regMin * o.regFactor ≤ rb → γ ≤ o.gradTol → o.gradTol ≤ γ0 → d ≤ unitDecrease o μ → (T : ℤ) < o.maxInner →
      τ ≤ o.conTol → (J : ℤ) < o.maxOuter → (J : ℤ) * T < o.maxTotal → (∀ j < J, ρ * φ ^ j ≤ o.maxPenalty) →
      o.resetDuals = true → o.initialPenalty = ρ →
      s.st.cs = cs → SameTimes (alKernel p) s.st.Z Y → (∀ k < p.N, ∀ i, |s.st.Z.u k i| ≤ R) →
      ∃ s' j prev, AL.solve (alKernel p) alOps o (ILQR.solve (alKernel p) o (fuel + 1)) s = some s' ∧ s'.status = .kSolved ∧ j < J ∧
        s'.st.stats.outer = j + 1 ∧ s'.st.stats.total ≤ J * T ∧ NearSolved p o cs (ρ * φ ^ j) η s' prev ∧
        objective p cs s'.st.Z ≤ objective p cs zs + 2 * (star.map (· ^ 2)).sum / (ρ * φ ^ j) + η ∧
        objective p cs zs ≤ objective p cs s'.st.Z + (o.conTol + η) * (star.map (|·|)).sum ∧
        θ * controlDist p s'.st.Z zs ^ 2 ≤ (star.map (· ^ 2)).sum / (ρ * φ ^ j) + η ∧
        gap (rows p s'.st.cs) star ≤ (star.map (· ^ 2)).sum + η := by
  obtain ⟨B, L, hB, H⟩ := convex_loop h hμ hN hφ hsc hc hm hθ hs J ρ 0 R hρ le_rfl
  set Q := (star.map (· ^ 2)).sum with hQ
  set W := ∑ i ∈ Finset.range J, (ρ * φ ^ i * τ) ^ 2 with hW
  set ε := min (min η (η / (B + 1))) ((W - Q) / (B + 1)) with hε
  have hB1 : 0 < B + 1 := by linarith
  have hWQ : 0 < W - Q := by linarith
  have ε0 : 0 < ε := lt_min (lt_min hη (by positivity)) (by positivity)
  have ε1 : ε ≤ η := (min_le_left _ _).trans (min_le_left _ _)
  have ε2 : ε * B ≤ η := by
    have : ε ≤ η / (B + 1) := (min_le_left _ _).trans (min_le_right _ _)
    rw [le_div_iff₀ hB1] at this
    linarith
  have ε3 : ε * B < W - Q := by
    have : ε ≤ (W - Q) / (B + 1) := min_le_right _ _
    rw [le_div_iff₀ hB1] at this
    linarith
  obtain ⟨rb, γ0, h1, h2, H⟩ := H ε ε0
  refine ⟨L, rb, γ0, h1, h2, fun γ hγ => ?_⟩
  obtain ⟨β, h3, H⟩ := H γ hγ
  refine ⟨β, h3, fun d hd => ?_⟩
  obtain ⟨T, H⟩ := H d hd
  refine ⟨T, fun o fuel s ho hw hr g1 g0 hdo hi hct oJ htot hmp hrd hpen hcs hY hu => ?_⟩
  subst hpen
  obtain ⟨i1, i2, i3, i4⟩ := AL.init_facts (alKernel p) alOps o s
  obtain ⟨r, hr'⟩ := Int.eq_ofNat_of_zero_le (show 0 ≤ o.maxOuter by omega)
  have hnear := near_init (p := p) hrd hρ hcs
  have hlam : ∀ r ∈ rows p (AL.init (alKernel p) alOps o s).st.cs, r.lam = 0 := by
    intro r hr
    obtain ⟨k, hk, ⟨v, hv, i, rfl⟩ | ⟨v, hv, i, rfl⟩⟩ := (mem_rows p _ r).mp hr
    · exact abs_nonpos_iff.mp (hnear.eq k hk v hv i)
    · exact abs_nonpos_iff.mp (hnear.ineq k hk v hv i)
  have hlen : star.length = (rows p (AL.init (alKernel p) alOps o s).st.cs).length :=
    (hs.congr (rows_static p hnear.static).symm).len
  have hgap : gap (rows p (AL.init (alKernel p) alOps o s).st.cs) star = Q := gap_zero _ star hlen hlam
  rcases H (unlimited o) fuel ho hr g1 g0 hdo hi (hτ.trans hct) r (AL.init (alKernel p) alOps o s) (by omega)
    (by rw [i1]; show _ = o.maxOuter; push_cast; omega) (by rw [i2]; show _ < o.maxTotal; push_cast; omega) hnear (by rw [i4]; exact hY) aligned_init
    (by
      rw [i4]
      intro k i
      unfold ctl
      split
      · rename_i hk; exact hu k hk i
      · simpa using hR)
    (fun r hr _ => (hlam r hr).le) with ⟨s', j, prev, w, c1, c2, c3, c4, c5, c6⟩ | c
  · rw [i1, zero_add] at c3
    rw [i2, zero_add] at c4
    rw [hgap] at c6
    replace c5 := NearSolved.limits c5
    have hst : s'.status = .kSolved ∧ (alKernel p).viol s'.st.cs < o.conTol := by
      rcases c5.status with hst | ⟨_, ⟨_, hp⟩ | ⟨_, hp⟩⟩
      · exact hst
      · exact absurd hp (not_lt.mpr (hmp j c2))
      · rw [c3] at hp; omega
    refine ⟨s', j, prev, ?_, hst.1, c2, c3, c4, NearSolved.mono c5 ε0.le ε1, ?_, ?_, ?_, ?_⟩
    · unfold AL.solve
      rw [hr', Int.toNat_natCast]
      exact (outer_either r fun hb => w _ _ (hw hb)).trans c1
    · have := c6.above
      rw [show normSq star = Q from rfl, ← two_mul] at this
      exact this.trans (add_le_add_right ε2 _)
    · refine c6.below.trans (add_le_add_right (mul_le_mul_of_nonneg_right ?_ (normOne_nonneg star)) _)
      linarith [hst.2]
    · exact c6.controls.trans (add_le_add_right ε2 _)
    · have := c6.mults
      have h0 := sq_nonneg (o.initialPenalty * φ ^ j * (alKernel p).viol s'.st.cs)
      linarith
  · exfalso
    rw [hgap] at c
    change ∑ i ∈ Finset.range J, (o.initialPenalty * φ ^ i * o.conTol) ^ 2 ≤ _ at c
    have : W ≤ ∑ i ∈ Finset.range J, (o.initialPenalty * φ ^ i * o.conTol) ^ 2 := by
      refine Finset.sum_le_sum fun i _ => pow_le_pow_left₀ (by positivity) (mul_le_mul_of_nonneg_left hct (by positivity)) 2
    linarith

/-- Enough outer iterations exist for every tolerance. -/
theorem enough_iterations (l : List ℝ) {ρ τ : ℝ} (hρ : 0 < ρ) (hτ : 0 < τ) (hφ : 1 ≤ φ) :
    ∃ J : ℕ, (l.map (· ^ 2)).sum < ∑ i ∈ Finset.range J, (ρ * φ ^ i * τ) ^ 2 := by
  obtain ⟨J, hJ⟩ := exists_nat_gt ((l.map (· ^ 2)).sum / (ρ * τ) ^ 2)
  refine ⟨J, ?_⟩
  rw [div_lt_iff₀ (by positivity)] at hJ
  refine lt_of_lt_of_le hJ ?_
  have := Finset.card_nsmul_le_sum (Finset.range J) (fun i => (ρ * φ ^ i * τ) ^ 2) ((ρ * τ) ^ 2) fun i _ =>
    pow_le_pow_left₀ (by positivity) (mul_le_mul_of_nonneg_right (le_mul_of_one_le_right hρ.le (one_le_pow₀ hφ)) hτ.le) 2
  rwa [Finset.card_range, nsmul_eq_mul] at this

/-- Such options exist: other options given, from every start the solver reports success, with every tolerance and every accuracy. -/
theorem C94_solves (hμ : 0 < μ) (hN : p.N ≠ 0) (hφ : 1 ≤ φ) (d : Opts ℝ) {η : ℝ} (hη : 0 < η)
    (s : ALSt (Fin n → ℝ) (Fin m → ℝ) ℝ (ALCost n m ℝ) (KP n m ℝ)) (h : SmoothProblem p s.st.cs s.st.Z μ) (hsc : ∀ k ≤ p.N, ScaleU (s.st.cs k) φ)
    (hc : ConvexProblem p s.st.cs) (hm : ∀ Z, StrongFrom p s.st.cs Z θ) (hθ : 0 ≤ θ)
    (hs : Saddle (Alternative p s.st.Z) (objective p s.st.cs) (rows p s.st.cs) zs star)
    (d1 : 0 ≤ d.regMax) (d2 : 1 ≤ d.regFactor) (d3 : 0 < d.lsLower) (d4 : d.lsLower ≤ 1 / 4) (d5 : 3 ≤ d.lsUpper) (d6 : 1 < d.lsFactor)
    (d7 : 0 < d.costTol) (d8 : d.resetDuals = true) (d9 : 0 < d.initialPenalty) (d10 : 0 < d.conTol) :
    ∃ (γ r mp W : ℝ) (i j k l : ℤ), 0 < γ ∧ 0 < r ∧ ∀ (o : Opts ℝ) (w1 w2 : ℝ), (d.checkBounds = true → Clears p W w1 w2) →
      o = { d with gradTol := γ, regInitial := 0, regMin := r, lsMax := i, maxInner := j, maxTotal := k, maxOuter := l, maxPenalty := mp,
                   stateMax := w1, controlMax := w2 } →
      ∀ fuel, ∃ s' a prev, AL.solve (alKernel p) alOps o (ILQR.solve (alKernel p) o (fuel + 1)) s = some s' ∧ s'.status = .kSolved ∧
        NearSolved p o s.st.cs (d.initialPenalty * φ ^ a) η s' prev ∧
        objective p s.st.cs s'.st.Z ≤ objective p s.st.cs zs + 2 * (star.map (· ^ 2)).sum / (d.initialPenalty * φ ^ a) + η ∧
        objective p s.st.cs zs ≤ objective p s.st.cs s'.st.Z + (d.conTol + η) * (star.map (|·|)).sum ∧
        θ * controlDist p s'.st.Z zs ^ 2 ≤ (star.map (· ^ 2)).sum / (d.initialPenalty * φ ^ a) + η ∧ Alternative p s.st.Z s'.st.Z := by
  obtain ⟨J, hJ⟩ := enough_iterations star d9 d10 hφ
  let R := ∑ k ∈ Finset.range p.N, ∑ i, |s.st.Z.u k i|
  have hR : 0 ≤ R := Finset.sum_nonneg fun k _ => Finset.sum_nonneg fun i _ => abs_nonneg _
  have hu : ∀ k < p.N, ∀ i, |s.st.Z.u k i| ≤ R := fun k hk i =>
    (Finset.single_le_sum (f := fun i => |s.st.Z.u k i|) (fun i _ => abs_nonneg _) (Finset.mem_univ i)).trans
      (Finset.single_le_sum (f := fun k => ∑ i, |s.st.Z.u k i|) (fun k _ => Finset.sum_nonneg fun i _ => abs_nonneg _) (Finset.mem_range.mpr hk))
  obtain ⟨W, rb, γ0, h1, h2, h3⟩ := C94_solves_convex h hμ hN hφ hsc hc hm hθ hs hη d9 d10.le hR J hJ
  obtain ⟨β, h4, h5⟩ := h3 γ0 h2
  obtain ⟨i, hi⟩ := stepLength_small d6 h4
  have hf : 0 < d.regFactor := lt_of_lt_of_le one_pos d2
  have hr : 0 < rb / d.regFactor := by positivity
  let o : Opts ℝ := { d with gradTol := γ0, regInitial := 0, regMin := rb / d.regFactor, lsMax := (i + 1 : ℕ), maxOuter := J + 1,
                             maxPenalty := d.initialPenalty * φ ^ J }
  have hS : ∀ j k a b, StepOptions (unlimited { o with maxInner := j, maxTotal := k, stateMax := a, controlMax := b }) rb β := fun j k a b =>
    ⟨le_rfl, h1.le, hr.le, div_le_self h1.le d2, d1, d2, rfl, d3, d4, d5, d6.le,
      ⟨i, by show (i : ℤ) < ((i + 1 : ℕ) : ℤ); omega, ((hi i).2 le_rfl).le⟩, d7, h2⟩
  obtain ⟨T, hT⟩ := h5 _ (unitDecrease_pos (hS 0 0 0 0) hμ)
  refine ⟨γ0, rb / d.regFactor, d.initialPenalty * φ ^ J, W, (i + 1 : ℕ), T + 1, J * T + 1, J + 1, h2, hr, fun o' w1 w2 hw ho' fuel => ?_⟩
  subst ho'
  obtain ⟨s', a, prev, c1, c2, -, -, -, c3, c4, c5, c6, -⟩ := hT { o with maxInner := T + 1, maxTotal := J * T + 1, stateMax := w1, controlMax := w2 } fuel s (hS _ _ _ _) hw
    (by show rb / d.regFactor * d.regFactor ≤ rb; rw [div_mul_cancel₀ _ hf.ne']) le_rfl le_rfl le_rfl (by show (T : ℤ) < T + 1; omega)
    le_rfl (by show (J : ℤ) < J + 1; omega) (by show (J : ℤ) * T < J * T + 1; omega)
    (fun j hj => mul_le_mul_of_nonneg_left (pow_le_pow_right₀ hφ hj.le) d9.le) d8 rfl rfl ⟨fun _ _ => rfl, fun _ _ => rfl⟩ hu
  obtain ⟨f1, f2⟩ := C17_outer (fuel + 1) (by show (1 : ℤ) ≤ J + 1; omega) s s' c1
  exact ⟨s', a, prev, c1, c2, c3, c4, c5, c6, (alternative_same f2 _).mp ⟨f1.init, fun k hk => f1.step k hk⟩⟩

theorem mem_zip_map {α β : Type} (f : α → β) : ∀ (l : List α) (q : α × β), q ∈ l.zip (l.map f) → q.2 = f q.1
  | [], _, h => by simp at h
  | a :: l, q, h => by
    rw [List.map_cons, List.zip_cons_cons, List.mem_cons] at h
    rcases h with rfl | h
    · rfl
    · exact mem_zip_map f l q h

/-- The rows of two sets of cost objects of one problem differ in multipliers and penalties only. -/
theorem rows_same {ds : ℕ → ALCost n m ℝ} (hs : SameProblem p cs ds) : (rows p ds).map Row.sig = (rows p cs).map Row.sig := by
  have e : ∀ {κ : ConKind} (k : ℕ) (l l' : List (ConVal κ n m ℝ)), l.map (·.con) = l'.map (·.con) →
      (l.flatMap (conRows k)).map Row.sig = (l'.flatMap (conRows k)).map Row.sig := by
    intro κ k l l' h
    have e1 : ∀ l : List (ConVal κ n m ℝ), (l.flatMap (conRows k)).map Row.sig
        = (l.map (·.con)).flatMap fun c : Con n m ℝ => List.ofFn fun i : Fin c.p => (κ, fun Z : Traj (Fin n → ℝ) (Fin m → ℝ) ℝ => c.eval (Z.x k) (Z.u k) i) := by
      intro l
      rw [List.flatMap_map, List.map_flatMap]
      simp only [List.flatMap_def]
      refine congrArg List.flatten (List.map_congr_left fun v _ => ?_)
      simp only [conRows, List.map_ofFn]
      rfl
    rw [e1, e1, h]
  unfold rows
  rw [List.map_flatMap, List.map_flatMap]
  simp only [List.flatMap_def]
  refine congrArg List.flatten (List.map_congr_left fun k hk => ?_)
  have hk : k ≤ p.N := by simpa [Nat.lt_succ_iff] using hk
  simp only [knotRows, List.map_append]
  exact congrArg₂ _ (e k _ _ (hs.eqCons k hk)) (e k _ _ (hs.ineqCons k hk))

/-- A Karush-Kuhn-Tucker point of a convex problem is such a solution with its multipliers. -/
theorem C94_kkt_saddle (h : SmoothProblem p cs Y μ) (hc : ConvexProblem p cs) {ds : ℕ → ALCost n m ℝ} (hd : SameProblem p cs ds)
    (hK : KKT p ds zs) (ht : SameTimes (alKernel p) zs Y) :
    Saddle (Alternative p Y) (objective p cs) (rows p cs) zs ((rows p ds).map Row.lam) := by
  refine Saddle.congr (rows_same hd) ⟨by rw [List.length_map], ⟨hK.init, fun k hk => by
    rw [hK.step k hk, ht.t k hk.le, ht.h k hk]⟩, fun r hr => ?_, fun q hq hk => ?_, fun y hy => ?_⟩
  · obtain ⟨k, hk, ⟨v, hv, i, rfl⟩ | ⟨v, hv, i, rfl⟩⟩ := (mem_rows p ds r).mp hr
    · exact hK.primal.eq k hk v hv i
    · exact hK.primal.ineq k hk v hv i
  · have e : q.2 = q.1.lam := mem_zip_map _ _ q hq
    have hr := (List.of_mem_zip hq).1
    rw [e]
    obtain ⟨k, hk', ⟨v, hv, i, e'⟩ | ⟨v, hv, i, e'⟩⟩ := (mem_rows p ds q.1).mp hr
    · rw [e'] at hk; cases hk
    · rw [e']
      exact ⟨hK.dual k hk' v hv i, hK.slack k hk' v hv i⟩
  · have e : ∀ y, (((rows p ds).zip ((rows p ds).map Row.lam)).map fun q => q.2 * q.1.fn y).sum = ((rows p ds).map fun r => r.lam * r.fn y).sum := by
      intro y
      rw [List.zip_map_right, List.map_map]
      induction rows p ds with
      | nil => rfl
      | cons r l ih => simp only [List.zip_cons_cons, List.map_cons, List.sum_cons, ih, Function.comp, Prod.map, id]
    rw [e, e]
    have hsame := hd
    have := rows_gap (θ := 0) h hc (fun Z k hk δx δu => by
      rw [zero_div, zero_mul, add_zero]
      have hZ := (hc.from ⟨fun _ _ => rfl, fun _ _ => rfl, fun _ _ => rfl⟩ (h.derivativesAt (Z := { Z with t := Y.t, h := Y.h })
        ⟨fun _ _ => rfl, fun _ _ => rfl, fun _ _ => rfl⟩ ⟨fun _ _ => rfl, fun _ _ => rfl⟩)).cost k hk.le δx δu
      exact hZ) hsame ht le_rfl ((C88_exact zs).mpr hK) hy
    rw [zero_div, zero_mul, zero_mul, add_zero, add_zero] at this
    have e : ∀ Z, plainCost p ds Z = objective p cs Z := objective_congr hd
    rwa [e, e] at this

end Altro.Props
