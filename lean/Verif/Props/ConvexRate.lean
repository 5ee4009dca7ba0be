import Verif.Proofs.ConvexRate
import Verif.Props.ConvexWholeExamples
import Verif.Props.RegularExamples

/-!
# C106: the rate of the outer iterations on smooth convex problems
-/

namespace Altro.Props
open Altro.Spec Matrix ILQR AL
variable {n m : ℕ} {p : DynProblem n m ℝ} {cs c0 : ℕ → ALCost n m ℝ} {Y Z : Traj (Fin n → ℝ) (Fin m → ℝ) ℝ} {μ φ θ : ℝ}

/-- With curvature in the controls a Karush-Kuhn-Tucker point of a convex problem with independent derivatives and strict complementarity is a regular solution. -/
theorem C106_regular (h : SmoothProblem p c0 Y μ) (hc : ConvexProblem p c0) (hm : StrongFrom p c0 Z θ) (hθ : 0 < θ) (hS : TwiceSmooth p cs Z) (hK : KKT p cs Z)
    (hL : LICQ p cs Z) (hC : StrictComplementarity p cs Z) (hsp : SameProblem p c0 cs) (ht : SameTimes (alKernel p) Z Y) : RegularSolution p cs Z :=
  ⟨hK, hL, hC, second_of_strong h hc hm hθ hS hK hsp ht⟩

/-- A whole solve of a smooth convex problem with curvature `θ` in the controls and a solution `Z` with multipliers in `cs` that are strictly complementary and belong to independent derivatives.  There are
constants `κ`, `ρ0` that depend on the problem only.  For every initial penalty `ρ` and every `i0` with `ρ * φ ^ i0` at least `ρ0`, every number of outer iterations and every size of the
initial controls, and every accuracy `ε` that is small enough, a solve with suitable options returns.  If it took `j + 1 > i0` outer iterations, then controls, states and multipliers are those of the
solution up to `2 κ ε` plus a constant times `∏ κ / ρ i` over the penalties `ρ i = ρ * φ ^ i` of all but the first `i0` of them.  Nothing is assumed about where inner solves end. -/
theorem C106_rate (h : SmoothProblem p c0 Y μ) (hμ : 0 < μ) (hN : p.N ≠ 0) (hφ : 1 ≤ φ) (hsc : ∀ k ≤ p.N, ScaleU (c0 k) φ) (hc : ConvexProblem p c0)
    (hm : ∀ Z, StrongFrom p c0 Z θ) (hθ : 0 < θ) (hS : TwiceSmooth p cs Z) (hK : KKT p cs Z) (hL : LICQ p cs Z) (hC : StrictComplementarity p cs Z)
    (hsp : SameProblem p c0 cs) (hZY : SameTimes (alKernel p) Z Y) :
    ∃ κ ρ0 : ℝ, 0 < κ ∧ 0 < ρ0 ∧ ∀ (ρ : ℝ) (i0 : ℕ), 0 < ρ → ρ0 ≤ ρ * φ ^ i0 → ∀ (J : ℕ) (R : ℝ), 0 ≤ R → ∃ W ε1 : ℝ, 0 < ε1 ∧ ∀ ε, 0 < ε → ε ≤ ε1 →
      ∃ rb γ0 : ℝ, 0 < rb ∧ 0 < γ0 ∧ ∀ γ, 0 < γ → ∃ β : ℝ, 0 < β ∧ ∀ d, 0 < d → ∃ T : ℕ, ∀ (o : Opts ℝ) (fuel : ℕ)
      (s : ALSt (Fin n → ℝ) (Fin m → ℝ) ℝ (ALCost n m ℝ) (KP n m ℝ)),
      StepOptions (unlimited o) rb β → (o.checkBounds = true → Clears p W o.stateMax o.controlMax) → o.regMin * o.regFactor ≤ rb → γ ≤ o.gradTol → o.gradTol ≤ γ0 →
      d ≤ unitDecrease o μ → (T : ℤ) < o.maxInner → 1 ≤ o.maxOuter → o.maxOuter ≤ J → o.maxOuter * T < o.maxTotal → o.resetDuals = true →
      o.initialPenalty = ρ → s.st.cs = c0 → SameTimes (alKernel p) s.st.Z Y → (∀ k < p.N, ∀ i, |s.st.Z.u k i| ≤ R) →
      ∃ s' j prev, AL.solve (alKernel p) alOps o (ILQR.solve (alKernel p) o (fuel + 1)) s = some s' ∧ s'.st.stats.outer = j + 1 ∧
        NearSolved p o c0 (ρ * φ ^ j) ε s' prev ∧
        (i0 ≤ j → ∃ B, B ≤ 2 * κ * ε + (∏ i ∈ Finset.Ico i0 (j + 1), κ / (ρ * φ ^ i)) * √(((rows p cs).map fun r => r.lam ^ 2).sum + 1) ∧
          ControlsWithin p Z s'.st.Z B ∧ StatesWithin p Z s'.st.Z B ∧ MultsWithin p cs s'.st.cs B) := by
  have hR := C106_regular h hc (hm Z) hθ hS hK hL hC hsp hZY
  have hsym := SameProblem.symm hsp
  have hs : Saddle (Alternative p Y) (plainCost p c0) (rows p c0) Z ((rows p cs).map Row.lam) := C94_kkt_saddle h hc hsp hK hZY
  obtain ⟨κ, r0, hκ, hr0, HR⟩ := C105_rate hS hR
  set star := (rows p cs).map Row.lam with hstar
  set Q := ((rows p cs).map fun r => r.lam ^ 2).sum with hQ
  have hQs : normSq star = Q := by rw [hstar, normSq, List.map_map]; rfl
  have hQ0 : 0 ≤ Q := by rw [← hQs]; exact normSq_nonneg _
  set D := √(Q + 1) with hD
  have hD0 : 0 ≤ D := Real.sqrt_nonneg _
  set r := min r0 (1 / (2 * κ)) with hr
  have hr1 : 0 < r := lt_min hr0 (by positivity)
  have hφ0 : 0 < φ := lt_of_lt_of_le one_pos hφ
  refine ⟨κ, max (2 * κ * (2 + D)) (2 * (Q + 1) / (θ * r ^ 2)), hκ, lt_max_of_lt_left (by positivity), fun ρ i0 hρ hρ0 J R hR0 => ?_⟩
  have hP1 : 2 * κ * (2 + D) ≤ ρ * φ ^ i0 := (le_max_left _ _).trans hρ0
  have hP2 : (Q + 1) / (ρ * φ ^ i0) ≤ θ * r ^ 2 / 2 := by
    have := (le_max_right _ _).trans hρ0
    rw [div_le_iff₀ (by positivity)] at this
    rw [div_le_iff₀ (by positivity)]
    linarith
  obtain ⟨W, H⟩ := solve_trace h hμ hN hφ0 hsc hρ hR0 J
  set E := max 1 ((2 * (ρ * φ ^ J) + 2) * |stepErr p Z star W W|) with hE
  have hE1 : 1 ≤ E := le_max_left _ _
  have hE0 : 0 < E := by linarith
  have hEi : ∀ i ≤ J, (2 * (ρ * φ ^ i) + 2) * stepErr p Z star W W ≤ E := by
    intro i hi
    refine le_trans ?_ (le_max_right _ _)
    refine (mul_le_mul_of_nonneg_left (le_abs_self _) (by positivity)).trans (mul_le_mul_of_nonneg_right ?_ (abs_nonneg _))
    have := mul_le_mul_of_nonneg_left (pow_le_pow_right₀ hφ hi) hρ.le
    linarith
  set V := J / (ρ * φ ^ i0) + 1 with hV
  have hV1 : 0 < V := by positivity
  refine ⟨W, min r (min (1 / (E * (J + 1))) (θ * r ^ 2 / (2 * (E * V)))), lt_min hr1 (lt_min (by positivity) (by positivity)), fun ε hε hεr => ?_⟩
  have ε1 : ε ≤ r := hεr.trans (min_le_left _ _)
  have ε2 : J * (ε * E) ≤ 1 := by
    have := (hεr.trans (min_le_right _ _)).trans (min_le_left _ _)
    rw [le_div_iff₀ (by positivity)] at this
    nlinarith
  have ε3 : ε * E * V ≤ θ * r ^ 2 / 2 := by
    have := (hεr.trans (min_le_right _ _)).trans (min_le_right _ _)
    rw [le_div_iff₀ (by positivity)] at this
    linarith
  obtain ⟨rb, γ0, h1, h2, H⟩ := H ε hε
  refine ⟨rb, γ0, h1, h2, fun γ hγ => ?_⟩
  obtain ⟨β, h3, H⟩ := H γ hγ
  refine ⟨β, h3, fun d hd => ?_⟩
  obtain ⟨T, H⟩ := H d hd
  refine ⟨T, fun o fuel s ho hw hr' g1 g0 hdo hi o1 oJ htot hrd hpen hcs hY hu => ?_⟩
  obtain ⟨s', j, prev, c1, c2, c3, c4, c5, c6, c7⟩ := H o fuel s ho hw hr' g1 g0 hdo hi o1 oJ htot hrd hpen hcs hY hu
  refine ⟨s', j, prev, c1, c2, c4, fun hij => ?_⟩
  have hjJ : j ≤ J := by omega
  -- the initial multipliers are zero
  have hnear := near_init (p := p) hrd (by rw [hpen]; exact hρ) hcs
  have hlam : ∀ r ∈ rows p (AL.init (alKernel p) alOps o s).st.cs, r.lam = 0 := by
    intro r hr
    obtain ⟨k, hk, ⟨v, hv, i, rfl⟩ | ⟨v, hv, i, rfl⟩⟩ := (mem_rows p _ r).mp hr
    · exact abs_nonpos_iff.mp (hnear.eq k hk v hv i)
    · exact abs_nonpos_iff.mp (hnear.ineq k hk v hv i)
  have hgap : gap (rows p (AL.init (alKernel p) alOps o s).st.cs) star = Q :=
    (gap_zero _ star (hs.congr (rows_static p hnear.static).symm).len hlam).trans hQs
  -- the first iterations
  obtain ⟨q, t1, t2, t3⟩ := convex_drop h hc hm hθ.le hφ0 hsc hs hε.le hE1 i0 j ρ Q _ c5 hij hρ (fun i hi => hEi i (by omega)) (fun r hr _ => (hlam r hr).le) hgap.le
  have hεE : 0 ≤ ε * E := by positivity
  have hq : gap (rows p q.st.cs) star ≤ Q + 1 := by
    have : (i0 : ℝ) ≤ J := by exact_mod_cast hij.trans hjJ
    nlinarith
  -- the others
  have hjr : ((j - i0 : ℕ) : ℝ) ≤ J := by exact_mod_cast (Nat.sub_le _ _).trans hjJ
  have hstay := convex_stays h hc hm hθ hφ hsc hs hε.le hE1 hr1.le (j - i0) (ρ * φ ^ i0) (Q + 1) q t1 (by positivity) (fun i hi => by
      rw [mul_assoc, ← pow_add]; exact hEi (i0 + i) (by omega)) t2 hq (by
      have e : (Q + 1 + ((j - i0 : ℕ) : ℝ) * (ε * E)) / (ρ * φ ^ i0) ≤ (Q + 1) / (ρ * φ ^ i0) + ε * E * (J / (ρ * φ ^ i0)) := by
        rw [add_div, mul_div_assoc', mul_comm (ε * E)]
        refine add_le_add_right (div_le_div_of_nonneg_right (mul_le_mul_of_nonneg_right hjr hεE) (by positivity)) _
      have e2 : ε * E * V = ε * E * (J / (ρ * φ ^ i0)) + ε * E := by rw [hV]; ring
      linarith)
  have hsq : SameProblem p cs q.st.cs := by
    have key : ∀ {j : ℕ} {ρ : ℝ} {q : ALSt (Fin n → ℝ) (Fin m → ℝ) ℝ (ALCost n m ℝ) (KP n m ℝ)}, OuterTrace p c0 Y φ ε W (unlimited o) (fuel + 1) s' j ρ q →
        SameProblem p c0 q.st.cs := by
      intro j ρ q tr
      have fin : ∀ {t : St (Fin n → ℝ) (Fin m → ℝ) ℝ (ALCost n m ℝ) (KP n m ℝ)} {M ρ : ℝ}, (∀ k, (t.cs k).core = (q.st.cs k).core) → Near p c0 ρ M t.cs → SameProblem p c0 q.st.cs := by
        intro t M ρ hcore hn
        have hst := same_of_static hn.static
        have cons : ∀ {κ : ConKind} {l l' : List (ConVal κ n m ℝ)}, l.map (·.core) = l'.map (·.core) → l.map (·.con) = l'.map (·.con) := by
          intro κ l l' h
          have := congrArg (List.map ConVal.con) h
          rw [List.map_map, List.map_map] at this
          exact this
        refine ⟨fun k hk => ?_, fun k hk => ?_, fun k hk => ?_⟩
        · obtain ⟨e1, -, -⟩ := ALCost.mk.inj (hcore k); exact e1.symm.trans (hst.cost k hk)
        · obtain ⟨-, e1, -⟩ := ALCost.mk.inj (hcore k); exact (cons e1).symm.trans (hst.eqCons k hk)
        · obtain ⟨-, -, e1⟩ := ALCost.mk.inj (hcore k); exact (cons e1).symm.trans (hst.ineqCons k hk)
      cases tr with
      | last hsol st => exact fin st.core st.near
      | more hsol st => exact fin st.core st.near
    have := key t1
    exact ⟨fun k hk => (this.cost k hk).trans (hsym.cost k hk), fun k hk => (this.eqCons k hk).trans (hsym.eqCons k hk),
      fun k hk => (this.ineqCons k hk).trans (hsym.ineqCons k hk)⟩
  have hε1 : κ * ε ≤ 1 / 2 := by
    have := ε1.trans (min_le_right _ _)
    rw [le_div_iff₀ (by positivity)] at this
    linarith
  obtain ⟨-, B, b1, b2⟩ := regular_trace hκ hsym ⟨fun k hk => (hZY.t k hk).symm, fun k hk => (hZY.h k hk).symm⟩
    (fun c c' Z' ρ ε d a1 a2 a3 a4 a5 a6 a7 a8 => HR c c' Z' ρ ε d a1 a2 a3 a4 a5 (fun k hk i => (a6 k hk i).trans (min_le_left _ _)) a7 (a8.trans (min_le_left _ _)))
    hφ hε.le ε1 hε1 t1 _ D (1 + D) (Nat.lt_succ_self _) hstay hD0 (mults_of_gap hsq hq) (by linarith) (by linarith) (by linarith)
  refine ⟨B, b1.trans ?_, b2⟩
  have h4 : 0 ≤ κ * ε * ((1 : ℝ) / 2) ^ (j - i0) := by positivity
  have e : ∏ i ∈ Finset.range (j - i0 + 1), κ / (ρ * φ ^ i0 * φ ^ i) = ∏ i ∈ Finset.Ico i0 (j + 1), κ / (ρ * φ ^ i) := by
    rw [Finset.prod_Ico_eq_prod_range, show j + 1 - i0 = j - i0 + 1 by omega]
    exact Finset.prod_congr rfl fun i _ => by rw [pow_add, mul_assoc]
  rw [e]
  linarith

/-- All hypotheses are met by the problem with the constraint `u² + u ≤ 0`: with the default scaling `10`, from every initial penalty and every start. -/
example : ∃ κ ρ0 : ℝ, 0 < κ ∧ 0 < ρ0 ∧ ∀ (ρ : ℝ) (i0 : ℕ), 0 < ρ → ρ0 ≤ ρ * 10 ^ i0 → ∀ (J : ℕ) (R : ℝ), 0 ≤ R → ∃ W ε1 : ℝ, 0 < ε1 ∧ ∀ ε, 0 < ε → ε ≤ ε1 →
      ∃ rb γ0 : ℝ, 0 < rb ∧ 0 < γ0 ∧ ∀ γ, 0 < γ → ∃ β : ℝ, 0 < β ∧ ∀ d, 0 < d → ∃ T : ℕ, ∀ (o : Opts ℝ) (fuel : ℕ)
      (s : ALSt (Fin 1 → ℝ) (Fin 1 → ℝ) ℝ (ALCost 1 1 ℝ) (KP 1 1 ℝ)),
      StepOptions (unlimited o) rb β → (o.checkBounds = true → Clears tinyP W o.stateMax o.controlMax) → o.regMin * o.regFactor ≤ rb → γ ≤ o.gradTol → o.gradTol ≤ γ0 →
      d ≤ unitDecrease o 1 → (T : ℤ) < o.maxInner → 1 ≤ o.maxOuter → o.maxOuter ≤ J → o.maxOuter * T < o.maxTotal → o.resetDuals = true →
      o.initialPenalty = ρ → s.st.cs = tinyCosts [] [paraCon] → SameTimes (alKernel tinyP) s.st.Z (tinyZ 0) → (∀ k < tinyP.N, ∀ i, |s.st.Z.u k i| ≤ R) →
      ∃ s' j prev, AL.solve (alKernel tinyP) alOps o (ILQR.solve (alKernel tinyP) o (fuel + 1)) s = some s' ∧ s'.st.stats.outer = j + 1 ∧
        NearSolved tinyP o (tinyCosts [] [paraCon]) (ρ * 10 ^ j) ε s' prev ∧
        (i0 ≤ j → ∃ B, B ≤ 2 * κ * ε + (∏ i ∈ Finset.Ico i0 (j + 1), κ / (ρ * 10 ^ i)) *
            √(((rows tinyP (oneCon (fun a => a ^ 2 + a) (fun a => 2 * a + 1) (-1))).map fun r => r.lam ^ 2).sum + 1) ∧
          ControlsWithin tinyP (tinyZ 0) s'.st.Z B ∧ StatesWithin tinyP (tinyZ 0) s'.st.Z B ∧
          MultsWithin tinyP (oneCon (fun a => a ^ 2 + a) (fun a => 2 * a + 1) (-1)) s'.st.cs B) :=
  C106_rate (para_smooth (tinyZ 0)) one_pos one_ne_zero (φ := 10) (by norm_num)
    (tiny_cases ⟨fun v hv => absurd hv List.not_mem_nil, fun v hv => by obtain rfl := List.mem_singleton.mp hv; rfl⟩
      ⟨fun v hv => absurd hv List.not_mem_nil, fun v hv => absurd hv List.not_mem_nil⟩)
    para_convex para_strong one_pos (oneCon_twice (by fun_prop) _ _) active_regular.kkt active_regular.licq active_regular.strict
    ⟨tiny_cases rfl rfl, tiny_cases rfl rfl, tiny_cases rfl rfl⟩ ⟨fun _ _ => rfl, fun _ _ => rfl⟩

end Altro.Props
