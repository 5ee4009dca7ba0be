import Verif.Proofs.SmoothStep

/-!
# The outer loop on a smooth problem
-/

namespace Altro.Props
open Altro.Spec Matrix ILQR AL
variable {n m : ℕ} {p : DynProblem n m ℝ} {cs : ℕ → ALCost n m ℝ} {Y : Traj (Fin n → ℝ) (Fin m → ℝ) ℝ} {μ ρ M φ ε : ℝ}

theorem _root_.Altro.Spec.StepOptions.mono {o : Opts ℝ} {rb rb' β β' : ℝ} (h : StepOptions o rb β) (h1 : rb ≤ rb') (h2 : β ≤ β') :
    StepOptions o rb' β' := by
  obtain ⟨i, hi, hs⟩ := h.step
  exact ⟨h.reg0, h.reg1.trans h1, h.regMin, h.regMin1.trans h1, h.regMax, h.regFactor, h.lim, h.low, h.low1, h.up, h.factor,
    ⟨i, hi, hs.trans h2⟩, h.cost, h.grad⟩

theorem static_cons {c c' : ALCost n m ℝ} (e : c.static = c'.static) : c.cost = c'.cost ∧ c.eq.map (·.con) = c'.eq.map (·.con) ∧
    c.ineq.map (·.con) = c'.ineq.map (·.con) := by
  obtain ⟨e1, e2, e3⟩ := ALCost.mk.inj e
  have key : ∀ {κ : ConKind} {l l' : List (ConVal κ n m ℝ)}, l.map ConVal.static = l'.map ConVal.static → l.map (·.con) = l'.map (·.con) := by
    intro κ l l' h
    have := congrArg (List.map ConVal.con) h
    rw [List.map_map, List.map_map] at this
    exact this
  exact ⟨e1, key e2, key e3⟩

/-- The last outer iteration. -/
theorem done_solved (hρ : 0 < ρ) {M' R ε : ℝ} {T : ℕ} {o : Opts ℝ} {q : ALSt (Fin n → ℝ) (Fin m → ℝ) ℝ (ALCost n m ℝ) (KP n m ℝ)}
    {t : St (Fin n → ℝ) (Fin m → ℝ) ℝ (ALCost n m ℝ) (KP n m ℝ)}
    (st : OuterStep p cs Y ρ M M' R ε T q.st t (eachCost (alKernel p) alOps.updateDuals t).cs)
    (hd : (isDone o (body (alKernel p) alOps q t)).2 = true) (hout : (t.stats.outer : ℤ) + 1 ≤ o.maxOuter) (htot : (t.stats.total : ℤ) < o.maxTotal) :
    NearSolved p o cs ρ ε (isDone o (body (alKernel p) alOps q t)).1 t.cs := by
  obtain ⟨b1, b2, b3, b4, b5, b6, b7, b8⟩ := body_facts (alKernel p) alOps q t
  obtain ⟨ho, est⟩ := isDone_true o _ hd
  have hst := fun k hk => static_cons (st.near.static k hk)
  refine ⟨fun k hk => (hst k hk).1, fun k hk => (hst k hk).2.1, fun k hk => (hst k hk).2.2, fun k hk => (st.near.pen k hk).1,
    fun k hk => (st.near.pen k hk).2, fun k hk => ?_, fun Λ hΛ => ?_, ?_⟩
  · rw [est, b1]; exact if_pos hk
  · rw [est, b1, b2]; exact st.kkt Λ hΛ
  · rw [est, b1, b5]
    rw [b3, b5, b6, b7, b8] at ho
    have hv : ∀ {a b : ℝ}, Arith.lt a b = false → b ≤ a := fun h => by
      rw [Bool.eq_false_iff, ne_eq, Arith.lt_iff, not_lt] at h; exact h
    generalize hS : (isDone o (body (alKernel p) alOps q t)).1.status = S at ho ⊢
    cases ho with
    | innerFailed h => exact absurd st.status h
    | solved _ h => rw [Arith.lt_iff] at h; exact .inl ⟨rfl, h⟩
    | maxPenalty _ h hp =>
      rw [Arith.gt_iff] at hp
      exact .inr ⟨hv h, .inl ⟨rfl, lt_of_lt_of_le hp (maxPenalty_le p _ hρ.le st.update.pen)⟩⟩
    | maxOuter _ h _ h2 => exact .inr ⟨hv h, .inr ⟨rfl, by push_cast at h2 ⊢; omega⟩⟩
    | maxTotal _ _ _ _ h2 => omega

/-- A run of `j + 1` outer iterations from `q` to `s'`, the first one with penalty `ρ`, with controls and multipliers up to `W`. -/
inductive OuterTrace (p : DynProblem n m ℝ) (cs : ℕ → ALCost n m ℝ) (Y : Traj (Fin n → ℝ) (Fin m → ℝ) ℝ) (φ ε W : ℝ) (o : Opts ℝ) (fuel : ℕ)
    (s' : ALSt (Fin n → ℝ) (Fin m → ℝ) ℝ (ALCost n m ℝ) (KP n m ℝ)) : ℕ → ℝ → ALSt (Fin n → ℝ) (Fin m → ℝ) ℝ (ALCost n m ℝ) (KP n m ℝ) → Prop
  | last {ρ M M' R : ℝ} {T : ℕ} {q : ALSt (Fin n → ℝ) (Fin m → ℝ) ℝ (ALCost n m ℝ) (KP n m ℝ)} {t : St (Fin n → ℝ) (Fin m → ℝ) ℝ (ALCost n m ℝ) (KP n m ℝ)}
      (hsol : ILQR.solve (alKernel p) o fuel q.st = some t)
      (st : OuterStep p cs Y ρ M M' R ε T q.st t (eachCost (alKernel p) alOps.updateDuals t).cs)
      (hM : M' ≤ W) (hR : R ≤ W) (hcs : s'.st.cs = (eachCost (alKernel p) alOps.updateDuals t).cs) (hZ : s'.st.Z = t.Z) : OuterTrace p cs Y φ ε W o fuel s' 0 ρ q
  | more {ρ M M' R : ℝ} {T j : ℕ} {q : ALSt (Fin n → ℝ) (Fin m → ℝ) ℝ (ALCost n m ℝ) (KP n m ℝ)} {t : St (Fin n → ℝ) (Fin m → ℝ) ℝ (ALCost n m ℝ) (KP n m ℝ)}
      (hsol : ILQR.solve (alKernel p) o fuel q.st = some t)
      (st : OuterStep p cs Y ρ M M' R ε T q.st t (eachCost (alKernel p) alOps.updateDuals t).cs)
      (hM : M' ≤ W) (hR : R ≤ W) (hd : (isDone o (body (alKernel p) alOps q t)).2 = false)
      (hcs : ∀ k ≤ p.N, (next (alKernel p) alOps q t).st.cs k = ((eachCost (alKernel p) alOps.updateDuals t).cs k).updatePenalties)
      (rest : OuterTrace p cs Y φ ε W o fuel s' j (ρ * φ) (next (alKernel p) alOps q t)) : OuterTrace p cs Y φ ε W o fuel s' (j + 1) ρ q

theorem OuterTrace.mono {W W' : ℝ} {o : Opts ℝ} {fuel j : ℕ} {s' q : ALSt (Fin n → ℝ) (Fin m → ℝ) ℝ (ALCost n m ℝ) (KP n m ℝ)} (hW : W ≤ W')
    (h : OuterTrace p cs Y φ ε W o fuel s' j ρ q) : OuterTrace p cs Y φ ε W' o fuel s' j ρ q := by
  induction h with
  | last hsol st hM hR hcs hZ => exact .last hsol st (hM.trans hW) (hR.trans hW) hcs hZ
  | more hsol st hM hR hd hcs _ ih => exact .more hsol st (hM.trans hW) (hR.trans hW) hd hcs ih

theorem outer_loop (h : SmoothProblem p cs Y μ) (hμ : 0 < μ) (hN : p.N ≠ 0) (hφ : 0 < φ) (hs : ∀ k ≤ p.N, ScaleU (cs k) φ) :
    ∀ (J : ℕ) (ρ M R : ℝ), 0 < ρ → 0 ≤ M →
    ∃ W : ℝ, ∀ ε, 0 < ε → ∃ rb γ0 : ℝ, 0 < rb ∧ 0 < γ0 ∧ ∀ γ, 0 < γ → ∃ β : ℝ, 0 < β ∧ ∀ d, 0 < d → ∃ T : ℕ, ∀ (o : Opts ℝ) (fuel : ℕ),
      StepOptions o rb β → o.regMin * o.regFactor ≤ rb → γ ≤ o.gradTol → o.gradTol ≤ γ0 → d ≤ unitDecrease o μ → (T : ℤ) < o.maxInner →
      ∀ (r : ℕ) (q : ALSt (Fin n → ℝ) (Fin m → ℝ) ℝ (ALCost n m ℝ) (KP n m ℝ)), 1 ≤ r → r ≤ J → (q.st.stats.outer : ℤ) + r = o.maxOuter →
      (q.st.stats.total : ℤ) + r * T < o.maxTotal → Near p cs ρ M q.st.cs → SameTimes (alKernel p) q.st.Z Y → Aligned q.st.stats →
      (∀ k i, |ctl p.N q.st.Z k i| ≤ R) →
      (∀ a1 a2, Clears p W a1 a2 → OuterWithin (alKernel p) alOps o (limited o a1 a2) (fuel + 1) r q) ∧
      ∃ s' j prev, outerLoop (alKernel p) alOps o (ILQR.solve (alKernel p) o (fuel + 1)) r q = some s' ∧ j < r ∧
        s'.st.stats.outer = q.st.stats.outer + j + 1 ∧ s'.st.stats.total ≤ q.st.stats.total + r * T ∧
        NearSolved p o cs (ρ * φ ^ j) ε s' prev ∧ OuterTrace p cs Y φ ε W o (fuel + 1) s' j ρ q := by
  intro J
  induction J with
  | zero => exact fun ρ M R _ _ => ⟨0, fun ε _ => ⟨1, 1, one_pos, one_pos, fun γ _ => ⟨1, one_pos, fun d _ => ⟨0, fun o fuel _ _ _ _ _ _ r q h1 h2 => by omega⟩⟩⟩⟩
  | succ J ih =>
    intro ρ M R hρ hM
    obtain ⟨M', R', W1, hM', H1⟩ := outer_step h hμ hN hρ hM R
    obtain ⟨W2, H2⟩ := ih (ρ * φ) M' R' (by positivity) hM'
    refine ⟨max (max W1 W2) (max M' R'), fun ε hε => ?_⟩
    obtain ⟨rb1, γ1, p1, p2, H1⟩ := H1 ε hε
    obtain ⟨rb2, γ2, p3, p4, H2⟩ := H2 ε hε
    refine ⟨min rb1 rb2, min γ1 γ2, lt_min p1 p3, lt_min p2 p4, fun γ hγ => ?_⟩
    obtain ⟨β1, q1, H1⟩ := H1 γ hγ
    obtain ⟨β2, q2, H2⟩ := H2 γ hγ
    refine ⟨min β1 β2, lt_min q1 q2, fun d hd => ?_⟩
    obtain ⟨T1, H1⟩ := H1 d hd
    obtain ⟨T2, H2⟩ := H2 d hd
    refine ⟨max T1 T2, fun o fuel ho hr g1 g0 hdo hi r q r1 rJ hout htot hnear htm hal hc => ?_⟩
    have m1 : T1 ≤ max T1 T2 := le_max_left _ _
    have m2 : T2 ≤ max T1 T2 := le_max_right _ _
    generalize max T1 T2 = T at *
    obtain ⟨r, rfl⟩ := Nat.exists_eq_succ_of_ne_zero (show r ≠ 0 by omega)
    have er : ((r.succ : ℕ) : ℤ) * T = r * T + T := by push_cast; ring
    have er' : r.succ * T = r * T + T := by rw [Nat.succ_mul]
    have hrT : (0 : ℤ) ≤ r * T := by positivity
    obtain ⟨w1, t, ht, st⟩ := H1 o fuel q.st (ho.mono (min_le_left _ _) (min_le_left _ _)) (hr.trans (min_le_left _ _)) g1
      (g0.trans (min_le_left _ _)) hdo (by omega) (by omega) hnear htm hal hc
    have hko : t.stats.outer = q.st.stats.outer := solve_keepsOuter _ _ _ _ _ ht
    have hto := st.total
    obtain ⟨b1, b2, b3, b4, b5, b6, b7, b8⟩ := body_facts (alKernel p) alOps q t
    by_cases hd : (isDone o (body (alKernel p) alOps q t)).2 = true
    · refine ⟨fun a1 a2 hc => ⟨w1 a1 a2 (hc.mono ((le_max_left _ _).trans (le_max_left _ _))), fun t' ht' hd' => ?_⟩,
        (isDone o (body (alKernel p) alOps q t)).1, 0, t.cs, ?_, by omega, ?_, ?_, ?_, ?_⟩
      · rw [ht] at ht'
        cases ht'
        exact absurd (hd.symm.trans hd') (by decide)
      · unfold outerLoop
        rw [ht]
        exact if_pos hd
      · rw [(isDone_true o _ hd).2, b5, hko]
      · rw [(isDone_true o _ hd).2, b6, er']
        omega
      · rw [pow_zero, mul_one]
        exact done_solved hρ st hd (by rw [hko]; push_cast at hout; omega) (by omega)
      · exact .last ht st ((le_max_left _ _).trans (le_max_right _ _)) ((le_max_right _ _).trans (le_max_right _ _)) (by rw [(isDone_true o _ hd).2, b1]) (by rw [(isDone_true o _ hd).2, b2])
    · have hd : (isDone o (body (alKernel p) alOps q t)).2 = false := Bool.eq_false_iff.mpr hd
      have hcont := (isDone_continues o _ hd).outer
      rw [b5, hko] at hcont
      have hnc : ∀ k ≤ p.N, (next (alKernel p) alOps q t).st.cs k = ((eachCost (alKernel p) alOps.updateDuals t).cs k).updatePenalties :=
        fun k hk => by
          show (if k ≤ p.N then ALCost.updatePenalties ((body (alKernel p) alOps q t).st.cs k) else _) = _
          rw [if_pos hk, b1]
      have hZ : (next (alKernel p) alOps q t).st.Z = t.Z := b2
      have hO : (next (alKernel p) alOps q t).st.stats.outer = q.st.stats.outer + 1 := b5.trans (by rw [hko])
      have hT : (next (alKernel p) alOps q t).st.stats.total = t.stats.total := b6
      obtain ⟨w2, s', j, prev, c1, c2, c3, c4, c5, c6⟩ := H2 o fuel (ho.mono (min_le_right _ _) (min_le_right _ _)) (hr.trans (min_le_right _ _)) g1
        (g0.trans (min_le_right _ _)) hdo (by omega) r (next (alKernel p) alOps q t) (by push_cast at hcont hout; omega) (by omega)
        (by rw [hO]; push_cast at hout ⊢; omega)
        (by
          rw [hT]
          have : (r : ℤ) * T2 ≤ r * T := mul_le_mul_of_nonneg_left (by exact_mod_cast m2) (by positivity)
          omega)
        (st.update.scale hs hnc) (by rw [hZ]; exact st.times) (aligned_next q st.aligned) (by rw [hZ]; exact st.controls)
      refine ⟨fun a1 a2 hc => ⟨w1 a1 a2 (hc.mono ((le_max_left _ _).trans (le_max_left _ _))), fun t' ht' _ => ?_⟩, s', j + 1, prev, ?_, by omega, by rw [c3, hO]; omega, ?_, ?_, .more ht st ((le_max_left _ _).trans (le_max_right _ _)) ((le_max_right _ _).trans (le_max_right _ _)) hd hnc
        (c6.mono ((le_max_right _ _).trans (le_max_left _ _)))⟩
      · rw [ht] at ht'
        cases ht'
        have e := isDone_false o _ hd
        have := w2 a1 a2 (hc.mono ((le_max_right _ _).trans (le_max_left _ _)))
        show OuterWithin _ _ _ _ _ r { (isDone o (body (alKernel p) alOps q t)).1 with
            st := eachCost (alKernel p) alOps.updatePenalties (isDone o (body (alKernel p) alOps q t)).1.st }
        rw [e]; exact this
      · have e := isDone_false o _ hd
        unfold outerLoop
        rw [ht]
        refine (if_neg (by rw [show (isDone o (updateConvergence (alKernel p) alOps { q with st := eachCost (alKernel p) alOps.updateDuals t })).2
          = false from hd]; exact Bool.false_ne_true)).trans ?_
        rw [← c1]
        show outerLoop _ _ _ _ r { (isDone o (body (alKernel p) alOps q t)).1 with
            st := eachCost (alKernel p) alOps.updatePenalties (isDone o (body (alKernel p) alOps q t)).1.st } = _
        rw [e]; rfl
      · rw [hT] at c4
        have : r * T2 ≤ r * T := Nat.mul_le_mul_left _ m2
        rw [er']
        omega
      · rw [pow_succ', ← mul_assoc]
        exact c5

end Altro.Props
