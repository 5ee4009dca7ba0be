import Verif.Props.ALRate

/-!
# C104: solving again with the multipliers of the last solve

With `reset_duals` off `Solve` starts from the multipliers that are in the constraint values.
-/

namespace Altro.Props
open Altro.Spec Altro.AL
variable {K : Type} [Field K] [LinearOrder K] [IsStrictOrderedRing K] {n m : ℕ} {p : DynProblem n m K}

/-! ## What the solver starts from -/

theorem knotRows_setPenalty (k : ℕ) (c : ALCost n m K) (ρ : K) :
    knotRows k (c.setPenalty ρ) = (knotRows k c).map fun r => { r with pen := ρ } := by
  have e : ∀ {κ : ConKind} (v : ConVal κ n m K), conRows k (v.setPenalty ρ) = (conRows k v).map fun r => { r with pen := ρ } := by
    intro κ v
    simp only [conRows, List.map_ofFn]
    rfl
  simp only [knotRows, ALCost.setPenalty, List.map_append]
  rw [flatMap_map_of _ _ _ _ fun v _ => e v, flatMap_map_of _ _ _ _ fun v _ => e v]

/-- With `reset_duals` off the solver starts with the multipliers it finds, and with the initial penalty. -/
theorem init_rows_warm {o : Opts K} (hr : o.resetDuals = false) (hpos : 0 < o.initialPenalty)
    (s : ALSt (Fin n → K) (Fin m → K) K (ALCost n m K) (KP n m K)) :
    rows p (AL.init (alKernel p) alOps o s).st.cs = (rows p s.st.cs).map fun r => { r with pen := o.initialPenalty } := by
  have hcore : ∀ k ≤ p.N, ((AL.init (alKernel p) alOps o s).st.cs k).core = ((s.st.cs k).setPenalty o.initialPenalty).core := by
    intro k hk
    unfold AL.init
    extract_lets s1 s2 s3 s4 s5
    show (s4.cs k).core = _
    rw [show s4.cs = (ILQR.cost (alKernel p) s3.Z s3).2.cs from rfl, ILQR.cost_obs _ ALCost.core fun _ _ _ _ => ALCost.evaluate_core ..]
    show (s2.cs k).core = _
    simp only [s2, s1, Arith.gt_iff, hpos, if_true, hr]
    show (if k ≤ p.N then _ else _ : ALCost n m K).core = _
    rw [if_pos hk]
    rfl
  rw [rows_core p (cs' := fun k => (s.st.cs k).setPenalty o.initialPenalty) hcore]
  exact rows_map p fun k _ => knotRows_setPenalty k _ _

theorem gap_pen {V : Type} (rs : List (Row V K)) (star : List K) (f : Row V K → K) :
    gap (rs.map fun r => { r with pen := f r }) star = gap rs star := by
  rw [gap, List.zip_map_left, List.map_map]
  rfl

theorem zip_map_self {α β : Type} (l : List α) (f : α → β) : l.zip (l.map f) = l.map fun a => (a, f a) := by
  induction l with
  | nil => rfl
  | cons a l ih => simp [ih]

section solve
variable {o : Opts K} {φ : K}
  {inner : St (Fin n → K) (Fin m → K) K (ALCost n m K) (KP n m K) →
    Option (St (Fin n → K) (Fin m → K) K (ALCost n m K) (KP n m K))}
  {s s' : ALSt (Fin n → K) (Fin m → K) K (ALCost n m K) (KP n m K)}
  {zs : Traj (Fin n → K) (Fin m → K) K} {star : List K}

theorem convInv_warm (hr : o.resetDuals = false) (hpos : 0 < o.initialPenalty)
    (hlam : ∀ r ∈ rows p s.st.cs, r.kind = .inequality → r.lam ≤ 0) :
    ConvInv p o φ (gap (rows p s.st.cs) star) s.st (AL.init (alKernel p) alOps o s).st star 0 := by
  have e := init_rows_warm (p := p) hr hpos s
  have hpen : ∀ r ∈ rows p (AL.init (alKernel p) alOps o s).st.cs, r.pen = o.initialPenalty := fun r hr => by
    rw [e] at hr
    obtain ⟨r', _, rfl⟩ := List.mem_map.mp hr
    rfl
  refine ⟨⟨fun k hk => init_static p o s k hk, fun k hk => ?_, fun k hk => ?_, fun r hr hk => ?_⟩, ?_⟩
  · rw [pow_zero, mul_one]
    exact ⟨fun v hv i => hpen _ ((mem_rows p _ _).mpr ⟨k, hk, .inl ⟨v, hv, i, rfl⟩⟩),
      fun v hv i => hpen _ ((mem_rows p _ _).mpr ⟨k, hk, .inr ⟨v, hv, i, rfl⟩⟩)⟩
  · rw [(init_facts (alKernel p) alOps o s).2.2.2]; exact ⟨rfl, rfl⟩
  · rw [e] at hr
    obtain ⟨r', h', rfl⟩ := List.mem_map.mp hr
    exact hlam r' h' hk
  · rw [Finset.range_zero, Finset.sum_empty, add_zero, e, gap_pen]

/-! ## Convex problems -/

/-- A solve of a convex problem with an exact inner solver from any multipliers that are nonpositive for inequalities: as `C79_solve`, with
the distance `‖λ - λ*‖` of these multipliers from those of the solution in place of `‖λ*‖`.  The multipliers never are farther from `λ*`
after the solve than before, and are such that the next solve may start from them. -/
theorem C104_convex (hk : KeepsOuter inner) (hφ : 0 < φ) (hpos : 0 < o.initialPenalty) (htol : 0 ≤ o.conTol)
    (hr : o.resetDuals = false) (hlam : ∀ r ∈ rows p s.st.cs, r.kind = .inequality → r.lam ≤ 0) (hmax : 1 ≤ o.maxOuter)
    (hscale : ∀ k ≤ p.N, ScaleU (s.st.cs k) φ)
    (hc : ConvexProblem p s.st.cs) (hs : Saddle (Alternative p s.st.Z) (plainCost p s.st.cs) (rows p s.st.cs) zs star)
    (hex : ExactOn p s.st inner) (h : AL.solve (alKernel p) alOps o inner s = some s') :
    ∃ j, s'.st.stats.outer = j + 1 ∧
      (o.initialPenalty * φ ^ j * Stats.back (s'.st.stats.col .viol)) ^ 2
        + ∑ i ∈ Finset.range j, (o.initialPenalty * φ ^ i * o.conTol) ^ 2 + gap (rows p s'.st.cs) star ≤ gap (rows p s.st.cs) star ∧
      (∀ r ∈ rows p s.st.cs, r.viol s'.st.Z ≤ Stats.back (s'.st.stats.col .viol)) ∧
      plainCost p s.st.cs s'.st.Z ≤ plainCost p s.st.cs zs
        + (gap (rows p s.st.cs) star + normSq star) / (o.initialPenalty * φ ^ j) ∧
      plainCost p s.st.cs zs ≤ plainCost p s.st.cs s'.st.Z + Stats.back (s'.st.stats.col .viol) * (star.map (|·|)).sum ∧
      gap (rows p s'.st.cs) star ≤ gap (rows p s.st.cs) star ∧
      (∀ r ∈ rows p s'.st.cs, r.kind = .inequality → r.lam ≤ 0) ∧
      (∀ k ≤ p.N, (s'.st.cs k).static = (s.st.cs k).static) ∧ ∀ k < p.N, s'.st.Z.t k = s.st.Z.t k ∧ s'.st.Z.h k = s.st.Z.h k := by
  have hI0 := convInv_warm (p := p) (φ := φ) (star := star) hr hpos hlam
  obtain ⟨j, c1, c2, c3, c4, c5⟩ := conv_core hk hφ hpos htol hI0 hmax hscale hc hs hex h
  have hsum : 0 ≤ ∑ i ∈ Finset.range j, (o.initialPenalty * φ ^ i * o.conTol) ^ 2 := Finset.sum_nonneg fun _ _ => sq_nonneg _
  refine ⟨j, c1, c2, c3, c4, c5, by nlinarith [sq_nonneg (o.initialPenalty * φ ^ j * Stats.back (s'.st.stats.col .viol))], ?_⟩
  clear c1 c2 c3 c4 c5 hsum j
  obtain ⟨j, q, t, hj, hq, ht, _, hto, hd, rfl⟩ := solve_last (alKernel p) alOps o inner hk
    (fun j q => ConvInv p o φ (gap (rows p s.st.cs) star) s.st q.st star j) s s' hI0
    (fun j q t hq ht hd => convInv_step hφ hpos htol hscale hc hs hex hq ht hd) hmax h
  obtain ⟨b1, b2, -⟩ := body_facts (alKernel p) alOps q t
  have hρ : 0 < o.initialPenalty * φ ^ j := by positivity
  have hE := hex q.st t hq.static ⟨_, hρ, hq.pen⟩ hq.times ht
  rw [(isDone_true o _ hd).2, b1, b2]
  refine ⟨fun r hr hk => ?_, fun k hk => ?_, fun k hk => ?_⟩
  · rw [exact_rows hE.core hE.fresh] at hr
    obtain ⟨r', _, rfl⟩ := List.mem_map.mp hr
    simp only at hk
    show Row.next r' t.Z ≤ 0
    unfold Row.next
    rw [hk]
    exact min_le_left _ _
  · rw [show (eachCost (alKernel p) alOps.updateDuals t).cs k = (t.cs k).updateDuals from if_pos hk,
      ALCost.updateDuals_static, ← ALCost.static_of_core, hE.core k hk, ALCost.static_of_core]
    exact hq.static k hk
  · rw [(hE.times k hk).1, (hE.times k hk).2]
    exact hq.times k hk

/-- ... and it succeeds in iteration `J` at the latest if `‖λ - λ*‖ < ρ_J · tolerance`. -/
theorem C104_solved (hk : KeepsOuter inner) (hφ : 1 ≤ φ) (hpos : 0 < o.initialPenalty) (htol : 0 < o.conTol)
    (hr : o.resetDuals = false) (hlam : ∀ r ∈ rows p s.st.cs, r.kind = .inequality → r.lam ≤ 0)
    (hscale : ∀ k ≤ p.N, ScaleU (s.st.cs k) φ)
    (hc : ConvexProblem p s.st.cs) (hs : Saddle (Alternative p s.st.Z) (plainCost p s.st.cs) (rows p s.st.cs) zs star)
    (hex : ExactOn p s.st inner) (h : AL.solve (alKernel p) alOps o inner s = some s')
    (J : ℕ) (hJ : gap (rows p s.st.cs) star < (o.initialPenalty * φ ^ J * o.conTol) ^ 2)
    (hJpen : o.initialPenalty * φ ^ J ≤ o.maxPenalty)
    (hJout : (J : ℤ) < o.maxOuter) (W : ℕ) (hin : SucceedsOn p o W s.st inner) (hW : (W : ℤ) * (J + 1) < o.maxTotal) :
    s'.status = .kSolved ∧ s'.st.stats.outer ≤ J + 1 ∧ s'.st.stats.total ≤ W * (J + 1) ∧
      Stats.back (s'.st.stats.col .viol) < o.conTol ∧ ∀ r ∈ rows p s.st.cs, r.viol s'.st.Z < o.conTol :=
  conv_solved hk hφ hpos htol (convInv_warm hr hpos hlam) hscale hc hs hex h J hJ hJpen hJout W hin hW

/-- A term of the augmented Lagrangian at a point where the constraint holds. -/
theorem term_nonpos {V : Type} {r : Row V K} {z : V} (hpen : 0 < r.pen) (hlam : r.kind = .inequality → r.lam ≤ 0) (h : r.Holds z) :
    r.term z ≤ 0 := by
  obtain ⟨κ, fn, lam, pen⟩ := r
  cases κ
  · simp only [Row.Holds, Row.term, eqTerm] at h ⊢
    rw [h]; simp
  · have hl : lam ≤ 0 := hlam rfl
    simp only [Row.Holds, Row.term, ineqTerm] at h hpen ⊢
    split
    · nlinarith [mul_nonneg hpen.le (sq_nonneg (fn z))]
    · have : 0 ≤ lam ^ 2 / (2 * pen) := by positivity
      linarith

/-- A multiplier that stays what it is. -/
theorem term_fixed {V : Type} {r : Row V K} {z : V} (hpen : 0 < r.pen) (h : r.next z = r.lam) : r.Holds z ∧ r.term z = 0 := by
  obtain ⟨κ, fn, lam, pen⟩ := r
  cases κ
  · simp only [Row.Holds, Row.term, Row.next, eqTerm] at h hpen ⊢
    have : pen * fn z = 0 := by linarith
    rcases mul_eq_zero.mp this with h0 | h0
    · exact absurd h0 hpen.ne'
    · rw [h0]; simp
  · simp only [Row.Holds, Row.term, Row.next, ineqTerm] at h hpen ⊢
    by_cases hc : lam - pen * fn z ≤ 0
    · rw [min_eq_right hc] at h
      have : pen * fn z = 0 := by linarith
      rcases mul_eq_zero.mp this with h0 | h0
      · exact absurd h0 hpen.ne'
      · rw [if_pos hc, h0]; simp
    · rw [min_eq_left (not_le.mp hc).le] at h
      rw [if_neg hc]
      subst h
      refine ⟨?_, by simp⟩
      have : pen * fn z < 0 := by linarith
      by_contra h0
      nlinarith [mul_nonneg hpen.le (not_le.mp h0).le]

/-- An exact inner solve with the multipliers of a solution returns a solution and leaves the multipliers alone. -/
theorem exact_fixed {q t : St (Fin n → K) (Fin m → K) K (ALCost n m K) (KP n m K)} {ρ : K} (hρ : 0 < ρ)
    (hpen : ∀ k ≤ p.N, PenU (q.cs k) ρ) (hlam : ∀ r ∈ rows p q.cs, r.kind = .inequality → r.lam ≤ 0)
    (hc : Convex (Alternative p q.Z) segTraj (plainCost p q.cs) (rows p q.cs))
    (hs : Saddle (Alternative p q.Z) (plainCost p q.cs) (rows p q.cs) zs star) (ht : ExactSolve p q t)
    (hg : gap (rows p q.cs) star = 0) :
    (∀ r ∈ rows p q.cs, r.Holds t.Z) ∧ plainCost p q.cs t.Z ≤ plainCost p q.cs zs ∧
      rows p (eachCost (alKernel p) alOps.updateDuals t).cs = rows p q.cs ∧
      (alKernel p).viol (eachCost (alKernel p) alOps.updateDuals t).cs = 0 := by
  have hp := rows_pen p hpen
  have hst := hc.step_uniform hρ hp ht.alt (exact_min hρ hpen ht) hs
  have h1 : 0 ≤ (((rows p q.cs).zip star).map fun q => (q.1.next t.Z - q.2) ^ 2).sum := sum_map_nonneg _ _ fun _ _ => sq_nonneg _
  have hnext : ∀ r ∈ rows p q.cs, r.next t.Z = r.lam := fun r hr => by
    have h2 := le_sum_map (rows p q.cs) (fun r => (r.next t.Z - r.lam) ^ 2) (fun _ _ => sq_nonneg _) hr
    have h3 : (r.next t.Z - r.lam) ^ 2 = 0 := le_antisymm (by linarith) (sq_nonneg _)
    exact sub_eq_zero.mp (pow_eq_zero_iff two_ne_zero |>.mp h3)
  have hfix := fun r hr => term_fixed (r := r) (z := t.Z) (by rw [hp r hr]; exact hρ) (hnext r hr)
  refine ⟨fun r hr => (hfix r hr).1, ?_, ?_, ?_⟩
  · have h2 := exact_min hρ hpen ht zs hs.mem
    have h3 : ((rows p q.cs).map fun r => r.term t.Z).sum = 0 := by
      rw [show ((rows p q.cs).map fun r => r.term t.Z) = (rows p q.cs).map fun _ => (0 : K) from
        List.map_congr_left fun r hr => (hfix r hr).2]
      simp
    have h4 : ((rows p q.cs).map fun r => r.term zs).sum ≤ 0 := by
      have := sum_map_le (rows p q.cs) (fun r => r.term zs) (fun _ => 0) fun r hr =>
        term_nonpos (by rw [hp r hr]; exact hρ) (hlam r hr) (hs.holds r hr)
      simpa using this
    linarith
  · rw [exact_rows ht.core ht.fresh]
    refine (List.map_congr_left fun r hr => ?_).trans (List.map_id _)
    rw [hnext r hr]
    rfl
  · have := C79_step hρ hpen hlam hc hs ht
    have h2 := gap_nonneg (rows p (eachCost (alKernel p) alOps.updateDuals t).cs) star
    have h3 := sq_nonneg (ρ * (alKernel p).viol (eachCost (alKernel p) alOps.updateDuals t).cs)
    have h4 : (ρ * (alKernel p).viol (eachCost (alKernel p) alOps.updateDuals t).cs) ^ 2 = 0 := by linarith
    rcases mul_eq_zero.mp (pow_eq_zero_iff two_ne_zero |>.mp h4) with h0 | h0
    · exact absurd h0 hρ.ne'
    · exact h0

/-- From the multipliers of a solution one outer iteration is enough, whatever the trajectory, the penalty and the (positive) tolerance
are: the solver returns a solution, and the multipliers are unchanged. -/
theorem C104_exact (hk : KeepsOuter inner) (hφ : 1 ≤ φ) (hpos : 0 < o.initialPenalty) (htol : 0 < o.conTol)
    (hr : o.resetDuals = false) (hscale : ∀ k ≤ p.N, ScaleU (s.st.cs k) φ)
    (hc : ConvexProblem p s.st.cs) (hs : Saddle (Alternative p s.st.Z) (plainCost p s.st.cs) (rows p s.st.cs) zs star)
    (hstar : (rows p s.st.cs).map Row.lam = star)
    (hex : ExactOn p s.st inner) (h : AL.solve (alKernel p) alOps o inner s = some s') (hpen : o.initialPenalty ≤ o.maxPenalty)
    (hmax : 1 ≤ o.maxOuter) (W : ℕ) (hin : SucceedsOn p o W s.st inner) (hW : (W : ℤ) < o.maxTotal) :
    s'.status = .kSolved ∧ s'.st.stats.outer = 1 ∧ s'.st.stats.total ≤ W ∧ Stats.back (s'.st.stats.col .viol) = 0 ∧
      (rows p s'.st.cs).map Row.lam = star ∧
      Alternative p s.st.Z s'.st.Z ∧ (∀ r ∈ rows p s.st.cs, r.Holds s'.st.Z) ∧
      ∀ Y, Alternative p s.st.Z Y → (∀ r ∈ rows p s.st.cs, r.Holds Y) → plainCost p s.st.cs s'.st.Z ≤ plainCost p s.st.cs Y := by
  have hzip : ∀ q ∈ (rows p s.st.cs).zip star, q.2 = q.1.lam := fun q hq => by
    rw [← hstar, zip_map_self] at hq
    obtain ⟨r, _, rfl⟩ := List.mem_map.mp hq
    rfl
  have hg : gap (rows p s.st.cs) star = 0 := by
    rw [gap, show (((rows p s.st.cs).zip star).map fun q => (q.1.lam - q.2) ^ 2) = ((rows p s.st.cs).zip star).map fun _ => (0 : K) from
      List.map_congr_left fun q hq => by rw [hzip q hq, sub_self, zero_pow two_ne_zero]]
    simp
  have hlam : ∀ r ∈ rows p s.st.cs, r.kind = .inequality → r.lam ≤ 0 := fun r hr hk => by
    have hm : (r, r.lam) ∈ (rows p s.st.cs).zip star := by
      rw [← hstar, zip_map_self]
      exact List.mem_map.mpr ⟨r, hr, rfl⟩
    exact (hs.sign _ hm hk).1
  have hI0 := convInv_warm (p := p) (φ := φ) (star := star) hr hpos hlam
  have hφ0 : 0 < φ := lt_of_lt_of_le one_pos hφ
  obtain ⟨d1, d2, d3, d4, d5⟩ := conv_solved hk hφ hpos htol hI0 hscale hc hs hex h 0 (by rw [hg]; positivity)
    (by rwa [pow_zero, mul_one]) (by push_cast; omega) W hin (by push_cast; omega)
  obtain ⟨j, q, t, hj, ⟨hq, hq0⟩, ht, _, hto, hd, rfl⟩ := solve_last (alKernel p) alOps o inner hk
    (fun j q => ConvInv p o φ (gap (rows p s.st.cs) star) s.st q.st star j ∧ (j = 0 → q = AL.init (alKernel p) alOps o s)) s s' ⟨hI0, fun _ => rfl⟩
    (fun j q t hq ht hd => ⟨convInv_step hφ0 hpos htol.le hscale hc hs hex hq.1 ht hd, fun h => absurd h (Nat.succ_ne_zero j)⟩) hmax h
  obtain ⟨b1, b2, b3, b4, b5, b6, b7, b8⟩ := body_facts (alKernel p) alOps q t
  have hρ : 0 < o.initialPenalty * φ ^ j := by positivity
  have hE := hex q.st t hq.static ⟨_, hρ, hq.pen⟩ hq.times ht
  obtain ⟨hcx, hsd⟩ := convInv_facts hc hs hq.toConvBase
  have hst := (isDone_true o _ hd).2
  rw [hst] at d2 d3 ⊢
  rw [b5, hto] at d2
  have hj0 : j = 0 := by omega
  have hqi := hq0 hj0
  have hrows : rows p q.st.cs = (rows p s.st.cs).map fun r => { r with pen := o.initialPenalty } := by
    rw [hqi]; exact init_rows_warm hr hpos s
  obtain ⟨f1, f2, f3, f4⟩ := exact_fixed hρ hq.pen hq.lam hcx hsd hE (by rw [hrows, gap_pen, hg])
  have hsig : ∀ r ∈ rows p s.st.cs, r.Holds t.Z := fun r hr => by
    have := f1 { r with pen := o.initialPenalty } (by rw [hrows]; exact List.mem_map.mpr ⟨r, hr, rfl⟩)
    exact this
  have e1 : ∀ Z, plainCost p q.st.cs Z = plainCost p s.st.cs Z := fun Z => plainCost_static p hq.static Z
  rw [e1, e1] at f2
  refine ⟨d1, by rw [b5, hto, hj0], by simpa using d3, by rw [b7]; exact f4, ?_, ?_, by rw [b2]; exact hsig, fun Y hY hYr => ?_⟩
  · rw [b1, f3, hrows, List.map_map, ← hstar]
    rfl
  · rw [b2, ← alternative_times hq.times]
    exact hE.alt
  · rw [b2]
    exact f2.trans (hs.optimal hY hYr)

/-! ## Linear-quadratic problems with equality constraints -/

theorem rateInv_warm {κ : K} (h : LQEquality p s.st.cs) (hr : o.resetDuals = false) (hpos : 0 < o.initialPenalty)
    (hsp : Spanned (Alternative p s.st.Z) (rows p s.st.cs) star) :
    RateInv p o φ κ (gap (rows p s.st.cs) star) s.st (AL.init (alKernel p) alOps o s).st star 0 := by
  have h0 := convInv_warm (p := p) (s := s) (φ := φ) (star := star) hr hpos fun r hr hk => by
    rw [LQDual.rows_equality h r hr] at hk
    cases hk
  refine ⟨h0.toConvBase, ?_, ?_⟩
  · rw [init_rows_warm hr hpos]
    exact spanned_pen _ hsp
  · have := h0.gap
    rw [Finset.range_zero, Finset.sum_empty, add_zero] at this
    simpa using this

end solve

/-- The options of a solve that starts from the multipliers of the last one. -/
structure WarmOptions (o : Opts K) : Prop extends LQOptions o where
  keep : o.resetDuals = false
  pen : 0 < o.initialPenalty
  tol : 0 ≤ o.conTol
  outer : 1 ≤ o.maxOuter

/-- The whole solver on a linear-quadratic problem with equality constraints, from any multipliers `λ0`: as `C101_solve` with
`‖λ0 - λ*‖` in place of `‖λ*‖`.  If the constraints are not independent, `λ*` are those multipliers of the solution that differ from
`λ0` by differences of constraint values. -/
theorem C104_solve {φ : K} {s : ALSt (Fin n → K) (Fin m → K) K (ALCost n m K) (KP n m K)}
    (h : LQEquality p s.st.cs) (hN : p.N ≠ 0) (hφ : 0 < φ) (hscale : ∀ k ≤ p.N, ScaleU (s.st.cs k) φ)
    (hf : ∃ Y, Alternative p s.st.Z Y ∧ ∀ r ∈ rows p s.st.cs, r.Holds Y) :
    ∃ (zs : Traj (Fin n → K) (Fin m → K) K) (star : List K) (κ κ' : K),
      Saddle (Alternative p s.st.Z) (plainCost p s.st.cs) (rows p s.st.cs) zs star ∧ 0 ≤ κ ∧ 0 ≤ κ' ∧
      ∀ (o : Opts K) (fuel : ℕ), WarmOptions o →
        ∃ s' j, AL.solve (alKernel p) alOps o (ILQR.solve (alKernel p) o (fuel + 1)) s = some s' ∧
          RateEnd p o φ κ κ' (gap (rows p s.st.cs) star) s.st s'.st zs star j ∧
        ∀ J : ℕ, 1 ≤ φ → κ ^ (2 * J) * gap (rows p s.st.cs) star
            < (o.initialPenalty * φ ^ J * o.conTol) ^ 2 * ∏ i ∈ Finset.range J, (κ + o.initialPenalty * φ ^ i) ^ 2 →
          o.initialPenalty * φ ^ J ≤ o.maxPenalty → (J : ℤ) < o.maxOuter → 2 * ((J : ℤ) + 1) < o.maxTotal →
          s'.status = .kSolved ∧ s'.st.stats.outer ≤ J + 1 ∧ s'.st.stats.total ≤ 2 * (J + 1) ∧
            Stats.back (s'.st.stats.col .viol) < o.conTol := by
  obtain ⟨zs, star, hs, hsp⟩ := h.spanned_from s.st.Z hf
  obtain ⟨κ, κ', hκ, hκ', hrate⟩ := C101_step h s.st.Z
  have hsr : StepRate p s.st zs star κ κ' := fun q t ρ h1 h2 h3 h4 h5 h6 => hrate zs star hs q t ρ h1 h2 h3 h4 h5 h6
  exact ⟨zs, star, κ, κ', hs, hκ, hκ', fun o fuel ho =>
    rate_core h hN hφ hscale hs hκ hκ' hsr ho.toLQOptions ho.pen ho.tol ho.outer (rateInv_warm h ho.keep ho.pen hsp)⟩

/-- What one solve achieves at least, however many outer iterations it makes. -/
theorem rate_once {o : Opts K} {φ κ κ' G : K} {s s' : St (Fin n → K) (Fin m → K) K (ALCost n m K) (KP n m K)}
    {zs : Traj (Fin n → K) (Fin m → K) K} {star : List K} {j : ℕ} (hφ : 1 ≤ φ) (hκ : 0 ≤ κ) (hκ' : 0 ≤ κ') (hpos : 0 < o.initialPenalty) (hG : 0 ≤ G)
    (h : RateEnd p o φ κ κ' G s s' zs star j) :
    (κ + o.initialPenalty) ^ 2 * gap (rows p s'.cs) star ≤ κ ^ 2 * G ∧ 4 * o.initialPenalty * trajGap p.N s'.Z zs ≤ κ' * G := by
  have hφ0 : 0 < φ := lt_of_lt_of_le one_pos hφ
  have hfac : ∀ i : ℕ, 0 < κ + o.initialPenalty * φ ^ i ∧ κ ^ 2 ≤ (κ + o.initialPenalty * φ ^ i) ^ 2 := fun i => by
    have : 0 < o.initialPenalty * φ ^ i := by positivity
    exact ⟨by linarith, pow_le_pow_left₀ hκ (by linarith) 2⟩
  have hprod : ∀ (S : Finset ℕ) (f : ℕ → ℕ), 0 < ∏ i ∈ S, (κ + o.initialPenalty * φ ^ (f i)) ^ 2 ∧
      (κ ^ 2) ^ S.card ≤ ∏ i ∈ S, (κ + o.initialPenalty * φ ^ (f i)) ^ 2 := fun S f => by
    refine ⟨Finset.prod_pos fun i _ => pow_pos (hfac _).1 2, ?_⟩
    rw [← Finset.prod_const]
    exact Finset.prod_le_prod (fun _ _ => sq_nonneg _) fun i _ => (hfac _).2
  constructor
  · obtain ⟨p1, p2⟩ := hprod (Finset.range j) fun i => i + 1
    rw [Finset.card_range] at p2
    have h1 := h.multipliers
    rw [Finset.prod_range_succ', pow_zero, mul_one, show 2 * (j + 1) = 2 * j + 2 by ring, pow_add, pow_mul] at h1
    have h2 : (κ ^ 2) ^ j * κ ^ 2 * G ≤ (∏ i ∈ Finset.range j, (κ + o.initialPenalty * φ ^ (i + 1)) ^ 2) * (κ ^ 2 * G) := by
      rw [mul_assoc]
      exact mul_le_mul_of_nonneg_right p2 (mul_nonneg (sq_nonneg _) hG)
    refine le_of_mul_le_mul_left (le_trans (le_of_eq ?_) (h1.trans h2)) p1
    ring
  · obtain ⟨p1, p2⟩ := hprod (Finset.range j) id
    rw [Finset.card_range] at p2
    simp only [id] at p1 p2
    have h1 := h.trajectory
    rw [pow_mul] at h1
    have h2 : κ' * ((κ ^ 2) ^ j * G) ≤ (∏ i ∈ Finset.range j, (κ + o.initialPenalty * φ ^ i) ^ 2) * (κ' * G) := by
      have := mul_le_mul_of_nonneg_right p2 (mul_nonneg hκ' hG)
      linarith
    have h3 : 0 ≤ trajGap p.N s'.Z zs := add_nonneg (Finset.sum_nonneg fun _ _ => Finset.sum_nonneg fun _ _ => sq_nonneg _)
      (Finset.sum_nonneg fun _ _ => Finset.sum_nonneg fun _ _ => sq_nonneg _)
    have h4 : 4 * (o.initialPenalty * φ ^ j) * trajGap p.N s'.Z zs ≤ κ' * G := by
      refine le_of_mul_le_mul_left (le_trans (le_of_eq ?_) (h1.trans h2)) p1
      ring
    have h5 : o.initialPenalty ≤ o.initialPenalty * φ ^ j := le_mul_of_one_le_right hpos.le (one_le_pow₀ hφ)
    have h6 := mul_le_mul_of_nonneg_right h5 h3
    linarith

/-- Calling `Solve` again and again, with `reset_duals` off and any penalties, tolerances and limits, on a linear-quadratic problem with
equality constraints: every call returns, and with one constant `κ` for all of them each call brings the multipliers nearer to those of the
solution at least by the factor `κ / (κ + initial_penalty)`, even if it may make only one outer iteration. -/
theorem C104_repeat {φ : K} {s : ALSt (Fin n → K) (Fin m → K) K (ALCost n m K) (KP n m K)}
    (h : LQEquality p s.st.cs) (hN : p.N ≠ 0) (hφ : 1 ≤ φ) (hscale : ∀ k ≤ p.N, ScaleU (s.st.cs k) φ)
    (hf : ∃ Y, Alternative p s.st.Z Y ∧ ∀ r ∈ rows p s.st.cs, r.Holds Y) :
    ∃ (zs : Traj (Fin n → K) (Fin m → K) K) (star : List K) (κ κ' : K),
      Saddle (Alternative p s.st.Z) (plainCost p s.st.cs) (rows p s.st.cs) zs star ∧ 0 ≤ κ ∧ 0 ≤ κ' ∧
      ∀ (o : ℕ → Opts K) (fuel : ℕ → ℕ), (∀ i, WarmOptions (o i)) →
        ∃ S : ℕ → ALSt (Fin n → K) (Fin m → K) K (ALCost n m K) (KP n m K), S 0 = s ∧ ∀ i,
          AL.solve (alKernel p) alOps (o i) (ILQR.solve (alKernel p) (o i) (fuel i + 1)) (S i) = some (S (i + 1)) ∧
          (κ + (o i).initialPenalty) ^ 2 * gap (rows p (S (i + 1)).st.cs) star ≤ κ ^ 2 * gap (rows p (S i).st.cs) star ∧
          4 * (o i).initialPenalty * trajGap p.N (S (i + 1)).st.Z zs ≤ κ' * gap (rows p (S i).st.cs) star ∧
          trajGap p.N (S (i + 1)).st.Z zs ≤ κ' * Stats.back ((S (i + 1)).st.stats.col .viol) ^ 2 := by
  have hφ0 : 0 < φ := lt_of_lt_of_le one_pos hφ
  obtain ⟨zs, star, hs, hsp⟩ := h.spanned_from s.st.Z hf
  obtain ⟨κ, κ', hκ, hκ', hrate⟩ := C101_step h s.st.Z
  have hone : ∀ (o : Opts K) (fuel : ℕ) (q : ALSt (Fin n → K) (Fin m → K) K (ALCost n m K) (KP n m K)), WarmOptions o →
      (∀ k ≤ p.N, (q.st.cs k).static = (s.st.cs k).static) → (∀ k < p.N, q.st.Z.t k = s.st.Z.t k ∧ q.st.Z.h k = s.st.Z.h k) →
      Spanned (Alternative p s.st.Z) (rows p q.st.cs) star →
      ∃ s' j, AL.solve (alKernel p) alOps o (ILQR.solve (alKernel p) o (fuel + 1)) q = some s' ∧
        RateEnd p o φ κ κ' (gap (rows p q.st.cs) star) q.st s'.st zs star j := by
    intro o fuel q ho h1 h2 h3
    have hq := h.congr h1
    have ealt := alternative_times h2
    have e1 : plainCost p q.st.cs = plainCost p s.st.cs := funext fun Z => plainCost_static p h1 Z
    have hsq : Saddle (Alternative p q.st.Z) (plainCost p q.st.cs) (rows p q.st.cs) zs star := by
      rw [ealt, e1]
      exact hs.congr (rows_static p h1).symm
    have hsr : StepRate p q.st zs star κ κ' := fun q' t ρ g1 g2 g3 g4 g5 g6 => by
      rw [ealt] at g6 ⊢
      exact hrate zs star hs q' t ρ (fun k hk => (g1 k hk).trans (h1 k hk))
        (fun k hk => ⟨(g2 k hk).1.trans (h2 k hk).1, (g2 k hk).2.trans (h2 k hk).2⟩) g3 g4 g5 g6
    obtain ⟨s', j, r1, r2, -⟩ := rate_core (fuel := fuel) hq hN hφ0 (fun k hk => scaleU_static (h1 k hk) (hscale k hk)) hsq hκ hκ' hsr
      ho.toLQOptions ho.pen ho.tol ho.outer (rateInv_warm hq ho.keep ho.pen (by rw [ealt]; exact h3))
    exact ⟨s', j, r1, r2⟩
  refine ⟨zs, star, κ, κ', hs, hκ, hκ', fun o fuel ho => ?_⟩
  let Good := {q : ALSt (Fin n → K) (Fin m → K) K (ALCost n m K) (KP n m K) //
    (∀ k ≤ p.N, (q.st.cs k).static = (s.st.cs k).static) ∧ (∀ k < p.N, q.st.Z.t k = s.st.Z.t k ∧ q.st.Z.h k = s.st.Z.h k) ∧
    Spanned (Alternative p s.st.Z) (rows p q.st.cs) star}
  have hnext : ∀ (i : ℕ) (q : Good), ∃ q' : Good,
      AL.solve (alKernel p) alOps (o i) (ILQR.solve (alKernel p) (o i) (fuel i + 1)) q.1 = some q'.1 ∧
      ∃ j, RateEnd p (o i) φ κ κ' (gap (rows p q.1.st.cs) star) q.1.st q'.1.st zs star j := by
    rintro i ⟨q, h1, h2, h3⟩
    obtain ⟨s', j, r1, r2⟩ := hone (o i) (fuel i) q (ho i) h1 h2 h3
    refine ⟨⟨s', fun k hk => (r2.static k hk).trans (h1 k hk),
      fun k hk => ⟨(r2.times k hk).1.trans (h2 k hk).1, (r2.times k hk).2.trans (h2 k hk).2⟩, ?_⟩, r1, j, r2⟩
    rw [← alternative_times h2]
    exact r2.span
  choose f hf1 hf2 using hnext
  let T : ℕ → Good := fun i => Nat.rec ⟨s, fun _ _ => rfl, fun _ _ => ⟨rfl, rfl⟩, hsp⟩ f i
  refine ⟨fun i => (T i).1, rfl, fun i => ?_⟩
  obtain ⟨j, hj⟩ := hf2 i (T i)
  obtain ⟨g1, g2⟩ := rate_once hφ hκ hκ' (ho i).pen (gap_nonneg _ _) hj
  exact ⟨hf1 i (T i), g1, g2, hj.near⟩

/-! ## A concrete case

The problem of `Props/ALRate.lean`, with at most one outer iteration in each call. -/

section example104

def warmOpts : Opts ℚ := { flatOpts with resetDuals := false, maxOuter := 1 }

/-- The hypotheses of `C104_solve` and `C104_repeat` (those about the problem are in the example there). -/
example : WarmOptions warmOpts := { toLQOptions := by constructor <;> first | rfl | decide +kernel, keep := rfl, pen := by decide +kernel, tol := by decide +kernel, outer := by decide +kernel }

def warmSolve (s : ALSt (Fin 2 → ℚ) (Fin 1 → ℚ) ℚ (ALCost 2 1 ℚ) (KP 2 1 ℚ)) :=
  AL.solve (alKernel dblProblem) alOps warmOpts (ILQR.solve (alKernel dblProblem) warmOpts 1) s

def warmReport (r : Option (ALSt (Fin 2 → ℚ) (Fin 1 → ℚ) ℚ (ALCost 2 1 ℚ) (KP 2 1 ℚ))) :=
  r.map fun s => (s.status, s.st.stats.outer, (rows dblProblem s.st.cs).map fun r => r.lam)

/-- Three calls: the multiplier comes nearer to 71/12 by the factor 47/167 in each, as in one call with three outer iterations. -/
theorem warm_report : warmReport (warmSolve flatState) = some (.kMaxOuterIterations, 1, [71 / 12 - 71 / 12 * (47 / 167)]) ∧
    warmReport (warmSolve flatState >>= warmSolve) = some (.kMaxOuterIterations, 1, [71 / 12 - 71 / 12 * (47 / 167) ^ 2]) ∧
    warmReport (warmSolve flatState >>= warmSolve >>= warmSolve)
      = some (.kMaxOuterIterations, 1, [71 / 12 - 71 / 12 * (47 / 167) ^ 3]) := by
  decide +kernel

/-- With the multiplier of the solution one outer iteration is enough. -/
def solvedState : ALSt (Fin 2 → ℚ) (Fin 1 → ℚ) ℚ (ALCost 2 1 ℚ) (KP 2 1 ℚ) :=
  { flatState with
    st := { flatState.st with
      cs := fun k => { flatCosts k with eq := (flatCosts k).eq.map fun v => { v with lam := fun _ => 71 / 12 } } } }

theorem solved_report : (rows dblProblem solvedState.st.cs).map Row.lam = [71 / 12] ∧
    warmReport (warmSolve solvedState) = some (.kSolved, 1, [71 / 12]) := by
  constructor <;> decide +kernel

theorem warm_lq : LQEquality dblProblem solvedState.st.cs := flat_lq.congr fun k _ => by
  simp only [solvedState, ALCost.static, List.map_map]
  rfl

/-- The hypotheses of `C104_exact` (and of `C104_convex`, `C104_solved`) hold for this state and `ILQR.solve`. -/
theorem solved_exact : ∃ s', warmSolve solvedState = some s' ∧ s'.status = .kSolved ∧ s'.st.stats.outer = 1 ∧
    Stats.back (s'.st.stats.col .viol) = 0 ∧ s'.st.Z.x 2 0 = 2 := by
  have hs : Saddle (Alternative dblProblem solvedState.st.Z) (plainCost dblProblem solvedState.st.cs) (rows dblProblem solvedState.st.cs)
      eqGoalBest [71 / 12] := by
    have e : plainCost dblProblem solvedState.st.cs = plainCost dblProblem eqGoalCosts := by
      funext Z
      refine Finset.sum_congr rfl fun k _ => ?_
      by_cases h2 : k = 2 <;> simp [solvedState, flatState, flatCosts, eqGoalCosts, h2] <;> rfl
    rw [e]
    exact Saddle.congr (rs := rows dblProblem eqGoalCosts) rfl eqGoal_saddle
  have ho : LQOptions warmOpts := by constructor <;> first | rfl | decide +kernel
  obtain ⟨s', h⟩ : ∃ s', warmSolve solvedState = some s' := Option.isSome_iff_exists.mp (by decide +kernel)
  obtain ⟨c1, c2, -, c4, -, -, c7, -⟩ := C104_exact (φ := 1) (ILQR.solve_keepsOuter _ _ _) le_rfl (by decide +kernel) (by decide +kernel) rfl
    (fun k _ => ⟨fun v hv => by
      obtain ⟨w, hw, rfl⟩ := List.mem_map.mp hv
      exact (flat_scale k ‹_›).1 w hw, fun v hv => by rw [show (solvedState.st.cs k).ineq = [] from rfl] at hv; cases hv⟩)
    warm_lq.convex hs solved_report.1 (lq_exactOn (fuel := 0) warm_lq ho (by decide)) h (by decide +kernel) (by decide +kernel) 2
    (fun q t hst hpen _ htot ht => by
      obtain ⟨ρ, hρ, hp⟩ := hpen
      obtain ⟨t', e1, _, e3, e4⟩ := C80_inner (fuel := 0) (warm_lq.congr hst) ho (by decide) hρ hp (by push_cast at htot; omega)
      rw [e1] at ht
      cases ht
      exact ⟨e3, e4⟩) (by decide +kernel)
  have := c7 ⟨.equality, fun Z => Z.x 2 0 - 2, 71 / 12, 1⟩ (List.mem_singleton.mpr rfl)
  exact ⟨s', h, c1, c2, c4, sub_eq_zero.mp this⟩

end example104

end Altro.Props
