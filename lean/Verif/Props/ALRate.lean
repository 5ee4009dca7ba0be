import Verif.Proofs.LQRate
import Verif.Proofs.LQSaddle
import Verif.Props.LQConstrained

/-!
# C101: how fast the multipliers converge on linear-quadratic problems with equality constraints
-/

namespace Altro.Props
open Altro.Spec Altro.AL
variable {K : Type} [Field K] [LinearOrder K] [IsStrictOrderedRing K] {n m : ℕ} {p : DynProblem n m K}

/-! ## One outer iteration -/

/-- One outer iteration on a linear-quadratic problem with equality constraints, with an exact inner solve: with a constant `κ` that
depends only on the problem, the distance of the multipliers from those of the solution shrinks at least by the factor `κ / (κ + ρ)`,
and the squared distance of the returned trajectory from the solution is at most a constant times that distance squared over `ρ`, and a
constant times the square of the recorded violation. -/
theorem C101_step {cs : ℕ → ALCost n m K} (h : LQEquality p cs) (Z : Traj (Fin n → K) (Fin m → K) K) :
    ∃ κ κ' : K, 0 ≤ κ ∧ 0 ≤ κ' ∧ ∀ zs star, Saddle (Alternative p Z) (plainCost p cs) (rows p cs) zs star →
      ∀ (s t : St (Fin n → K) (Fin m → K) K (ALCost n m K) (KP n m K)) (ρ : K),
        (∀ k ≤ p.N, (s.cs k).static = (cs k).static) → (∀ k < p.N, s.Z.t k = Z.t k ∧ s.Z.h k = Z.h k) →
        0 < ρ → (∀ k ≤ p.N, PenU (s.cs k) ρ) → ExactSolve p s t → Spanned (Alternative p Z) (rows p s.cs) star →
        (κ + ρ) ^ 2 * gap (rows p (eachCost (alKernel p) alOps.updateDuals t).cs) star ≤ κ ^ 2 * gap (rows p s.cs) star ∧
        4 * ρ * trajGap p.N t.Z zs ≤ κ' * gap (rows p s.cs) star ∧
        trajGap p.N t.Z zs ≤ κ' * (alKernel p).viol (eachCost (alKernel p) alOps.updateDuals t).cs ^ 2 ∧
        Spanned (Alternative p Z) (rows p (eachCost (alKernel p) alOps.updateDuals t).cs) star := by
  obtain ⟨κ, κ', h1, h2, hr⟩ := h.rate Z
  refine ⟨κ, max κ' (κ' * (κ * (rows p cs).length)), h1, le_max_of_le_left h2, fun zs star hs s t ρ hst htm hρ hpen hE hsp => ?_⟩
  have ealt := alternative_times htm
  have e1 : ∀ W, plainCost p s.cs W = plainCost p cs W := fun W => plainCost_static p hst W
  obtain ⟨r1, r2, r3, r4⟩ := hr zs star hs (rows p s.cs) ρ t.Z (rows_static p hst) hρ (rows_pen p hpen) (ealt ▸ hE.alt) (fun y' hy' => by
    have := exact_min hρ hpen hE y' (by rw [ealt]; exact hy')
    rwa [e1, e1] at this) hsp
  refine ⟨by rwa [exact_rows hE.core hE.fresh], r2.trans (mul_le_mul_of_nonneg_right (le_max_left _ _) (gap_nonneg _ _)), r3.trans ?_,
    by rwa [exact_rows hE.core hE.fresh]⟩
  have hl : (rows p s.cs).length = (rows p cs).length := by
    rw [← List.length_map (f := Row.sig), rows_static p hst, List.length_map]
  have hsum : ((rows p s.cs).map fun r => r.fn t.Z ^ 2).sum
      ≤ (rows p cs).length * (alKernel p).viol (eachCost (alKernel p) alOps.updateDuals t).cs ^ 2 := by
    rw [← hl]
    have := sum_map_le (rows p s.cs) (fun r => r.fn t.Z ^ 2)
      (fun _ => (alKernel p).viol (eachCost (alKernel p) alOps.updateDuals t).cs ^ 2) (fun r hr => by
        have h3 := exact_viol_le hE.core hE.fresh r hr
        obtain ⟨r', hr', hk, -⟩ := Row.sig_mem (rows_static p hst) hr
        unfold Row.viol at h3
        rw [← hk, LQDual.rows_equality h r' hr'] at h3
        simp only [compViolation] at h3
        rw [← sq_abs]
        exact pow_le_pow_left₀ (abs_nonneg _) h3 2)
    rwa [List.map_const', List.sum_replicate, nsmul_eq_mul] at this
  refine (mul_le_mul_of_nonneg_left (mul_le_mul_of_nonneg_left hsum h1) h2).trans ?_
  refine le_trans (le_of_eq ?_) (mul_le_mul_of_nonneg_right (le_max_right _ _) (sq_nonneg _))
  ring

/-! ## Whole solves -/

/-- The bound after `j` outer iterations, from the squared distance `G` at the start. -/
structure RateInv (p : DynProblem n m K) (o : Opts K) (φ κ G : K) (s q : St (Fin n → K) (Fin m → K) K (ALCost n m K) (KP n m K))
    (star : List K) (j : ℕ) : Prop extends ConvBase p o φ s q j where
  span : Spanned (Alternative p s.Z) (rows p q.cs) star
  rate : gap (rows p q.cs) star * ∏ i ∈ Finset.range j, (κ + o.initialPenalty * φ ^ i) ^ 2 ≤ κ ^ (2 * j) * G

section solve
variable {o : Opts K} {φ κ κ' G : K}
  {inner : St (Fin n → K) (Fin m → K) K (ALCost n m K) (KP n m K) →
    Option (St (Fin n → K) (Fin m → K) K (ALCost n m K) (KP n m K))}
  {s s' : ALSt (Fin n → K) (Fin m → K) K (ALCost n m K) (KP n m K)}
  {zs : Traj (Fin n → K) (Fin m → K) K} {star : List K}

/-- Growing penalties change neither the multipliers nor the constraints. -/
theorem spanned_pen {V : Type} {S : V → Prop} {rs : List (Row V K)} {star : List K} (f : Row V K → K) (h : Spanned S rs star) :
    Spanned S (rs.map fun r => { r with pen := f r }) star := by
  obtain ⟨Y, Y', h1, h2, h3⟩ := h
  refine ⟨Y, Y', h1, h2, fun q hq => ?_⟩
  rw [List.zip_map_left] at hq
  obtain ⟨q', hq', rfl⟩ := List.mem_map.mp hq
  exact h3 q' hq'

theorem next_rows {q : ALSt (Fin n → K) (Fin m → K) K (ALCost n m K) (KP n m K)}
    {t : St (Fin n → K) (Fin m → K) K (ALCost n m K) (KP n m K)} (hs : ∀ k ≤ p.N, ScaleU (t.cs k) φ) :
    rows p (next (alKernel p) alOps q t).st.cs
      = (rows p (eachCost (alKernel p) alOps.updateDuals t).cs).map fun r => { r with pen := r.pen * φ } := by
  obtain ⟨b1, -⟩ := body_facts (alKernel p) alOps q t
  have hcs : ∀ k ≤ p.N, (next (alKernel p) alOps q t).st.cs k = (t.cs k).updateDuals.updatePenalties := fun k hk => by
    show (if k ≤ p.N then ALCost.updatePenalties ((body (alKernel p) alOps q t).st.cs k) else _) = _
    rw [if_pos hk, b1]
    show ALCost.updatePenalties (if k ≤ p.N then _ else _) = _
    rw [if_pos hk]; rfl
  refine rows_map p fun k hk => ?_
  have e : (eachCost (alKernel p) alOps.updateDuals t).cs k = (t.cs k).updateDuals := if_pos hk
  rw [hcs k hk, e]
  exact knotRows_pen k _ φ (scaleU_static (ALCost.updateDuals_static _) (hs k hk))

/-- What `C101_step` provides, for the states of one solve. -/
def StepRate (p : DynProblem n m K) (s : St (Fin n → K) (Fin m → K) K (ALCost n m K) (KP n m K))
    (zs : Traj (Fin n → K) (Fin m → K) K) (star : List K) (κ κ' : K) : Prop :=
  ∀ (q t : St (Fin n → K) (Fin m → K) K (ALCost n m K) (KP n m K)) (ρ : K),
    (∀ k ≤ p.N, (q.cs k).static = (s.cs k).static) → (∀ k < p.N, q.Z.t k = s.Z.t k ∧ q.Z.h k = s.Z.h k) →
    0 < ρ → (∀ k ≤ p.N, PenU (q.cs k) ρ) → ExactSolve p q t → Spanned (Alternative p s.Z) (rows p q.cs) star →
    (κ + ρ) ^ 2 * gap (rows p (eachCost (alKernel p) alOps.updateDuals t).cs) star ≤ κ ^ 2 * gap (rows p q.cs) star ∧
    4 * ρ * trajGap p.N t.Z zs ≤ κ' * gap (rows p q.cs) star ∧
    trajGap p.N t.Z zs ≤ κ' * (alKernel p).viol (eachCost (alKernel p) alOps.updateDuals t).cs ^ 2 ∧
    Spanned (Alternative p s.Z) (rows p (eachCost (alKernel p) alOps.updateDuals t).cs) star

theorem rateInv_after (hφ : 0 < φ) (hpos : 0 < o.initialPenalty) (hκ : 0 ≤ κ) (hsr : StepRate p s.st zs star κ κ')
    {q t : St (Fin n → K) (Fin m → K) K (ALCost n m K) (KP n m K)} {j : ℕ} (hq : RateInv p o φ κ G s.st q star j) (hE : ExactSolve p q t) :
    gap (rows p (eachCost (alKernel p) alOps.updateDuals t).cs) star
      * ∏ i ∈ Finset.range (j + 1), (κ + o.initialPenalty * φ ^ i) ^ 2 ≤ κ ^ (2 * (j + 1)) * G := by
  have hρ : 0 < o.initialPenalty * φ ^ j := by positivity
  obtain ⟨r1, -⟩ := hsr q t _ hq.static hq.times hρ hq.pen hE hq.span
  have hP : 0 ≤ ∏ i ∈ Finset.range j, (κ + o.initialPenalty * φ ^ i) ^ 2 := Finset.prod_nonneg fun _ _ => sq_nonneg _
  have h1 := mul_le_mul_of_nonneg_right r1 hP
  have h2 := mul_le_mul_of_nonneg_left hq.rate (sq_nonneg κ)
  rw [Finset.prod_range_succ, show 2 * (j + 1) = 2 * j + 2 by ring, pow_add]
  linarith

theorem rateInv_step (hφ : 0 < φ) (hpos : 0 < o.initialPenalty) (hκ : 0 ≤ κ) (hscale : ∀ k ≤ p.N, ScaleU (s.st.cs k) φ)
    (hsr : StepRate p s.st zs star κ κ') {q : ALSt (Fin n → K) (Fin m → K) K (ALCost n m K) (KP n m K)}
    {t : St (Fin n → K) (Fin m → K) K (ALCost n m K) (KP n m K)} {j : ℕ} (hq : RateInv p o φ κ G s.st q.st star j)
    (hE : ExactSolve p q.st t) : RateInv p o φ κ G s.st (next (alKernel p) alOps q t).st star (j + 1) := by
  have hρ : 0 < o.initialPenalty * φ ^ j := by positivity
  obtain ⟨-, -, -, r3⟩ := hsr q.st t _ hq.static hq.times hρ hq.pen hE hq.span
  obtain ⟨hb, e⟩ := convBase_step hscale hq.toConvBase hE.core hE.fresh hE.times
  refine ⟨hb, ?_, ?_⟩
  · rw [next_rows fun k hk => scaleU_static (c' := s.st.cs k) (by
      rw [← hq.static k hk, ← ALCost.static_of_core, hE.core k hk, ALCost.static_of_core]) (hscale k hk)]
    exact spanned_pen _ r3
  · rw [e]
    exact rateInv_after hφ hpos hκ hsr hq hE

theorem rateInv_init (hr : o.resetDuals = true) (hpos : 0 < o.initialPenalty)
    (hs : Saddle (Alternative p s.st.Z) (plainCost p s.st.cs) (rows p s.st.cs) zs star)
    (hsp : ∀ rs : List (Row (Traj (Fin n → K) (Fin m → K) K) K), rs.map Row.sig = (rows p s.st.cs).map Row.sig →
      (∀ r ∈ rs, r.lam = 0) → Spanned (Alternative p s.st.Z) rs star) :
    RateInv p o φ κ (normSq star) s.st (AL.init (alKernel p) alOps o s).st star 0 := by
  have h0 := convInv_init (φ := φ) hr hpos hs
  have hr0 := C14_alcost_reset p o hr hpos s
  have hlam0 : ∀ r ∈ rows p (AL.init (alKernel p) alOps o s).st.cs, r.lam = 0 := by
    intro r hr
    obtain ⟨k, hk, ⟨v, hv, i, rfl⟩ | ⟨v, hv, i, rfl⟩⟩ := (mem_rows p _ r).mp hr
    · exact congrFun ((hr0 k hk).1 v hv).1 i
    · exact congrFun ((hr0 k hk).2 v hv).1 i
  refine ⟨h0.toConvBase, hsp _ (rows_static p fun k hk => init_static p o s k hk) hlam0, ?_⟩
  have := h0.gap
  rw [Finset.range_zero, Finset.sum_empty, add_zero] at this
  simpa using this

/-- An outer loop with an exact inner solver that keeps an invariant from which the violation in iteration `J` is below the tolerance
solves the problem if the limits leave room for that iteration. -/
theorem solved_of_invariant (hk : KeepsOuter inner) (hφ : 1 ≤ φ) (hpos : 0 < o.initialPenalty)
    (I : ℕ → ALSt (Fin n → K) (Fin m → K) K (ALCost n m K) (KP n m K) → Prop)
    (hI0 : I 0 (AL.init (alKernel p) alOps o s)) (hbase : ∀ j q, I j q → ConvBase p o φ s.st q.st j)
    (hstep : ∀ j q t, I j q → inner q.st = some t → ExactSolve p q.st t → I (j + 1) (next (alKernel p) alOps q t))
    (hex : ExactOn p s.st inner) (h : AL.solve (alKernel p) alOps o inner s = some s') (J : ℕ)
    (hJ : ∀ q t, I J q → inner q.st = some t → ExactSolve p q.st t →
      (alKernel p).viol (eachCost (alKernel p) alOps.updateDuals t).cs < o.conTol)
    (hJpen : o.initialPenalty * φ ^ J ≤ o.maxPenalty) (hJout : (J : ℤ) < o.maxOuter) (W : ℕ) (hin : SucceedsOn p o W s.st inner)
    (hW : (W : ℤ) * (J + 1) < o.maxTotal) :
    s'.status = .kSolved ∧ s'.st.stats.outer ≤ J + 1 ∧ s'.st.stats.total ≤ W * (J + 1) ∧
      Stats.back (s'.st.stats.col .viol) < o.conTol := by
  have hφ0 : 0 < φ := lt_of_lt_of_le one_pos hφ
  have hcount : ∀ j, j ≤ J → ((W * j : ℕ) : ℤ) + W < o.maxTotal := by
    intro j hj
    have h1 : W * (j + 1) ≤ W * (J + 1) := Nat.mul_le_mul_left _ (by omega)
    have h2 : ((W * (j + 1) : ℕ) : ℤ) ≤ ((W * (J + 1) : ℕ) : ℤ) := by exact_mod_cast h1
    push_cast at h2 ⊢
    linarith
  have hexact : ∀ {j q t}, I j q → inner q.st = some t → ExactSolve p q.st t := fun {j q t} hq ht =>
    hex q.st t (hbase j q hq).static ⟨_, (by positivity : 0 < o.initialPenalty * φ ^ j), (hbase j q hq).pen⟩ (hbase j q hq).times ht
  have hone : ∀ {j : ℕ} {q : ALSt (Fin n → K) (Fin m → K) K (ALCost n m K) (KP n m K)} {t},
      I j q → j ≤ J → q.st.stats.total ≤ W * j → inner q.st = some t →
      t.status = .kSolved ∧ t.stats.total ≤ W * (j + 1) := by
    intro j q t hq hj hT ht
    have hρ : 0 < o.initialPenalty * φ ^ j := by positivity
    have hc := hcount j hj
    obtain ⟨e1, e2⟩ := hin q.st t (hbase j q hq).static ⟨_, hρ, (hbase j q hq).pen⟩ (hbase j q hq).times (by omega) ht
    exact ⟨e1, by rw [Nat.mul_succ]; omega⟩
  obtain ⟨j, q, t, hj, ⟨hq, hjJ, hqT⟩, ht, _, hto, hd, rfl⟩ := solve_last (alKernel p) alOps o inner hk
    (fun j q => I j q ∧ j ≤ J ∧ q.st.stats.total ≤ W * j) s s'
    ⟨hI0, Nat.zero_le _, by rw [(init_facts (alKernel p) alOps o s).2.1]; omega⟩
    (fun j q t hq ht hd => ⟨hstep j q t hq.1 ht (hexact hq.1 ht), by
      have hv := (isDone_continues o _ hd).viol
      rw [(body_facts (alKernel p) alOps q t).2.2.2.2.2.2.1, ← Bool.not_eq_true, Arith.lt_iff] at hv
      have : j ≠ J := by
        rintro rfl
        exact hv (hJ q t hq.1 ht (hexact hq.1 ht))
      have := hq.2.1
      omega, by
      show (body (alKernel p) alOps q t).st.stats.total ≤ _
      rw [(body_facts (alKernel p) alOps q t).2.2.2.2.2.1]
      exact (hone hq.1 hq.2.1 hq.2.2 ht).2⟩) (by omega) h
  obtain ⟨hsol, htT⟩ := hone hq hjJ hqT ht
  obtain ⟨b1, b2, b3, b4, b5, b6, b7, b8⟩ := body_facts (alKernel p) alOps q t
  obtain ⟨hout, hst⟩ := isDone_true o _ hd
  rw [hst]
  have htotal : (body (alKernel p) alOps q t).st.stats.total ≤ W * (J + 1) := by
    rw [b6]; exact htT.trans (Nat.mul_le_mul_left _ (by omega))
  have hpen : o.initialPenalty * φ ^ j ≤ o.maxPenalty := by
    refine le_trans ?_ hJpen
    have := pow_le_pow_right₀ hφ hjJ
    gcongr
  have hout5 : (body (alKernel p) alOps q t).st.stats.outer ≤ J + 1 := by rw [b5, hto]; omega
  have hE := hexact hq ht
  generalize hS : (isDone o (body (alKernel p) alOps q t)).1.status = S at hout ⊢
  cases hout with
  | innerFailed hf => exact absurd (b3.trans hsol) hf
  | solved _ hlt =>
    rw [Arith.lt_iff] at hlt
    exact ⟨rfl, hout5, htotal, hlt⟩
  | maxPenalty _ _ hp =>
    rw [Arith.gt_iff, b8] at hp
    have hρ : 0 < o.initialPenalty * φ ^ j := by positivity
    have hpu : ∀ k ≤ p.N, PenU ((eachCost (alKernel p) alOps.updateDuals t).cs k) (o.initialPenalty * φ ^ j) := by
      have hr1 : ∀ r ∈ rows p (eachCost (alKernel p) alOps.updateDuals t).cs, r.pen = o.initialPenalty * φ ^ j := by
        intro r hr
        rw [exact_rows hE.core hE.fresh] at hr
        obtain ⟨r0, h0, rfl⟩ := List.mem_map.mp hr
        exact rows_pen p (hbase j q hq).pen r0 h0
      intro k hk
      exact ⟨fun v hv i => hr1 _ ((mem_rows p _ _).mpr ⟨k, hk, .inl ⟨v, hv, i, rfl⟩⟩),
        fun v hv i => hr1 _ ((mem_rows p _ _).mpr ⟨k, hk, .inr ⟨v, hv, i, rfl⟩⟩)⟩
    exact absurd (lt_of_lt_of_le hp (maxPenalty_le p _ hρ.le hpu)) (not_lt.mpr hpen)
  | maxOuter _ hnv _ ho =>
    rw [b5, hto] at ho
    rw [← Bool.not_eq_true, Arith.lt_iff, b7] at hnv
    obtain rfl : j = J := by omega
    exact absurd (hJ q t hq ht hE) hnv
  | maxTotal _ _ _ _ ht' =>
    have : ((body (alKernel p) alOps q t).st.stats.total : ℤ) ≤ ((W * (J + 1) : ℕ) : ℤ) := by exact_mod_cast htotal
    push_cast at this
    linarith

end solve

/-- The recorded violation after an exact inner solve bounds those of all constraints. -/
theorem viol_rows {s q t : St (Fin n → K) (Fin m → K) K (ALCost n m K) (KP n m K)} (hst : ∀ k ≤ p.N, (q.cs k).static = (s.cs k).static)
    (hE : ExactSolve p q t) : ∀ r ∈ rows p s.cs, r.viol t.Z ≤ (alKernel p).viol (eachCost (alKernel p) alOps.updateDuals t).cs := by
  intro r hr
  obtain ⟨r', h1, h2, h3⟩ := Row.sig_mem (rows_static p hst).symm hr
  have := exact_viol_le hE.core hE.fresh r' h1
  unfold Row.viol at this ⊢
  simp only [h2, h3] at this
  exact this

/-- The solver returns if the inner solver does. -/
theorem returns_of_base {o : Opts K} {φ : K} {inner : St (Fin n → K) (Fin m → K) K (ALCost n m K) (KP n m K) →
      Option (St (Fin n → K) (Fin m → K) K (ALCost n m K) (KP n m K))} {s : ALSt (Fin n → K) (Fin m → K) K (ALCost n m K) (KP n m K)}
    (hφ : 0 < φ) (hpos : 0 < o.initialPenalty) (hscale : ∀ k ≤ p.N, ScaleU (s.st.cs k) φ)
    (h0 : ConvBase p o φ s.st (AL.init (alKernel p) alOps o s).st 0) (hex : ExactOn p s.st inner)
    (hret : ∀ q, (∀ k ≤ p.N, (q.cs k).static = (s.st.cs k).static) → (∃ ρ, 0 < ρ ∧ ∀ k ≤ p.N, PenU (q.cs k) ρ) →
      ∃ t, inner q = some t) :
    ∃ s', AL.solve (alKernel p) alOps o inner s = some s' := by
  have key : ∀ (r j : ℕ) (q : ALSt (Fin n → K) (Fin m → K) K (ALCost n m K) (KP n m K)),
      ConvBase p o φ s.st q.st j → ∃ s', outerLoop (alKernel p) alOps o inner r q = some s' := by
    intro r
    induction r with
    | zero => exact fun j q _ => ⟨q, rfl⟩
    | succ r ih =>
      intro j q hq
      have hρ : 0 < o.initialPenalty * φ ^ j := by positivity
      obtain ⟨t, ht⟩ := hret q.st hq.static ⟨_, hρ, hq.pen⟩
      have hE := hex q.st t hq.static ⟨_, hρ, hq.pen⟩ hq.times ht
      unfold outerLoop
      rw [ht]
      simp only
      split
      · exact ⟨_, rfl⟩
      · rename_i hd
        have hd : (isDone o (body (alKernel p) alOps q t)).2 = false := Bool.eq_false_iff.mpr hd
        have e := isDone_false o _ hd
        obtain ⟨s', hs'⟩ := ih (j + 1) (next (alKernel p) alOps q t) (convBase_step hscale hq hE.core hE.fresh hE.times).1
        refine ⟨s', ?_⟩
        rw [← hs']
        show outerLoop (alKernel p) alOps o inner r { (isDone o (body (alKernel p) alOps q t)).1 with
          st := eachCost (alKernel p) alOps.updatePenalties (isDone o (body (alKernel p) alOps q t)).1.st } = _
        rw [e]; rfl
  exact key _ 0 _ h0

/-- What the bounds say after outer iteration `j`, with the product of the factors multiplied out;
`G` is the squared distance of the multipliers at the start. -/
structure RateEnd (p : DynProblem n m K) (o : Opts K) (φ κ κ' G : K) (s s' : St (Fin n → K) (Fin m → K) K (ALCost n m K) (KP n m K))
    (zs : Traj (Fin n → K) (Fin m → K) K) (star : List K) (j : ℕ) : Prop where
  outer : s'.stats.outer = j + 1
  multipliers : gap (rows p s'.cs) star * ∏ i ∈ Finset.range (j + 1), (κ + o.initialPenalty * φ ^ i) ^ 2 ≤ κ ^ (2 * (j + 1)) * G
  violation : 0 ≤ Stats.back (s'.stats.col .viol) ∧ (∀ r ∈ rows p s.cs, r.viol s'.Z ≤ Stats.back (s'.stats.col .viol)) ∧
    (o.initialPenalty * φ ^ j * Stats.back (s'.stats.col .viol)) ^ 2 * ∏ i ∈ Finset.range j, (κ + o.initialPenalty * φ ^ i) ^ 2
      ≤ κ ^ (2 * j) * G
  trajectory : 4 * (o.initialPenalty * φ ^ j) * trajGap p.N s'.Z zs * ∏ i ∈ Finset.range j, (κ + o.initialPenalty * φ ^ i) ^ 2
    ≤ κ' * (κ ^ (2 * j) * G)
  near : trajGap p.N s'.Z zs ≤ κ' * Stats.back (s'.stats.col .viol) ^ 2
  /-- The problem is the same as before, and the next solve may start from the multipliers found. -/
  static : ∀ k ≤ p.N, (s'.cs k).static = (s.cs k).static
  times : ∀ k < p.N, s'.Z.t k = s.Z.t k ∧ s'.Z.h k = s.Z.h k
  span : Spanned (Alternative p s.Z) (rows p s'.cs) star

/-- A solve that starts with multipliers at squared distance `G` from `star`. -/
theorem rate_core {φ κ κ' G : K} {s : ALSt (Fin n → K) (Fin m → K) K (ALCost n m K) (KP n m K)} {zs : Traj (Fin n → K) (Fin m → K) K} {star : List K}
    (h : LQEquality p s.st.cs) (hN : p.N ≠ 0) (hφ : 0 < φ) (hscale : ∀ k ≤ p.N, ScaleU (s.st.cs k) φ)
    (hs : Saddle (Alternative p s.st.Z) (plainCost p s.st.cs) (rows p s.st.cs) zs star) (hκ : 0 ≤ κ) (hκ' : 0 ≤ κ')
    (hsr : StepRate p s.st zs star κ κ') {o : Opts K} {fuel : ℕ} (ho : LQOptions o) (hpos : 0 < o.initialPenalty) (htol : 0 ≤ o.conTol)
    (hmax : 1 ≤ o.maxOuter) (hI0 : RateInv p o φ κ G s.st (AL.init (alKernel p) alOps o s).st star 0) :
    ∃ s' j, AL.solve (alKernel p) alOps o (ILQR.solve (alKernel p) o (fuel + 1)) s = some s' ∧
      RateEnd p o φ κ κ' G s.st s'.st zs star j ∧
      ∀ J : ℕ, 1 ≤ φ → κ ^ (2 * J) * G
          < (o.initialPenalty * φ ^ J * o.conTol) ^ 2 * ∏ i ∈ Finset.range J, (κ + o.initialPenalty * φ ^ i) ^ 2 →
        o.initialPenalty * φ ^ J ≤ o.maxPenalty → (J : ℤ) < o.maxOuter → 2 * ((J : ℤ) + 1) < o.maxTotal →
        s'.status = .kSolved ∧ s'.st.stats.outer ≤ J + 1 ∧ s'.st.stats.total ≤ 2 * (J + 1) ∧
          Stats.back (s'.st.stats.col .viol) < o.conTol := by
  have hex := lq_exactOn (o := o) (fuel := fuel) h ho hN
  have hko := ILQR.solve_keepsOuter (alKernel p) o (fuel + 1)
  obtain ⟨s', hs'⟩ := returns_of_base hφ hpos hscale hI0.toConvBase hex (fun q hst hpen => by
    obtain ⟨ρ, hρ, hp⟩ := hpen
    obtain ⟨t, e1, _⟩ := ((h.congr hst).core hρ hp).solve (o := o) (fuel := fuel) hN ho.reg ho.regMin ho.regMax ho.ls ho.low
      ho.up ho.lim (by have := ho.inner; omega)
    exact ⟨t, e1⟩)
  have hviol : ∀ {j : ℕ} {q t : St (Fin n → K) (Fin m → K) K (ALCost n m K) (KP n m K)}, RateInv p o φ κ G s.st q star j →
      ExactSolve p q t → (o.initialPenalty * φ ^ j * (alKernel p).viol (eachCost (alKernel p) alOps.updateDuals t).cs) ^ 2
        * ∏ i ∈ Finset.range j, (κ + o.initialPenalty * φ ^ i) ^ 2 ≤ κ ^ (2 * j) * G := fun {j q t} hq hE => by
    have hρ : 0 < o.initialPenalty * φ ^ j := by positivity
    obtain ⟨hcx, hsd⟩ := convInv_facts h.convex hs hq.toConvBase
    have hstep := C79_step hρ hq.pen hq.lam hcx hsd hE
    have hP : 0 ≤ ∏ i ∈ Finset.range j, (κ + o.initialPenalty * φ ^ i) ^ 2 := Finset.prod_nonneg fun _ _ => sq_nonneg _
    refine le_trans (mul_le_mul_of_nonneg_right ?_ hP) hq.rate
    linarith [gap_nonneg (rows p (eachCost (alKernel p) alOps.updateDuals t).cs) star]
  obtain ⟨j, q, t, hj, hq, ht, _, hto, hd, rfl⟩ := solve_last (alKernel p) alOps o _ hko
    (fun j q => RateInv p o φ κ G s.st q.st star j) s s' hI0
    (fun j q t hq ht hd => rateInv_step hφ hpos hκ hscale hsr hq
      (hex q.st t hq.static ⟨_, (by positivity : 0 < o.initialPenalty * φ ^ j), hq.pen⟩ hq.times ht)) hmax hs'
  have hρ : 0 < o.initialPenalty * φ ^ j := by positivity
  have hE := hex q.st t hq.static ⟨_, hρ, hq.pen⟩ hq.times ht
  have hP : 0 ≤ ∏ i ∈ Finset.range j, (κ + o.initialPenalty * φ ^ i) ^ 2 := Finset.prod_nonneg fun _ _ => sq_nonneg _
  refine ⟨_, j, hs', ?_, fun J hφ1 hJ hJpen hJout hJtot => ?_⟩
  · obtain ⟨b1, b2, b3, b4, b5, b6, b7, b8⟩ := body_facts (alKernel p) alOps q t
    rw [(isDone_true o _ hd).2]
    have hR := hsr q.st t _ hq.static hq.times hρ hq.pen hE hq.span
    refine ⟨by rw [b5, hto], ?_, ⟨by rw [b7]; exact viol_nonneg p _, by rw [b2, b7]; exact viol_rows hq.static hE, ?_⟩, ?_, by rw [b2, b7]; exact hR.2.2.1,
      fun k hk => ?_, fun k hk => ?_, by rw [b1]; exact hR.2.2.2⟩
    · rw [b1]
      exact rateInv_after hφ hpos hκ hsr hq hE
    · rw [b7]
      exact hviol hq hE
    · rw [b2]
      obtain ⟨-, r2, -⟩ := hR
      have h1 := mul_le_mul_of_nonneg_right r2 hP
      have h2 := mul_le_mul_of_nonneg_left hq.rate hκ'
      linarith
    · rw [b1, show (eachCost (alKernel p) alOps.updateDuals t).cs k = (t.cs k).updateDuals from if_pos hk,
        ALCost.updateDuals_static, ← ALCost.static_of_core, hE.core k hk, ALCost.static_of_core]
      exact hq.static k hk
    · rw [b2, (hE.times k hk).1, (hE.times k hk).2]
      exact hq.times k hk
  · have hsucc : SucceedsOn p o 2 s.st (ILQR.solve (alKernel p) o (fuel + 1)) := by
      intro q t hst hpen _ htot ht
      obtain ⟨ρ, hρ, hp⟩ := hpen
      obtain ⟨t', e1, _, e3, e4⟩ := C80_inner (fuel := fuel) (h.congr hst) ho hN hρ hp (by push_cast at htot; omega)
      rw [e1] at ht
      cases ht
      exact ⟨e3, e4⟩
    obtain ⟨c1, c2, c3, c4⟩ := solved_of_invariant hko hφ1 hpos (fun j q => RateInv p o φ κ G s.st q.st star j)
      hI0 (fun j q hq => hq.toConvBase)
      (fun j q t hq _ hE => rateInv_step hφ hpos hκ hscale hsr hq hE) hex hs' J (fun q t hq _ hE => by
        by_contra hc
        have hc := not_lt.mp hc
        have hP : 0 ≤ ∏ i ∈ Finset.range J, (κ + o.initialPenalty * φ ^ i) ^ 2 := Finset.prod_nonneg fun _ _ => sq_nonneg _
        have h1 := hviol hq hE
        have h2 : (o.initialPenalty * φ ^ J * o.conTol) ^ 2
            ≤ (o.initialPenalty * φ ^ J * (alKernel p).viol (eachCost (alKernel p) alOps.updateDuals t).cs) ^ 2 := by gcongr
        have h3 := mul_le_mul_of_nonneg_right h2 hP
        linarith) hJpen hJout 2 hsucc hJtot
    exact ⟨c1, c2, c3, c4⟩

/-- The whole solver, from multipliers zero, on a linear-quadratic problem with equality constraints that can be met.  There are a
solution `zs`, multipliers `λ*` for it and constants `κ`, `κ'` such that with any penalties and tolerances the solver returns, and if it
does so in outer iteration `j` (from 0), with penalties `ρ_i = initial_penalty · scaling^i`,

* the multipliers obey `‖λ - λ*‖ ≤ κ/(κ + ρ_0) · … · κ/(κ + ρ_j) · ‖λ*‖`,
* no constraint is violated by more than the recorded `v`, and `ρ_j v ≤ κ/(κ + ρ_0) · … · κ/(κ + ρ_(j-1)) · ‖λ*‖`,
* the squared distance of the trajectory from `zs` is at most `κ' / (4 ρ_j)` times the square of that, and at most `κ' v²`. -/
theorem C101_solve {φ : K} {s : ALSt (Fin n → K) (Fin m → K) K (ALCost n m K) (KP n m K)}
    (h : LQEquality p s.st.cs) (hN : p.N ≠ 0) (hφ : 0 < φ) (hscale : ∀ k ≤ p.N, ScaleU (s.st.cs k) φ)
    (hf : ∃ Y, Alternative p s.st.Z Y ∧ ∀ r ∈ rows p s.st.cs, r.Holds Y) :
    ∃ (zs : Traj (Fin n → K) (Fin m → K) K) (star : List K) (κ κ' : K),
      Saddle (Alternative p s.st.Z) (plainCost p s.st.cs) (rows p s.st.cs) zs star ∧ 0 ≤ κ ∧ 0 ≤ κ' ∧
      ∀ (o : Opts K) (fuel : ℕ), LQOptions o → o.resetDuals = true → 0 < o.initialPenalty → 0 ≤ o.conTol → 1 ≤ o.maxOuter →
        ∃ s' j, AL.solve (alKernel p) alOps o (ILQR.solve (alKernel p) o (fuel + 1)) s = some s' ∧
          RateEnd p o φ κ κ' (normSq star) s.st s'.st zs star j ∧
        ∀ J : ℕ, 1 ≤ φ → κ ^ (2 * J) * normSq star
            < (o.initialPenalty * φ ^ J * o.conTol) ^ 2 * ∏ i ∈ Finset.range J, (κ + o.initialPenalty * φ ^ i) ^ 2 →
          o.initialPenalty * φ ^ J ≤ o.maxPenalty → (J : ℤ) < o.maxOuter → 2 * ((J : ℤ) + 1) < o.maxTotal →
          s'.status = .kSolved ∧ s'.st.stats.outer ≤ J + 1 ∧ s'.st.stats.total ≤ 2 * (J + 1) ∧
            Stats.back (s'.st.stats.col .viol) < o.conTol := by
  obtain ⟨zs, star, hs, hsp⟩ := h.spanned s.st.Z hf
  obtain ⟨κ, κ', hκ, hκ', hrate⟩ := C101_step h s.st.Z
  have hsr : StepRate p s.st zs star κ κ' := fun q t ρ h1 h2 h3 h4 h5 h6 => hrate zs star hs q t ρ h1 h2 h3 h4 h5 h6
  exact ⟨zs, star, κ, κ', hs, hκ, hκ', fun o fuel ho hr hpos htol hmax =>
    rate_core h hN hφ hscale hs hκ hκ' hsr ho hpos htol hmax (rateInv_init hr hpos hs hsp)⟩

/-- ... so with penalties growing by `φ` the multipliers after `j + 1` outer iterations obey
`‖λ - λ*‖ ≤ (κ/ρ)^(j+1) φ^(-j(j+1)/2) ‖λ*‖`: the number of correct digits grows with the square of the number of iterations. -/
theorem C101_digits {o : Opts K} {φ κ κ' : K} {s s' : St (Fin n → K) (Fin m → K) K (ALCost n m K) (KP n m K)}
    {zs : Traj (Fin n → K) (Fin m → K) K} {star : List K} {j : ℕ} (hφ : 0 < φ) (hκ : 0 ≤ κ) (hpos : 0 < o.initialPenalty)
    (h : RateEnd p o φ κ κ' (normSq star) s s' zs star j) :
    gap (rows p s'.cs) star * (o.initialPenalty ^ (2 * (j + 1)) * φ ^ (j * (j + 1))) ≤ κ ^ (2 * (j + 1)) * normSq star := by
  refine le_trans (mul_le_mul_of_nonneg_left ?_ (gap_nonneg _ _)) h.multipliers
  have : ∀ i : ℕ, o.initialPenalty ^ (2 * (i + 1)) * φ ^ (i * (i + 1)) = ∏ l ∈ Finset.range (i + 1), (o.initialPenalty * φ ^ l) ^ 2 := by
    intro i
    induction i with
    | zero => simp
    | succ i ih =>
      rw [Finset.prod_range_succ, ← ih]
      ring
  rw [this]
  refine Finset.prod_le_prod (fun l _ => sq_nonneg _) fun l _ => ?_
  have : 0 < o.initialPenalty * φ ^ l := by positivity
  gcongr
  linarith

/-- The whole solver converges whether or not the penalties grow: for every initial penalty and tolerance there is a number `J` of outer
iterations that is enough, with any penalty scaling from 1 up.  (`C80_converges` needs growing penalties.)  The squared distance of the
returned trajectory from the solution is at most a constant times the squared tolerance. -/
theorem C101_converges [Archimedean K] {φ : K} {s : ALSt (Fin n → K) (Fin m → K) K (ALCost n m K) (KP n m K)}
    (h : LQEquality p s.st.cs) (hN : p.N ≠ 0) (hφ : 1 ≤ φ) (hscale : ∀ k ≤ p.N, ScaleU (s.st.cs k) φ)
    (hf : ∃ Y, Alternative p s.st.Z Y ∧ ∀ r ∈ rows p s.st.cs, r.Holds Y) :
    ∃ (zs : Traj (Fin n → K) (Fin m → K) K) (c : K),
      (Alternative p s.st.Z zs ∧ (∀ r ∈ rows p s.st.cs, r.Holds zs) ∧
        ∀ Y, Alternative p s.st.Z Y → (∀ r ∈ rows p s.st.cs, r.Holds Y) → plainCost p s.st.cs zs ≤ plainCost p s.st.cs Y) ∧
      ∀ ρ τ : K, 0 < ρ → 0 < τ → ∃ J : ℕ, ∀ (o : Opts K) (fuel : ℕ), LQOptions o → o.resetDuals = true →
        o.initialPenalty = ρ → o.conTol = τ → ρ * φ ^ J ≤ o.maxPenalty → (J : ℤ) < o.maxOuter →
        2 * ((J : ℤ) + 1) < o.maxTotal →
        ∃ s', AL.solve (alKernel p) alOps o (ILQR.solve (alKernel p) o (fuel + 1)) s = some s' ∧ s'.status = .kSolved ∧
          s'.st.stats.outer ≤ J + 1 ∧ s'.st.stats.total ≤ 2 * (J + 1) ∧
          (∀ r ∈ rows p s.st.cs, r.viol s'.st.Z < τ) ∧ trajGap p.N s'.st.Z zs ≤ c * τ ^ 2 := by
  have hφ0 : 0 < φ := lt_of_lt_of_le one_pos hφ
  obtain ⟨zs, star, κ, κ', hs, hκ, hκ', hall⟩ := C101_solve h hN hφ0 hscale hf
  refine ⟨zs, κ', ⟨hs.mem, hs.holds, fun Y hY hYr => hs.optimal hY hYr⟩, fun ρ τ hρ hτ => ?_⟩
  have n0 : 0 ≤ normSq star := sum_map_nonneg _ _ fun _ _ => sq_nonneg _
  have hlt : (κ / (κ + ρ)) ^ 2 < 1 := by
    have h1 : κ / (κ + ρ) < 1 := (div_lt_one (by linarith)).mpr (by linarith)
    have h2 : 0 ≤ κ / (κ + ρ) := div_nonneg hκ (by linarith)
    nlinarith
  obtain ⟨J, hJ⟩ := exists_pow_lt_of_lt_one (show 0 < (ρ * τ) ^ 2 / (normSq star + 1) by positivity) hlt
  refine ⟨J, fun o fuel ho hr e1 e2 l1 l2 l3 => ?_⟩
  subst e1
  subst e2
  obtain ⟨s', j, r1, r2, r3⟩ := hall o fuel ho hr hρ hτ.le (by omega)
  obtain ⟨c1, c2, c3, c4⟩ := r3 J hφ (by
    have hprod : ((κ + o.initialPenalty) ^ 2) ^ J ≤ ∏ i ∈ Finset.range J, (κ + o.initialPenalty * φ ^ i) ^ 2 := by
      rw [← Finset.card_range J, ← Finset.prod_const, Finset.card_range]
      refine Finset.prod_le_prod (fun i _ => sq_nonneg _) fun i _ => ?_
      have : 1 ≤ φ ^ i := one_le_pow₀ hφ
      have : o.initialPenalty ≤ o.initialPenalty * φ ^ i := le_mul_of_one_le_right hρ.le this
      gcongr
    have h1 : κ ^ (2 * J) * (normSq star + 1) < (o.initialPenalty * o.conTol) ^ 2 * ((κ + o.initialPenalty) ^ 2) ^ J := by
      rw [div_pow, div_pow, lt_div_iff₀ (by positivity), div_mul_eq_mul_div, div_lt_iff₀ (by positivity), ← pow_mul] at hJ
      exact hJ
    have h2 : (o.initialPenalty * o.conTol) ^ 2 ≤ (o.initialPenalty * φ ^ J * o.conTol) ^ 2 := by
      have : 1 ≤ φ ^ J := one_le_pow₀ hφ
      have : o.initialPenalty ≤ o.initialPenalty * φ ^ J := le_mul_of_one_le_right hρ.le this
      gcongr
    have h3 : (o.initialPenalty * o.conTol) ^ 2 * ((κ + o.initialPenalty) ^ 2) ^ J
        ≤ (o.initialPenalty * φ ^ J * o.conTol) ^ 2 * ∏ i ∈ Finset.range J, (κ + o.initialPenalty * φ ^ i) ^ 2 :=
      mul_le_mul h2 hprod (by positivity) (sq_nonneg _)
    have h4 : 0 ≤ κ ^ (2 * J) := by positivity
    nlinarith) l1 l2 l3
  refine ⟨s', r1, c1, c2, c3, fun r hr => lt_of_le_of_lt (r2.violation.2.1 r hr) c4, r2.near.trans ?_⟩
  exact mul_le_mul_of_nonneg_left (pow_le_pow_left₀ r2.violation.1 c4.le 2) hκ'

/-! ## A concrete case

The problem of `Props/LQConstrained.lean`, with penalties that stay at 10.  The constant is `κ = 47/12`, the multiplier of the solution
71/12. -/

section example101

def flatCosts : ℕ → ALCost 2 1 ℚ := fun k =>
  ⟨if k = 2 then dblTerm else dblStage, if k = 2 then [{ ConVal.new .equality eqGoalCon with scaling := 1 }] else [], []⟩

theorem flat_mem {k : ℕ} {v : ConVal .equality 2 1 ℚ} (hv : v ∈ (flatCosts k).eq) :
    v = { ConVal.new .equality eqGoalCon with scaling := 1 } := by
  by_cases h2 : k = 2
  · have : (flatCosts k).eq = [{ ConVal.new .equality eqGoalCon with scaling := 1 }] := by simp [flatCosts, h2]
    rw [this] at hv
    exact List.mem_singleton.mp hv
  · have : (flatCosts k).eq = [] := by simp [flatCosts, h2]
    rw [this] at hv; cases hv

theorem flat_lq : LQEquality dblProblem flatCosts where
  dyn := dbl_lq.dyn
  knot k hk := by
    refine ⟨rfl, dbl_lq.quad k hk, fun x u => ?_, fun v hv x u δx δu => ?_⟩
    · have := dbl_convex k x u
      exact ⟨this.symx, this.symu, this.psd⟩
    · rw [flat_mem hv]
      exact eqGoalCon_affine x u δx δu
  pos := dbl_posdef
  term _ _ _ := rfl
  termCon v hv x u u' := by
    rw [flat_mem hv]
    rfl

def flatOpts : Opts ℚ := { eqGoalOpts with initialPenalty := 10, maxPenalty := 10 }

def flatState : ALSt (Fin 2 → ℚ) (Fin 1 → ℚ) ℚ (ALCost 2 1 ℚ) (KP 2 1 ℚ) where
  st := { dblState with cs := flatCosts }
  status := .kUnsolved

theorem flat_scale : ∀ k ≤ 2, ScaleU (flatCosts k) 1 := fun k _ =>
  ⟨fun v hv => by rw [flat_mem hv], fun v hv => nomatch hv⟩

/-- The hypotheses of `C101_solve` and `C101_converges`. -/
example : LQEquality dblProblem flatState.st.cs ∧ (∀ k ≤ dblProblem.N, ScaleU (flatState.st.cs k) 1) ∧
    (∃ Y, Alternative dblProblem flatState.st.Z Y ∧ ∀ r ∈ rows dblProblem flatState.st.cs, r.Holds Y) ∧ LQOptions flatOpts :=
  ⟨flat_lq, flat_scale, ⟨eqGoalBest, eqGoal_saddle.mem, fun r hr => eqGoal_saddle.holds ⟨r.kind, r.fn, 0, 1⟩ (by
    have e : rows dblProblem flatState.st.cs = [⟨.equality, fun Z => Z.x 2 0 - 2, 0, 1⟩] := rfl
    rw [e, List.mem_singleton] at hr
    subst hr
    rw [eqGoal_rows]
    exact List.mem_singleton.mpr rfl)⟩, by constructor <;> first | rfl | decide +kernel⟩

def flatRun := AL.solve (alKernel dblProblem) alOps flatOpts (ILQR.solve (alKernel dblProblem) flatOpts 1) flatState

/-- The solve: four outer iterations, although `‖λ*‖ < ρ · tolerance`, on which C79 relies, fails; the multiplier has come nearer to
71/12 by exactly the factor `κ / (κ + ρ) = 47/167` in each. -/
theorem flatRun_report : (flatRun.map fun s => (s.status, s.st.stats.outer, s.st.stats.total,
      (rows dblProblem s.st.cs).map fun r => r.lam)) =
    some (.kSolved, 4, 7, [4573090120 / 777796321]) := by
  decide +kernel

example : (4573090120 / 777796321 : ℚ) = 71 / 12 - 71 / 12 * (47 / 167) ^ 4 := by norm_num

end example101

end Altro.Props
