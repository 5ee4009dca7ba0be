import Verif.Proofs.LQSaddle
import Verif.Props.LQInequality
import Verif.Props.Repeat

/-!
# C84: the whole solver on linear-quadratic problems with equality and inequality constraints
-/

namespace Altro.Props
open Altro.Spec Matrix ILQR AL
variable {K : Type} [Field K] [LinearOrder K] [IsStrictOrderedRing K] {n m : ℕ}

/-! ## Outer iterations with inexact inner solves -/

section outer
variable {p : DynProblem n m K} {o : Opts K} {φ : K}
  {inner : St (Fin n → K) (Fin m → K) K (ALCost n m K) (KP n m K) →
    Option (St (Fin n → K) (Fin m → K) K (ALCost n m K) (KP n m K))}
  {s s' : ALSt (Fin n → K) (Fin m → K) K (ALCost n m K) (KP n m K)}
  {zs : Traj (Fin n → K) (Fin m → K) K} {star : List K}

/-- What an outer loop of at most `J + 1` iterations needs from its inner solver: with `P` an invariant of the states it is called in,
it returns with `kSolved` after at most `W` iterations with an error of at most `ε`, and the step of the multipliers misses the exact one
by at most `δ` in the measure `gap`. -/
def NearOn (p : DynProblem n m K) (o : Opts K) (φ : K) (s : St (Fin n → K) (Fin m → K) K (ALCost n m K) (KP n m K))
    (inner : St (Fin n → K) (Fin m → K) K (ALCost n m K) (KP n m K) →
      Option (St (Fin n → K) (Fin m → K) K (ALCost n m K) (KP n m K))) (star : List K) (J W : ℕ) (δ ε : K)
    (P : St (Fin n → K) (Fin m → K) K (ALCost n m K) (KP n m K) → Prop) : Prop :=
  ∀ j ≤ J, ∀ q : ALSt (Fin n → K) (Fin m → K) K (ALCost n m K) (KP n m K), ConvBase p o φ s q.st j →
    gap (rows p q.st.cs) star ≤ normSq star + j * δ → P q.st → q.st.stats.total ≤ W * j →
    ∃ t, inner q.st = some t ∧ t.status = .kSolved ∧ t.stats.total ≤ W * (j + 1) ∧ NearSolve p q.st t ε ∧
      gap (rows p (eachCost (alKernel p) alOps.updateDuals t).cs) star
        + (o.initialPenalty * φ ^ j * (alKernel p).viol (eachCost (alKernel p) alOps.updateDuals t).cs) ^ 2
        ≤ gap (rows p q.st.cs) star + δ ∧
      P (next (alKernel p) alOps q t).st

/-- What is known at the start of outer iteration `j` (from 0). -/
structure NearInv (p : DynProblem n m K) (o : Opts K) (φ : K) (s q : St (Fin n → K) (Fin m → K) K (ALCost n m K) (KP n m K))
    (star : List K) (J W : ℕ) (δ : K) (P : St (Fin n → K) (Fin m → K) K (ALCost n m K) (KP n m K) → Prop) (j : ℕ) : Prop
    extends ConvBase p o φ s q j where
  le : j ≤ J
  gap : gap (rows p q.cs) star + ∑ i ∈ Finset.range j, (o.initialPenalty * φ ^ i * o.conTol) ^ 2 ≤ normSq star + j * δ
  inv : P q
  total : q.stats.total ≤ W * j

theorem nearInv_gap {q : St (Fin n → K) (Fin m → K) K (ALCost n m K) (KP n m K)} {J W j : ℕ} {δ : K}
    {P : St (Fin n → K) (Fin m → K) K (ALCost n m K) (KP n m K) → Prop} (hq : NearInv p o φ s.st q star J W δ P j) :
    Spec.gap (rows p q.cs) star ≤ normSq star + j * δ := by
  have h1 := hq.gap
  have h2 : 0 ≤ ∑ i ∈ Finset.range j, (o.initialPenalty * φ ^ i * o.conTol) ^ 2 := Finset.sum_nonneg fun _ _ => sq_nonneg _
  linarith

theorem nearInv_step {J W j : ℕ} {δ ε : K} {P : St (Fin n → K) (Fin m → K) K (ALCost n m K) (KP n m K) → Prop} (hφ : 0 < φ)
    (hpos : 0 < o.initialPenalty) (htol : 0 ≤ o.conTol) (hscale : ∀ k ≤ p.N, ScaleU (s.st.cs k) φ)
    (hJ : normSq star + (J + 1) * δ < (o.initialPenalty * φ ^ J * o.conTol) ^ 2) (hin : NearOn p o φ s.st inner star J W δ ε P)
    {q : ALSt (Fin n → K) (Fin m → K) K (ALCost n m K) (KP n m K)}
    {t : St (Fin n → K) (Fin m → K) K (ALCost n m K) (KP n m K)}
    (hq : NearInv p o φ s.st q.st star J W δ P j) (ht : inner q.st = some t)
    (hd : (isDone o (body (alKernel p) alOps q t)).2 = false) :
    NearInv p o φ s.st (next (alKernel p) alOps q t).st star J W δ P (j + 1) := by
  obtain ⟨t', ht', hsol, htot, hE, hstep, hP⟩ := hin j hq.le q hq.toConvBase (nearInv_gap hq) hq.inv hq.total
  rw [ht] at ht'
  cases Option.some.inj ht'
  obtain ⟨b1, b2, b3, b4, b5, b6, b7, b8⟩ := body_facts (alKernel p) alOps q t
  have hcont := isDone_continues o _ hd
  obtain ⟨hb, e⟩ := convBase_step hscale hq.toConvBase hE.core hE.fresh hE.times
  have hv : o.conTol ≤ (alKernel p).viol (eachCost (alKernel p) alOps.updateDuals t).cs := by
    have := hcont.viol
    rw [b7] at this
    rw [← Bool.not_eq_true, Arith.lt_iff] at this
    exact not_lt.mp this
  have hsq : (o.initialPenalty * φ ^ j * o.conTol) ^ 2
      ≤ (o.initialPenalty * φ ^ j * (alKernel p).viol (eachCost (alKernel p) alOps.updateDuals t).cs) ^ 2 := by
    gcongr
  have hg := hq.gap
  have hg' : Spec.gap (rows p (next (alKernel p) alOps q t).st.cs) star
      + ∑ i ∈ Finset.range (j + 1), (o.initialPenalty * φ ^ i * o.conTol) ^ 2 ≤ normSq star + ((j + 1 : ℕ) : K) * δ := by
    rw [e, Finset.sum_range_succ]
    push_cast
    linarith
  refine ⟨hb, ?_, hg', hP, ?_⟩
  · rcases Nat.lt_or_eq_of_le hq.le with h | rfl
    · exact h
    · exfalso
      have h0 := gap_nonneg (rows p (next (alKernel p) alOps q t).st.cs) star
      have h1 : 0 ≤ ∑ i ∈ Finset.range j, (o.initialPenalty * φ ^ i * o.conTol) ^ 2 := Finset.sum_nonneg fun _ _ => sq_nonneg _
      rw [Finset.sum_range_succ] at hg'
      push_cast at hg'
      linarith
  · show (body (alKernel p) alOps q t).st.stats.total ≤ _
    rw [b6]; exact htot

/-- The outer loop with inexact inner solves. -/
theorem near_outer (hk : KeepsOuter inner) {J W : ℕ} {δ ε : K} {P : St (Fin n → K) (Fin m → K) K (ALCost n m K) (KP n m K) → Prop}
    (hφ : 1 ≤ φ) (hpos : 0 < o.initialPenalty) (htol : 0 < o.conTol) (hr : o.resetDuals = true) (hδ : 0 ≤ δ)
    (hscale : ∀ k ≤ p.N, ScaleU (s.st.cs k) φ) (hc : ConvexProblem p s.st.cs)
    (hs : Saddle (Alternative p s.st.Z) (plainCost p s.st.cs) (rows p s.st.cs) zs star)
    (hJ : normSq star + (J + 1) * δ < (o.initialPenalty * φ ^ J * o.conTol) ^ 2)
    (hJpen : o.initialPenalty * φ ^ J ≤ o.maxPenalty) (hJout : (J : ℤ) < o.maxOuter) (hW : (W : ℤ) * (J + 1) < o.maxTotal)
    (hin : NearOn p o φ s.st inner star J W δ ε P) (hP : P (AL.init (alKernel p) alOps o s).st) :
    ∃ s' j, AL.solve (alKernel p) alOps o inner s = some s' ∧ s'.status = .kSolved ∧ s'.st.stats.outer = j + 1 ∧ j ≤ J ∧
      s'.st.stats.total ≤ W * (J + 1) ∧ (∀ r ∈ rows p s.st.cs, r.viol s'.st.Z < o.conTol) ∧
      gap (rows p s'.st.cs) star ≤ normSq star + (J + 1) * δ ∧
      plainCost p s.st.cs s'.st.Z ≤ plainCost p s.st.cs zs + (2 * normSq star + (J + 1) * δ) / (o.initialPenalty * φ ^ j) + ε ∧
      plainCost p s.st.cs zs ≤ plainCost p s.st.cs s'.st.Z + o.conTol * (star.map (|·|)).sum := by
  have hφ0 : 0 < φ := lt_of_lt_of_le one_pos hφ
  have h0 : NearInv p o φ s.st (AL.init (alKernel p) alOps o s).st star J W δ P 0 := by
    have hi := convInv_init (φ := φ) hr hpos hs
    refine ⟨hi.toConvBase, Nat.zero_le _, ?_, hP, by rw [(init_facts (alKernel p) alOps o s).2.1]; omega⟩
    have := hi.gap
    push_cast
    linarith
  have hstep := fun (j : ℕ) (q : ALSt (Fin n → K) (Fin m → K) K (ALCost n m K) (KP n m K))
      (t : St (Fin n → K) (Fin m → K) K (ALCost n m K) (KP n m K)) (hq : NearInv p o φ s.st q.st star J W δ P j) ht hd =>
    nearInv_step (t := t) hφ0 hpos htol.le hscale hJ hin hq ht hd
  obtain ⟨s', h⟩ : ∃ s', AL.solve (alKernel p) alOps o inner s = some s' := by
    have key : ∀ (r j : ℕ) (q : ALSt (Fin n → K) (Fin m → K) K (ALCost n m K) (KP n m K)),
        NearInv p o φ s.st q.st star J W δ P j → ∃ s', outerLoop (alKernel p) alOps o inner r q = some s' := by
      intro r
      induction r with
      | zero => exact fun j q _ => ⟨q, rfl⟩
      | succ r ih =>
        intro j q hq
        obtain ⟨t, ht, -⟩ := hin j hq.le q hq.toConvBase (nearInv_gap hq) hq.inv hq.total
        unfold outerLoop
        rw [ht]
        simp only
        split
        · exact ⟨_, rfl⟩
        · rename_i hd
          have hd : (isDone o (body (alKernel p) alOps q t)).2 = false := Bool.eq_false_iff.mpr hd
          have e := isDone_false o _ hd
          obtain ⟨s', hs'⟩ := ih (j + 1) (next (alKernel p) alOps q t) (hstep j q t hq ht hd)
          refine ⟨s', ?_⟩
          rw [← hs']
          show outerLoop (alKernel p) alOps o inner r { (isDone o (body (alKernel p) alOps q t)).1 with
            st := eachCost (alKernel p) alOps.updatePenalties (isDone o (body (alKernel p) alOps q t)).1.st } = _
          rw [e]; rfl
    exact key _ 0 _ h0
  obtain ⟨j, q, t, hj, hq, ht, _, hto, hd, rfl⟩ := solve_last (alKernel p) alOps o inner hk
    (fun j q => NearInv p o φ s.st q.st star J W δ P j) s s' h0 hstep (by omega) h
  obtain ⟨t', ht', hsol, htot, hE, hgap, -⟩ := hin j hq.le q hq.toConvBase (nearInv_gap hq) hq.inv hq.total
  rw [ht] at ht'
  cases Option.some.inj ht'
  obtain ⟨b1, b2, b3, b4, b5, b6, b7, b8⟩ := body_facts (alKernel p) alOps q t
  obtain ⟨hout, hst⟩ := isDone_true o _ hd
  have hρ : 0 < o.initialPenalty * φ ^ j := by positivity
  obtain ⟨-, hsd⟩ := convInv_facts hc hs hq.toConvBase
  have hobj := near_objective hρ hq.pen hq.lam hsd hE
  have e1 : ∀ Z, plainCost p q.st.cs Z = plainCost p s.st.cs Z := fun Z => plainCost_static p hq.static Z
  rw [e1, e1] at hobj
  set v := (alKernel p).viol (eachCost (alKernel p) alOps.updateDuals t).cs with hvdef
  have hg0 := gap_nonneg (rows p (eachCost (alKernel p) alOps.updateDuals t).cs) star
  have hg := hq.gap
  have hsum : 0 ≤ ∑ i ∈ Finset.range j, (o.initialPenalty * φ ^ i * o.conTol) ^ 2 := Finset.sum_nonneg fun _ _ => sq_nonneg _
  have hjJ : (j : K) ≤ J := by exact_mod_cast hq.le
  have hjδ : (j : K) * δ ≤ J * δ := mul_le_mul_of_nonneg_right hjJ hδ
  have hvs : ∀ r ∈ rows p s.st.cs, r.viol t.Z ≤ v := by
    intro r hr
    obtain ⟨r', h1, h2, h3⟩ := Row.sig_mem (rows_static p hq.static).symm hr
    have := exact_viol_le hE.core hE.fresh r' h1
    unfold Row.viol at this ⊢
    rw [← h2, ← h3]
    exact this
  have htotal : t.stats.total ≤ W * (J + 1) := htot.trans (Nat.mul_le_mul_left _ (by have := hq.le; omega))
  have hpen : o.initialPenalty * φ ^ j ≤ o.maxPenalty := by
    refine le_trans ?_ hJpen
    have := pow_le_pow_right₀ hφ hq.le
    gcongr
  have hvJ : j = J → v < o.conTol := by
    intro e
    subst e
    by_contra hge
    have hge := not_lt.mp hge
    have : (o.initialPenalty * φ ^ j * o.conTol) ^ 2 ≤ (o.initialPenalty * φ ^ j * v) ^ 2 := by gcongr
    linarith
  have hfin : (isDone o (body (alKernel p) alOps q t)).1.status = .kSolved ∧ v < o.conTol := by
    generalize hS : (isDone o (body (alKernel p) alOps q t)).1.status = S at hout ⊢
    cases hout with
    | innerFailed hf => exact absurd (b3.trans hsol) hf
    | solved _ hlt =>
      rw [Arith.lt_iff, b7] at hlt
      exact ⟨rfl, hlt⟩
    | maxPenalty _ _ hp =>
      rw [Arith.gt_iff, b8] at hp
      have hpu : ∀ k ≤ p.N, PenU ((eachCost (alKernel p) alOps.updateDuals t).cs k) (o.initialPenalty * φ ^ j) := by
        have hr1 : ∀ r ∈ rows p (eachCost (alKernel p) alOps.updateDuals t).cs, r.pen = o.initialPenalty * φ ^ j := by
          intro r hr
          rw [exact_rows hE.core hE.fresh] at hr
          obtain ⟨r0, h0, rfl⟩ := List.mem_map.mp hr
          exact rows_pen p hq.pen r0 h0
        intro k hk
        exact ⟨fun v hv i => hr1 _ ((mem_rows p _ _).mpr ⟨k, hk, .inl ⟨v, hv, i, rfl⟩⟩),
          fun v hv i => hr1 _ ((mem_rows p _ _).mpr ⟨k, hk, .inr ⟨v, hv, i, rfl⟩⟩)⟩
      exact absurd (lt_of_lt_of_le hp (maxPenalty_le p _ hρ.le hpu)) (not_lt.mpr hpen)
    | maxOuter _ hnv _ ho =>
      rw [b5, hto] at ho
      rw [← Bool.not_eq_true, Arith.lt_iff, b7] at hnv
      have := hq.le
      exact absurd (hvJ (by omega)) hnv
    | maxTotal _ _ _ _ ht' =>
      have : ((body (alKernel p) alOps q t).st.stats.total : ℤ) ≤ ((W * (J + 1) : ℕ) : ℤ) := by rw [b6]; exact_mod_cast htotal
      push_cast at this
      linarith
  refine ⟨_, j, h, hfin.1, ?_, hq.le, ?_, ?_, ?_, ?_, ?_⟩
  · rw [hst, b5, hto]
  · rw [hst, b6]; exact htotal
  · rw [hst, b2]; exact fun r hr => lt_of_le_of_lt (hvs r hr) hfin.2
  · rw [hst, b1]
    have := sq_nonneg (o.initialPenalty * φ ^ j * v)
    linarith
  · rw [hst, b2]
    refine hobj.1.trans ?_
    have h2 : (Spec.gap (rows p q.st.cs) star + normSq star) / (o.initialPenalty * φ ^ j)
        ≤ (2 * normSq star + (J + 1) * δ) / (o.initialPenalty * φ ^ j) :=
      div_le_div_of_nonneg_right (by linarith) hρ.le
    linarith
  · rw [hst, b2]
    have h2 : v * (star.map (|·|)).sum ≤ o.conTol * (star.map (|·|)).sum :=
      mul_le_mul_of_nonneg_right hfin.2.le (sum_map_nonneg _ _ fun _ _ => abs_nonneg _)
    linarith

end outer

/-! ## The inner solver of this repository -/

section inner
variable {p : DynProblem n m K} {o : Opts K} {φ μ : K} {s : ALSt (Fin n → K) (Fin m → K) K (ALCost n m K) (KP n m K)}
  {zs : Traj (Fin n → K) (Fin m → K) K} {star : List K}

theorem _root_.Altro.Spec.Strong.congr {V : Type} {S : V → Prop} {seg : K → V → V → V} {obj : V → K} {rs rs' : List (Row V K)}
    {dist : V → V → K} {μ A : K} (h : Strong S seg obj rs dist μ A) (e : rs.map Row.sig = rs'.map Row.sig) :
    Strong S seg obj rs' dist μ A where
  toConvex := h.toConvex.congr e
  mid := h.mid
  lip x y hx hy := by
    have h1 : ∀ rs : List (Row V K), (rs.map fun r => (r.fn x - r.fn y) ^ 2)
        = (rs.map Row.sig).map fun g => (g.2 x - g.2 y) ^ 2 := fun rs => by rw [List.map_map]; rfl
    rw [h1, ← e, ← h1]
    exact h.lip x y hx hy

theorem aligned_next (q : ALSt (Fin n → K) (Fin m → K) K (ALCost n m K) (KP n m K))
    {t : St (Fin n → K) (Fin m → K) K (ALCost n m K) (KP n m K)} (h : Aligned t.stats) :
    Aligned (next (alKernel p) alOps q t).st.stats :=
  aligned_log _ _ _ (aligned_log _ _ _ (aligned_log { t.stats with outer := t.stats.outer + 1 } _ _ h))

theorem aligned_init : Aligned (AL.init (alKernel p) alOps o s).st.stats := by
  unfold AL.init
  extract_lets a1 a2 a3 a4 a5
  have h3 : Aligned a3.stats := by
    show Aligned (a2.stats.reset.log none 0)
    refine aligned_log _ _ _ ?_
    intro c
    cases c <;> rfl
  have h4 : a4.stats = a3.stats := cost_stats _ _ _
  have h5 : Aligned a5.stats := by
    show Aligned (a4.stats.log (some .viol) ((alKernel p).viol a4.cs))
    exact aligned_log _ _ _ (h4 ▸ h3)
  show Aligned (a5.stats.log (some .pen) (maxPenalty (alKernel p) alOps a5.cs))
  exact aligned_log _ _ _ h5

/-- Alternatives of a state, and what simulating it gives. -/
theorem rollout_alternative (q : St (Fin n → K) (Fin m → K) K (ALCost n m K) (KP n m K)) :
    Alternative p q.Z (rollout (alKernel p) q).Z ∧ (rollout (alKernel p) q).Z.u = q.Z.u := by
  obtain ⟨r1, r2, r3, r4, r5⟩ := rolloutTo_spec (alKernel p) q.Z p.N
  refine ⟨⟨r4, fun k hk => ?_⟩, r1⟩
  have := r5 k hk
  show (rolloutTo (alKernel p) q.Z p.N).x (k + 1) = p.f k _ ((rolloutTo (alKernel p) q.Z p.N).u k) _ _
  rw [this, r1]
  rfl

theorem near_budget {c γ J1 H E1 η G ρ0 ρ ρm L Sz D cz ε g D1 : K} (hμ : 0 < μ) (hc : 0 ≤ c) (hγ0 : 0 < γ) (hγ1 : γ ≤ 1)
    (hγ2 : γ * (16 * (c + 1)) ≤ μ) (hγ3 : γ * (J1 * H + c * E1 + 1) ≤ η) (hρ0 : 0 < ρ0) (hρ1 : ρ0 ≤ ρ) (hρ2 : ρ ≤ ρm)
    (hL : 0 ≤ L) (hSz : 0 ≤ Sz) (hD0 : 0 ≤ D) (hcs0 : 0 ≤ cz) (hcs : cz ≤ 2 * D + 2 * Sz) (hε0 : ε = c * γ * (γ * cz))
    (hg : g / (2 * ρ) ≤ G / (2 * ρ0)) (hnd : μ / 4 * D ≤ g / (2 * ρ) + ε) (hD1 : D1 = 4 * G / (μ * ρ0) + Sz)
    (hE1 : E1 = 2 * D1 + 2 * Sz) (hH : H = 2 * ρm * (c * E1 + ρm / 2 * (L * D1))) (hJ1 : 0 < J1) (hG : 0 ≤ G) :
    D ≤ D1 ∧ ε ≤ η ∧ 2 * ρ * (ε / γ + γ * (ρ / 2 * (L * D))) ≤ η / J1 := by
  have hρ : 0 < ρ := lt_of_lt_of_le hρ0 hρ1
  have hρm : 0 < ρm := lt_of_lt_of_le hρ hρ2
  have hcγ : 0 ≤ c * γ := by positivity
  have hcγ2 : c * γ ≤ μ / 16 := by linarith
  have hγs : γ * cz ≤ 2 * D + 2 * Sz := (mul_le_of_le_one_left hcs0 hγ1).trans hcs
  have hε1 : ε ≤ μ / 16 * (2 * D + 2 * Sz) := by
    rw [hε0]
    exact mul_le_mul hcγ2 hγs (by positivity) (by positivity)
  have hDD : D ≤ D1 := by
    have h1 : μ / 8 * D ≤ G / (2 * ρ0) + μ / 8 * Sz := by linarith
    have h2 : μ / 8 * D1 = G / (2 * ρ0) + μ / 8 * Sz := by
      rw [hD1]; field_simp; ring
    rw [← h2] at h1
    exact le_of_mul_le_mul_left h1 (by positivity)
  have hD1' : 0 ≤ D1 := hD0.trans hDD
  have hcsE : cz ≤ E1 := hcs.trans (by rw [hE1]; linarith)
  have hE1' : 0 ≤ E1 := hcs0.trans hcsE
  have hH' : 0 ≤ H := by rw [hH]; positivity
  have hγE : γ * cz ≤ E1 := (mul_le_of_le_one_left hcs0 hγ1).trans hcsE
  have hHγ : 0 ≤ γ * (J1 * H) := by positivity
  have hEγ : 0 ≤ γ * (c * E1) := by positivity
  refine ⟨hDD, ?_, ?_⟩
  · rw [hε0]
    have := mul_le_mul_of_nonneg_left hγE hcγ
    linarith
  · have h1 : ε / γ ≤ γ * (c * E1) := by
      rw [div_le_iff₀ hγ0, hε0]
      have := mul_le_mul_of_nonneg_left hcsE (mul_nonneg hcγ hγ0.le)
      linarith
    have h2 : γ * (ρ / 2 * (L * D)) ≤ γ * (ρm / 2 * (L * D1)) := by gcongr
    have h3 : 2 * ρ * (ε / γ + γ * (ρ / 2 * (L * D))) ≤ 2 * ρm * (γ * (c * E1) + γ * (ρm / 2 * (L * D1))) := by
      have h5 : 0 ≤ γ * (c * E1) + γ * (ρm / 2 * (L * D1)) := by positivity
      have h6 := mul_le_mul_of_nonneg_left (add_le_add h1 h2) (by positivity : 0 ≤ 2 * ρ)
      have h7 := mul_le_mul_of_nonneg_right (by linarith : 2 * ρ ≤ 2 * ρm) h5
      linarith
    have h4 : 2 * ρm * (γ * (c * E1) + γ * (ρm / 2 * (L * D1))) = γ * H := by rw [hH]; ring
    rw [le_div_iff₀ hJ1]
    refine (mul_le_mul_of_nonneg_right h3 hJ1.le).trans ?_
    rw [h4]
    linarith

/-- How many units of decrease there are between a state and all others. -/
theorem start_above {q : St (Fin n → K) (Fin m → K) K (ALCost n m K) (KP n m K)} {L κ B W R ρ ρ0 ρm G : K} (hμ : 0 < μ) (hL : 0 ≤ L)
    (hκ : 0 ≤ κ) (hB : 0 ≤ B) (hst : Strong (Alternative p q.Z) segTraj (plainCost p q.cs) (rows p q.cs) (ctrlDist p.N) μ L)
    (hs : Saddle (Alternative p q.Z) (plainCost p q.cs) (rows p q.cs) zs star)
    (hW : ∀ Z', Alternative p q.Z Z' → plainCost p q.cs Z' ≤ W + (1 + B) * (κ * ctrlDist p.N zs Z'))
    (hR : ctrlDist p.N zs q.Z ≤ R) (hρ0 : 0 < ρ0) (hρ1 : ρ0 ≤ ρ) (hρ2 : ρ ≤ ρm) (hpen : ∀ k ≤ p.N, PenU (q.cs k) ρ)
    (hG : gap (rows p q.cs) star ≤ G) {Y : Traj (Fin n → K) (Fin m → K) K} (hY : Alternative p q.Z Y) :
    trajCost p q.cs (rollout (alKernel p) q).Z ≤ trajCost p q.cs Y
      + (W + (1 + B) * (κ * R) + ((G + normSq star) / ρ0 + 2 * ρm * (((rows p q.cs).map fun r => r.fn zs ^ 2).sum + L * R))
        - plainCost p q.cs zs + G / (2 * ρ0)) := by
  have hρ : 0 < ρ := lt_of_lt_of_le hρ0 hρ1
  have hpr := rows_pen p hpen
  have hg0 := gap_nonneg (rows p q.cs) star
  have hns : 0 ≤ normSq star := sum_map_nonneg _ _ fun _ _ => sq_nonneg _
  rw [trajCost_rows p hρ hpen, trajCost_rows p hρ hpen]
  obtain ⟨a1, a2⟩ := rollout_alternative (p := p) q
  have a3 : ctrlDist p.N zs (rollout (alKernel p) q).Z ≤ R := by
    have : ctrlDist p.N zs (rollout (alKernel p) q).Z = ctrlDist p.N zs q.Z := by unfold ctrlDist; rw [a2]
    rw [this]; exact hR
  have l1 := hs.augmented_lower hst hρ hpr hY
  have l2 : 0 ≤ μ / 4 * ctrlDist p.N zs Y := mul_nonneg (by positivity) (ctrlDist_nonneg _ _ _)
  have l3 : gap (rows p q.cs) star / (2 * ρ) ≤ G / (2 * ρ0) :=
    div_le_div₀ (hg0.trans hG) hG (by positivity) (by linarith)
  have u1 := hW _ a1
  have u2 := hs.augmented_upper hst hρ hpr a1
  have u3 : (1 + B) * (κ * ctrlDist p.N zs (rollout (alKernel p) q).Z) ≤ (1 + B) * (κ * R) := by gcongr
  have u4 : (gap (rows p q.cs) star + (star.map fun a => a ^ 2).sum) / ρ ≤ (G + normSq star) / ρ0 :=
    div_le_div₀ (by linarith) (add_le_add hG le_rfl) hρ0 hρ1
  have hF0 : 0 ≤ ((rows p q.cs).map fun r => r.fn zs ^ 2).sum := sum_map_nonneg _ _ fun _ _ => sq_nonneg _
  have hD0 := ctrlDist_nonneg p.N zs (rollout (alKernel p) q).Z
  have u5 : 2 * ρ * (((rows p q.cs).map fun r => r.fn zs ^ 2).sum + L * ctrlDist p.N zs (rollout (alKernel p) q).Z)
      ≤ 2 * ρm * (((rows p q.cs).map fun r => r.fn zs ^ 2).sum + L * R) := by
    have h1 := mul_le_mul_of_nonneg_left a3 hL
    exact mul_le_mul (by linarith) (by linarith) (by positivity) (by linarith)
  linarith

/-- With tolerances small enough the inner solver of this repository is good enough for the outer loop. -/
theorem lq_nearOn [Archimedean K] (h : LQInequality p s.st.cs μ) (hμ : 0 < μ) (hN : p.N ≠ 0) (hφ : 1 ≤ φ)
    (hs : Saddle (Alternative p s.st.Z) (plainCost p s.st.cs) (rows p s.st.cs) zs star) {ρ0 η : K} (hρ0 : 0 < ρ0) (hη : 0 < η) (J : ℕ) :
    ∃ rb β γ R : K, 0 < rb ∧ 0 < β ∧ 0 < γ ∧ ctrlDist p.N zs s.st.Z ≤ R ∧ ∀ d : K, 0 < d → ∃ T : ℕ, ∀ (o : Opts K) (fuel : ℕ),
      StepOptions o rb β → o.gradTol ≤ γ → d ≤ unitDecrease o μ → o.initialPenalty = ρ0 → (T : ℤ) + 1 < o.maxInner →
      ((T + 2 : ℕ) : ℤ) * (J + 1) < o.maxTotal →
      NearOn p o φ s.st (ILQR.solve (alKernel p) o (fuel + 1)) star J (T + 2) (η / (J + 1)) η
        fun q => ctrlDist p.N zs q.Z ≤ R ∧ Aligned q.stats := by
  have hφ0 : 0 < φ := lt_of_lt_of_le one_pos hφ
  obtain ⟨A, B, hA, hB, hB', hA'⟩ := curvature_exists p s.st.cs
  obtain ⟨a, ha, hd⟩ := dynBound_exists (p := p) h.dyn s.st.Z
  have hst := h.strongly ha hd hA hA'
  obtain ⟨W, hW⟩ := objective_upper h ha hd hB hB' hs.mem
  have hκ : 0 ≤ ((p.N : K) + 1) * (a * (1 + a) ^ p.N) + 1 := by positivity
  set κ := ((p.N : K) + 1) * (a * (1 + a) ^ p.N) + 1
  set L := A * κ
  have hL : 0 ≤ L := mul_nonneg hA hκ
  set ρm := ρ0 * φ ^ J with hρmdef
  have hρm : 0 < ρm := by positivity
  obtain ⟨C, rb, β, hC, hrb, hβ, HI⟩ := C83_inner h hμ hN s.st.Z hρm
  have hns : 0 ≤ normSq star := sum_map_nonneg _ _ fun _ _ => sq_nonneg _
  set G := normSq star + η
  have hG : 0 < G := by positivity
  set Sz := ctrlSize p.N zs
  have hSz : 0 ≤ Sz := ctrlSize_nonneg _ _
  set D1 := 4 * G / (μ * ρ0) + Sz with hD1
  have hD1' : 0 ≤ D1 := by positivity
  set c := C * (p.N : K) ^ 2
  have hc : 0 ≤ c := by positivity
  set E1 := 2 * D1 + 2 * Sz with hE1d
  have hE1 : 0 ≤ E1 := by positivity
  set H := 2 * ρm * (c * E1 + ρm / 2 * (L * D1)) with hHd
  have hH : 0 ≤ H := by positivity
  have hJ0 : (0 : K) < (J : K) + 1 := by positivity
  set R := max D1 (ctrlDist p.N zs s.st.Z)
  have hden : 0 < ((J : K) + 1) * H + c * E1 + 1 := by positivity
  refine ⟨rb, β, min 1 (min (μ / (16 * (c + 1))) (η / (((J : K) + 1) * H + c * E1 + 1))), R, hrb, hβ, ?_, le_max_right _ _,
    fun d hdpos => ?_⟩
  · exact lt_min one_pos (lt_min (by positivity) (by positivity))
  set Fz := ((rows p s.st.cs).map fun r => r.fn zs ^ 2).sum
  obtain ⟨T, hT⟩ := Archimedean.arch (W + (1 + B) * (κ * R) + ((G + normSq star) / ρ0 + 2 * ρm * (Fz + L * R))
    - plainCost p s.st.cs zs + G / (2 * ρ0)) hdpos
  rw [nsmul_eq_mul] at hT
  refine ⟨T, fun o fuel ho hγ hdo e0 hi htot => ?_⟩
  subst e0
  obtain ⟨-, HI⟩ := HI o fuel ho
  rintro j hj q hq hg ⟨hqR, hal⟩ hqt
  set ρ := o.initialPenalty * φ ^ j with hρdef
  have hρ : 0 < ρ := by positivity
  have hρ1 : o.initialPenalty ≤ ρ := le_mul_of_one_le_right hρ0.le (one_le_pow₀ hφ)
  have hρ2 : ρ ≤ ρm := mul_le_mul_of_nonneg_left (pow_le_pow_right₀ hφ hj) hρ0.le
  have hjJ : (j : K) ≤ J := by exact_mod_cast hj
  have hδ : η / ((J : K) + 1) * ((J : K) + 1) = η := div_mul_cancel₀ _ hJ0.ne'
  have hδ0 : 0 < η / ((J : K) + 1) := by positivity
  have hgG : gap (rows p q.st.cs) star ≤ G := by
    have := mul_le_mul_of_nonneg_right hjJ hδ0.le
    show _ ≤ normSq star + η
    linarith
  -- the problem as the inner solver sees it
  have e1 : plainCost p q.st.cs = plainCost p s.st.cs := funext fun Z => plainCost_static p hq.static Z
  have e2 : (rows p s.st.cs).map Row.sig = (rows p q.st.cs).map Row.sig := (rows_static p hq.static).symm
  have e3 := alternative_times hq.times
  have hstq : Strong (Alternative p q.st.Z) segTraj (plainCost p q.st.cs) (rows p q.st.cs) (ctrlDist p.N) μ L := by
    rw [e3, e1]; exact hst.congr e2
  have hsq : Saddle (Alternative p q.st.Z) (plainCost p q.st.cs) (rows p q.st.cs) zs star := by
    rw [e3, e1]; exact hs.congr e2
  have hpr := rows_pen p hq.pen
  have hgap0 := gap_nonneg (rows p q.st.cs) star
  have hG2 : gap (rows p q.st.cs) star / (2 * ρ) ≤ G / (2 * o.initialPenalty) :=
    div_le_div₀ hG.le hgG (by positivity) (by linarith)
  -- iterations
  have hTq : ∀ Y, Alternative p q.st.Z Y →
      trajCost p q.st.cs (rollout (alKernel p) q.st).Z ≤ trajCost p q.st.cs Y + T * unitDecrease o μ := by
    intro Y hY
    have hF : ((rows p q.st.cs).map fun r => r.fn zs ^ 2).sum = Fz := by
      have h1 : ∀ rs : List (Row (Traj (Fin n → K) (Fin m → K) K) K), (rs.map fun r => r.fn zs ^ 2)
        = (rs.map Row.sig).map fun g => (g.2 zs) ^ 2 := fun rs => by rw [List.map_map]; rfl
      rw [h1, ← e2, ← h1]
    have h1 := start_above hμ hL hκ hB hstq hsq (by rw [e3, e1]; exact hW) hqR hρ0 hρ1 hρ2 hq.pen hgG hY
    rw [hF, e1] at h1
    have hTd := mul_le_mul_of_nonneg_left hdo (Nat.cast_nonneg (α := K) T)
    linarith
  have htj : ((T + 2 : ℕ) : ℤ) * (j + 1) ≤ ((T + 2 : ℕ) : ℤ) * (J + 1) := by
    have : (j : ℤ) ≤ J := by exact_mod_cast hj
    exact mul_le_mul_of_nonneg_left (by linarith) (Int.natCast_nonneg _)
  have hqt' : (q.st.stats.total : ℤ) ≤ ((T + 2 : ℕ) : ℤ) * j := by exact_mod_cast hqt
  obtain ⟨t, r1, r2, r3, hE, -, r6⟩ := HI q.st ρ hq.static hρ hρ2 hq.pen hq.times hal T hTq hi (by push_cast at *; linarith)
  -- distances
  set γ := o.gradTol
  have hγ0 : 0 < γ := ho.grad
  have hγ1 : γ ≤ 1 := hγ.trans (min_le_left _ _)
  have hγ2 : γ * (16 * (c + 1)) ≤ μ := by
    have := hγ.trans ((min_le_right _ _).trans (min_le_left _ _))
    rwa [le_div_iff₀ (by positivity)] at this
  have hγ3 : γ * (((J : K) + 1) * H + c * E1 + 1) ≤ η := by
    have := hγ.trans ((min_le_right _ _).trans (min_le_right _ _))
    rwa [le_div_iff₀ hden] at this
  have hmin := near_min hρ hq.pen hE
  obtain ⟨hDD, hεη, hslack⟩ := near_budget hμ hc hγ0 hγ1 hγ2 hγ3 hρ0 hρ1 hρ2 hL hSz (ctrlDist_nonneg p.N zs t.Z) (ctrlSize_nonneg p.N t.Z)
    (ctrlSize_le p.N zs t.Z) (by simp only [c]; ring) hG2 (hsq.near_dist hstq hρ hpr hq.lam hE.alt hmin) hD1 hE1d hHd hJ0 hG.le
  have hns := hsq.near_step hstq hρ hpr hE.alt hmin hγ0 hγ1
  have hstep := step_viol hρ hq.pen hq.lam hE.core hE.fresh (hns.trans (add_le_add_right hslack _))
  refine ⟨t, r1, r2, ?_, ⟨hE.core, hE.fresh, hE.alt, fun Z' hZ' => (hE.best Z' hZ').trans (add_le_add_right hεη _), hE.times⟩, hstep,
    hDD.trans (le_max_left _ _), aligned_next q r6⟩
  rw [Nat.mul_succ]
  omega

/-- The whole solver on a linear-quadratic problem with affine equality and inequality constraints, given a saddle point. -/
theorem C84_solve [Archimedean K] (h : LQInequality p s.st.cs μ) (hμ : 0 < μ) (hN : p.N ≠ 0) (hφ : 1 < φ)
    (hscale : ∀ k ≤ p.N, ScaleU (s.st.cs k) φ)
    (hs : Saddle (Alternative p s.st.Z) (plainCost p s.st.cs) (rows p s.st.cs) zs star) {ρ0 τ η : K} (hρ0 : 0 < ρ0) (hτ : 0 < τ)
    (hη : 0 < η) :
    ∃ (J : ℕ) (rb β γ : K), 0 < rb ∧ 0 < β ∧ 0 < γ ∧ ∀ d : K, 0 < d → ∃ T : ℕ, ∀ (o : Opts K) (fuel : ℕ),
      StepOptions o rb β → o.gradTol ≤ γ → d ≤ unitDecrease o μ → o.resetDuals = true → o.initialPenalty = ρ0 → o.conTol = τ →
      ρ0 * φ ^ J ≤ o.maxPenalty → (J : ℤ) < o.maxOuter → (T : ℤ) + 1 < o.maxInner → ((T : ℤ) + 2) * (J + 1) < o.maxTotal →
      ∃ s' j, AL.solve (alKernel p) alOps o (ILQR.solve (alKernel p) o (fuel + 1)) s = some s' ∧ s'.status = .kSolved ∧
        s'.st.stats.outer = j + 1 ∧ j ≤ J ∧ s'.st.stats.total ≤ (T + 2) * (J + 1) ∧
        (∀ r ∈ rows p s.st.cs, r.viol s'.st.Z < τ) ∧
        plainCost p s.st.cs s'.st.Z ≤ plainCost p s.st.cs zs + (2 * normSq star + η) / (ρ0 * φ ^ j) + η ∧
        plainCost p s.st.cs zs ≤ plainCost p s.st.cs s'.st.Z + τ * (star.map (|·|)).sum := by
  have hn : 0 ≤ normSq star := sum_map_nonneg _ _ fun _ _ => sq_nonneg _
  obtain ⟨J, hJ⟩ := pow_unbounded_of_one_lt ((normSq star + η + 1) / (ρ0 * τ)) hφ
  have hJ' : normSq star + η < (ρ0 * φ ^ J * τ) ^ 2 := by
    rw [div_lt_iff₀ (mul_pos hρ0 hτ)] at hJ
    have : ρ0 * φ ^ J * τ = φ ^ J * (ρ0 * τ) := by ring
    rw [this]
    nlinarith
  have hδ : ((J : K) + 1) * (η / (J + 1)) = η := mul_div_cancel₀ _ (by positivity)
  obtain ⟨rb, β, γ, R, h1, h2, h3, hR, H⟩ := lq_nearOn (s := s) h hμ hN hφ.le hs hρ0 hη J
  refine ⟨J, rb, β, γ, h1, h2, h3, fun d hd => ?_⟩
  obtain ⟨T, H⟩ := H d hd
  refine ⟨T, fun o fuel ho hγ hdo hr e0 eτ l1 l2 l3 l4 => ?_⟩
  have hin := H o fuel ho hγ hdo e0 l3 (by push_cast; exact l4)
  subst e0
  subst eτ
  obtain ⟨s', j, r1, r2, r3, r4, r5, r6, -, r8, r9⟩ := near_outer (solve_keepsOuter (alKernel p) o (fuel + 1)) hφ.le hρ0 hτ hr
    (by positivity) hscale h.convexProblem hs (by rw [hδ]; exact hJ') l1 l2 (by push_cast; exact l4) hin
    ⟨by rw [(init_facts (alKernel p) alOps o s).2.2.2]; exact hR, aligned_init⟩
  rw [hδ] at r8
  exact ⟨s', j, r1, r2, r3, r4, r5, r6, r8, r9⟩

/-- Multipliers exist whenever the constraints can be met. -/
theorem C84_multipliers {cs : ℕ → ALCost n m K} (h : LQInequality p cs μ) (hμ : 0 < μ) (Z : Traj (Fin n → K) (Fin m → K) K)
    (hf : ∃ Y, Alternative p Z Y ∧ ∀ r ∈ rows p cs, r.Holds Y) :
    ∃ zs star, Saddle (Alternative p Z) (plainCost p cs) (rows p cs) zs star := h.saddle hμ Z hf

/-- The whole solver on a linear-quadratic problem with affine equality and inequality constraints that can be met, with penalties
growing by a factor greater than one.  There are an optimal trajectory `zs` and a constant `c` such that for every initial penalty and
every tolerance, if the tolerance of the inner solver is small enough, its line search can take short enough steps and the limits on
penalties and iterations are large enough, the solver returns with `kSolved`, constraints violated by less than the tolerance and an
objective within `c · (tolerance + 1 / initial penalty)` of the optimum. -/
theorem C84_converges [Archimedean K] (h : LQInequality p s.st.cs μ) (hμ : 0 < μ) (hN : p.N ≠ 0) (hφ : 1 < φ)
    (hscale : ∀ k ≤ p.N, ScaleU (s.st.cs k) φ) (hf : ∃ Y, Alternative p s.st.Z Y ∧ ∀ r ∈ rows p s.st.cs, r.Holds Y) :
    ∃ (zs : Traj (Fin n → K) (Fin m → K) K) (c : K),
      (Alternative p s.st.Z zs ∧ (∀ r ∈ rows p s.st.cs, r.Holds zs) ∧
        ∀ Y, Alternative p s.st.Z Y → (∀ r ∈ rows p s.st.cs, r.Holds Y) → plainCost p s.st.cs zs ≤ plainCost p s.st.cs Y) ∧
      ∀ ρ τ : K, 0 < ρ → 0 < τ → ∃ (J : ℕ) (rb β γ : K), 0 < rb ∧ 0 < β ∧ 0 < γ ∧ ∀ d : K, 0 < d → ∃ T : ℕ,
        ∀ (o : Opts K) (fuel : ℕ), StepOptions o rb β → o.gradTol ≤ γ → d ≤ unitDecrease o μ → o.resetDuals = true →
        o.initialPenalty = ρ → o.conTol = τ → ρ * φ ^ J ≤ o.maxPenalty → (J : ℤ) < o.maxOuter → (T : ℤ) + 1 < o.maxInner →
        ((T : ℤ) + 2) * (J + 1) < o.maxTotal →
        ∃ s', AL.solve (alKernel p) alOps o (ILQR.solve (alKernel p) o (fuel + 1)) s = some s' ∧ s'.status = .kSolved ∧
          s'.st.stats.outer ≤ J + 1 ∧ s'.st.stats.total ≤ (T + 2) * (J + 1) ∧
          (∀ r ∈ rows p s.st.cs, r.viol s'.st.Z < τ) ∧
          |plainCost p s.st.cs s'.st.Z - plainCost p s.st.cs zs| ≤ c * (τ + 1 / ρ) := by
  obtain ⟨zs, star, hs⟩ := C84_multipliers h hμ s.st.Z hf
  have n0 : 0 ≤ normSq star := sum_map_nonneg _ _ fun _ _ => sq_nonneg _
  have n2 : 0 ≤ (star.map (|·|)).sum := sum_map_nonneg _ _ fun _ _ => abs_nonneg _
  refine ⟨zs, 2 * normSq star + 1 + (star.map (|·|)).sum, ⟨hs.mem, hs.holds, fun Y hY hYr => hs.optimal hY hYr⟩, fun ρ τ hρ hτ => ?_⟩
  obtain ⟨J, rb, β, γ, h1, h2, h3, H⟩ := C84_solve h hμ hN hφ hscale hs hρ hτ (lt_min one_pos hτ)
  refine ⟨J, rb, β, γ, h1, h2, h3, fun d hd => ?_⟩
  obtain ⟨T, H⟩ := H d hd
  refine ⟨T, fun o fuel a1 a2 a3 a4 a5 a6 a7 a8 a9 a10 => ?_⟩
  obtain ⟨s', j, r1, r2, r3, r4, r5, r6, r7, r8⟩ := H o fuel a1 a2 a3 a4 a5 a6 a7 a8 a9 a10
  have hi : 0 < 1 / ρ := by positivity
  have m1 : min 1 τ ≤ 1 := min_le_left _ _
  have m2 : min 1 τ ≤ τ := min_le_right _ _
  have m3 : 0 < min 1 τ := lt_min one_pos hτ
  have hj : (2 * normSq star + min 1 τ) / (ρ * φ ^ j) ≤ (2 * normSq star + 1) * (1 / ρ) := by
    rw [mul_one_div]
    exact div_le_div₀ (by positivity) (by linarith) hρ (le_mul_of_one_le_right hρ.le (one_le_pow₀ hφ.le))
  have e1 : 0 ≤ (2 * normSq star) * τ := by positivity
  have e2 : 0 ≤ (star.map (|·|)).sum * (1 / ρ) := mul_nonneg n2 hi.le
  have e3 : 0 ≤ (2 * normSq star + 1) * (1 / ρ) := by positivity
  have e4 : 0 ≤ (star.map (|·|)).sum * τ := mul_nonneg n2 hτ.le
  refine ⟨s', r1, r2, by omega, r5, r6, abs_le.mpr ⟨?_, ?_⟩⟩
  · linarith
  · linarith

end inner

/-! ## A concrete case -/

section example84

def boxAL : ALSt (Fin 2 → ℚ) (Fin 1 → ℚ) ℚ (ALCost 2 1 ℚ) (KP 2 1 ℚ) := ⟨boxState, .kUnsolved⟩

def boxALOpts : Opts ℚ := { boxOpts with
  maxOuter := 10, maxTotal := 100, conTol := 1 / 100, maxPenalty := 100000, initialPenalty := 1, resetDuals := true }

def boxALRun := AL.solve (alKernel dblProblem) alOps boxALOpts (ILQR.solve (alKernel dblProblem) boxALOpts 1) boxAL

/-- Three outer iterations with seven inner ones.  The optimal controls are `-1/4` and `5/24`: the bound on the first is active. -/
theorem boxAL_report : (boxALRun.map fun s => (s.status, s.st.stats.outer, s.st.stats.total,
    decide (|s.st.Z.u 0 0 + 1 / 4| < 1 / 100), decide (|s.st.Z.u 1 0 - 5 / 24| < 1 / 100)))
      = some (.kSolved, 3, 7, true, true) := by
  decide +kernel

theorem box_scale : ∀ k ≤ dblProblem.N, ScaleU (boxAL.st.cs k) 10 := fun k _ =>
  ⟨fun v hv => (nomatch hv), fun v hv => by rw [boxCosts_ineq hv]; rfl⟩

/-- The bound can be met: with controls zero the state stays. -/
theorem box_feasible : ∃ Y, Alternative dblProblem boxAL.st.Z Y ∧ ∀ r ∈ rows dblProblem boxAL.st.cs, r.Holds Y := by
  refine ⟨{ boxAL.st.Z with x := fun _ => ![1, 0], u := fun _ => ![0] }, ⟨rfl, fun k _ => ?_⟩, fun r hr => ?_⟩
  · show (![1, 0] : Fin 2 → ℚ) = ![1 + 0, 0 + 0]
    simp
  · obtain ⟨k, hk, ⟨v, hv, i, rfl⟩ | ⟨v, hv, i, rfl⟩⟩ := (mem_rows _ _ r).mp hr
    · cases hv
    · have := boxCosts_ineq hv
      subst this
      show (![(0 : ℚ) - 1 / 4, -0 - 1 / 4] : Fin 2 → ℚ) i ≤ 0
      clear hr
      revert i
      show ∀ i : Fin 2, (![(0 : ℚ) - 1 / 4, -0 - 1 / 4] : Fin 2 → ℚ) i ≤ 0
      decide +kernel

/-- C84 for this problem: with the initial penalty and the tolerance of the run, and with any others. -/
example : ∃ (zs : Traj (Fin 2 → ℚ) (Fin 1 → ℚ) ℚ) (c : ℚ), (∀ k < 2, |zs.u k 0| ≤ 1 / 4) ∧
    ∀ ρ τ : ℚ, 0 < ρ → 0 < τ → ∃ (J : ℕ) (rb β γ : ℚ), 0 < rb ∧ 0 < β ∧ 0 < γ ∧ ∀ d : ℚ, 0 < d → ∃ T : ℕ,
      ∀ (o : Opts ℚ) (fuel : ℕ), StepOptions o rb β → o.gradTol ≤ γ → d ≤ unitDecrease o (1 / 2) → o.resetDuals = true →
      o.initialPenalty = ρ → o.conTol = τ → ρ * 10 ^ J ≤ o.maxPenalty → (J : ℤ) < o.maxOuter → (T : ℤ) + 1 < o.maxInner →
      ((T : ℤ) + 2) * (J + 1) < o.maxTotal →
      ∃ s', AL.solve (alKernel dblProblem) alOps o (ILQR.solve (alKernel dblProblem) o (fuel + 1)) boxAL = some s' ∧
        s'.status = .kSolved ∧ (∀ k < 2, |s'.st.Z.u k 0| < 1 / 4 + τ) ∧
        |plainCost dblProblem boxCosts s'.st.Z - plainCost dblProblem boxCosts zs| ≤ c * (τ + 1 / ρ) := by
  have hrow : ∀ k < 2, ∀ i : Fin 2, ∃ r ∈ rows dblProblem boxAL.st.cs, r.kind = .inequality ∧
      r.fn = fun Z => (![Z.u k 0 - 1 / 4, -Z.u k 0 - 1 / 4] : Fin 2 → ℚ) i := by
    intro k hk i
    refine ⟨_, (mem_rows _ _ _).mpr ⟨k, by show k ≤ 2; omega, .inr ⟨ConVal.new .inequality boxCon, ?_, i, rfl⟩⟩, rfl, rfl⟩
    show ConVal.new .inequality boxCon ∈ (boxCosts k).ineq
    have : k ≠ 2 := by omega
    simp [boxCosts, ALCost.new, this]
  obtain ⟨zs, c, ⟨-, hz, -⟩, H⟩ := C84_converges (s := boxAL) (φ := 10) box_lq (by norm_num) (by decide) (by norm_num) box_scale box_feasible
  refine ⟨zs, c, fun k hk => ?_, fun ρ τ hρ hτ => ?_⟩
  · obtain ⟨r, m1, k1, e1⟩ := hrow k hk 0
    obtain ⟨r', m2, k2, e2⟩ := hrow k hk 1
    have h1 := hz r m1
    have h2 := hz r' m2
    unfold Row.Holds at h1 h2
    rw [k1, e1] at h1
    rw [k2, e2] at h2
    have h1 : zs.u k 0 - 1 / 4 ≤ 0 := h1
    have h2 : -zs.u k 0 - 1 / 4 ≤ 0 := h2
    exact abs_le.mpr ⟨by linarith, by linarith⟩
  · obtain ⟨J, rb, β, γ, h1, h2, h3, H⟩ := H ρ τ hρ hτ
    refine ⟨J, rb, β, γ, h1, h2, h3, fun d hd => ?_⟩
    obtain ⟨T, H⟩ := H d hd
    refine ⟨T, fun o fuel a1 a2 a3 a4 a5 a6 a7 a8 a9 a10 => ?_⟩
    obtain ⟨s', r1, r2, -, -, r5, r6⟩ := H o fuel a1 a2 a3 a4 a5 a6 a7 a8 a9 a10
    refine ⟨s', r1, r2, fun k hk => ?_, r6⟩
    obtain ⟨r, m1, k1, e1⟩ := hrow k hk 0
    obtain ⟨r', m2, k2, e2⟩ := hrow k hk 1
    have v1 := r5 r m1
    have v2 := r5 r' m2
    unfold Row.viol at v1 v2
    rw [k1, e1] at v1
    rw [k2, e2] at v2
    have v1 : max 0 (s'.st.Z.u k 0 - 1 / 4) < τ := v1
    have v2 : max 0 (-s'.st.Z.u k 0 - 1 / 4) < τ := v2
    have w1 := lt_of_le_of_lt (le_max_right _ _) v1
    have w2 := lt_of_le_of_lt (le_max_right _ _) v2
    exact abs_lt.mpr ⟨by linarith, by linarith⟩

end example84

end Altro.Props
