import Verif.Proofs.Multipliers
import Verif.Props.ALConcrete
import Mathlib.LinearAlgebra.Matrix.Notation
import Mathlib.Tactic.FinCases

/-!
# C79: on convex problems the augmented Lagrangian iteration converges
-/

namespace Altro.Props
open Altro.Spec Altro.AL

variable {K : Type} [Field K] [LinearOrder K] [IsStrictOrderedRing K] {n m : ℕ}

/-- The list of squares of the multipliers, summed. -/
def normSq (l : List K) : K := (l.map (· ^ 2)).sum

section step
variable {p : DynProblem n m K} {s t : St (Fin n → K) (Fin m → K) K (ALCost n m K) (KP n m K)}

theorem exact_stored (hf : (alLaw p).Fresh t.cs t.Z) : ∀ k ≤ p.N, Stored (t.cs k) (t.Z.x k) (t.Z.u k) :=
  fun k hk => stored_of_values _ _ _ (hf k hk)

theorem exact_rows (hc : ∀ k ≤ p.N, (t.cs k).core = (s.cs k).core) (hf : (alLaw p).Fresh t.cs t.Z) :
    rows p (eachCost (alKernel p) alOps.updateDuals t).cs
    = (rows p s.cs).map fun r => { r with lam := r.next t.Z } := by
  rw [← rows_core p (cs := t.cs) (cs' := s.cs) hc]
  refine rows_map p fun k hk => ?_
  have : (eachCost (alKernel p) alOps.updateDuals t).cs k = (t.cs k).updateDuals := if_pos hk
  rw [this]
  exact knotRows_dual k _ t.Z (exact_stored hf k hk)

theorem exact_viol (hc : ∀ k ≤ p.N, (t.cs k).core = (s.cs k).core) (hf : (alLaw p).Fresh t.cs t.Z) :
    (alKernel p).viol (eachCost (alKernel p) alOps.updateDuals t).cs = 0 ∨
    ∃ r ∈ rows p s.cs, r.viol t.Z = (alKernel p).viol (eachCost (alKernel p) alOps.updateDuals t).cs := by
  have hst : ∀ k ≤ p.N, Stored ((eachCost (alKernel p) alOps.updateDuals t).cs k) (t.Z.x k) (t.Z.u k) := by
    intro k hk
    have e : (eachCost (alKernel p) alOps.updateDuals t).cs k = (t.cs k).updateDuals := if_pos hk
    rw [e]
    obtain ⟨h1, h2⟩ := exact_stored hf k hk
    exact ⟨by simpa [ALCost.updateDuals, ConVal.updateDuals] using h1,
      by simpa [ALCost.updateDuals, ConVal.updateDuals] using h2⟩
  rcases viol_attained p _ t.Z hst with h | ⟨r, hr, e⟩
  · exact .inl h
  · rw [exact_rows hc hf] at hr
    obtain ⟨r', h1, rfl⟩ := List.mem_map.mp hr
    exact .inr ⟨r', h1, e⟩

theorem exact_viol_le (hc : ∀ k ≤ p.N, (t.cs k).core = (s.cs k).core) (hf : (alLaw p).Fresh t.cs t.Z) : ∀ r ∈ rows p s.cs,
    r.viol t.Z ≤ (alKernel p).viol (eachCost (alKernel p) alOps.updateDuals t).cs := by
  intro r hr
  have hst : ∀ k ≤ p.N, Stored ((eachCost (alKernel p) alOps.updateDuals t).cs k) (t.Z.x k) (t.Z.u k) := by
    intro k hk
    have e : (eachCost (alKernel p) alOps.updateDuals t).cs k = (t.cs k).updateDuals := if_pos hk
    rw [e]
    obtain ⟨h1, h2⟩ := exact_stored hf k hk
    exact ⟨by simpa [ALCost.updateDuals, ConVal.updateDuals] using h1,
      by simpa [ALCost.updateDuals, ConVal.updateDuals] using h2⟩
  have := (viol_le_iff p _ t.Z hst (viol_nonneg p _)).mp (le_refl _)
    { r with lam := r.next t.Z } (by rw [exact_rows hc hf]; exact List.mem_map.mpr ⟨r, hr, rfl⟩)
  exact this

theorem near_min {ρ ε : K} (hρ : 0 < ρ) (hpen : ∀ k ≤ p.N, PenU (s.cs k) ρ) (ht : NearSolve p s t ε) :
    ∀ y, Alternative p s.Z y → plainCost p s.cs t.Z + ((rows p s.cs).map fun r => r.term t.Z).sum
      ≤ plainCost p s.cs y + ((rows p s.cs).map fun r => r.term y).sum + ε := by
  intro y hy
  have := ht.best y hy
  rwa [trajCost_rows p hρ hpen, trajCost_rows p hρ hpen] at this

theorem _root_.Altro.Spec.ExactSolve.near (ht : ExactSolve p s t) : NearSolve p s t 0 :=
  ⟨ht.core, ht.fresh, ht.alt, fun Z h => by rw [add_zero]; exact ht.best Z h, ht.times⟩

/-- What exactness of the inner solve says about the rows. -/
theorem exact_min {ρ : K} (hρ : 0 < ρ) (hpen : ∀ k ≤ p.N, PenU (s.cs k) ρ) (ht : ExactSolve p s t) :
    ∀ y, Alternative p s.Z y → plainCost p s.cs t.Z + ((rows p s.cs).map fun r => r.term t.Z).sum
      ≤ plainCost p s.cs y + ((rows p s.cs).map fun r => r.term y).sum := by
  intro y hy
  have := ht.best y hy
  rwa [trajCost_rows p hρ hpen, trajCost_rows p hρ hpen] at this

/-- What a step of the multipliers says about the recorded violation. -/
theorem step_viol {ρ b : K} (hρ : 0 < ρ) (hpen : ∀ k ≤ p.N, PenU (s.cs k) ρ)
    (hlam : ∀ r ∈ rows p s.cs, r.kind = .inequality → r.lam ≤ 0) {star : List K}
    (hc : ∀ k ≤ p.N, (t.cs k).core = (s.cs k).core) (hf : (alLaw p).Fresh t.cs t.Z)
    (h : (((rows p s.cs).zip star).map fun q => (q.1.next t.Z - q.2) ^ 2).sum
      + ((rows p s.cs).map fun r => (r.next t.Z - r.lam) ^ 2).sum ≤ b) :
    gap (rows p (eachCost (alKernel p) alOps.updateDuals t).cs) star
      + (ρ * (alKernel p).viol (eachCost (alKernel p) alOps.updateDuals t).cs) ^ 2 ≤ b := by
  have hp := rows_pen p hpen
  have e1 : gap (rows p (eachCost (alKernel p) alOps.updateDuals t).cs) star
      = (((rows p s.cs).zip star).map fun q => (q.1.next t.Z - q.2) ^ 2).sum := by
    rw [exact_rows hc hf, gap, List.zip_map_left, List.map_map]
    rfl
  have e2 : (ρ * (alKernel p).viol (eachCost (alKernel p) alOps.updateDuals t).cs) ^ 2
      ≤ ((rows p s.cs).map fun r => (r.next t.Z - r.lam) ^ 2).sum := by
    rcases exact_viol hc hf with h0 | ⟨r, hr, e⟩
    · rw [h0, mul_zero, zero_pow two_ne_zero]
      exact sum_map_nonneg _ _ fun _ _ => sq_nonneg _
    · rw [← e, ← hp r hr]
      refine (r.viol_le (by rw [hp r hr]; exact hρ) (hlam r hr) t.Z).trans ?_
      exact le_sum_map _ (fun r => (r.next t.Z - r.lam) ^ 2) (fun _ _ => sq_nonneg _) hr
  rw [e1]
  linarith

/-- One outer iteration on a convex problem with an exact inner solve: the squared distance of the multipliers from those of
any solution decreases by at least the square of penalty times recorded violation. -/
theorem C79_step {ρ : K} (hρ : 0 < ρ) (hpen : ∀ k ≤ p.N, PenU (s.cs k) ρ)
    (hlam : ∀ r ∈ rows p s.cs, r.kind = .inequality → r.lam ≤ 0)
    (hc : Convex (Alternative p s.Z) segTraj (plainCost p s.cs) (rows p s.cs))
    {zs : Traj (Fin n → K) (Fin m → K) K} {star : List K}
    (hs : Saddle (Alternative p s.Z) (plainCost p s.cs) (rows p s.cs) zs star) (ht : ExactSolve p s t) :
    gap (rows p (eachCost (alKernel p) alOps.updateDuals t).cs) star
      + (ρ * (alKernel p).viol (eachCost (alKernel p) alOps.updateDuals t).cs) ^ 2 ≤ gap (rows p s.cs) star :=
  step_viol hρ hpen hlam ht.core ht.fresh (hc.step_uniform hρ (rows_pen p hpen) ht.alt (exact_min hρ hpen ht) hs)

/-- The objective of the returned trajectory is close to the optimal one, from above by the multipliers over the penalty and the error of
the inner solve, from below by the violation. -/
theorem near_objective {ρ ε : K} (hρ : 0 < ρ) (hpen : ∀ k ≤ p.N, PenU (s.cs k) ρ)
    (hlam : ∀ r ∈ rows p s.cs, r.kind = .inequality → r.lam ≤ 0)
    {zs : Traj (Fin n → K) (Fin m → K) K} {star : List K}
    (hs : Saddle (Alternative p s.Z) (plainCost p s.cs) (rows p s.cs) zs star) (ht : NearSolve p s t ε) :
    plainCost p s.cs t.Z ≤ plainCost p s.cs zs + (gap (rows p s.cs) star + normSq star) / ρ + ε ∧
    plainCost p s.cs zs ≤ plainCost p s.cs t.Z
      + (alKernel p).viol (eachCost (alKernel p) alOps.updateDuals t).cs * (star.map (|·|)).sum := by
  have hp := rows_pen p hpen
  have hmem : ∀ q ∈ (rows p s.cs).zip star, q.1 ∈ rows p s.cs := fun q hq => (List.of_mem_zip hq).1
  have hsnd : ∀ f : K → K, (((rows p s.cs).zip star).map fun q => f q.2).sum = (star.map f).sum := by
    intro f
    have : (((rows p s.cs).zip star).map fun q => f q.2) = (((rows p s.cs).zip star).map Prod.snd).map f := by
      rw [List.map_map]; rfl
    rw [this, List.map_snd_zip (by rw [hs.len])]
  have hfst : ∀ f : Row (Traj (Fin n → K) (Fin m → K) K) K → K,
      (((rows p s.cs).zip star).map fun q => f q.1).sum = ((rows p s.cs).map f).sum := by
    intro f
    have : (((rows p s.cs).zip star).map fun q => f q.1) = (((rows p s.cs).zip star).map Prod.fst).map f := by
      rw [List.map_map]; rfl
    rw [this, List.map_fst_zip (by rw [hs.len])]
  constructor
  · have h1 := near_min hρ hpen ht zs hs.mem
    have h2 : ((rows p s.cs).map fun r => r.term zs).sum ≤ 0 := by
      have := sum_map_le (rows p s.cs) (fun r => r.term zs) (fun _ => 0) (by
        intro r hr
        have hh := hs.holds r hr
        have hpr := hp r hr
        have hl := hlam r hr
        obtain ⟨κ, fn, lam, pen⟩ := r
        cases κ
        · simp only [Row.Holds, Row.term, eqTerm] at *
          rw [hh]; simp
        · simp only [Row.Holds, Row.term] at *
          have hl := hl trivial
          subst hpr
          rw [ineqTerm_eq _ _ _ hρ, div_nonpos_iff]
          refine .inr ⟨?_, by linarith⟩
          have h3 : lam ≤ min 0 (lam - pen * fn zs) := le_min hl (by nlinarith)
          have h4 : min 0 (lam - pen * fn zs) ≤ 0 := min_le_left _ _
          nlinarith)
      simpa using this
    have h3 : -((gap (rows p s.cs) star + normSq star) / ρ) ≤ ((rows p s.cs).map fun r => r.term t.Z).sum := by
      have hs3 := sum_map_le ((rows p s.cs).zip star) (fun q => -(1 / ρ) * ((q.1.lam - q.2) ^ 2 + q.2 ^ 2))
        (fun q => q.1.term t.Z) (by
          intro q hq
          have hpr := hp q.1 (hmem q hq)
          have key : -(1 / (2 * ρ)) * q.1.lam ^ 2 ≤ q.1.term t.Z := by
            obtain ⟨⟨κ, fn, lam, pen⟩, μ⟩ := q
            simp only at hpr
            subst hpr
            cases κ
            · simp only [Row.term, eqTerm]
              have : -(lam * fn t.Z) + pen / 2 * fn t.Z ^ 2 - -(1 / (2 * pen)) * lam ^ 2
                  = (lam - pen * fn t.Z) ^ 2 / (2 * pen) := by
                field_simp
                ring
              have h5 : 0 ≤ (lam - pen * fn t.Z) ^ 2 / (2 * pen) := by positivity
              linarith
            · simp only [Row.term]
              rw [ineqTerm_eq _ _ _ hρ]
              have : ((min 0 (lam - pen * fn t.Z)) ^ 2 - lam ^ 2) / (2 * pen) - -(1 / (2 * pen)) * lam ^ 2
                  = (min 0 (lam - pen * fn t.Z)) ^ 2 / (2 * pen) := by
                field_simp
                ring
              have h5 : 0 ≤ (min 0 (lam - pen * fn t.Z)) ^ 2 / (2 * pen) := by positivity
              linarith
          have h6 : q.1.lam ^ 2 ≤ 2 * ((q.1.lam - q.2) ^ 2 + q.2 ^ 2) := by nlinarith [sq_nonneg (q.1.lam - 2 * q.2)]
          have h7 : 0 < 1 / (2 * ρ) := by positivity
          have h8 : -(1 / ρ) * ((q.1.lam - q.2) ^ 2 + q.2 ^ 2)
              = -(1 / (2 * ρ)) * (2 * ((q.1.lam - q.2) ^ 2 + q.2 ^ 2)) := by
            field_simp
          rw [h8]
          nlinarith)
      rw [sum_map_mul', sum_map_add', hfst fun r => r.term t.Z, hsnd fun a => a ^ 2] at hs3
      have e : -((gap (rows p s.cs) star + normSq star) / ρ)
          = -(1 / ρ) * ((((rows p s.cs).zip star).map fun q => (q.1.lam - q.2) ^ 2).sum + (star.map fun a => a ^ 2).sum) := by
        unfold gap normSq
        ring
      rw [e]
      exact hs3
    linarith
  · have h1 := hs.lag t.Z ht.alt
    set v := (alKernel p).viol (eachCost (alKernel p) alOps.updateDuals t).cs with hv
    have hrv := exact_viol_le ht.core ht.fresh
    have h2 : (((rows p s.cs).zip star).map fun q => q.2 * q.1.fn zs).sum = 0 := by
      have : (((rows p s.cs).zip star).map fun q => q.2 * q.1.fn zs) = ((rows p s.cs).zip star).map fun _ => (0 : K) := by
        refine List.map_congr_left fun q hq => ?_
        have hh := hs.holds q.1 (hmem q hq)
        have hsg := hs.sign q hq
        obtain ⟨⟨κ, fn, lam, pen⟩, μ⟩ := q
        cases κ
        · simp only [Row.Holds] at hh ⊢
          rw [hh, mul_zero]
        · exact (hsg rfl).2
      rw [this]; simp
    have h3 := sum_map_le ((rows p s.cs).zip star) (fun q => -(v * |q.2|)) (fun q => q.2 * q.1.fn t.Z) (by
      intro q hq
      have hh := hrv q.1 (hmem q hq)
      have hsg := hs.sign q hq
      obtain ⟨⟨κ, fn, lam, pen⟩, μ⟩ := q
      cases κ
      · simp only [Row.viol, compViolation] at hh ⊢
        have h5 : -(|μ| * |fn t.Z|) ≤ μ * fn t.Z := by rw [← abs_mul]; exact neg_abs_le _
        have h6 := mul_le_mul_of_nonneg_left hh (abs_nonneg μ)
        linarith [mul_comm v |μ|]
      · simp only [Row.viol, compViolation] at hh ⊢
        obtain ⟨s1, _⟩ := hsg rfl
        simp only at s1
        have h5 : fn t.Z ≤ v := (le_max_right _ _).trans hh
        rw [abs_of_nonpos s1]
        nlinarith)
    have e : (((rows p s.cs).zip star).map fun q => -(v * |q.2|)).sum = -(v * (star.map (|·|)).sum) := by
      have := hsnd fun a => -(v * |a|)
      rw [this, show (fun a : K => -(v * |a|)) = fun a => (-v) * |a| by funext a; ring, sum_map_mul']
      ring
    rw [e] at h3
    rw [h2] at h1
    linarith

/-- ... and the objective of the returned trajectory is close to the optimal one, from above by the multipliers over the penalty,
from below by the violation. -/
theorem C79_objective {ρ : K} (hρ : 0 < ρ) (hpen : ∀ k ≤ p.N, PenU (s.cs k) ρ)
    (hlam : ∀ r ∈ rows p s.cs, r.kind = .inequality → r.lam ≤ 0)
    {zs : Traj (Fin n → K) (Fin m → K) K} {star : List K}
    (hs : Saddle (Alternative p s.Z) (plainCost p s.cs) (rows p s.cs) zs star) (ht : ExactSolve p s t) :
    plainCost p s.cs t.Z ≤ plainCost p s.cs zs + (gap (rows p s.cs) star + normSq star) / ρ ∧
    plainCost p s.cs zs ≤ plainCost p s.cs t.Z
      + (alKernel p).viol (eachCost (alKernel p) alOps.updateDuals t).cs * (star.map (|·|)).sum := by
  have := near_objective hρ hpen hlam hs ht.near
  rwa [add_zero] at this

/-- ... with equality constraints only, the violation and the multipliers bound it from above too. -/
theorem C79_objective_equality {ρ : K} (hρ : 0 < ρ) (hpen : ∀ k ≤ p.N, PenU (s.cs k) ρ)
    (heq : ∀ r ∈ rows p s.cs, r.kind = .equality)
    {zs : Traj (Fin n → K) (Fin m → K) K} {star : List K}
    (hs : Saddle (Alternative p s.Z) (plainCost p s.cs) (rows p s.cs) zs star) (ht : ExactSolve p s t) :
    plainCost p s.cs t.Z ≤ plainCost p s.cs zs
      + (alKernel p).viol (eachCost (alKernel p) alOps.updateDuals t).cs
        * ((rows p s.cs).length / 2 + gap (rows p s.cs) star + normSq star) := by
  have hp := rows_pen p hpen
  have h1 := exact_min hρ hpen ht zs hs.mem
  set v := (alKernel p).viol (eachCost (alKernel p) alOps.updateDuals t).cs with hv
  have hv0 : 0 ≤ v := viol_nonneg p _
  have h2 : ((rows p s.cs).map fun r => r.term zs).sum ≤ 0 := by
    have := sum_map_le (rows p s.cs) (fun r => r.term zs) (fun _ => 0) (by
      intro r hr
      have hh := hs.holds r hr
      have hk := heq r hr
      obtain ⟨κ, fn, lam, pen⟩ := r
      simp only at hk
      subst hk
      simp only [Row.Holds, Row.term, eqTerm] at *
      rw [hh]; simp)
    simpa using this
  have h3 := sum_map_le ((rows p s.cs).zip star) (fun q => (-v) * (1 / 2 + ((q.1.lam - q.2) ^ 2 + q.2 ^ 2)))
    (fun q => q.1.term t.Z) (by
      intro q hq
      have hm := (List.of_mem_zip hq).1
      have hpr := hp q.1 hm
      have hk := heq q.1 hm
      have hvr := exact_viol_le ht.core ht.fresh q.1 hm
      obtain ⟨⟨κ, fn, lam, pen⟩, μ⟩ := q
      simp only at hk hpr
      subst hk
      subst hpr
      simp only [Row.term, eqTerm, Row.viol, compViolation] at hvr ⊢
      have a1 : lam * fn t.Z ≤ |lam| * v := (le_abs_self _).trans (by rw [abs_mul]; gcongr)
      have a2 : |lam| ≤ 1 / 2 + ((lam - μ) ^ 2 + μ ^ 2) := by
        nlinarith [sq_nonneg (lam - 2 * μ), sq_nonneg (|lam| - 1), sq_abs lam]
      have a3 : |lam| * v ≤ (1 / 2 + ((lam - μ) ^ 2 + μ ^ 2)) * v := mul_le_mul_of_nonneg_right a2 hv0
      have a4 : 0 ≤ pen / 2 * fn t.Z ^ 2 := by positivity
      linarith)
  have e1 : (((rows p s.cs).zip star).map fun q => q.1.term t.Z).sum = ((rows p s.cs).map fun r => r.term t.Z).sum := by
    have : (((rows p s.cs).zip star).map fun q => q.1.term t.Z)
        = (((rows p s.cs).zip star).map Prod.fst).map fun r => r.term t.Z := by
      rw [List.map_map]; rfl
    rw [this, List.map_fst_zip (by rw [hs.len])]
  have e2 : (((rows p s.cs).zip star).map fun q => q.2 ^ 2).sum = normSq star := by
    have : (((rows p s.cs).zip star).map fun q => q.2 ^ 2) = (((rows p s.cs).zip star).map Prod.snd).map (· ^ 2) := by
      rw [List.map_map]; rfl
    rw [this, List.map_snd_zip (by rw [hs.len]), normSq]
  have e3 : (((rows p s.cs).zip star).map fun _ => (1 / 2 : K)).sum = (rows p s.cs).length / 2 := by
    rw [List.map_const', List.sum_replicate, List.length_zip, hs.len, Nat.min_self, nsmul_eq_mul]
    ring
  rw [sum_map_mul', sum_map_add' (f := fun _ => (1 / 2 : K)), sum_map_add', e1, e2, e3] at h3
  unfold gap
  linarith

end step

/-! ## Whole solves -/

theorem gap_zero {V : Type} (rs : List (Row V K)) (star : List K) (hlen : star.length = rs.length)
    (h : ∀ r ∈ rs, r.lam = 0) : gap rs star = normSq star := by
  have : ((rs.zip star).map fun q => (q.1.lam - q.2) ^ 2) = ((rs.zip star).map Prod.snd).map (· ^ 2) := by
    rw [List.map_map]
    refine List.map_congr_left fun q hq => ?_
    rw [h q.1 (List.of_mem_zip hq).1]
    simp
  rw [gap, this, List.map_snd_zip (by rw [hlen]), normSq]

theorem gap_nonneg {V : Type} (rs : List (Row V K)) (star : List K) : 0 ≤ gap rs star :=
  sum_map_nonneg _ _ fun _ _ => sq_nonneg _

theorem init_static (p : DynProblem n m K) (o : Opts K) (s : ALSt (Fin n → K) (Fin m → K) K (ALCost n m K) (KP n m K))
    (k : ℕ) (hk : k ≤ p.N) : ((AL.init (alKernel p) alOps o s).st.cs k).static = (s.st.cs k).static := by
  unfold AL.init
  extract_lets s1 s2 s3 s4 s5
  show (s4.cs k).static = _
  rw [show s4.cs = (ILQR.cost (alKernel p) s3.Z s3).2.cs from rfl,
    ILQR.cost_obs _ ALCost.static (alLaw p).cost_sig]
  show (s2.cs k).static = _
  have e1 : (s1.cs k).static = (s.st.cs k).static := by
    simp only [s1]
    split
    · show (if k ≤ p.N then _ else _ : ALCost n m K).static = _
      rw [if_pos hk]
      simp only [alOps, ALCost.static, ALCost.resetDuals, List.map_map]; rfl
    · rfl
  simp only [s2]
  split
  · show (if k ≤ p.N then _ else _ : ALCost n m K).static = _
    rw [if_pos hk, ← e1]
    simp only [alOps, ALCost.static, ALCost.setPenalty, List.map_map]; rfl
  · exact e1

theorem maxPenalty_le (p : DynProblem n m K) (cs : ℕ → ALCost n m K) {ρ : K} (hρ : 0 ≤ ρ) (h : ∀ k ≤ p.N, PenU (cs k) ρ) :
    AL.maxPenalty (alKernel p) alOps cs ≤ ρ := by
  have hv : ∀ {κ : ConKind} (v : ConVal κ n m K), (∀ i, v.pen i = ρ) → v.maxPenalty ≤ ρ := by
    intro κ v hp
    rw [ConVal.maxPenalty, foldl_max_le]
    refine ⟨(hp _).le, fun x hx => ?_⟩
    obtain ⟨i, rfl⟩ := (List.mem_ofFn).mp hx
    exact (hp i).le
  have hl : ∀ {κ : ConKind} (l : List (ConVal κ n m K)) (a : K), a ≤ ρ → (∀ v ∈ l, ∀ i, v.pen i = ρ) →
      l.foldl (fun a v => max a v.maxPenalty) a ≤ ρ := by
    intro κ l
    induction l with
    | nil => intro a ha _; exact ha
    | cons v l ih => intro a ha hp; exact ih _ (max_le ha (hv v (hp v (by simp)))) fun w hw => hp w (by simp [hw])
  have hc : ∀ k ≤ p.N, (cs k).maxPenalty ≤ ρ := fun k hk => hl _ _ (hl _ _ hρ (h k hk).1) (h k hk).2
  have : ∀ (l : List ℕ) (a : K), a ≤ ρ → (∀ k ∈ l, k ≤ p.N) →
      l.foldl (fun a k => Arith.smax a ((cs k).maxPenalty)) a ≤ ρ := by
    intro l
    induction l with
    | nil => intro a ha _; exact ha
    | cons k l ih =>
      intro a ha hk
      refine ih _ ?_ fun w hw => hk w (by simp [hw])
      have := hc k (hk k (by simp))
      show Arith.smax a (cs k).maxPenalty ≤ ρ
      rw [Arith.smax_eq]
      exact max_le ha this
  exact this _ _ hρ fun k hk => Nat.lt_succ_iff.mp (List.mem_range.mp hk)

/-- What is known at the start of outer iteration `j` (from 0) with any inner solver that keeps problem and time grid. -/
structure ConvBase (p : DynProblem n m K) (o : Opts K) (φ : K) (s q : St (Fin n → K) (Fin m → K) K (ALCost n m K) (KP n m K))
    (j : ℕ) : Prop where
  static : ∀ k ≤ p.N, (q.cs k).static = (s.cs k).static
  pen : ∀ k ≤ p.N, PenU (q.cs k) (o.initialPenalty * φ ^ j)
  times : ∀ k < p.N, q.Z.t k = s.Z.t k ∧ q.Z.h k = s.Z.h k
  lam : ∀ r ∈ rows p q.cs, r.kind = .inequality → r.lam ≤ 0

/-- What is known in addition if the inner solver is exact and the multipliers started at squared distance `G` from `star`. -/
structure ConvInv (p : DynProblem n m K) (o : Opts K) (φ G : K) (s q : St (Fin n → K) (Fin m → K) K (ALCost n m K) (KP n m K))
    (star : List K) (j : ℕ) : Prop extends ConvBase p o φ s q j where
  gap : gap (rows p q.cs) star + ∑ i ∈ Finset.range j, (o.initialPenalty * φ ^ i * o.conTol) ^ 2 ≤ G

theorem alternative_times {p : DynProblem n m K} {Z Z1 : Traj (Fin n → K) (Fin m → K) K}
    (h : ∀ k < p.N, Z1.t k = Z.t k ∧ Z1.h k = Z.h k) : Alternative p Z1 = Alternative p Z := by
  funext Y
  refine propext ⟨fun q => ⟨q.init, fun k hk => ?_⟩, fun q => ⟨q.init, fun k hk => ?_⟩⟩
  · rw [q.step k hk, (h k hk).1, (h k hk).2]
  · rw [q.step k hk, (h k hk).1, (h k hk).2]

/-- The inner solver is exact on every state of this problem: same objective and constraints, one positive penalty for all
constraints, same time grid. -/
def ExactOn (p : DynProblem n m K) (s : St (Fin n → K) (Fin m → K) K (ALCost n m K) (KP n m K))
    (inner : St (Fin n → K) (Fin m → K) K (ALCost n m K) (KP n m K) →
      Option (St (Fin n → K) (Fin m → K) K (ALCost n m K) (KP n m K))) : Prop :=
  ∀ q t, (∀ k ≤ p.N, (q.cs k).static = (s.cs k).static) → (∃ ρ, 0 < ρ ∧ ∀ k ≤ p.N, PenU (q.cs k) ρ) →
    (∀ k < p.N, q.Z.t k = s.Z.t k ∧ q.Z.h k = s.Z.h k) → inner q = some t → ExactSolve p q t

section solve
variable {p : DynProblem n m K} {o : Opts K} {φ G : K}
  {inner : St (Fin n → K) (Fin m → K) K (ALCost n m K) (KP n m K) →
    Option (St (Fin n → K) (Fin m → K) K (ALCost n m K) (KP n m K))}
  {s s' : ALSt (Fin n → K) (Fin m → K) K (ALCost n m K) (KP n m K)}
  {zs : Traj (Fin n → K) (Fin m → K) K} {star : List K}

theorem convInv_facts {q : St (Fin n → K) (Fin m → K) K (ALCost n m K) (KP n m K)} {j : ℕ}
    (hc : ConvexProblem p s.st.cs) (hs : Saddle (Alternative p s.st.Z) (plainCost p s.st.cs) (rows p s.st.cs) zs star)
    (hq : ConvBase p o φ s.st q j) :
    Convex (Alternative p q.Z) segTraj (plainCost p q.cs) (rows p q.cs) ∧
    Saddle (Alternative p q.Z) (plainCost p q.cs) (rows p q.cs) zs star := by
  have e1 : plainCost p q.cs = plainCost p s.st.cs := funext fun Z => plainCost_static p hq.static Z
  have e2 : (rows p s.st.cs).map Row.sig = (rows p q.cs).map Row.sig := (rows_static p hq.static).symm
  rw [alternative_times hq.times, e1]
  exact ⟨(hc.convex s.st.Z).congr e2, hs.congr e2⟩

/-- The next outer iteration starts with the same multipliers the last one ended with, and with all penalties scaled. -/
theorem convBase_step (hscale : ∀ k ≤ p.N, ScaleU (s.st.cs k) φ) {q : ALSt (Fin n → K) (Fin m → K) K (ALCost n m K) (KP n m K)}
    {t : St (Fin n → K) (Fin m → K) K (ALCost n m K) (KP n m K)} {j : ℕ}
    (hq : ConvBase p o φ s.st q.st j) (hcore : ∀ k ≤ p.N, (t.cs k).core = (q.st.cs k).core) (hfresh : (alLaw p).Fresh t.cs t.Z)
    (htimes : ∀ k < p.N, t.Z.t k = q.st.Z.t k ∧ t.Z.h k = q.st.Z.h k) :
    ConvBase p o φ s.st (next (alKernel p) alOps q t).st (j + 1) ∧
    ∀ star, gap (rows p (next (alKernel p) alOps q t).st.cs) star
      = gap (rows p (eachCost (alKernel p) alOps.updateDuals t).cs) star := by
  obtain ⟨b1, b2, b3, b4, b5, b6, b7, b8⟩ := body_facts (alKernel p) alOps q t
  have hst : ∀ k ≤ p.N, (t.cs k).static = (s.st.cs k).static := fun k hk => by
    rw [← hq.static k hk, ← ALCost.static_of_core, hcore k hk, ALCost.static_of_core]
  have hcs : ∀ k ≤ p.N, (next (alKernel p) alOps q t).st.cs k = (t.cs k).updateDuals.updatePenalties := fun k hk => by
    show (if k ≤ p.N then ALCost.updatePenalties ((body (alKernel p) alOps q t).st.cs k) else _) = _
    rw [if_pos hk, b1]
    show ALCost.updatePenalties (if k ≤ p.N then _ else _) = _
    rw [if_pos hk]; rfl
  have hrows : rows p (next (alKernel p) alOps q t).st.cs
      = (rows p (eachCost (alKernel p) alOps.updateDuals t).cs).map fun r => { r with pen := r.pen * φ } := by
    refine rows_map p fun k hk => ?_
    have e : (eachCost (alKernel p) alOps.updateDuals t).cs k = (t.cs k).updateDuals := if_pos hk
    rw [hcs k hk, e]
    refine knotRows_pen k _ φ (scaleU_static (c' := s.st.cs k) ?_ (hscale k hk))
    rw [ALCost.updateDuals_static, hst k hk]
  refine ⟨⟨fun k hk => ?_, fun k hk => ?_, fun k hk => ?_, fun r hr hk => ?_⟩, fun star => ?_⟩
  · rw [hcs k hk, ← hst k hk, ← ALCost.updateDuals_static (t.cs k)]
    simp only [ALCost.static, ALCost.updatePenalties, List.map_map]; rfl
  · rw [hcs k hk]
    have hsc := scaleU_static (hst k hk) (hscale k hk)
    have hp : PenU (t.cs k) (o.initialPenalty * φ ^ j) := by
      have h1 := hq.pen k hk
      have h2 := hcore k hk
      simp only [ALCost.core, ALCost.mk.injEq] at h2
      constructor
      · intro v hv i
        have : v.core ∈ (q.st.cs k).eq.map ConVal.core := by rw [← h2.2.1]; exact List.mem_map_of_mem hv
        obtain ⟨w, hw, e⟩ := List.mem_map.mp this
        have hwp := h1.1 w hw
        have hwp' : ∀ i, w.core.pen i = o.initialPenalty * φ ^ j := hwp
        rw [e] at hwp'
        exact hwp' i
      · intro v hv i
        have : v.core ∈ (q.st.cs k).ineq.map ConVal.core := by rw [← h2.2.2]; exact List.mem_map_of_mem hv
        obtain ⟨w, hw, e⟩ := List.mem_map.mp this
        have hwp := h1.2 w hw
        have hwp' : ∀ i, w.core.pen i = o.initialPenalty * φ ^ j := hwp
        rw [e] at hwp'
        exact hwp' i
    simp only [PenU, ALCost.updatePenalties, ALCost.updateDuals, List.forall_mem_map, ConVal.updatePenalties,
      ConVal.updateDuals]
    refine ⟨fun v hv i => ?_, fun v hv i => ?_⟩
    · rw [hp.1 v hv i, hsc.1 v hv, pow_succ, mul_assoc]
    · rw [hp.2 v hv i, hsc.2 v hv, pow_succ, mul_assoc]
  · have : (next (alKernel p) alOps q t).st.Z = t.Z := b2
    rw [this, (htimes k hk).1, (htimes k hk).2]
    exact hq.times k hk
  · rw [hrows, exact_rows hcore hfresh, List.map_map] at hr
    obtain ⟨r0, _, rfl⟩ := List.mem_map.mp hr
    simp only [Function.comp] at hk ⊢
    unfold Row.next
    rw [hk]
    exact min_le_left _ _
  · rw [hrows, gap, List.zip_map_left, List.map_map]
    rfl

theorem convInv_step (hφ : 0 < φ) (hpos : 0 < o.initialPenalty) (htol : 0 ≤ o.conTol)
    (hscale : ∀ k ≤ p.N, ScaleU (s.st.cs k) φ)
    (hc : ConvexProblem p s.st.cs) (hs : Saddle (Alternative p s.st.Z) (plainCost p s.st.cs) (rows p s.st.cs) zs star)
    (hex : ExactOn p s.st inner) {q : ALSt (Fin n → K) (Fin m → K) K (ALCost n m K) (KP n m K)}
    {t : St (Fin n → K) (Fin m → K) K (ALCost n m K) (KP n m K)} {j : ℕ}
    (hq : ConvInv p o φ G s.st q.st star j) (ht : inner q.st = some t)
    (hd : (isDone o (body (alKernel p) alOps q t)).2 = false) :
    ConvInv p o φ G s.st (next (alKernel p) alOps q t).st star (j + 1) := by
  have hρ : 0 < o.initialPenalty * φ ^ j := by positivity
  have hE := hex q.st t hq.static ⟨_, hρ, hq.pen⟩ hq.times ht
  obtain ⟨hcx, hsd⟩ := convInv_facts hc hs hq.toConvBase
  have hstep := C79_step hρ hq.pen hq.lam hcx hsd hE
  obtain ⟨b1, b2, b3, b4, b5, b6, b7, b8⟩ := body_facts (alKernel p) alOps q t
  have hcont := isDone_continues o _ hd
  obtain ⟨hb, e⟩ := convBase_step hscale hq.toConvBase hE.core hE.fresh hE.times
  refine ⟨hb, ?_⟩
  rw [e, Finset.sum_range_succ]
  have hv : o.conTol ≤ (alKernel p).viol (eachCost (alKernel p) alOps.updateDuals t).cs := by
    have := hcont.viol
    rw [b7] at this
    rw [← Bool.not_eq_true, Arith.lt_iff] at this
    exact not_lt.mp this
  have hsq : (o.initialPenalty * φ ^ j * o.conTol) ^ 2
      ≤ (o.initialPenalty * φ ^ j * (alKernel p).viol (eachCost (alKernel p) alOps.updateDuals t).cs) ^ 2 := by
    gcongr
  have := hq.gap
  linarith

theorem convInv_init (hr : o.resetDuals = true) (hpos : 0 < o.initialPenalty)
    (hs : Saddle (Alternative p s.st.Z) (plainCost p s.st.cs) (rows p s.st.cs) zs star) :
    ConvInv p o φ (normSq star) s.st (AL.init (alKernel p) alOps o s).st star 0 := by
  have hr0 := C14_alcost_reset p o hr hpos s
  have hlam0 : ∀ r ∈ rows p (AL.init (alKernel p) alOps o s).st.cs, r.lam = 0 := by
    intro r hr
    obtain ⟨k, hk, ⟨v, hv, i, rfl⟩ | ⟨v, hv, i, rfl⟩⟩ := (mem_rows p _ r).mp hr
    · exact congrFun ((hr0 k hk).1 v hv).1 i
    · exact congrFun ((hr0 k hk).2 v hv).1 i
  refine ⟨⟨fun k hk => init_static p o s k hk, fun k hk => ?_, fun k hk => ?_, fun r hr _ => (hlam0 r hr).le⟩, ?_⟩
  · rw [pow_zero, mul_one]
    exact ⟨fun v hv => ((hr0 k hk).1 v hv).2.1, fun v hv => ((hr0 k hk).2 v hv).2.1⟩
  · rw [(init_facts (alKernel p) alOps o s).2.2.2]; exact ⟨rfl, rfl⟩
  · rw [Finset.range_zero, Finset.sum_empty, add_zero]
    refine (gap_zero _ _ ?_ hlam0).le
    rw [hs.len, ← List.length_map (f := Row.sig), ← List.length_map (as := rows p (AL.init _ _ _ _).st.cs) (f := Row.sig)]
    rw [rows_static p fun k hk => init_static p o s k hk]

/-- A whole solve with multipliers that start at squared distance `G` from `star`. -/
theorem conv_core (hk : KeepsOuter inner) (hφ : 0 < φ) (hpos : 0 < o.initialPenalty) (htol : 0 ≤ o.conTol)
    (hI0 : ConvInv p o φ G s.st (AL.init (alKernel p) alOps o s).st star 0) (hmax : 1 ≤ o.maxOuter) (hscale : ∀ k ≤ p.N, ScaleU (s.st.cs k) φ)
    (hc : ConvexProblem p s.st.cs) (hs : Saddle (Alternative p s.st.Z) (plainCost p s.st.cs) (rows p s.st.cs) zs star)
    (hex : ExactOn p s.st inner) (h : AL.solve (alKernel p) alOps o inner s = some s') :
    ∃ j, s'.st.stats.outer = j + 1 ∧
      (o.initialPenalty * φ ^ j * Stats.back (s'.st.stats.col .viol)) ^ 2
        + ∑ i ∈ Finset.range j, (o.initialPenalty * φ ^ i * o.conTol) ^ 2 + gap (rows p s'.st.cs) star ≤ G ∧
      (∀ r ∈ rows p s.st.cs, r.viol s'.st.Z ≤ Stats.back (s'.st.stats.col .viol)) ∧
      plainCost p s.st.cs s'.st.Z ≤ plainCost p s.st.cs zs + (G + normSq star) / (o.initialPenalty * φ ^ j) ∧
      plainCost p s.st.cs zs ≤ plainCost p s.st.cs s'.st.Z + Stats.back (s'.st.stats.col .viol) * (star.map (|·|)).sum := by
  obtain ⟨j, q, t, hj, hq, ht, _, hto, hd, rfl⟩ := solve_last (alKernel p) alOps o inner hk
    (fun j q => ConvInv p o φ G s.st q.st star j) s s' hI0
    (fun j q t hq ht hd => convInv_step hφ hpos htol hscale hc hs hex hq ht hd) hmax h
  obtain ⟨b1, b2, b3, b4, b5, b6, b7, b8⟩ := body_facts (alKernel p) alOps q t
  rw [(isDone_true o _ hd).2, b2, b5, b7, b1, hto]
  have hρ : 0 < o.initialPenalty * φ ^ j := by positivity
  have hE := hex q.st t hq.static ⟨_, hρ, hq.pen⟩ hq.times ht
  obtain ⟨hcx, hsd⟩ := convInv_facts hc hs hq.toConvBase
  have hstep := C79_step hρ hq.pen hq.lam hcx hsd hE
  have hobj := C79_objective hρ hq.pen hq.lam hsd hE
  have hg := hq.gap
  have e1 : ∀ Z, plainCost p q.st.cs Z = plainCost p s.st.cs Z := fun Z => plainCost_static p hq.static Z
  rw [e1, e1] at hobj
  have hsum : 0 ≤ ∑ i ∈ Finset.range j, (o.initialPenalty * φ ^ i * o.conTol) ^ 2 := Finset.sum_nonneg fun _ _ => sq_nonneg _
  refine ⟨j, rfl, by linarith, ?_, ?_, hobj.2⟩
  · intro r hr
    obtain ⟨r', h1, h2, h3⟩ := Row.sig_mem (rows_static p hq.static).symm hr
    have hst : ∀ k ≤ p.N, Stored ((eachCost (alKernel p) alOps.updateDuals t).cs k) (t.Z.x k) (t.Z.u k) := by
      intro k hk
      have e : (eachCost (alKernel p) alOps.updateDuals t).cs k = (t.cs k).updateDuals := if_pos hk
      rw [e]
      obtain ⟨h1, h2⟩ := exact_stored hE.fresh k hk
      exact ⟨by simpa [ALCost.updateDuals, ConVal.updateDuals] using h1,
        by simpa [ALCost.updateDuals, ConVal.updateDuals] using h2⟩
    have := (viol_le_iff p _ t.Z hst (viol_nonneg p _)).mp le_rfl
      { r' with lam := r'.next t.Z } (by rw [exact_rows hE.core hE.fresh]; exact List.mem_map.mpr ⟨r', h1, rfl⟩)
    unfold Row.viol at this ⊢
    simp only [h2, h3] at this
    exact this
  · refine hobj.1.trans ?_
    have : (gap (rows p q.st.cs) star + normSq star) / (o.initialPenalty * φ ^ j)
        ≤ (G + normSq star) / (o.initialPenalty * φ ^ j) := div_le_div_of_nonneg_right (by linarith) hρ.le
    linarith

/-- A whole solve of a convex problem with an exact inner solver, starting with multipliers zero and the same penalty for all
constraints.  Let `λ*` be multipliers of a solution `zs`, and `ρ_i = initial_penalty · scaling^i` the penalty in outer
iteration `i` (from 0).  If the solve ends in iteration `j`, the recorded violation `v`, the number of iterations and the final
multipliers obey `(ρ_j v)² + Σ_{i<j} (ρ_i tolerance)² + ‖λ - λ*‖² ≤ ‖λ*‖²`.  No constraint is violated by more than `v`, and the
objective exceeds the optimum by at most `2 ‖λ*‖² / ρ_j` and falls short of it by at most `v ‖λ*‖₁`. -/
theorem C79_solve (hk : KeepsOuter inner) (hφ : 0 < φ) (hpos : 0 < o.initialPenalty) (htol : 0 ≤ o.conTol)
    (hr : o.resetDuals = true) (hmax : 1 ≤ o.maxOuter) (hscale : ∀ k ≤ p.N, ScaleU (s.st.cs k) φ)
    (hc : ConvexProblem p s.st.cs) (hs : Saddle (Alternative p s.st.Z) (plainCost p s.st.cs) (rows p s.st.cs) zs star)
    (hex : ExactOn p s.st inner) (h : AL.solve (alKernel p) alOps o inner s = some s') :
    ∃ j, s'.st.stats.outer = j + 1 ∧
      (o.initialPenalty * φ ^ j * Stats.back (s'.st.stats.col .viol)) ^ 2
        + ∑ i ∈ Finset.range j, (o.initialPenalty * φ ^ i * o.conTol) ^ 2 + gap (rows p s'.st.cs) star ≤ normSq star ∧
      (∀ r ∈ rows p s.st.cs, r.viol s'.st.Z ≤ Stats.back (s'.st.stats.col .viol)) ∧
      plainCost p s.st.cs s'.st.Z ≤ plainCost p s.st.cs zs + 2 * normSq star / (o.initialPenalty * φ ^ j) ∧
      plainCost p s.st.cs zs ≤ plainCost p s.st.cs s'.st.Z + Stats.back (s'.st.stats.col .viol) * (star.map (|·|)).sum := by
  rw [two_mul]
  exact conv_core hk hφ hpos htol (convInv_init hr hpos hs) hmax hscale hc hs hex h

/-- ... with equality constraints only, the objective exceeds the optimum by at most `v (M / 2 + 2 ‖λ*‖²)`, where `M` is the
number of scalar constraints. -/
theorem C79_solve_equality (hk : KeepsOuter inner) (hφ : 0 < φ) (hpos : 0 < o.initialPenalty) (htol : 0 ≤ o.conTol)
    (hr : o.resetDuals = true) (hmax : 1 ≤ o.maxOuter) (hscale : ∀ k ≤ p.N, ScaleU (s.st.cs k) φ)
    (hc : ConvexProblem p s.st.cs) (hs : Saddle (Alternative p s.st.Z) (plainCost p s.st.cs) (rows p s.st.cs) zs star)
    (heq : ∀ r ∈ rows p s.st.cs, r.kind = .equality)
    (hex : ExactOn p s.st inner) (h : AL.solve (alKernel p) alOps o inner s = some s') :
    plainCost p s.st.cs s'.st.Z ≤ plainCost p s.st.cs zs
      + Stats.back (s'.st.stats.col .viol) * ((rows p s.st.cs).length / 2 + 2 * normSq star) := by
  obtain ⟨j, q, t, hj, hq, ht, _, hto, hd, rfl⟩ := solve_last (alKernel p) alOps o inner hk
    (fun j q => ConvInv p o φ (normSq star) s.st q.st star j) s s' (convInv_init hr hpos hs)
    (fun j q t hq ht hd => convInv_step hφ hpos htol hscale hc hs hex hq ht hd) hmax h
  obtain ⟨b1, b2, b3, b4, b5, b6, b7, b8⟩ := body_facts (alKernel p) alOps q t
  rw [(isDone_true o _ hd).2, b2, b7]
  have hρ : 0 < o.initialPenalty * φ ^ j := by positivity
  have hE := hex q.st t hq.static ⟨_, hρ, hq.pen⟩ hq.times ht
  obtain ⟨hcx, hsd⟩ := convInv_facts hc hs hq.toConvBase
  have hobj := C79_objective_equality hρ hq.pen (fun r hr => by
    obtain ⟨r', h1, h2, -⟩ := Row.sig_mem (rows_static p hq.static) hr
    rw [← h2]; exact heq r' h1) hsd hE
  have e1 : ∀ Z, plainCost p q.st.cs Z = plainCost p s.st.cs Z := fun Z => plainCost_static p hq.static Z
  have e2 : (rows p q.st.cs).length = (rows p s.st.cs).length := by
    rw [← List.length_map (f := Row.sig), rows_static p hq.static, List.length_map]
  rw [e1, e1, e2] at hobj
  refine hobj.trans ?_
  have hsum : 0 ≤ ∑ i ∈ Finset.range j, (o.initialPenalty * φ ^ i * o.conTol) ^ 2 := Finset.sum_nonneg fun _ _ => sq_nonneg _
  have hg := hq.gap
  have hv0 : 0 ≤ (alKernel p).viol (eachCost (alKernel p) alOps.updateDuals t).cs := viol_nonneg p _
  have := mul_le_mul_of_nonneg_left (show ((rows p s.st.cs).length : K) / 2 + gap (rows p q.st.cs) star + normSq star
    ≤ (rows p s.st.cs).length / 2 + 2 * normSq star by linarith) hv0
  linarith

/-- What an inner solver must do for the outer one to come through: unless the limit on the total number of iterations gets in
the way it succeeds, taking at most `W` iterations. -/
def SucceedsOn (p : DynProblem n m K) (o : Opts K) (W : ℕ) (s : St (Fin n → K) (Fin m → K) K (ALCost n m K) (KP n m K))
    (inner : St (Fin n → K) (Fin m → K) K (ALCost n m K) (KP n m K) →
      Option (St (Fin n → K) (Fin m → K) K (ALCost n m K) (KP n m K))) : Prop :=
  ∀ q t, (∀ k ≤ p.N, (q.cs k).static = (s.cs k).static) → (∃ ρ, 0 < ρ ∧ ∀ k ≤ p.N, PenU (q.cs k) ρ) →
    (∀ k < p.N, q.Z.t k = s.Z.t k ∧ q.Z.h k = s.Z.h k) → (q.stats.total : ℤ) + W < o.maxTotal → inner q = some t →
    t.status = .kSolved ∧ t.stats.total ≤ q.stats.total + W

theorem convInv_le {q : St (Fin n → K) (Fin m → K) K (ALCost n m K) (KP n m K)} {j J : ℕ} {s0}
    (hJ : G < (o.initialPenalty * φ ^ J * o.conTol) ^ 2) (hq : ConvInv p o φ G s0 q star j) : j ≤ J := by
  by_contra hlt
  have hmem : J ∈ Finset.range j := Finset.mem_range.mpr (by omega)
  have := Finset.single_le_sum (f := fun i => (o.initialPenalty * φ ^ i * o.conTol) ^ 2)
    (fun i _ => sq_nonneg _) hmem
  have := gap_nonneg (rows p q.cs) star
  have := hq.gap
  linarith

/-- When the multipliers start near enough for the penalty of iteration `J`, that iteration is the last at the latest. -/
theorem conv_solved (hk : KeepsOuter inner) (hφ : 1 ≤ φ) (hpos : 0 < o.initialPenalty) (htol : 0 < o.conTol)
    (hI0 : ConvInv p o φ G s.st (AL.init (alKernel p) alOps o s).st star 0) (hscale : ∀ k ≤ p.N, ScaleU (s.st.cs k) φ)
    (hc : ConvexProblem p s.st.cs) (hs : Saddle (Alternative p s.st.Z) (plainCost p s.st.cs) (rows p s.st.cs) zs star)
    (hex : ExactOn p s.st inner) (h : AL.solve (alKernel p) alOps o inner s = some s')
    (J : ℕ) (hJ : G < (o.initialPenalty * φ ^ J * o.conTol) ^ 2) (hJpen : o.initialPenalty * φ ^ J ≤ o.maxPenalty)
    (hJout : (J : ℤ) < o.maxOuter) (W : ℕ) (hin : SucceedsOn p o W s.st inner) (hW : (W : ℤ) * (J + 1) < o.maxTotal) :
    s'.status = .kSolved ∧ s'.st.stats.outer ≤ J + 1 ∧ s'.st.stats.total ≤ W * (J + 1) ∧
      Stats.back (s'.st.stats.col .viol) < o.conTol ∧ ∀ r ∈ rows p s.st.cs, r.viol s'.st.Z < o.conTol := by
  have hφ0 : 0 < φ := lt_of_lt_of_le one_pos hφ
  have hcount : ∀ j, j ≤ J → ((W * j : ℕ) : ℤ) + W < o.maxTotal := by
    intro j hj
    have h1 : W * (j + 1) ≤ W * (J + 1) := Nat.mul_le_mul_left _ (by omega)
    have h2 : ((W * (j + 1) : ℕ) : ℤ) ≤ ((W * (J + 1) : ℕ) : ℤ) := by exact_mod_cast h1
    push_cast at h2 ⊢
    linarith
  have hone : ∀ {j : ℕ} {q : ALSt (Fin n → K) (Fin m → K) K (ALCost n m K) (KP n m K)} {t},
      ConvInv p o φ G s.st q.st star j → q.st.stats.total ≤ W * j → inner q.st = some t →
      t.status = .kSolved ∧ t.stats.total ≤ W * (j + 1) := by
    intro j q t hq hT ht
    have hρ : 0 < o.initialPenalty * φ ^ j := by positivity
    have hc := hcount j (convInv_le hJ hq)
    obtain ⟨e1, e2⟩ := hin q.st t hq.static ⟨_, hρ, hq.pen⟩ hq.times (by omega) ht
    exact ⟨e1, by rw [Nat.mul_succ]; omega⟩
  obtain ⟨j', hj', hb, hv, _, _⟩ := conv_core hk hφ0 hpos htol.le hI0 (by omega) hscale hc hs hex h
  obtain ⟨j, q, t, hj, ⟨hq, hqT⟩, ht, _, hto, hd, rfl⟩ := solve_last (alKernel p) alOps o inner hk
    (fun j q => ConvInv p o φ G s.st q.st star j ∧ q.st.stats.total ≤ W * j) s s'
    ⟨hI0, by rw [(init_facts (alKernel p) alOps o s).2.1]; omega⟩
    (fun j q t hq ht hd => ⟨convInv_step hφ0 hpos htol.le hscale hc hs hex hq.1 ht hd, by
      show (body (alKernel p) alOps q t).st.stats.total ≤ _
      rw [(body_facts (alKernel p) alOps q t).2.2.2.2.2.1]
      exact (hone hq.1 hq.2 ht).2⟩) (by omega) h
  obtain ⟨hsol, htT⟩ := hone hq hqT ht
  obtain ⟨b1, b2, b3, b4, b5, b6, b7, b8⟩ := body_facts (alKernel p) alOps q t
  obtain ⟨hout, hst⟩ := isDone_true o _ hd
  rw [hst] at hj' hb hv ⊢
  have e : j' = j := by rw [b5, hto] at hj'; omega
  subst e
  set v := Stats.back ((body (alKernel p) alOps q t).st.stats.col .viol) with hvdef
  have hg0 := gap_nonneg (rows p (body (alKernel p) alOps q t).st.cs) star
  have hjJ : j' ≤ J := convInv_le hJ hq
  have htotal : (body (alKernel p) alOps q t).st.stats.total ≤ W * (J + 1) := by
    rw [b6]; exact htT.trans (Nat.mul_le_mul_left _ (by omega))
  have hpen : o.initialPenalty * φ ^ j' ≤ o.maxPenalty := by
    refine le_trans ?_ hJpen
    have := pow_le_pow_right₀ hφ hjJ
    gcongr
  have hsolved : v < o.conTol → (∀ r ∈ rows p s.st.cs, r.viol (body (alKernel p) alOps q t).st.Z < o.conTol) :=
    fun hlt r hr => lt_of_le_of_lt (hv r hr) hlt
  have hout5 : (body (alKernel p) alOps q t).st.stats.outer ≤ J + 1 := by rw [b5, hto]; omega
  have hvJ : j' = J → v < o.conTol := by
    intro e
    subst e
    by_contra hge
    have hge := not_lt.mp hge
    have : (o.initialPenalty * φ ^ j' * o.conTol) ^ 2 ≤ (o.initialPenalty * φ ^ j' * v) ^ 2 := by gcongr
    have hsum : 0 ≤ ∑ i ∈ Finset.range j', (o.initialPenalty * φ ^ i * o.conTol) ^ 2 :=
      Finset.sum_nonneg fun _ _ => sq_nonneg _
    linarith
  generalize hS : (isDone o (body (alKernel p) alOps q t)).1.status = S at hout ⊢
  cases hout with
  | innerFailed hf => exact absurd (b3.trans hsol) hf
  | solved _ hlt =>
    rw [Arith.lt_iff] at hlt
    exact ⟨rfl, hout5, htotal, hlt, hsolved hlt⟩
  | maxPenalty _ _ hp =>
    rw [Arith.gt_iff, b8] at hp
    have hρ : 0 < o.initialPenalty * φ ^ j' := by positivity
    have hE := hex q.st t hq.static ⟨_, hρ, hq.pen⟩ hq.times ht
    have hpu : ∀ k ≤ p.N, PenU ((eachCost (alKernel p) alOps.updateDuals t).cs k) (o.initialPenalty * φ ^ j') := by
      have hr1 : ∀ r ∈ rows p (eachCost (alKernel p) alOps.updateDuals t).cs, r.pen = o.initialPenalty * φ ^ j' := by
        intro r hr
        rw [exact_rows hE.core hE.fresh] at hr
        obtain ⟨r0, h0, rfl⟩ := List.mem_map.mp hr
        exact rows_pen p hq.pen r0 h0
      intro k hk
      exact ⟨fun v hv i => hr1 _ ((mem_rows p _ _).mpr ⟨k, hk, .inl ⟨v, hv, i, rfl⟩⟩),
        fun v hv i => hr1 _ ((mem_rows p _ _).mpr ⟨k, hk, .inr ⟨v, hv, i, rfl⟩⟩)⟩
    exact absurd (lt_of_lt_of_le hp (maxPenalty_le p _ hρ.le hpu)) (not_lt.mpr hpen)
  | maxOuter _ hnv _ ho =>
    rw [b5, hto] at ho
    rw [← Bool.not_eq_true, Arith.lt_iff] at hnv
    exact absurd (hvJ (by omega)) hnv
  | maxTotal _ _ _ _ ht' =>
    have : ((body (alKernel p) alOps q t).st.stats.total : ℤ) ≤ ((W * (J + 1) : ℕ) : ℤ) := by exact_mod_cast htotal
    push_cast at this
    linarith

/-- ... and when the tolerance can be reached at all within the penalty and iteration limits, it is reached: if
`‖λ*‖ < ρ_J · tolerance` for a `J` with `ρ_J ≤ max_penalty` and `J < max_iterations_outer`, every inner solve succeeds within `W`
iterations and `W (J + 1) < max_iterations_total`, then the solve ends with `kSolved` after at most `J + 1` outer iterations. -/
theorem C79_solved (hk : KeepsOuter inner) (hφ : 1 ≤ φ) (hpos : 0 < o.initialPenalty) (htol : 0 < o.conTol)
    (hr : o.resetDuals = true) (hscale : ∀ k ≤ p.N, ScaleU (s.st.cs k) φ)
    (hc : ConvexProblem p s.st.cs) (hs : Saddle (Alternative p s.st.Z) (plainCost p s.st.cs) (rows p s.st.cs) zs star)
    (hex : ExactOn p s.st inner) (h : AL.solve (alKernel p) alOps o inner s = some s')
    (J : ℕ) (hJ : normSq star < (o.initialPenalty * φ ^ J * o.conTol) ^ 2) (hJpen : o.initialPenalty * φ ^ J ≤ o.maxPenalty)
    (hJout : (J : ℤ) < o.maxOuter) (W : ℕ) (hin : SucceedsOn p o W s.st inner) (hW : (W : ℤ) * (J + 1) < o.maxTotal) :
    s'.status = .kSolved ∧ s'.st.stats.outer ≤ J + 1 ∧ s'.st.stats.total ≤ W * (J + 1) ∧
      Stats.back (s'.st.stats.col .viol) < o.conTol ∧ ∀ r ∈ rows p s.st.cs, r.viol s'.st.Z < o.conTol :=
  conv_solved hk hφ hpos htol (convInv_init hr hpos hs) hscale hc hs hex h J hJ hJpen hJout W hin hW

/-- The outer loop returns if the inner solver does. -/
theorem C79_returns (hφ : 0 < φ) (hpos : 0 < o.initialPenalty) (htol : 0 ≤ o.conTol)
    (hr : o.resetDuals = true) (hscale : ∀ k ≤ p.N, ScaleU (s.st.cs k) φ)
    (hc : ConvexProblem p s.st.cs) (hs : Saddle (Alternative p s.st.Z) (plainCost p s.st.cs) (rows p s.st.cs) zs star)
    (hex : ExactOn p s.st inner)
    (hret : ∀ q, (∀ k ≤ p.N, (q.cs k).static = (s.st.cs k).static) → (∃ ρ, 0 < ρ ∧ ∀ k ≤ p.N, PenU (q.cs k) ρ) →
      ∃ t, inner q = some t) :
    ∃ s', AL.solve (alKernel p) alOps o inner s = some s' := by
  have key : ∀ (r j : ℕ) (q : ALSt (Fin n → K) (Fin m → K) K (ALCost n m K) (KP n m K)),
      ConvInv p o φ (normSq star) s.st q.st star j → ∃ s', outerLoop (alKernel p) alOps o inner r q = some s' := by
    intro r
    induction r with
    | zero => exact fun j q _ => ⟨q, rfl⟩
    | succ r ih =>
      intro j q hq
      have hρ : 0 < o.initialPenalty * φ ^ j := by positivity
      obtain ⟨t, ht⟩ := hret q.st hq.static ⟨_, hρ, hq.pen⟩
      unfold outerLoop
      rw [ht]
      simp only
      split
      · exact ⟨_, rfl⟩
      · rename_i hd
        have hd : (isDone o (body (alKernel p) alOps q t)).2 = false := Bool.eq_false_iff.mpr hd
        have := convInv_step hφ hpos htol hscale hc hs hex hq ht hd
        have e := isDone_false o _ hd
        obtain ⟨s', hs'⟩ := ih (j + 1) (next (alKernel p) alOps q t) this
        refine ⟨s', ?_⟩
        rw [← hs']
        show outerLoop (alKernel p) alOps o inner r { (isDone o (body (alKernel p) alOps q t)).1 with
          st := eachCost (alKernel p) alOps.updatePenalties (isDone o (body (alKernel p) alOps q t)).1.st } = _
        rw [e]; rfl
  exact key _ 0 _ (convInv_init hr hpos hs)

end solve

/-! ## A concrete case with an inequality constraint

(Equality constraints, with `ILQR.solve` as the inner solver: `Props/LQConstrained.lean`.) -/

section example79
open Matrix

/-- `x' = x + u` from 0, one segment. -/
def pushProblem : DynProblem 1 1 ℚ where
  N := 1
  x0 := ![0]
  f _ x u _ _ := ![x 0 + u 0]
  jac _ _ _ _ _ := (!![1], !![1])
  normX x := |x 0|
  normU u := |u 0|

/-- The state has to end at or above 1. -/
def pushCon : Con 1 1 ℚ where
  p := 1
  hp := Nat.one_pos
  eval x _ := ![1 - x 0]
  jac _ _ := Matrix.of fun _ j => Sum.elim ![-1] ![0] j

/-- The cost is `u² / 2`. -/
def pushCosts : ℕ → ALCost 1 1 ℚ := fun k =>
  if k = 0 then ALCost.new ⟨fun _ u => u 0 ^ 2 / 2, fun _ u => (0, u), fun _ _ => ⟨0, 0, !![1]⟩⟩ [] []
  else ALCost.new ⟨fun _ _ => 0, fun _ _ => (0, 0), fun _ _ => ⟨0, 0, 0⟩⟩ [] [pushCon]

/-- A solver state with a given control. -/
def pushState (a : ℚ) : St (Fin 1 → ℚ) (Fin 1 → ℚ) ℚ (ALCost 1 1 ℚ) (KP 1 1 ℚ) where
  Z := { x := fun k => if k = 0 then ![0] else ![a], u := fun _ => ![a], t := fun _ => 0, h := fun _ => 1 }
  Zbar := { x := fun _ => 0, u := fun _ => 0, t := fun _ => 0, h := fun _ => 0 }
  kd := fun _ => KP.new
  cs := fun k => ((pushCosts k).evaluate (if k = 0 then ![0] else ![a]) ![a]).2
  costs := fun _ => 0
  status := .kUnsolved
  rho := 0
  drho := 0
  dV0 := 0
  dV1 := 0
  stats := Stats.new

theorem push_alt {a : ℚ} {y : Traj (Fin 1 → ℚ) (Fin 1 → ℚ) ℚ} (hy : Alternative pushProblem (pushState a).Z y) :
    y.x 0 0 = 0 ∧ y.x 1 0 = y.u 0 0 := by
  have h0 : y.x 0 = ![0] := hy.init
  have h1 : y.x 1 = ![y.x 0 0 + y.u 0 0] := hy.step 0 (by decide)
  rw [h1, h0]
  simp

theorem push_rows (a : ℚ) : rows pushProblem (pushState a).cs = [⟨.inequality, fun Z => 1 - Z.x 1 0, 0, 1⟩] := rfl

theorem push_plain (a : ℚ) (Y) : plainCost pushProblem (pushState a).cs Y = Y.u 0 0 ^ 2 / 2 := by
  show ∑ k ∈ Finset.range 2, _ = _
  rw [Finset.sum_range_succ, Finset.sum_range_succ, Finset.sum_range_zero, zero_add]
  show Y.u 0 0 ^ 2 / 2 + 0 = _
  rw [add_zero]

/-- With multiplier 0 and penalty 1 the exact inner solution is the control `1/2`, whatever the start. -/
theorem push_exact (a : ℚ) : ExactSolve pushProblem (pushState a) (pushState (1 / 2)) where
  core k _ := by
    show ((pushCosts k).evaluate _ _).2.core = ((pushCosts k).evaluate _ _).2.core
    rw [ALCost.evaluate_core, ALCost.evaluate_core]
  fresh k hk := by
    have : (((pushCosts k).evaluate (if k = 0 then ![0] else ![1 / 2]) ![1 / 2]).2).values
        = (pushCosts k).static.valuesAt (if k = 0 then ![0] else ![1 / 2]) ![1 / 2] := ALCost.evaluate_values _ _ _
    refine this.trans ?_
    rw [← ALCost.evaluate_static (pushCosts k) (if k = 0 then ![0] else ![1 / 2]) ![1 / 2]]
    rfl
  alt := by
    refine ⟨rfl, fun k hk => ?_⟩
    have hk : k < 1 := hk
    obtain rfl : k = 0 := by omega
    funext i
    fin_cases i
    simp [pushState, pushProblem]
  best Y hY := by
    obtain ⟨h0, h1⟩ := push_alt hY
    have e : ∀ W, trajCost pushProblem (pushState a).cs W = W.u 0 0 ^ 2 / 2 + ineqTerm 1 0 (1 - W.x 1 0) := by
      intro W
      show ∑ k ∈ Finset.range 2, _ = _
      rw [Finset.sum_range_succ, Finset.sum_range_succ, Finset.sum_range_zero, zero_add]
      have e1 : ((((pushState a).cs 1).evaluate (W.x 1) (W.u 1)).1)
          = 0 + ((ConVal.new .inequality pushCon).augLag (W.x 1) (W.u 1)).1 := rfl
      rw [e1, C02_auglag_inequality _ _ _ (by show (0 : ℚ) < 1; norm_num)]
      rw [zero_add]
      exact congrArg₂ (· + ·) rfl (Fin.sum_univ_one _)
    rw [e, e, h1]
    simp only [pushState, if_neg Nat.one_ne_zero, Matrix.cons_val_zero, ineqTerm]
    generalize Y.u 0 0 = b
    norm_num
    split_ifs <;> nlinarith [sq_nonneg (b - 1 / 2), sq_nonneg b]
  times _ _ := ⟨rfl, rfl⟩

theorem push_convex (a : ℚ) : ConvexProblem pushProblem (pushState a).cs where
  dyn k _ x x' u u' τ h t _ _ := by
    funext i
    have : i = 0 := Subsingleton.elim _ _
    subst this
    simp [pushProblem]
    ring
  cost k hk x x' u u' t h0 h1 := by
    by_cases hk0 : k = 0
    · subst hk0
      show (u 0 + t * (u' 0 - u 0)) ^ 2 / 2 ≤ (1 - t) * (u 0 ^ 2 / 2) + t * (u' 0 ^ 2 / 2)
      nlinarith [mul_nonneg (mul_nonneg h0 (sub_nonneg.mpr h1)) (sq_nonneg (u 0 - u' 0))]
    · obtain rfl : k = 1 := by have : k ≤ 1 := hk; omega
      show (0 : ℚ) ≤ (1 - t) * 0 + t * 0
      simp
  eq k hk v hv := by
    have : ((pushState a).cs k).eq = [] := by
      show (((pushCosts k).evaluate _ _).2).eq = []
      unfold pushCosts
      split <;> rfl
    rw [this] at hv; cases hv
  ineq k hk v hv i x x' u u' t _ _ := by
    by_cases hk0 : k = 0
    · subst hk0; cases hv
    · obtain rfl : k = 1 := by have : k ≤ 1 := hk; omega
      have hv : v ∈ [((ConVal.new .inequality pushCon).augLag ![a] ![a]).2] := hv
      rw [List.mem_singleton] at hv
      subst hv
      have hi : i = ⟨0, Nat.one_pos⟩ := Fin.ext (by have : i.val < 1 := i.2; show i.val = 0; omega)
      subst hi
      show 1 - (x 0 + t * (x' 0 - x 0)) ≤ (1 - t) * (1 - x 0) + t * (1 - x' 0)
      linarith

/-- The solution is the control 1 with multiplier -1. -/
theorem push_saddle (a : ℚ) : Saddle (Alternative pushProblem (pushState a).Z) (plainCost pushProblem (pushState a).cs)
    (rows pushProblem (pushState a).cs) (pushState 1).Z [-1] where
  len := rfl
  mem := by
    refine ⟨rfl, fun k hk => ?_⟩
    have hk : k < 1 := hk
    obtain rfl : k = 0 := by omega
    funext i
    fin_cases i
    simp [pushState, pushProblem]
  holds r hr := by
    rw [push_rows, List.mem_singleton] at hr
    subst hr
    show (1 : ℚ) - 1 ≤ 0
    norm_num
  sign q hq _ := by
    rw [push_rows] at hq
    simp only [List.zip_cons_cons, List.zip_nil_left, List.mem_singleton] at hq
    subst hq
    constructor
    · norm_num
    · show (-1 : ℚ) * (1 - 1) = 0
      norm_num
  lag y hy := by
    rw [push_rows, push_plain, push_plain]
    simp only [List.zip_cons_cons, List.zip_nil_left, List.map_cons, List.map_nil, List.sum_cons, List.sum_nil,
      (push_alt hy).2]
    show (1 : ℚ) ^ 2 / 2 - (-1 * (1 - 1) + 0) ≤ _
    nlinarith [sq_nonneg (y.u 0 0 - 1)]

/-- C79: one outer iteration moves the multiplier from 0 to -1/2, the violation is 1/2, and
`(λ⁺ - λ*)² + (ρ v)² = 1/4 + 1/4 ≤ 1 = (λ - λ*)²`. -/
example (a : ℚ) : rows pushProblem (eachCost (alKernel pushProblem) alOps.updateDuals (pushState (1 / 2))).cs
      = [⟨.inequality, fun Z => 1 - Z.x 1 0, -1 / 2, 1⟩] ∧
    (alKernel pushProblem).viol (eachCost (alKernel pushProblem) alOps.updateDuals (pushState (1 / 2))).cs = 1 / 2 ∧
    gap (rows pushProblem (eachCost (alKernel pushProblem) alOps.updateDuals (pushState (1 / 2))).cs) [-1]
      + (1 * (alKernel pushProblem).viol (eachCost (alKernel pushProblem) alOps.updateDuals (pushState (1 / 2))).cs) ^ 2
      ≤ gap (rows pushProblem (pushState a).cs) [-1] := by
  refine ⟨?_, by decide +kernel, ?_⟩
  · rw [exact_rows (push_exact a).core (push_exact a).fresh, push_rows]
    simp [Row.next, pushState]
    norm_num
  · refine C79_step (s := pushState a) one_pos (fun k hk => ?_) (fun r hr _ => ?_) ((push_convex a).convex _) (push_saddle a)
      (push_exact a)
    · have hr1 : ∀ r ∈ rows pushProblem (pushState a).cs, r.pen = 1 := fun r hr => by
        rw [push_rows, List.mem_singleton] at hr
        subst hr; rfl
      exact ⟨fun v hv i => hr1 _ ((mem_rows pushProblem _ _).mpr ⟨k, hk, .inl ⟨v, hv, i, rfl⟩⟩),
        fun v hv i => hr1 _ ((mem_rows pushProblem _ _).mpr ⟨k, hk, .inr ⟨v, hv, i, rfl⟩⟩)⟩
    · rw [push_rows, List.mem_singleton] at hr
      subst hr
      exact le_rfl

end example79

end Altro.Props
