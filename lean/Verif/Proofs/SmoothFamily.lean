import Verif.Proofs.SmoothSolve

/-!
# Inner solves on a compact family of smooth problems
-/

namespace Altro.Props
open Altro.Spec Matrix ILQR
variable {n m : ℕ} {Λ : Type} [TopologicalSpace Λ]

/-- Augmented costs that depend continuously on a parameter `θ` from a compact set `S`, and the property `Q` of having them. -/
structure SmoothFam (p : DynProblem n m ℝ) (Y : Traj (Fin n → ℝ) (Fin m → ℝ) ℝ) (μ : ℝ) (Q : (ℕ → ALCost n m ℝ) → Prop)
    (S : Set Λ) (ℓ : Λ → ℕ → (Fin n → ℝ) → (Fin m → ℝ) → ℝ) (g : Λ → ℕ → Z n m → Z n m) : Prop where
  compact : IsCompact S
  base : SmoothDyn p Y (fun _ _ _ => 0) fun _ _ => 0
  core : ∀ cs, Q cs → ∃ θ ∈ S, SmoothCore p cs Y μ (ℓ θ) (g θ)
  gcont : ∀ k ≤ p.N, Continuous fun q : Λ × Z n m => g q.1 k q.2
  up : ∃ B : ℕ → Z n m → ℝ, (∀ k ≤ p.N, Continuous (B k)) ∧ (∀ cs, Q cs → ∀ k ≤ p.N, ∀ c : ALCost n m ℝ, c.core = (cs k).core →
    ∀ x u δx δu, form (expOf c x u) δx δu ≤ B k (x, u) * (nsq δx + nsq δu)) ∧ ∀ x u u', B p.N (x, u) = B p.N (x, u')
  low : ∃ c b : ℝ, 0 < c ∧ 0 ≤ b ∧ ∀ θ ∈ S, (∀ k < p.N, ∀ x u, c * nsq u - b ≤ ℓ θ k x u) ∧ ∀ x u, -b ≤ ℓ θ p.N x u

variable {p : DynProblem n m ℝ} {Y : Traj (Fin n → ℝ) (Fin m → ℝ) ℝ} {μ : ℝ} {Q : (ℕ → ALCost n m ℝ) → Prop}
  {S : Set Λ} {ℓ : Λ → ℕ → (Fin n → ℝ) → (Fin m → ℝ) → ℝ} {g : Λ → ℕ → Z n m → Z n m}

namespace SmoothFam

theorem cont_D (h : SmoothFam p Y μ Q S ℓ g) : Continuous fun q : (Loop n m × Λ) × ℝ => loopD p Y (g q.1.2) q.1.1 q.2 := by
  unfold loopD
  refine continuous_finset_sum _ fun k hk => ?_
  have hk : k ≤ p.N := by have := Finset.mem_range.mp hk; omega
  have hq : Continuous fun q : (Loop n m × Λ) × ℝ => ((q.1.1, q.2) : Loop n m × ℝ) :=
    (continuous_fst.comp continuous_fst).prodMk continuous_snd
  obtain ⟨j1, j2⟩ := h.base.cont_x k hk
  obtain ⟨i1, i2⟩ := h.base.cont_xi k hk
  have j1 := j1.comp hq
  have j2 := j2.comp hq
  have i1 := i1.comp hq
  have i2 := i2.comp hq
  have hg := (h.gcont k hk).comp ((continuous_snd.comp continuous_fst).prodMk (j1.prodMk j2))
  exact ((continuous_fst.comp hg).dotProduct i1).add ((continuous_snd.comp hg).dotProduct i2)

theorem _root_.Altro.Props.SmoothDyn.gradSq_continuous_of (hbase : SmoothDyn p Y (fun _ _ _ => 0) fun _ _ => 0)
    (hgc : ∀ k ≤ p.N, Continuous fun q : Λ × Z n m => g q.1 k q.2) :
    Continuous fun q : Λ × (ℕ → Fin m → ℝ) => gradSq p Y (g q.1) q.2 := by
  have hz : ∀ k ≤ p.N, Continuous fun q : Λ × (ℕ → Fin m → ℝ) => ((openLoop p Y q.2 k, q.2 k) : Z n m) := fun k hk =>
    (SmoothDyn.cont_pair hbase k hk).comp continuous_snd
  have hg : ∀ k ≤ p.N, Continuous fun q : Λ × (ℕ → Fin m → ℝ) => g q.1 k (openLoop p Y q.2 k, q.2 k) := fun k hk =>
    (hgc k hk).comp (continuous_fst.prodMk (hz k hk))
  have hj : ∀ k < p.N, Continuous fun q : Λ × (ℕ → Fin m → ℝ) => p.jac k (openLoop p Y q.2 k) (q.2 k) (Y.t k) (Y.h k) := fun k hk =>
    (hbase.cont k hk).comp (hz k hk.le)
  have ha : ∀ k ≤ p.N, Continuous fun q : Λ × (ℕ → Fin m → ℝ) => adj (kdAt p Y (g q.1) q.2) p.N k := by
    refine down_induct ?_ fun k hk ih => ?_
    · simp only [adj_N]; exact continuous_fst.comp (hg p.N le_rfl)
    · simp only [fun q : Λ × (ℕ → Fin m → ℝ) => adj_step (kdAt p Y (g q.1) q.2) hk]
      exact (continuous_fst.comp (hg k hk.le)).add ((continuous_fst.comp (hj k hk)).matrix_transpose.matrix_mulVec ih)
  unfold gradSq
  refine continuous_finset_sum _ fun k hk => ?_
  have hk := Finset.mem_range.mp hk
  have hG : Continuous fun q : Λ × (ℕ → Fin m → ℝ) => grad (kdAt p Y (g q.1) q.2) p.N k :=
    (continuous_snd.comp (hg k hk.le)).add ((continuous_snd.comp (hj k hk)).matrix_transpose.matrix_mulVec (ha (k + 1) hk))
  exact hG.dotProduct hG

theorem cont_gradSq (h : SmoothFam p Y μ Q S ℓ g) : Continuous fun q : Λ × (ℕ → Fin m → ℝ) => gradSq p Y (g q.1) q.2 :=
  SmoothDyn.gradSq_continuous_of h.base h.gcont

/-- Bounds on the controls of all trajectories below a level, for all costs of the family. -/
theorem sublevel (h : SmoothFam p Y μ Q S ℓ g) : ∃ L : ℝ, (∀ cs, Q cs → ∀ Z, L ≤ trajCost p cs Z) ∧ ∀ Jb : ℝ, ∃ R, 0 ≤ R ∧
    ∀ cs, Q cs → ∀ Z, trajCost p cs Z ≤ Jb → ∀ k i, |ctl p.N Z k i| ≤ R := by
  obtain ⟨c, b, hc, hb, hl⟩ := h.low
  refine ⟨-((p.N + 1) * b), fun cs hcs => ?_, fun Jb => ⟨1 + |(Jb + (p.N + 1) * b) / c|, by positivity, fun cs hcs => ?_⟩⟩
  · obtain ⟨θ, hθ, hk⟩ := h.core cs hcs
    exact (hk.sublevel_of hc hb (hl θ hθ).1 (hl θ hθ).2).1
  · obtain ⟨θ, hθ, hk⟩ := h.core cs hcs
    exact (hk.sublevel_of hc hb (hl θ hθ).1 (hl θ hθ).2).2 Jb

theorem level (h : SmoothFam p Y μ Q S ℓ g) (hμ : 0 < μ) (Jb : ℝ) :
    ∃ R C rb b c, 0 < C ∧ 0 < rb ∧ ∀ cs, Q cs → Level p cs Y μ Jb R C rb b c := by
  obtain ⟨-, -, hR⟩ := h.sublevel
  obtain ⟨R, hR0, hR⟩ := hR Jb
  obtain ⟨B, hB, hB', hBN⟩ := h.up
  have hS := controls_compact (m := m) R
  have hz := SmoothDyn.cont_pair h.base
  obtain ⟨M, hM0, hM⟩ := sup_bound hS (fun k U => B k (openLoop p Y U k, U k)) p.N fun k hk => (hB k hk).comp (hz k hk)
  obtain ⟨a, ha0, ha⟩ := SmoothDyn.jac_bound h.base R
  obtain ⟨G, hG0, hG⟩ := sup_bound (h.compact.prod hS)
    (fun k q => nsq (g q.1 k (openLoop p Y q.2 k, q.2 k)).1 + nsq (g q.1 k (openLoop p Y q.2 k, q.2 k)).2) p.N fun k hk => by
      have hj := (h.gcont k hk).comp (continuous_fst.prodMk ((hz k hk).comp continuous_snd))
      exact ((continuous_fst.comp hj).dotProduct (continuous_fst.comp hj)).add ((continuous_snd.comp hj).dotProduct (continuous_snd.comp hj))
  obtain ⟨C, rb, b, c, H⟩ := level_constants (n := n) (m := m) p.N hμ hM0 ha0 hG0 hR0
  by_cases hex : ∃ cs, Q cs
  · have hl : ∀ cs, Q cs → Level p cs Y μ Jb R C rb b c := fun cs hcs => by
      obtain ⟨θ, hθ, hk⟩ := h.core cs hcs
      exact H p cs Y (ℓ θ) (g θ) B Jb rfl hk (hB' cs hcs) hBN (hR cs hcs) hM ha fun k hk U hU => hG k hk (θ, U) ⟨hθ, hU⟩
    obtain ⟨cs, hcs⟩ := hex
    exact ⟨R, C, rb, b, c, (hl cs hcs).C0, (hl cs hcs).rb0, hl⟩
  · exact ⟨R, 1, 1, b, c, one_pos, one_pos, fun cs hcs => absurd ⟨cs, hcs⟩ hex⟩

/-- What an inner solve from `s` yields: success within `T` iterations at an almost stationary point with controls at most `R`; the stored
constraint values are those of a trajectory at most `κ` away, where the distance is `D`. -/
structure Solves (p : DynProblem n m ℝ) (Y : Traj (Fin n → ℝ) (Fin m → ℝ) ℝ) (R ε κ : ℝ) (D : (ℕ → Fin m → ℝ) → (ℕ → Fin m → ℝ) → ℝ) (T : ℕ)
    (s t : St (Fin n → ℝ) (Fin m → ℝ) ℝ (ALCost n m ℝ) (KP n m ℝ)) : Prop where
  status : t.status = .kSolved
  total : t.stats.total ≤ s.stats.total + T
  feas : DynFeasible (alKernel p) t.Z
  times : SameTimes (alKernel p) t.Z Y
  core : ∀ k, (t.cs k).core = (s.cs k).core
  aligned : Aligned t.stats
  stat : NearlyStationary p s.cs t.Z ε
  controls : ∀ k i, |ctl p.N t.Z k i| ≤ R
  grad : gradSq p Y (fun k z => ((t.cs k).gradient z.1 z.2).1) (ctl p.N t.Z) ≤ ε ^ 2
  stored : ∃ Zc, (alLaw p).Fresh t.cs Zc ∧ (∀ k ≤ p.N, Zc.x k = openLoop p Y (ctl p.N Zc) k) ∧ D (ctl p.N Zc) (ctl p.N t.Z) ≤ κ

theorem _root_.Altro.Props.gradSq_congr {g g' : ℕ → Z n m → Z n m} {U : ℕ → Fin m → ℝ}
    (e : ∀ k ≤ p.N, g k (openLoop p Y U k, U k) = g' k (openLoop p Y U k, U k)) : gradSq p Y g U = gradSq p Y g' U := by
  have hk : ∀ k ≤ p.N, kdAt p Y g U k = kdAt p Y g' U k := fun k hk => by unfold kdAt; rw [e k hk]
  have ha : ∀ k ≤ p.N, adj (kdAt p Y g U) p.N k = adj (kdAt p Y g' U) p.N k := by
    refine down_induct ?_ fun k hk' ih => ?_
    · rw [adj_N, adj_N, hk _ le_rfl]
    · rw [adj_step _ hk', adj_step _ hk', ih, hk k hk'.le]
  refine Finset.sum_congr rfl fun k hk' => ?_
  have hk' := Finset.mem_range.mp hk'
  unfold grad
  rw [hk k hk'.le, ha _ hk']

theorem solves (h : SmoothFam p Y μ Q S ℓ g) (hμ : 0 < μ) (hN : p.N ≠ 0) (Jb : ℝ) :
    ∃ R W : ℝ, 0 ≤ R ∧ ∀ (ε κ : ℝ) (D : (ℕ → Fin m → ℝ) → (ℕ → Fin m → ℝ) → ℝ), 0 < ε → 0 < κ →
      (Continuous fun q : (ℕ → Fin m → ℝ) × (ℕ → Fin m → ℝ) => D q.1 q.2) → (∀ U, D U U = 0) →
      ∃ rb γ0 : ℝ, 0 < rb ∧ 0 < γ0 ∧ ∀ γ, 0 < γ → ∃ β : ℝ, 0 < β ∧ ∀ d, 0 < d → ∃ T : ℕ, ∀ (o : Opts ℝ) (fuel : ℕ)
      (s : St (Fin n → ℝ) (Fin m → ℝ) ℝ (ALCost n m ℝ) (KP n m ℝ)), StepOptions o rb β → o.regMin * o.regFactor ≤ rb → γ ≤ o.gradTol →
      o.gradTol ≤ γ0 → d ≤ unitDecrease o μ → (T : ℤ) < o.maxInner → (s.stats.total : ℤ) + T < o.maxTotal →
      Q s.cs → SameTimes (alKernel p) s.Z Y → Aligned s.stats → trajCost p s.cs (rollout (alKernel p) s).Z ≤ Jb →
      (∀ a1 a2, Clears p W a1 a2 → SolveWithin (alKernel p) o (limited o a1 a2) (fuel + 1) s) ∧
      ∃ t, ILQR.solve (alKernel p) o (fuel + 1) s = some t ∧ Solves p Y R ε κ D T s t := by
  obtain ⟨L, hLow, -⟩ := h.sublevel
  obtain ⟨R, C, rb, b, c, hC0, hrb0, hL⟩ := h.level hμ Jb
  obtain ⟨W, hW⟩ := loop_bound h.base R b c
  refine ⟨|R|, W, abs_nonneg R, fun ε κ D hε hκ hDc hD => ?_⟩
  have hlu := SmoothDyn.loopU_continuous h.base
  obtain ⟨σ1, hσ1, hu⟩ := uniform_zero (F := fun q : (Loop n m × Λ) × ℝ => gradSq p Y (g q.1.2) (loopU p Y q.1.1 q.2))
    (h.cont_gradSq.comp ((continuous_snd.comp continuous_fst).prodMk (hlu.comp
      ((continuous_fst.comp continuous_fst).prodMk continuous_snd)))) ((box_compact (n := n) (m := m) R b 1).prod h.compact)
    (η := ε ^ 2 / 2) (by positivity)
  have hDl : Continuous fun q : Loop n m × ℝ => D (loopU p Y q.1 q.2) (loopU p Y q.1 0) :=
    hDc.comp (hlu.prodMk (hlu.comp (continuous_fst.prodMk continuous_const)))
  obtain ⟨σ2, hσ2, hv⟩ := uniform_zero hDl (box_compact (n := n) (m := m) R b 1) hκ
  have hσ : 0 < min σ1 σ2 := lt_min hσ1 hσ2
  refine ⟨rb, _, hrb0, tolBound_pos p.N m (R := R) hμ hC0 hε hσ, fun γ hγ => ?_⟩
  obtain ⟨β, hβ, hT⟩ := uniform_zero h.cont_D ((box_compact (n := n) (m := m) R b c).prod h.compact) (η := μ * γ ^ 2 / 8) (by positivity)
  refine ⟨β, hβ, fun d hd => ?_⟩
  obtain ⟨T, hTd⟩ := Archimedean.arch (Jb - L) hd
  rw [nsmul_eq_mul] at hTd
  refine ⟨T + 3, fun o fuel s ho hrm hγ1 hγ0 hdo hi ht hQ htimes hal hcost => ?_⟩
  obtain ⟨θ, hθ, hk⟩ := h.core s.cs hQ
  have := mul_le_mul_of_nonneg_left hdo (Nat.cast_nonneg (α := ℝ) T)
  obtain ⟨w, t, a1, a2, -, a4, a5, a6, a7, a8, a9, a10, a11, a12⟩ := hk.solves_of hμ hN (hLow _ hQ) (hL _ hQ) hσ
    (fun e he τ h0 h1 => hu (e, θ) ⟨he, hθ⟩ τ h0 (h1.trans (min_le_left _ _))) hγ
    (fun e he τ h0 h1 => hk.dyn.taylor_of (fun τ h0 h1 => hT (e, θ) ⟨he, hθ⟩ τ h0 h1) h0 h1) o fuel T s ho hrm hγ1 hγ0 (by linarith)
    (by push_cast at hi; omega) (by push_cast at ht; omega) (fun _ => rfl) htimes hal hcost
  refine ⟨fun l1 l2 => w W l1 l2 hW, t, a1, a2, by omega, a5, a6, a7, a9, a10, fun k i => ((hL _ hQ).controls t.Z a8 k i).trans (le_abs_self R), ?_,
    a12 κ D hκ.le hD fun e he τ h0 h1 => ?_⟩
  · rw [gradSq_congr (g' := g θ) fun k hk' => ?_]
    · exact a11
    · obtain ⟨g1, g2⟩ := hk.grd k hk' (t.cs k) (a7 k) (openLoop p Y (ctl p.N t.Z) k) (ctl p.N t.Z k)
      exact Prod.ext g1 g2
  · have := hv e he τ h0 (h1.trans (min_le_right _ _))
    simp only at this
    rw [hD, sub_zero] at this
    exact (le_abs_self _).trans this

end SmoothFam
end Altro.Props
