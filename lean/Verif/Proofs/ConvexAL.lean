import Verif.Proofs.ConvexStep

/-!
# The outer loop on a smooth convex problem
-/

namespace Altro.Props
open Altro.Spec Matrix ILQR AL
variable {n m : ℕ} {p : DynProblem n m ℝ} {cs : ℕ → ALCost n m ℝ} {Y zs : Traj (Fin n → ℝ) (Fin m → ℝ) ℝ} {star : List ℝ} {μ ρ M φ ε θ : ℝ}

/-- Sum of the absolute values of the multipliers. -/
noncomputable def normOne (l : List ℝ) : ℝ := (l.map (|·|)).sum

theorem normOne_nonneg (l : List ℝ) : 0 ≤ normOne l := sum_map_nonneg _ _ fun _ _ => abs_nonneg _

theorem normSq_nonneg (l : List ℝ) : 0 ≤ normSq l := sum_map_nonneg _ _ fun _ _ => sq_nonneg _

/-- How far controls of size `R` can be from those of `zs`. -/
noncomputable def reachDist (p : DynProblem n m ℝ) (zs : Traj (Fin n → ℝ) (Fin m → ℝ) ℝ) (R : ℝ) : ℝ :=
  √(∑ k ∈ Finset.range p.N, ∑ i, (|zs.u k i| + R) ^ 2)

theorem controlDist_le {Z : Traj (Fin n → ℝ) (Fin m → ℝ) ℝ} {R : ℝ} (h : ∀ k i, |ctl p.N Z k i| ≤ R) : controlDist p Z zs ≤ reachDist p zs R := by
  refine Real.sqrt_le_sqrt (Finset.sum_le_sum fun k hk => Finset.sum_le_sum fun i _ => ?_)
  have h1 := h k i
  have e : ctl p.N Z k = Z.u k := if_pos (Finset.mem_range.mp hk)
  rw [e] at h1
  rw [← pow_two, Pi.sub_apply]
  refine sq_le_sq' ?_ ?_
  · have := abs_le.mp h1; have := neg_abs_le (zs.u k i); linarith
  · have := abs_le.mp h1; have := le_abs_self (zs.u k i); linarith

/-- What an outer iteration from multipliers at squared distance `G` gives. -/
structure ConvexEnd (p : DynProblem n m ℝ) (cs : ℕ → ALCost n m ℝ) (zs : Traj (Fin n → ℝ) (Fin m → ℝ) ℝ) (star : List ℝ) (θ ρ G ε : ℝ)
    (Z : Traj (Fin n → ℝ) (Fin m → ℝ) ℝ) (up : ℕ → ALCost n m ℝ) : Prop where
  mults : gap (rows p up) star + (ρ * (alKernel p).viol up) ^ 2 ≤ G + ε
  above : plainCost p cs Z ≤ plainCost p cs zs + (G + normSq star) / ρ + ε
  below : plainCost p cs zs ≤ plainCost p cs Z + ((alKernel p).viol up + ε) * normOne star
  controls : θ * controlDist p Z zs ^ 2 ≤ G / ρ + ε

theorem same_of_static {cs' : ℕ → ALCost n m ℝ} (h : ∀ k ≤ p.N, (cs' k).static = (cs k).static) : SameProblem p cs cs' :=
  ⟨fun k hk => (static_cons (h k hk)).1, fun k hk => (static_cons (h k hk)).2.1, fun k hk => (static_cons (h k hk)).2.2⟩

/-- Size of the errors of one outer iteration. -/
noncomputable def stepErr (p : DynProblem n m ℝ) (zs : Traj (Fin n → ℝ) (Fin m → ℝ) ℝ) (star : List ℝ) (M R : ℝ) : ℝ :=
  reachDist p zs R + star.length * M + normOne star

theorem convex_step (h : SmoothProblem p cs Y μ) (hc : ConvexProblem p cs) (hm : ∀ Z, StrongFrom p cs Z θ) (hθ : 0 ≤ θ) (hρ : 0 < ρ) (hε : 0 ≤ ε)
    (hs : Saddle (Alternative p Y) (plainCost p cs) (rows p cs) zs star) {M' R : ℝ} {T : ℕ}
    {s t : St (Fin n → ℝ) (Fin m → ℝ) ℝ (ALCost n m ℝ) (KP n m ℝ)}
    (st : OuterStep p cs Y ρ M M' R ε T s t (eachCost (alKernel p) alOps.updateDuals t).cs)
    (hsign : ∀ r ∈ rows p s.cs, r.kind = .inequality → r.lam ≤ 0) {E : ℝ} (hE : (2 * ρ + 2) * stepErr p zs star M' R ≤ E) (hE1 : 1 ≤ E) :
    ConvexEnd p cs zs star θ ρ (gap (rows p s.cs) star) (ε * E) t.Z (eachCost (alKernel p) alOps.updateDuals t).cs ∧
    (∀ r ∈ rows p (eachCost (alKernel p) alOps.updateDuals t).cs, r.kind = .inequality → r.lam ≤ 0) := by
  obtain ⟨Zc, hf, hst⟩ := st.stored
  set up := (eachCost (alKernel p) alOps.updateDuals t).cs with hup
  have hpen : ∀ k ≤ p.N, PenU (s.cs k) ρ := fun k hk => by
    have := st.near.pen k hk
    have e := st.core k
    exact ⟨(penU_core e.symm this).1, (penU_core e.symm this).2⟩
  have hp := rows_pen p hpen
  have hrt : rows p t.cs = rows p s.cs := rows_core p fun k _ => st.core k
  have hsig : (rows p cs).map Row.sig = (rows p s.cs).map Row.sig := by rw [← hrt]; exact (rows_static p st.near.static).symm
  have hs' := hs.congr hsig
  have hrows : rows p up = (rows p s.cs).map fun r => { r with lam := r.next Zc } :=
    exact_rows (s := s) (t := { t with Z := Zc }) (fun k _ => st.core k) hf
  have hsame : SameProblem p cs up := same_of_static st.update.static
  have hplain : ∀ Z, plainCost p up Z = plainCost p cs Z := fun Z => plainCost_static p st.update.static Z
  have hK := st.kkt M st.near.ineq
  have hZ : Alternative p Y t.Z := ⟨hK.init, fun k hk => by rw [hK.step k hk, st.times.t k hk.le, st.times.h k hk]⟩
  have hw : ∀ r ∈ rows p s.cs, |r.fn Zc - r.fn t.Z| ≤ ε := by
    intro r hr
    rw [← hrt] at hr
    obtain ⟨k, hk, ⟨v, hv, i, rfl⟩ | ⟨v, hv, i, rfl⟩⟩ := (mem_rows p t.cs r).mp hr
    · have := (hst k hk).1 v hv i
      rw [(stored_of_values _ _ _ (hf k hk)).1 v hv] at this
      exact this
    · have := (hst k hk).2 v hv i
      rw [(stored_of_values _ _ _ (hf k hk)).2 v hv] at this
      exact this
  have hnext : ∀ r ∈ rows p s.cs, |r.next Zc| ≤ M' := by
    intro r hr
    have : ({ r with lam := r.next Zc } : Row _ ℝ) ∈ rows p up := by rw [hrows]; exact List.mem_map.mpr ⟨r, hr, rfl⟩
    obtain ⟨k, hk, ⟨v, hv, i, e⟩ | ⟨v, hv, i, e⟩⟩ := (mem_rows p up _).mp this
    · rw [show r.next Zc = v.lam i from congrArg Row.lam e]; exact st.update.eq k hk v hv i
    · rw [show r.next Zc = v.lam i from congrArg Row.lam e]; exact st.update.ineq k hk v hv i
  -- near-minimality of the Lagrangian
  have l1 := rows_gap h hc hm hsame st.times hε hK hs.mem
  rw [hplain, hplain, hrows, List.map_map, List.map_map] at l1
  have l1 : plainCost p cs t.Z - ((rows p s.cs).map fun r => r.next Zc * r.fn t.Z).sum + θ / 2 * controlDist p t.Z zs ^ 2
      ≤ plainCost p cs zs - ((rows p s.cs).map fun r => r.next Zc * r.fn zs).sum + ε * controlDist p t.Z zs := l1
  have hD : controlDist p t.Z zs ≤ reachDist p zs R := controlDist_le st.controls
  have hD0 : 0 ≤ controlDist p t.Z zs := Real.sqrt_nonneg _
  have hM' : 0 ≤ star.length * M' := by
    rcases Nat.eq_zero_or_pos star.length with h0 | h0
    · rw [h0]; simp
    · rw [hs'.len] at h0
      obtain ⟨r, hr⟩ := List.exists_mem_of_length_pos h0
      have := (abs_nonneg _).trans (hnext r hr)
      positivity
  have hR0 : 0 ≤ reachDist p zs R := Real.sqrt_nonneg _
  have hn1 := normOne_nonneg star
  have hL : (((rows p s.cs).zip star).map fun q => |q.1.next Zc - q.2|).sum ≤ star.length * M' + normOne star := by
    have := sum_map_le ((rows p s.cs).zip star) (fun q => |q.1.next Zc - q.2|) (fun q => M' + |q.2|) fun q hq =>
      (abs_sub _ _).trans (add_le_add_left (hnext q.1 (List.of_mem_zip hq).1) _)
    rw [sum_map_add', zip_snd hs'.len fun a => |a|] at this
    refine this.trans (le_of_eq ?_)
    simp [hs'.len, normOne]
  have hNx : ((rows p s.cs).map fun r => |r.next Zc|).sum ≤ star.length * M' := by
    have := sum_map_le (rows p s.cs) (fun r => |r.next Zc|) (fun _ => M') hnext
    refine this.trans (le_of_eq ?_)
    simp [hs'.len]
  set S := stepErr p zs star M' R with hS
  have hS' : S = reachDist p zs R + star.length * M' + normOne star := rfl
  have hS0 : 0 ≤ S := by rw [hS']; linarith
  have hεS : 0 ≤ ε * S := mul_nonneg hε hS0
  have hstep := saddle_step hρ hp hZ hs' hw l1
  have hb1 : ε * controlDist p t.Z zs + ε * (((rows p s.cs).zip star).map fun q => |q.1.next Zc - q.2|).sum ≤ ε * S := by
    rw [← mul_add]
    exact mul_le_mul_of_nonneg_left (by rw [hS']; linarith) hε
  have hb2 := mul_le_mul_of_nonneg_left hb1 (show 0 ≤ 2 * ρ by positivity)
  have hEρ : 2 * ρ * (ε * S) ≤ ε * E := by
    refine le_trans ?_ (mul_le_mul_of_nonneg_left hE hε)
    nlinarith
  have hE2 : 2 * (ε * S) ≤ ε * E := by
    refine le_trans ?_ (mul_le_mul_of_nonneg_left hE hε)
    nlinarith [mul_nonneg hρ.le hεS]
  have hv := step_viol (s := s) (t := { t with Z := Zc }) hρ hpen hsign (fun k _ => st.core k) hf (star := star)
    (b := gap (rows p s.cs) star + ε * E - 2 * ρ * (θ / 2 * controlDist p t.Z zs ^ 2)) (by linarith)
  have hθD : 0 ≤ θ * controlDist p t.Z zs ^ 2 := by positivity
  have hvl : ∀ r ∈ rows p s.cs, r.viol Zc ≤ (alKernel p).viol up :=
    exact_viol_le (s := s) (t := { t with Z := Zc }) (fun k _ => st.core k) hf
  have hv : gap (rows p up) star + (ρ * (alKernel p).viol up) ^ 2
      ≤ gap (rows p s.cs) star + ε * E - 2 * ρ * (θ / 2 * controlDist p t.Z zs ^ 2) := hv
  obtain ⟨o1, o2⟩ := saddle_objective hρ hp hZ hs' hw (by positivity) hvl l1
  refine ⟨⟨?_, ?_, ?_, ?_⟩, ?_⟩
  · have : 0 ≤ ρ * (θ * controlDist p t.Z zs ^ 2) := by positivity
    linarith
  · have h1 : ((rows p s.cs).map fun r => r.lam ^ 2).sum ≤ 2 * (gap (rows p s.cs) star + normSq star) := by
      rw [← zip_fst hs'.len, gap, normSq, ← zip_snd hs'.len, ← sum_map_add', ← sum_map_mul']
      refine sum_map_le _ _ _ fun q _ => ?_
      nlinarith [sq_nonneg (q.1.lam - 2 * q.2)]
    have h2 : ((rows p s.cs).map fun r => r.lam ^ 2).sum / (2 * ρ) ≤ (gap (rows p s.cs) star + normSq star) / ρ := by
      rw [div_le_div_iff₀ (by positivity) hρ]
      nlinarith
    have h3 := mul_le_mul_of_nonneg_left hNx hε
    have h4 := mul_le_mul_of_nonneg_left hD hε
    have h5 : ε * (reachDist p zs R) + ε * (star.length * M') ≤ ε * S := by
      rw [← mul_add]; exact mul_le_mul_of_nonneg_left (by rw [hS']; linarith) hε
    linarith
  · refine o2.trans ?_
    have : ε ≤ ε * E := le_mul_of_one_le_right hε hE1
    have := mul_le_mul_of_nonneg_right (add_le_add_right this ((alKernel p).viol up)) hn1
    exact add_le_add_right this _
  · have h0 : 0 ≤ gap (rows p up) star + (ρ * (alKernel p).viol up) ^ 2 := add_nonneg (gap_nonneg _ _) (sq_nonneg _)
    have h0' : 0 ≤ ((((rows p s.cs).zip star).map fun q => (q.1.next Zc - q.2) ^ 2).sum + ((rows p s.cs).map fun r => (r.next Zc - r.lam) ^ 2).sum) :=
      add_nonneg (sum_map_nonneg _ _ fun _ _ => sq_nonneg _) (sum_map_nonneg _ _ fun _ _ => sq_nonneg _)
    have h1 : ρ * (θ * controlDist p t.Z zs ^ 2) ≤ gap (rows p s.cs) star + ρ * (2 * (ε * S)) := by linarith
    have h2 : θ * controlDist p t.Z zs ^ 2 ≤ (gap (rows p s.cs) star + ρ * (2 * (ε * S))) / ρ := by
      rw [le_div_iff₀ hρ]; linarith
    rw [add_div, mul_div_cancel_left₀ _ hρ.ne'] at h2
    linarith
  · intro r hr hk
    rw [hrows] at hr
    obtain ⟨r', -, rfl⟩ := List.mem_map.mp hr
    obtain ⟨κ, fn, lam, pen⟩ := r'
    have hk : κ = .inequality := hk
    subst hk
    exact min_le_left _ _

/-- Growing penalties change neither distances of multipliers nor their signs. -/
theorem rows_penalties {up nx : ℕ → ALCost n m ℝ} (hs : ∀ k ≤ p.N, ScaleU (up k) φ) (e : ∀ k ≤ p.N, nx k = (up k).updatePenalties) :
    gap (rows p nx) star = gap (rows p up) star ∧
    ((∀ r ∈ rows p up, r.kind = .inequality → r.lam ≤ 0) → ∀ r ∈ rows p nx, r.kind = .inequality → r.lam ≤ 0) := by
  have h := rows_map p (cs := up) (cs' := nx) (f := fun r => { r with pen := r.pen * φ }) fun k hk => by
    rw [e k hk]; exact knotRows_pen k _ φ (hs k hk)
  rw [h]
  constructor
  · rw [gap, gap, List.zip_map_left, List.map_map]; rfl
  · intro H r hr hk
    obtain ⟨r', h1, rfl⟩ := List.mem_map.mp hr
    exact H r' h1 hk

/-- The end of a later iteration, seen from an earlier one. -/
theorem ConvexEnd.back {ρ' G G' ε ε' η : ℝ} {Z : Traj (Fin n → ℝ) (Fin m → ℝ) ℝ} {up : ℕ → ALCost n m ℝ}
    (h : ConvexEnd p cs zs star θ ρ' G' ε' Z up) (hρ : 0 < ρ') (hG : G' ≤ G + η) (h1 : η + ε' ≤ ε) (h2 : η / ρ' + ε' ≤ ε) (h3 : ε' ≤ ε) :
    ConvexEnd p cs zs star θ ρ' G ε Z up := by
  have h4 : G' / ρ' ≤ G / ρ' + η / ρ' := by rw [← add_div]; exact div_le_div_of_nonneg_right hG hρ.le
  refine ⟨by linarith [h.mults], ?_, ?_, by linarith [h.controls]⟩
  · have := h.above
    rw [add_div] at this ⊢
    linarith
  · refine h.below.trans (add_le_add_right (mul_le_mul_of_nonneg_right (add_le_add_right h3 _) (normOne_nonneg _)) _)

theorem convex_loop (h : SmoothProblem p cs Y μ) (hμ : 0 < μ) (hN : p.N ≠ 0) (hφ : 1 ≤ φ) (hsc : ∀ k ≤ p.N, ScaleU (cs k) φ) (hc : ConvexProblem p cs)
    (hm : ∀ Z, StrongFrom p cs Z θ) (hθ : 0 ≤ θ) (hs : Saddle (Alternative p Y) (plainCost p cs) (rows p cs) zs star) :
    ∀ (J : ℕ) (ρ M R : ℝ), 0 < ρ → 0 ≤ M → ∃ B W : ℝ, 0 ≤ B ∧ ∀ ε, 0 < ε →
    ∃ rb γ0 : ℝ, 0 < rb ∧ 0 < γ0 ∧ ∀ γ, 0 < γ → ∃ β : ℝ, 0 < β ∧ ∀ d, 0 < d → ∃ T : ℕ, ∀ (o : Opts ℝ) (fuel : ℕ),
      StepOptions o rb β → o.regMin * o.regFactor ≤ rb → γ ≤ o.gradTol → o.gradTol ≤ γ0 → d ≤ unitDecrease o μ → (T : ℤ) < o.maxInner →
      0 ≤ o.conTol →
      ∀ (r : ℕ) (q : ALSt (Fin n → ℝ) (Fin m → ℝ) ℝ (ALCost n m ℝ) (KP n m ℝ)), J < r → (q.st.stats.outer : ℤ) + r = o.maxOuter →
      (q.st.stats.total : ℤ) + J * T < o.maxTotal → Near p cs ρ M q.st.cs → SameTimes (alKernel p) q.st.Z Y → Aligned q.st.stats →
      (∀ k i, |ctl p.N q.st.Z k i| ≤ R) → (∀ r ∈ rows p q.st.cs, r.kind = .inequality → r.lam ≤ 0) →
      (∃ s' j prev, (∀ a1 a2, Clears p W a1 a2 → OuterWithin (alKernel p) alOps o (limited o a1 a2) (fuel + 1) r q) ∧
        outerLoop (alKernel p) alOps o (ILQR.solve (alKernel p) o (fuel + 1)) r q = some s' ∧ j < J ∧
        s'.st.stats.outer = q.st.stats.outer + j + 1 ∧ s'.st.stats.total ≤ q.st.stats.total + J * T ∧
        NearSolved p o cs (ρ * φ ^ j) ε s' prev ∧
        ConvexEnd p cs zs star θ (ρ * φ ^ j) (gap (rows p q.st.cs) star) (ε * B) s'.st.Z s'.st.cs) ∨
      ∑ i ∈ Finset.range J, (ρ * φ ^ i * o.conTol) ^ 2 ≤ gap (rows p q.st.cs) star + ε * B := by
  have hφ0 : 0 < φ := lt_of_lt_of_le one_pos hφ
  intro J
  induction J with
  | zero =>
    refine fun ρ M R _ _ => ⟨0, 0, le_rfl, fun ε _ => ⟨1, 1, one_pos, one_pos, fun γ _ => ⟨1, one_pos, fun d _ => ⟨0, fun o fuel _ _ _ _ _ _ _ r q _ _ _ _ _ _ _ _ =>
      .inr ?_⟩⟩⟩⟩
    rw [Finset.range_zero, Finset.sum_empty, mul_zero, add_zero]
    exact gap_nonneg _ _
  | succ J ih =>
    intro ρ M R hρ hM
    obtain ⟨M', R', W1, hM', H1⟩ := outer_step h hμ hN hρ hM R
    obtain ⟨B', W2, hB', H2⟩ := ih (ρ * φ) M' R' (by positivity) hM'
    set E := max 1 ((2 * ρ + 2) * stepErr p zs star M' R') with hE
    have hE1 : 1 ≤ E := le_max_left _ _
    have hEρ : 0 ≤ E / ρ := by positivity
    refine ⟨E + E / ρ + B', max W1 W2, by positivity, fun ε hε => ?_⟩
    obtain ⟨rb1, γ1, p1, p2, H1⟩ := H1 ε hε
    obtain ⟨rb2, γ2, p3, p4, H2⟩ := H2 ε hε
    refine ⟨min rb1 rb2, min γ1 γ2, lt_min p1 p3, lt_min p2 p4, fun γ hγ => ?_⟩
    obtain ⟨β1, q1, H1⟩ := H1 γ hγ
    obtain ⟨β2, q2, H2⟩ := H2 γ hγ
    refine ⟨min β1 β2, lt_min q1 q2, fun d hd => ?_⟩
    obtain ⟨T1, H1⟩ := H1 d hd
    obtain ⟨T2, H2⟩ := H2 d hd
    refine ⟨max T1 T2, fun o fuel ho hr g1 g0 hdo hi hct r q rJ hout htot hnear htm hal hcc hsg => ?_⟩
    have m1 : T1 ≤ max T1 T2 := le_max_left _ _
    have m2 : T2 ≤ max T1 T2 := le_max_right _ _
    generalize max T1 T2 = T at *
    obtain ⟨r, rfl⟩ := Nat.exists_eq_succ_of_ne_zero (show r ≠ 0 by omega)
    have er : ((J + 1 : ℕ) : ℤ) * T = J * T + T := by push_cast; ring
    have er' : (J + 1) * T = J * T + T := by rw [Nat.succ_mul]
    have hrT : (0 : ℤ) ≤ J * T := by positivity
    obtain ⟨w1, t, ht, st⟩ := H1 o fuel q.st (ho.mono (min_le_left _ _) (min_le_left _ _)) (hr.trans (min_le_left _ _)) g1
      (g0.trans (min_le_left _ _)) hdo (by omega) (by omega) hnear htm hal hcc
    have hko : t.stats.outer = q.st.stats.outer := solve_keepsOuter _ _ _ _ _ ht
    have hto := st.total
    obtain ⟨b1, b2, b3, b4, b5, b6, b7, b8⟩ := body_facts (alKernel p) alOps q t
    obtain ⟨cv, sg⟩ := convex_step h hc hm hθ hρ hε.le hs st hsg (le_max_right 1 _) hE1
    have x1 : 0 ≤ ε * E := by positivity
    have x2 : 0 ≤ ε * (E / ρ) := by positivity
    have x3 : 0 ≤ ε * B' := by positivity
    have x4 : ε * (E + E / ρ + B') = ε * E + ε * (E / ρ) + ε * B' := by ring
    by_cases hd : (isDone o (body (alKernel p) alOps q t)).2 = true
    · refine .inl ⟨(isDone o (body (alKernel p) alOps q t)).1, 0, t.cs,
        fun a1 a2 hc => ⟨w1 a1 a2 (hc.mono (le_max_left _ _)), fun t' ht' hd' => ?_⟩, ?_, by omega, ?_, ?_, ?_, ?_⟩
      · rw [ht] at ht'
        cases ht'
        exact absurd (hd.symm.trans hd') (by decide)
      · unfold outerLoop
        rw [ht]
        exact if_pos hd
      · rw [(isDone_true o _ hd).2, b5, hko]
      · rw [(isDone_true o _ hd).2, b6, er']
        omega
      · rw [pow_zero, mul_one]
        exact done_solved hρ st hd (by rw [hko]; push_cast at hout; omega) (by omega)
      · rw [pow_zero, mul_one, (isDone_true o _ hd).2, b1, b2]
        exact cv.back (η := 0) hρ (by linarith) (by linarith) (by rw [zero_div]; linarith) (by linarith)
    · have hd : (isDone o (body (alKernel p) alOps q t)).2 = false := Bool.eq_false_iff.mpr hd
      have hcont := (isDone_continues o _ hd).outer
      have hcv := (isDone_continues o _ hd).viol
      rw [b7, Bool.eq_false_iff, ne_eq, Arith.lt_iff, not_lt] at hcv
      rw [b5, hko] at hcont
      have hnc : ∀ k ≤ p.N, (next (alKernel p) alOps q t).st.cs k = ((eachCost (alKernel p) alOps.updateDuals t).cs k).updatePenalties :=
        fun k hk => by
          show (if k ≤ p.N then ALCost.updatePenalties ((body (alKernel p) alOps q t).st.cs k) else _) = _
          rw [if_pos hk, b1]
      have hZ : (next (alKernel p) alOps q t).st.Z = t.Z := b2
      have hO : (next (alKernel p) alOps q t).st.stats.outer = q.st.stats.outer + 1 := b5.trans (by rw [hko])
      have hT : (next (alKernel p) alOps q t).st.stats.total = t.stats.total := b6
      obtain ⟨gp, sp⟩ := rows_penalties (star := star) (fun k hk => scaleU_static (st.update.static k hk) (hsc k hk)) hnc
      have hg : gap (rows p (next (alKernel p) alOps q t).st.cs) star + (ρ * o.conTol) ^ 2 ≤ gap (rows p q.st.cs) star + ε * E := by
        rw [gp]
        refine le_trans (add_le_add_right ?_ _) cv.mults
        exact pow_le_pow_left₀ (by positivity) (mul_le_mul_of_nonneg_left hcv hρ.le) 2
      have hg' : gap (rows p (next (alKernel p) alOps q t).st.cs) star ≤ gap (rows p q.st.cs) star + ε * E := by
        linarith [sq_nonneg (ρ * o.conTol)]
      rcases H2 o fuel (ho.mono (min_le_right _ _) (min_le_right _ _)) (hr.trans (min_le_right _ _)) g1
        (g0.trans (min_le_right _ _)) hdo (by omega) hct r (next (alKernel p) alOps q t) (by omega)
        (by rw [hO]; push_cast at hout ⊢; omega)
        (by
          rw [hT]
          have : (J : ℤ) * T2 ≤ J * T := mul_le_mul_of_nonneg_left (by exact_mod_cast m2) (by positivity)
          omega)
        (st.update.scale hsc hnc) (by rw [hZ]; exact st.times) (aligned_next q st.aligned) (by rw [hZ]; exact st.controls) (sp sg) with
        ⟨s', j, prev, w2, c1, c2, c3, c4, c5, c6⟩ | c
      · refine .inl ⟨s', j + 1, prev, fun a1 a2 hc => ⟨w1 a1 a2 (hc.mono (le_max_left _ _)), fun t' ht' _ => ?_⟩, ?_, by omega, by rw [c3, hO]; omega, ?_, ?_, ?_⟩
        · rw [ht] at ht'
          cases ht'
          have e := isDone_false o _ hd
          have := w2 a1 a2 (hc.mono (le_max_right _ _))
          show OuterWithin _ _ _ _ _ r { (isDone o (body (alKernel p) alOps q t)).1 with
              st := eachCost (alKernel p) alOps.updatePenalties (isDone o (body (alKernel p) alOps q t)).1.st }
          rw [e]; exact this
        · have e := isDone_false o _ hd
          unfold outerLoop
          rw [ht]
          refine (if_neg (by rw [show (isDone o (updateConvergence (alKernel p) alOps { q with st := eachCost (alKernel p) alOps.updateDuals t })).2
            = false from hd]; exact Bool.false_ne_true)).trans ?_
          rw [← c1]
          show outerLoop _ _ _ _ r { (isDone o (body (alKernel p) alOps q t)).1 with
              st := eachCost (alKernel p) alOps.updatePenalties (isDone o (body (alKernel p) alOps q t)).1.st } = _
          rw [e]; rfl
        · rw [hT] at c4
          have : J * T2 ≤ J * T := Nat.mul_le_mul_left _ m2
          rw [er']
          omega
        · rw [pow_succ', ← mul_assoc]
          exact c5
        · rw [pow_succ', ← mul_assoc]
          have h1 : 1 ≤ φ * φ ^ j := by
            have := one_le_pow₀ hφ (n := j)
            nlinarith
          have h2 : ρ ≤ ρ * φ * φ ^ j := by rw [mul_assoc]; exact le_mul_of_one_le_right hρ.le h1
          have h3 : ε * E / (ρ * φ * φ ^ j) ≤ ε * (E / ρ) := by
            rw [← mul_div_assoc]
            exact div_le_div_of_nonneg_left x1 hρ h2
          exact c6.back (lt_of_lt_of_le hρ h2) hg' (by linarith) (by linarith) (by linarith)
      · refine .inr ?_
        rw [Finset.sum_range_succ', pow_zero, mul_one]
        have e : ∑ i ∈ Finset.range J, (ρ * φ ^ (i + 1) * o.conTol) ^ 2 = ∑ i ∈ Finset.range J, (ρ * φ * φ ^ i * o.conTol) ^ 2 :=
          Finset.sum_congr rfl fun i _ => by rw [pow_succ' φ i, mul_assoc ρ φ]
        rw [e]
        linarith

end Altro.Props
