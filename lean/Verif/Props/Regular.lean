import Verif.Proofs.RegularBound
import Verif.Props.SmoothWhole

/-!
# C105: approximate Karush-Kuhn-Tucker points near a regular solution
-/

namespace Altro.Props
open Altro.Spec Matrix ILQR AL
variable {n m : ℕ} {p : DynProblem n m ℝ} {cs : ℕ → ALCost n m ℝ} {Z : Traj (Fin n → ℝ) (Fin m → ℝ) ℝ}

/-- Near a regular solution, the errors in the Karush-Kuhn-Tucker conditions bound the distance to the solution: of the controls, the states and
the multipliers.  The multipliers need not be known to be close. -/
theorem C105_error_bound (h : TwiceSmooth p cs Z) (hR : RegularSolution p cs Z) : ∃ κ r : ℝ, 0 < κ ∧ 0 < r ∧ ∀ (c' : ℕ → ALCost n m ℝ)
    (Z' : Traj (Fin n → ℝ) (Fin m → ℝ) ℝ) (ε ν δ : ℝ), SameProblem p cs c' → SameTimes (alKernel p) Z' Z → ControlsWithin p Z Z' r → 0 ≤ ε → ε ≤ r →
    0 ≤ ν → 0 ≤ δ → δ ≤ r → NearKKT p c' Z' ε ν δ →
    ControlsWithin p Z Z' (κ * (ε + ν + δ)) ∧ StatesWithin p Z Z' (κ * (ε + ν + δ)) ∧ MultsWithin p cs c' (κ * (ε + ν + δ)) := by
  obtain ⟨κ, r, hκ, hr, H⟩ := regular_core h hR
  refine ⟨κ, r, hκ, hr, fun c' Z' ε ν δ hs ht hc hε hεr hν hδ hδr hn => ?_⟩
  obtain ⟨h1, h2⟩ := H c' Z' ε hs ht ⟨hn.init, hn.step⟩ hc hε hεr hn.stationary
    fun k hk v hv i => (hn.slack k hk v hv i).imp_right fun h' => by linarith
  rw [add_assoc]
  refine h2 (ν + δ) (by positivity) (fun k hk v hv i => (hn.eq k hk v hv i).trans (by linarith)) fun k hk v hv i h0 => ?_
  have h3 := hn.ineq k hk v hv i
  have h4 := (hn.slack k hk v hv i).resolve_left (h1 k hk v hv i h0)
  exact abs_le.mpr ⟨by linarith, by linarith⟩

/-- A regular solution is the only Karush-Kuhn-Tucker point nearby, with any multipliers. -/
theorem C105_isolated (h : TwiceSmooth p cs Z) (hR : RegularSolution p cs Z) : ∃ r : ℝ, 0 < r ∧ ∀ (c' : ℕ → ALCost n m ℝ)
    (Z' : Traj (Fin n → ℝ) (Fin m → ℝ) ℝ), SameProblem p cs c' → SameTimes (alKernel p) Z' Z → ControlsWithin p Z Z' r → KKT p c' Z' →
    ControlsWithin p Z Z' 0 ∧ StatesWithin p Z Z' 0 ∧ MultsWithin p cs c' 0 := by
  obtain ⟨κ, r, hκ, hr, H⟩ := C105_error_bound h hR
  refine ⟨r, hr, fun c' Z' hs ht hc hk => ?_⟩
  have := H c' Z' 0 0 0 hs ht hc le_rfl hr.le le_rfl le_rfl hr.le ((C88_exact Z').mpr hk)
  rwa [add_zero, add_zero, mul_zero] at this

/-- One update of the multipliers near a regular solution: if the inner solve ends nearby in a point where the derivative of the augmented
Lagrangian (which is that of the Lagrangian with the new multipliers) is at most `ε`, then with a large penalty `ρ` the distance `d` of
the multipliers to those of the solution shrinks by the factor `κ / ρ`, up to `κ * ε`.  The controls and states are as close. -/
theorem C105_rate (h : TwiceSmooth p cs Z) (hR : RegularSolution p cs Z) : ∃ κ r : ℝ, 0 < κ ∧ 0 < r ∧ ∀ (c c' : ℕ → ALCost n m ℝ)
    (Z' : Traj (Fin n → ℝ) (Fin m → ℝ) ℝ) (ρ ε d : ℝ), SameProblem p cs c → (∀ k ≤ p.N, PenU (c k) ρ) → (∀ k ≤ p.N, c' k = (c k).updateDuals) →
    SameTimes (alKernel p) Z' Z → DynFeasible (alKernel p) Z' → ControlsWithin p Z Z' r → 0 ≤ ε → ε ≤ r → ValuesWithin p c Z' ε →
    NearlyStationaryOf p (fun k => lagrangian (c' k)) Z' ε → 0 ≤ d → MultsWithin p cs c d → κ * (1 + d) ≤ ρ →
    ControlsWithin p Z Z' (κ * (ε + d / ρ)) ∧ StatesWithin p Z Z' (κ * (ε + d / ρ)) ∧ MultsWithin p cs c' (κ * (ε + d / ρ)) := by
  obtain ⟨κ, r, hκ, hr, H⟩ := regular_core h hR
  -- a bound on the multipliers of the solution
  set Λ := ‖fun q : Place p.N cs => mulRow cs q‖ with hΛ
  have hΛ0 : 0 ≤ Λ := norm_nonneg _
  refine ⟨4 * κ + 2 * (Λ + 1) / r, r / 2, by positivity, by positivity, fun c c' Z' ρ ε d hs hp hu ht hZ hc hε hεr hv hst hd hm hρ => ?_⟩
  have q1 : 4 * κ ≤ ρ := by
    refine le_trans ?_ hρ
    have : 0 ≤ 2 * (Λ + 1) / r := by positivity
    nlinarith
  have q2 : (Λ + d) * 2 ≤ ρ * r := by
    have h1 : 2 * (Λ + 1) / r * (1 + d) ≤ ρ := le_trans (by nlinarith) hρ
    have h2 : 2 * (Λ + 1) / r * (1 + d) * r = 2 * (Λ + 1) * (1 + d) := by field_simp
    nlinarith [mul_nonneg hΛ0 hd]
  have hρ0 : 0 < ρ := lt_of_lt_of_le (by positivity) q1
  have hs' : SameProblem p cs c' := by
    refine ⟨fun k hk => ?_, fun k hk => ?_, fun k hk => ?_⟩
    · rw [hu k hk]; exact hs.cost k hk
    · rw [hu k hk, ← hs.eqCons k hk]
      show ((c k).eq.map _).map _ = _
      rw [List.map_map]; rfl
    · rw [hu k hk, ← hs.ineqCons k hk]
      show ((c k).ineq.map _).map _ = _
      rw [List.map_map]; rfl
  -- multipliers before and after
  have hat : ∀ {κ : ConKind} {l l' : List (ConVal κ n m ℝ)} {w : ConVal κ n m ℝ} {j : ℕ} (i : Fin w.con.p), l' = l.map (·.updateDuals) → l[j]? = some w →
      mulAt l j i = w.lam i ∧ mulAt l' j i = w.updateDuals.lam i := by
    intro κ l l' w j i e hw
    rw [mulAt_eq, mulAt_eq]
    refine ⟨(lam_eq hw i).symm, (lam_eq (v := w.updateDuals) ?_ i).symm⟩
    rw [e, List.getElem?_map, hw]; rfl
  have hbig : ∀ k ≤ p.N, ∀ j i, |mulAt (cs k).ineq j i| ≤ Λ := by
    intro k hk j i
    rw [mulAt_eq]
    rcases getMul_place (l := (cs k).ineq) rfl j i with ⟨hj, hi⟩ | ⟨-, e2⟩
    · exact norm_le_pi_norm (fun q : Place p.N cs => mulRow cs q) ⟨⟨k, Nat.lt_succ_of_le hk⟩, .inr ⟨⟨j, hj⟩, ⟨i, hi⟩⟩⟩
    · rw [e2, abs_zero]; exact hΛ0
  obtain ⟨h1, h2⟩ := H c' Z' ε hs' ht hZ (fun k hk i => (hc k hk i).trans (by linarith)) hε (by linarith) hst (by
    intro k hk v' hv' i
    rw [hu k hk] at hv'
    obtain ⟨w, hw, rfl⟩ := List.mem_map.mp hv'
    obtain ⟨j, hj⟩ := List.mem_iff_getElem?.mp hw
    have e1 := (hat (w := w) i rfl hj).1
    have b1 := (hm k hk j i).2
    have b2 := hbig k hk j i
    have b3 := ((hv k hk).2 w hw i)
    have b4 : w.pen i = ρ := (hp k hk).2 w hw i
    rw [e1] at b1
    show min 0 (w.lam i - w.pen i * w.c i) = 0 ∨ -r ≤ w.con.eval (Z'.x k) (Z'.u k) i
    rw [b4]
    by_cases h0 : w.lam i - ρ * w.c i < 0
    · right
      have b5 := abs_le.mp b1
      have b6 := abs_le.mp b2
      have b7 := abs_le.mp b3
      have b8 : -(r / 2) < w.c i := by
        by_contra hn
        push Not at hn
        nlinarith
      linarith
    · exact .inl (min_eq_left (not_lt.mp h0)))
  -- the distance of the new multipliers
  set D := ‖fun q : Place p.N cs => mulRow c' q - mulRow cs q‖ with hD
  have hD0 : 0 ≤ D := norm_nonneg _
  have hmD : MultsWithin p cs c' D := multsWithin_of hD0 hs' fun q => norm_le_pi_norm (fun q : Place p.N cs => mulRow c' q - mulRow cs q) q
  have hsmall : ∀ {a b lam c v : ℝ}, |a - lam| ≤ d → |b - lam| ≤ D → b = a - ρ * c → |c - v| ≤ ε → |v| ≤ ε + (d + D) / ρ := by
    intro a b lam c v h1 h2 h3 h4
    have h5 : |c| ≤ (d + D) / ρ := by
      rw [le_div_iff₀ hρ0]
      have e0 : |c| * ρ = |c * ρ| := by rw [abs_mul, abs_of_pos hρ0]
      have e : c * ρ = (a - lam) - (b - lam) := by rw [h3]; ring
      rw [e0, e]
      exact (abs_sub _ _).trans (add_le_add h1 h2)
    have h6 := abs_le.mp h4
    have h7 := abs_le.mp h5
    exact abs_le.mpr ⟨by linarith, by linarith⟩
  obtain ⟨g1, g2, g3⟩ := h2 (ε + (d + D) / ρ) (by positivity) (by
    intro k hk v' hv' i
    rw [hu k hk] at hv'
    obtain ⟨w, hw, rfl⟩ := List.mem_map.mp hv'
    obtain ⟨j, hj⟩ := List.mem_iff_getElem?.mp hw
    have b1 := (hm k hk j i).1
    have b2 := (hmD k hk j i).1
    obtain ⟨e1, e2⟩ := hat (w := w) i (l' := (c' k).eq) (by rw [hu k hk]; rfl) hj
    rw [e1] at b1
    rw [e2] at b2
    refine hsmall b1 b2 ?_ ((hv k hk).1 w hw i)
    show w.lam i - w.pen i * w.c i = _
    rw [(hp k hk).1 w hw i]) (by
    intro k hk v' hv' i h0
    have hne := h1 k hk v' hv' i h0
    rw [hu k hk] at hv'
    obtain ⟨w, hw, rfl⟩ := List.mem_map.mp hv'
    obtain ⟨j, hj⟩ := List.mem_iff_getElem?.mp hw
    have b1 := (hm k hk j i).2
    have b2 := (hmD k hk j i).2
    obtain ⟨e1, e2⟩ := hat (w := w) i (l' := (c' k).ineq) (by rw [hu k hk]; rfl) hj
    rw [e1] at b1
    rw [e2] at b2
    refine hsmall b1 b2 ?_ ((hv k hk).2 w hw i)
    have hne : min 0 (w.lam i - w.pen i * w.c i) ≠ 0 := hne
    show min 0 (w.lam i - w.pen i * w.c i) = _
    rw [(hp k hk).2 w hw i] at hne ⊢
    rcases min_choice 0 (w.lam i - ρ * w.c i) with e | e
    · exact absurd e hne
    · exact e)
  have hDB : D ≤ κ * (ε + (ε + (d + D) / ρ)) := by
    rw [hD, pi_norm_le_iff_of_nonneg (by positivity)]
    exact fun q => mulRow_within g3 q
  have e1 : (d + D) / ρ = d / ρ + D / ρ := add_div _ _ _
  have hDρ : κ * (D / ρ) ≤ D / 4 := by
    rw [← mul_div_assoc, div_le_iff₀ hρ0]
    nlinarith
  have hdρ : 0 ≤ d / ρ := by positivity
  have hfin : κ * (ε + (ε + (d + D) / ρ)) ≤ (4 * κ + 2 * (Λ + 1) / r) * (ε + d / ρ) := by
    have h3 : 0 ≤ 2 * (Λ + 1) / r * (ε + d / ρ) := by positivity
    rw [e1] at hDB ⊢
    nlinarith [mul_nonneg hκ.le hε, mul_nonneg hκ.le hdρ]
  exact ⟨fun k hk i => (g1 k hk i).trans hfin, fun k hk i => (g2 k hk i).trans hfin,
    fun k hk j i => ⟨((g3 k hk j i).1).trans hfin, ((g3 k hk j i).2).trans hfin⟩⟩

/-- What `kSolved` says near a regular solution: the distance of the trajectory and of the multipliers is at most a constant times the constraint tolerance, the accuracy of the
last inner solve and the size of the multipliers before the last update over the penalty. -/
theorem C105_solved (h : TwiceSmooth p cs Z) (hR : RegularSolution p cs Z) : ∃ κ r : ℝ, 0 < κ ∧ 0 < r ∧ ∀ (o : Opts ℝ) (c0 prev : ℕ → ALCost n m ℝ)
    (s : ALSt (Fin n → ℝ) (Fin m → ℝ) ℝ (ALCost n m ℝ) (KP n m ℝ)) (ρ ε Λ : ℝ), SameProblem p cs c0 → NearSolved p o c0 ρ ε s prev → s.status = .kSolved →
    SameTimes (alKernel p) s.st.Z Z → ControlsWithin p Z s.st.Z r → 0 ≤ ε → ε ≤ r → 0 ≤ o.conTol → 0 < ρ → 0 ≤ Λ →
    (∀ k ≤ p.N, ∀ v ∈ (prev k).ineq, ∀ i, |v.lam i| ≤ Λ) → Λ / ρ + ε ≤ r →
    ControlsWithin p Z s.st.Z (κ * (o.conTol + Λ / ρ + 3 * ε)) ∧ StatesWithin p Z s.st.Z (κ * (o.conTol + Λ / ρ + 3 * ε)) ∧
      MultsWithin p cs s.st.cs (κ * (o.conTol + Λ / ρ + 3 * ε)) := by
  obtain ⟨κ, r, hκ, hr, H⟩ := C105_error_bound h hR
  refine ⟨κ, r, hκ, hr, fun o c0 prev s ρ ε Λ hsp hn hst ht hc hε hεr ho hρ hΛ hm hΛr => ?_⟩
  have h1 := H s.st.cs s.st.Z ε (o.conTol + ε) (Λ / ρ + ε) ⟨fun k hk => ?_, fun k hk => ?_, fun k hk => ?_⟩ ht hc hε hεr (by positivity) (by positivity) hΛr
    (C88_solved hn hε hst hm)
  · rwa [show ε + (o.conTol + ε) + (Λ / ρ + ε) = o.conTol + Λ / ρ + 3 * ε by ring] at h1
  · rw [hn.update k hk]; exact (hn.cost k hk).trans (hsp.cost k hk)
  · rw [hn.update k hk, ← (hn.eqCons k hk).trans (hsp.eqCons k hk)]
    show ((prev k).eq.map _).map _ = _
    rw [List.map_map]; rfl
  · rw [hn.update k hk, ← (hn.ineqCons k hk).trans (hsp.ineqCons k hk)]
    show ((prev k).ineq.map _).map _ = _
    rw [List.map_map]; rfl

/-! ## A whole solve -/

variable {c0 : ℕ → ALCost n m ℝ} {Y : Traj (Fin n → ℝ) (Fin m → ℝ) ℝ} {φ ε μ : ℝ}

theorem mulAt_map {κ : ConKind} (f : ConVal κ n m ℝ → ConVal κ n m ℝ) (hf : ∀ v i, mulAt [f v] 0 i = mulAt [v] 0 i) :
    ∀ (l : List (ConVal κ n m ℝ)) (j i : ℕ), mulAt (l.map f) j i = mulAt l j i
  | [], _, _ => rfl
  | v :: _, 0, i => hf v i
  | _ :: l, j + 1, i => mulAt_map f hf l j i

theorem mulAt_core {κ : ConKind} {l l' : List (ConVal κ n m ℝ)} (e : l.map (·.core) = l'.map (·.core)) (j i : ℕ) : mulAt l j i = mulAt l' j i := by
  rw [← mulAt_map (·.core) (fun _ _ => rfl) l, e, mulAt_map (·.core) (fun _ _ => rfl)]

/-- The distances after a run of outer iterations. -/
theorem regular_trace {κ r : ℝ} (hκ : 0 < κ) (hsp : SameProblem p cs c0) (hYZ : SameTimes (alKernel p) Y Z)
    (H : ∀ (c c' : ℕ → ALCost n m ℝ) (Z' : Traj (Fin n → ℝ) (Fin m → ℝ) ℝ) (ρ ε d : ℝ), SameProblem p cs c → (∀ k ≤ p.N, PenU (c k) ρ) →
      (∀ k ≤ p.N, c' k = (c k).updateDuals) →
      SameTimes (alKernel p) Z' Z → DynFeasible (alKernel p) Z' → ControlsWithin p Z Z' r → 0 ≤ ε → ε ≤ r → ValuesWithin p c Z' ε →
      NearlyStationaryOf p (fun k => lagrangian (c' k)) Z' ε → 0 ≤ d → MultsWithin p cs c d → κ * (1 + d) ≤ ρ →
      ControlsWithin p Z Z' (κ * (ε + d / ρ)) ∧ StatesWithin p Z Z' (κ * (ε + d / ρ)) ∧ MultsWithin p cs c' (κ * (ε + d / ρ)))
    (hφ : 1 ≤ φ) (hε : 0 ≤ ε) (hεr : ε ≤ r) (hε1 : κ * ε ≤ 1 / 2) {o : Opts ℝ} {fuel : ℕ} {s' : ALSt (Fin n → ℝ) (Fin m → ℝ) ℝ (ALCost n m ℝ) (KP n m ℝ)} {j : ℕ} {ρ : ℝ}
    {q : ALSt (Fin n → ℝ) (Fin m → ℝ) ℝ (ALCost n m ℝ) (KP n m ℝ)} {W : ℝ} (tr : OuterTrace p c0 Y φ ε W o fuel s' j ρ q) :
    ∀ (N : ℕ) (d D : ℝ), j < N → OuterStays (alKernel p) alOps o fuel (fun Z' => ControlsWithin p Z Z' r) N q → 0 ≤ d → MultsWithin p cs q.st.cs d →
      1 ≤ D → d ≤ D → 2 * κ * (1 + D) ≤ ρ → (∏ i ∈ Finset.range (j + 1), κ / (ρ * φ ^ i)) ≤ (1 / 2) ^ (j + 1) ∧
      ∃ B, B ≤ κ * ε * (2 - (1 / 2) ^ j) + (∏ i ∈ Finset.range (j + 1), κ / (ρ * φ ^ i)) * d ∧
        ControlsWithin p Z s'.st.Z B ∧ StatesWithin p Z s'.st.Z B ∧ MultsWithin p cs s'.st.cs B := by
  have step : ∀ {ρ M M' R d : ℝ} {T : ℕ} {q : ALSt (Fin n → ℝ) (Fin m → ℝ) ℝ (ALCost n m ℝ) (KP n m ℝ)} {t : St (Fin n → ℝ) (Fin m → ℝ) ℝ (ALCost n m ℝ) (KP n m ℝ)},
      OuterStep p c0 Y ρ M M' R ε T q.st t (eachCost (alKernel p) alOps.updateDuals t).cs → ControlsWithin p Z t.Z r → 0 ≤ d → MultsWithin p cs q.st.cs d →
      κ * (1 + d) ≤ ρ → ControlsWithin p Z t.Z (κ * (ε + d / ρ)) ∧ StatesWithin p Z t.Z (κ * (ε + d / ρ)) ∧
        MultsWithin p cs (eachCost (alKernel p) alOps.updateDuals t).cs (κ * (ε + d / ρ)) := by
    intro ρ M M' R d T q t st hc hd hm hρ
    have hkkt := st.kkt M st.near.ineq
    have hst := fun k hk => static_cons (st.near.static k hk)
    obtain ⟨Zc, -, hsto⟩ := st.stored
    refine H t.cs _ t.Z ρ ε d ⟨fun k hk => (hst k hk).1.trans (hsp.cost k hk), fun k hk => (hst k hk).2.1.trans (hsp.eqCons k hk),
      fun k hk => (hst k hk).2.2.trans (hsp.ineqCons k hk)⟩ st.near.pen (fun k hk => if_pos hk)
      ⟨fun k hk => (st.times.t k hk).trans (hYZ.t k hk), fun k hk => (st.times.h k hk).trans (hYZ.h k hk)⟩ ⟨hkkt.init, hkkt.step⟩ hc hε hεr hsto hkkt.stationary hd ?_ hρ
    intro k hk j i
    obtain ⟨-, e1, e2⟩ := ALCost.mk.inj (st.core k)
    rw [mulAt_core e1, mulAt_core e2]
    exact hm k hk j i
  induction tr with
  | @last ρ M M' R T q t hsol st hM hR hcs hZ =>
    intro N d D hN hg hd hm hD hdD hρ
    have hρ' : κ * (1 + d) ≤ ρ := le_trans (by nlinarith) hρ
    obtain ⟨N, rfl⟩ := Nat.exists_eq_succ_of_ne_zero (show N ≠ 0 by omega)
    have hρ0 : 0 < ρ := lt_of_lt_of_le (by positivity) hρ
    obtain ⟨g1, -⟩ := hg t hsol
    obtain ⟨s1, s2, s3⟩ := step st g1 hd hm hρ'
    rw [Finset.prod_range_one, pow_zero, mul_one, pow_zero]
    refine ⟨?_, κ * (ε + d / ρ), le_of_eq (by ring), ?_⟩
    · rw [div_le_iff₀ hρ0]; nlinarith
    · rw [hZ, hcs]; exact ⟨s1, s2, s3⟩
  | @more ρ M M' R T j q t hsol st hM hR hd' hcs rest ih =>
    intro N d D hN hg hd hm hD hdD hρ
    have hρ' : κ * (1 + d) ≤ ρ := le_trans (by nlinarith) hρ
    obtain ⟨N, rfl⟩ := Nat.exists_eq_succ_of_ne_zero (show N ≠ 0 by omega)
    have hρ0 : 0 < ρ := lt_of_lt_of_le (by positivity) hρ
    obtain ⟨g1, g2⟩ := hg t hsol
    obtain ⟨s1, s2, s3⟩ := step st g1 hd hm hρ'
    have hhalf : κ / ρ ≤ 1 / 2 := by rw [div_le_iff₀ hρ0]; nlinarith
    have hd1 : κ * (ε + d / ρ) = κ * ε + κ / ρ * d := by ring
    have hd2 : κ * (ε + d / ρ) ≤ 1 / 2 + d / 2 := by rw [hd1]; nlinarith
    have hg2 : OuterStays (alKernel p) alOps o fuel (fun Z' => ControlsWithin p Z Z' r) N (next (alKernel p) alOps q t) := by
      have := g2 hd'
      have e := isDone_false o _ hd'
      show OuterStays _ _ _ _ _ N { body (alKernel p) alOps q t with st := eachCost (alKernel p) alOps.updatePenalties (body (alKernel p) alOps q t).st }
      rw [← e]; exact this
    have hd0 : 0 ≤ κ * (ε + d / ρ) := by positivity
    obtain ⟨i1, B, i2, i3⟩ := ih N (κ * (ε + d / ρ)) D (by omega) hg2 hd0 (by
      intro k hk j i
      rw [hcs k hk]
      show |mulAt (List.map _ _) j i - _| ≤ _ ∧ |mulAt (List.map _ _) j i - _| ≤ _
      rw [mulAt_map ConVal.updatePenalties (fun _ _ => rfl), mulAt_map ConVal.updatePenalties (fun _ _ => rfl)]
      exact s3 k hk j i) hD (by linarith) (hρ.trans (le_mul_of_one_le_right hρ0.le hφ))
    have hprod : (∏ i ∈ Finset.range (j + 1 + 1), κ / (ρ * φ ^ i)) = (∏ i ∈ Finset.range (j + 1), κ / (ρ * φ * φ ^ i)) * (κ / ρ) := by
      rw [Finset.prod_range_succ', pow_zero, mul_one]
      congr 1
      exact Finset.prod_congr rfl fun i _ => by rw [pow_succ', mul_assoc]
    set G := ∏ i ∈ Finset.range (j + 1), κ / (ρ * φ * φ ^ i) with hG
    have hG0 : 0 ≤ G := Finset.prod_nonneg fun i _ => by positivity
    rw [hprod]
    refine ⟨?_, B, i2.trans ?_, i3⟩
    · calc G * (κ / ρ) ≤ (1 / 2) ^ (j + 1) * (1 / 2) := mul_le_mul i1 hhalf (by positivity) (by positivity)
        _ = _ := by rw [← pow_succ]
    · rw [hd1, mul_add, ← mul_assoc G]
      have h1 : G * (κ * ε) ≤ (1 / 2) ^ (j + 1) * (κ * ε) := mul_le_mul_of_nonneg_right i1 (by positivity)
      have h2 : ((1 : ℝ) / 2) ^ j = 2 * (1 / 2) ^ (j + 1) := by rw [pow_succ]; ring
      rw [h2]
      linarith

/-- A whole solve of a smooth problem near a regular solution.  There are constants that depend on the problem and the solution only, such that for every sufficiently
large initial penalty and every accuracy `ε` a solve with suitable options returns; if the trajectories of all inner solves are within `r` of the solution, then after `j + 1` outer
iterations controls, states and multipliers are as close as `2 κ ε` plus the initial distance of the multipliers times `∏ κ / ρ i`, over the
penalties `ρ i = ρ * φ ^ i` used. -/
theorem C105_run (h : SmoothProblem p c0 Y μ) (hμ : 0 < μ) (hN : p.N ≠ 0) (hφ : 1 ≤ φ) (hs : ∀ k ≤ p.N, ScaleU (c0 k) φ) (hS : TwiceSmooth p cs Z)
    (hR : RegularSolution p cs Z) (hsp : SameProblem p cs c0) (hYZ : SameTimes (alKernel p) Y Z) {d0 : ℝ} (hd0 : 0 ≤ d0)
    (hm : ∀ k ≤ p.N, ∀ j i, |mulAt (cs k).eq j i| ≤ d0 ∧ |mulAt (cs k).ineq j i| ≤ d0) {R : ℝ} (hR0 : 0 ≤ R) :
    ∃ κ r : ℝ, 0 < κ ∧ 0 < r ∧ ∀ ρ, 2 * κ * (2 + d0) ≤ ρ → ∀ J : ℕ, ∃ W : ℝ, ∀ ε, 0 < ε → ε ≤ r → ∃ rb γ0 : ℝ, 0 < rb ∧ 0 < γ0 ∧ ∀ γ, 0 < γ →
      ∃ β : ℝ, 0 < β ∧ ∀ d, 0 < d → ∃ T : ℕ, ∀ (o : Opts ℝ) (fuel : ℕ) (s : ALSt (Fin n → ℝ) (Fin m → ℝ) ℝ (ALCost n m ℝ) (KP n m ℝ)),
      StepOptions (unlimited o) rb β → (o.checkBounds = true → Clears p W o.stateMax o.controlMax) → o.regMin * o.regFactor ≤ rb → γ ≤ o.gradTol → o.gradTol ≤ γ0 →
      d ≤ unitDecrease o μ → (T : ℤ) < o.maxInner → 1 ≤ o.maxOuter → o.maxOuter ≤ J → o.maxOuter * T < o.maxTotal → o.resetDuals = true →
      o.initialPenalty = ρ → s.st.cs = c0 → SameTimes (alKernel p) s.st.Z Y → (∀ k < p.N, ∀ i, |s.st.Z.u k i| ≤ R) →
      ∃ s' j prev, AL.solve (alKernel p) alOps o (ILQR.solve (alKernel p) o (fuel + 1)) s = some s' ∧ s'.st.stats.outer = j + 1 ∧
        NearSolved p o c0 (ρ * φ ^ j) ε s' prev ∧
        (OuterStays (alKernel p) alOps o (fuel + 1) (fun Z' => ControlsWithin p Z Z' r) o.maxOuter.toNat (AL.init (alKernel p) alOps o s) →
          ∃ B, B ≤ 2 * κ * ε + (∏ i ∈ Finset.range (j + 1), κ / (ρ * φ ^ i)) * d0 ∧
            ControlsWithin p Z s'.st.Z B ∧ StatesWithin p Z s'.st.Z B ∧ MultsWithin p cs s'.st.cs B) := by
  obtain ⟨κ, r0, hκ, hr0, HR⟩ := C105_rate hS hR
  refine ⟨κ, min r0 (1 / (2 * κ)), hκ, lt_min hr0 (by positivity), fun ρ hρ J => ?_⟩
  have hρ0 : 0 < ρ := lt_of_lt_of_le (by positivity) hρ
  obtain ⟨W, H⟩ := solve_trace h hμ hN (lt_of_lt_of_le one_pos hφ) hs hρ0 hR0 J
  refine ⟨W, fun ε hε hεr => ?_⟩
  obtain ⟨rb, γ0, h1, h2, H⟩ := H ε hε
  refine ⟨rb, γ0, h1, h2, fun γ hγ => ?_⟩
  obtain ⟨β, h3, H⟩ := H γ hγ
  refine ⟨β, h3, fun d hd => ?_⟩
  obtain ⟨T, H⟩ := H d hd
  refine ⟨T, fun o fuel s ho hw hr g1 g0 hdo hi o1 oJ htot hrd hpen hc hY hu => ?_⟩
  obtain ⟨s', j, prev, c1, c2, c3, c4, c5, c6, c7⟩ := H o fuel s ho hw hr g1 g0 hdo hi o1 oJ htot hrd hpen hc hY hu
  refine ⟨s', j, prev, c1, c2, c4, fun hg => ?_⟩
  have hε1 : κ * ε ≤ 1 / 2 := by
    have := hεr.trans (min_le_right _ _)
    rw [le_div_iff₀ (by positivity)] at this
    linarith
  obtain ⟨-, B, b1, b2⟩ := regular_trace hκ hsp hYZ
    (fun c c' Z' ρ ε d a1 a2 a3 a4 a5 a6 a7 a8 => HR c c' Z' ρ ε d a1 a2 a3 a4 a5 (fun k hk i => (a6 k hk i).trans (min_le_left _ _)) a7 (a8.trans (min_le_left _ _)))
    hφ hε.le hεr hε1 c5 _ d0 (1 + d0) c6 (c7 _ hg) hd0 (by
      have h0 := C14_alcost_reset p o hrd (by rw [hpen]; exact hρ0) s
      intro k hk j i
      have z : ∀ {κ : ConKind} {l : List (ConVal κ n m ℝ)}, (∀ v ∈ l, v.lam = 0) → mulAt l j i = 0 := by
        intro κ l hl
        unfold mulAt
        cases hj : l[j]? with
        | none => rfl
        | some v =>
          show (if h : i < v.con.p then v.lam ⟨i, h⟩ else 0) = 0
          split
          · rw [hl v (List.mem_iff_getElem?.mpr ⟨j, hj⟩)]; rfl
          · rfl
      rw [z fun v hv => ((h0 k hk).1 v hv).1, z fun v hv => ((h0 k hk).2 v hv).1, zero_sub, zero_sub, abs_neg, abs_neg]
      exact hm k hk j i) (by linarith) (by linarith) (by linarith)
  refine ⟨B, b1.trans ?_, b2⟩
  have h4 : 0 ≤ κ * ε * ((1 : ℝ) / 2) ^ j := by positivity
  linarith

end Altro.Props
