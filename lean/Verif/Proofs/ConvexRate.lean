import Verif.Props.ConvexWhole
import Verif.Props.Regular
import Verif.Proofs.LQRate
import Mathlib.Analysis.Calculus.DerivativeTest
import Mathlib.Analysis.Calculus.LocalExtr.Basic

/-!
# Smooth convex problems with a regular solution
-/

namespace Altro.Props
open Altro.Spec Matrix ILQR AL
variable {n m : ℕ} {p : DynProblem n m ℝ} {cs c0 : ℕ → ALCost n m ℝ} {Y Z zs : Traj (Fin n → ℝ) (Fin m → ℝ) ℝ} {star : List ℝ} {μ φ θ ε : ℝ}

/-! ## The second-order condition -/

theorem second_pos {g : ℝ → ℝ} (hg : ContDiff ℝ 2 g) {c : ℝ} (hc : 0 < c) (h : ∀ a, g 0 + c * a ^ 2 ≤ g a) : 0 < iteratedDeriv 2 g 0 := by
  by_contra hn
  push Not at hn
  have h1 : Differentiable ℝ g := hg.differentiable (by norm_num)
  have h2 : Differentiable ℝ (deriv g) := by
    have : ContDiff ℝ (1 + 1) g := by norm_num; exact hg
    exact (contDiff_succ_iff_deriv.mp this).2.2.differentiable (by norm_num)
  have h0 : deriv g 0 = 0 := IsLocalMin.deriv_eq_zero (Filter.Eventually.of_forall fun a => by
    have := h a
    nlinarith [mul_nonneg hc.le (sq_nonneg a)])
  have e1 : deriv (fun a => c / 2 * a ^ 2 - g a) = fun a => c * a - deriv g a := by
    funext a
    have h3 : HasDerivAt (fun a : ℝ => c / 2 * a ^ 2) (c * a) a := ((hasDerivAt_pow 2 a).const_mul (c / 2)).congr_deriv (by push_cast; ring)
    exact (h3.sub (h1 a).hasDerivAt).deriv
  have e2 : deriv (fun a => c * a - deriv g a) 0 = c - deriv (deriv g) 0 := by
    have h3 : HasDerivAt (fun a : ℝ => c * a) c 0 := by simpa using (hasDerivAt_id (0 : ℝ)).const_mul c
    exact (h3.sub (h2 0).hasDerivAt).deriv
  rw [iteratedDeriv_succ, iteratedDeriv_one] at hn
  have hmin : IsLocalMin (fun a => c / 2 * a ^ 2 - g a) 0 := isLocalMin_of_deriv_deriv_pos (by rw [e1, e2]; linarith) (by rw [e1]; simp [h0])
    (by have := (h1 0).continuousAt; fun_prop)
  obtain ⟨r, hr, H⟩ := Metric.eventually_nhds_iff.mp hmin
  have h4 := H (y := r / 2) (by rw [Real.dist_eq, sub_zero, abs_of_pos (by positivity)]; linarith)
  have h5 := h (r / 2)
  have h6 : 0 < c * (r / 2) ^ 2 := by positivity
  have h4 : c / 2 * 0 ^ 2 - g 0 ≤ c / 2 * (r / 2) ^ 2 - g (r / 2) := h4
  nlinarith

/-- A convex problem with curvature in the controls satisfies the second-order condition. -/
theorem second_of_strong (h : SmoothProblem p c0 Y μ) (hc : ConvexProblem p c0) (hm : StrongFrom p c0 Z θ) (hθ : 0 < θ) (hS : TwiceSmooth p cs Z) (hK : KKT p cs Z)
    (hsp : SameProblem p c0 cs) (ht : SameTimes (alKernel p) Z Y) : SecondOrder p cs Z := by
  intro d hd hne
  have hD : DerivativesAt p cs Z := h.derivativesAt hsp ht
  have hn := (C88_exact Z).mpr hK
  have hZ : DynFeasible (alKernel p) Z := ⟨hK.init, hK.step⟩
  set S := ∑ k ∈ Finset.range p.N, d k ⬝ᵥ d k with hSd
  have hS0 : 0 < S := by
    obtain ⟨k, hk, hk'⟩ := hne
    refine Finset.sum_pos' (fun k _ => nsq_nonneg (d k)) ⟨k, Finset.mem_range.mpr hk, ?_⟩
    exact lt_of_le_of_ne (nsq_nonneg _) fun h0 => hk' (dotProduct_self_eq_zero.mp h0.symm)
  refine second_pos (c := θ / 2 * S) ?_ (by positivity) fun a => ?_
  · have e : (fun a : ℝ => controlCostOf p (fun k => lagrangian (cs k)) Z fun k => Z.u k + a • d k)
        = fun a => objOf p cs Z (restU p.N Z + a • fun k : Fin p.N => d k)
          - ∑ q : ActivePlace p cs Z, actMul p cs Z cs q * rowOf p cs Z q.1 (restU p.N Z + a • fun k : Fin p.N => d k) := by
      funext a
      rw [cost_shift (lagrangian_term hS sameProblem_self) (Z := Z) ⟨fun _ _ => rfl, fun _ _ => rfl⟩ (U := restU p.N Z + a • fun k : Fin p.N => d k) fun k hk => rfl,
        total_lagrangian sameProblem_self, sum_active (Z := Z) fun q hq => by rw [regular_supported hK q hq, zero_mul]]
      rfl
    rw [e]
    have hl : ContDiff ℝ 2 fun a : ℝ => restU p.N Z + a • fun k : Fin p.N => d k := contDiff_const.add (contDiff_id.smul contDiff_const)
    exact ((objOf_contDiff hS).comp hl).sub (ContDiff.sum fun q _ => contDiff_const.mul ((rowOf_contDiff hS q.1).comp hl))
  · have := lagrangian_gap (Z' := { Z with x := openLoop p Z (fun k => Z.u k + a • d k), u := fun k => Z.u k + a • d k }) hD hK.init hK.step hn.stationary hK.dual le_rfl
      (hc.from hsp hD) (fun k hk => by rw [hsp.cost k hk.le]; exact hm k hk) ⟨rfl, fun k hk => rfl⟩ (by
        show Z.u p.N + a • d p.N = Z.u p.N
        rw [hd.last, smul_zero, add_zero])
    rw [zero_mul, add_zero] at this
    refine le_trans (le_of_eq ?_) this
    rw [controlDist_sq]
    congr 1
    · unfold controlCostOf
      refine Finset.sum_congr rfl fun k hk => ?_
      have hk : k ≤ p.N := by have := Finset.mem_range.mp hk; omega
      have e : (fun k => Z.u k + (0 : ℝ) • d k) = Z.u := by funext k; simp
      beta_reduce
      rw [e, openLoop_self hZ k hk]
      simp
    · rw [mul_assoc, hSd, Finset.sum_mul]
      congr 1
      refine Finset.sum_congr rfl fun k _ => ?_
      show _ = (Z.u k + a • d k - Z.u k) ⬝ᵥ (Z.u k + a • d k - Z.u k)
      rw [add_sub_cancel_left, smul_dotProduct, dotProduct_smul, smul_eq_mul, smul_eq_mul]
      ring

/-! ## Distances of multipliers -/

theorem gap_append {V : Type} {a b : List (Row V ℝ)} {c d : List ℝ} (h : a.length = c.length) : gap (a ++ b) (c ++ d) = gap a c + gap b d := by
  rw [gap, List.zip_append h, List.map_append, List.sum_append]; rfl

theorem gap_con {κ : ConKind} (k : ℕ) {v w : ConVal κ n m ℝ} (h : v.con = w.con) (i : ℕ) :
    (mulAt [v] 0 i - mulAt [w] 0 i) ^ 2 ≤ gap (conRows k v) ((conRows k w).map Row.lam) := by
  obtain ⟨con, c, lam, pen, c1, c2⟩ := v
  obtain ⟨con', c', lam', pen', c1', c2'⟩ := w
  obtain rfl : con = con' := h
  show ((if h : i < con.p then lam ⟨i, h⟩ else 0) - (if h : i < con.p then lam' ⟨i, h⟩ else 0)) ^ 2 ≤ _
  split
  · rename_i hi
    unfold gap conRows
    rw [List.map_ofFn, Altro.Spec.zip_ofFn, List.map_ofFn, List.sum_ofFn]
    exact Finset.single_le_sum (f := fun i => (lam i - lam' i) ^ 2) (fun _ _ => sq_nonneg _) (Finset.mem_univ (⟨i, hi⟩ : Fin con.p))
  · rw [sub_zero, zero_pow two_ne_zero]; exact gap_nonneg _ _

theorem conRows_length {κ : ConKind} (k : ℕ) {v w : ConVal κ n m ℝ} (h : v.con = w.con) : (conRows k v).length = (conRows k w).length := by
  unfold conRows
  rw [List.length_ofFn, List.length_ofFn, h]

theorem gap_cons {κ : ConKind} (k : ℕ) : ∀ {l l' : List (ConVal κ n m ℝ)}, l.map (·.con) = l'.map (·.con) →
    (l.flatMap (conRows k)).length = (l'.flatMap (conRows k)).length ∧
    ∀ j i, (mulAt l j i - mulAt l' j i) ^ 2 ≤ gap (l.flatMap (conRows k)) ((l'.flatMap (conRows k)).map Row.lam)
  | [], [], _ => ⟨rfl, fun j i => by show ((0 : ℝ) - 0) ^ 2 ≤ _; rw [sub_zero, zero_pow two_ne_zero]; exact gap_nonneg _ _⟩
  | v :: l, w :: l', h => by
    obtain ⟨h1, h2⟩ := List.cons.inj h
    obtain ⟨g1, g2⟩ := gap_cons k h2
    rw [List.flatMap_cons, List.flatMap_cons, List.length_append, List.length_append, List.map_append, gap_append (by rw [List.length_map]; exact conRows_length k h1)]
    refine ⟨by rw [g1, conRows_length k h1], fun j i => ?_⟩
    match j with
    | 0 => exact (gap_con k h1 i).trans (le_add_of_nonneg_right (gap_nonneg _ _))
    | j + 1 => exact (g2 j i).trans (le_add_of_nonneg_left (gap_nonneg _ _))

theorem gap_flat {V : Type} {f g : ℕ → List (Row V ℝ)} : ∀ {l : List ℕ}, (∀ k ∈ l, (f k).length = (g k).length) → ∀ k ∈ l,
    gap (f k) ((g k).map Row.lam) ≤ gap (l.flatMap f) ((l.flatMap g).map Row.lam)
  | [], _, k, hk => absurd hk List.not_mem_nil
  | a :: l, h, k, hk => by
    rw [List.flatMap_cons, List.flatMap_cons, List.map_append, gap_append (by rw [List.length_map]; exact h a List.mem_cons_self)]
    rcases List.mem_cons.mp hk with rfl | hk
    · exact le_add_of_nonneg_right (gap_nonneg _ _)
    · exact (gap_flat (fun k hk => h k (List.mem_cons_of_mem _ hk)) k hk).trans (le_add_of_nonneg_left (gap_nonneg _ _))

/-- The distance of the list of all multipliers bounds that of each of them. -/
theorem mults_of_gap {c : ℕ → ALCost n m ℝ} (hs : SameProblem p cs c) {G : ℝ} (h : gap (rows p c) ((rows p cs).map Row.lam) ≤ G) :
    MultsWithin p cs c (√G) := by
  intro k hk j i
  obtain ⟨a1, a2⟩ := gap_cons k (hs.eqCons k hk)
  obtain ⟨b1, b2⟩ := gap_cons k (hs.ineqCons k hk)
  have hl : ∀ k ∈ List.range (p.N + 1), (knotRows k (c k)).length = (knotRows k (cs k)).length := by
    intro k hk
    have hk : k ≤ p.N := by simpa [Nat.lt_succ_iff] using hk
    unfold knotRows
    rw [List.length_append, List.length_append, (gap_cons k (hs.eqCons k hk)).1, (gap_cons k (hs.ineqCons k hk)).1]
  have h1 := (gap_flat hl k (by simpa [Nat.lt_succ_iff] using hk)).trans h
  unfold knotRows at h1
  rw [List.map_append, gap_append (by rw [List.length_map]; exact a1)] at h1
  refine ⟨Real.abs_le_sqrt ((a2 j i).trans ?_), Real.abs_le_sqrt ((b2 j i).trans ?_)⟩
  · linarith [gap_nonneg ((c k).ineq.flatMap (conRows k)) (((cs k).ineq.flatMap (conRows k)).map Row.lam)]
  · linarith [gap_nonneg ((c k).eq.flatMap (conRows k)) (((cs k).eq.flatMap (conRows k)).map Row.lam)]

/-! ## The iterations stay near the solution -/

theorem stepErr_le {M R W : ℝ} {Z' : Traj (Fin n → ℝ) (Fin m → ℝ) ℝ} (h : ∀ k i, |ctl p.N Z' k i| ≤ R) (hM : M ≤ W) (hR : R ≤ W) :
    stepErr p zs star M R ≤ stepErr p zs star W W := by
  unfold stepErr reachDist
  have h1 : ∑ k ∈ Finset.range p.N, ∑ i, (|zs.u k i| + R) ^ 2 ≤ ∑ k ∈ Finset.range p.N, ∑ i, (|zs.u k i| + W) ^ 2 :=
    Finset.sum_le_sum fun k _ => Finset.sum_le_sum fun i _ => pow_le_pow_left₀ (add_nonneg (abs_nonneg _) ((abs_nonneg _).trans (h k i))) (by linarith) 2
  have h2 : (star.length : ℝ) * M ≤ star.length * W := mul_le_mul_of_nonneg_left hM (by positivity)
  linarith [Real.sqrt_le_sqrt h1]

theorem within_of_dist {Z' : Traj (Fin n → ℝ) (Fin m → ℝ) ℝ} {r : ℝ} (hθ : 0 < θ) (hr : 0 ≤ r) (h : θ * controlDist p Z' zs ^ 2 ≤ θ * r ^ 2) : ControlsWithin p zs Z' r := by
  intro k hk i
  have h1 : controlDist p Z' zs ^ 2 ≤ r ^ 2 := le_of_mul_le_mul_left h hθ
  rw [controlDist_sq] at h1
  refine abs_le_of_sq_le_sq ?_ hr
  refine le_trans ?_ ((Finset.single_le_sum (f := fun k => (zs.u k - Z'.u k) ⬝ᵥ (zs.u k - Z'.u k)) (fun k _ => nsq_nonneg _) (Finset.mem_range.mpr hk)).trans h1)
  refine le_trans (le_of_eq ?_) (Finset.single_le_sum (f := fun i => (zs.u k - Z'.u k) i * (zs.u k - Z'.u k) i) (fun i _ => mul_self_nonneg _) (Finset.mem_univ i))
  rw [Pi.sub_apply]
  ring

section trace
variable {W : ℝ} {o : Opts ℝ} {fuel : ℕ} {s' : ALSt (Fin n → ℝ) (Fin m → ℝ) ℝ (ALCost n m ℝ) (KP n m ℝ)}

/-- The first iterations of a run: inequality multipliers have the right sign and the multipliers do not get away from those of the solution. -/
theorem convex_drop (h : SmoothProblem p cs Y μ) (hc : ConvexProblem p cs) (hm : ∀ Z, StrongFrom p cs Z θ) (hθ : 0 ≤ θ) (hφ : 0 < φ) (hsc : ∀ k ≤ p.N, ScaleU (cs k) φ)
    (hs : Saddle (Alternative p Y) (plainCost p cs) (rows p cs) zs star) (hε : 0 ≤ ε) {E : ℝ} (hE1 : 1 ≤ E) :
    ∀ (i j : ℕ) (ρ G : ℝ) (q : ALSt (Fin n → ℝ) (Fin m → ℝ) ℝ (ALCost n m ℝ) (KP n m ℝ)), OuterTrace p cs Y φ ε W o fuel s' j ρ q → i ≤ j → 0 < ρ →
      (∀ i ≤ j, (2 * (ρ * φ ^ i) + 2) * stepErr p zs star W W ≤ E) → (∀ r ∈ rows p q.st.cs, r.kind = .inequality → r.lam ≤ 0) → gap (rows p q.st.cs) star ≤ G →
      ∃ q', OuterTrace p cs Y φ ε W o fuel s' (j - i) (ρ * φ ^ i) q' ∧ (∀ r ∈ rows p q'.st.cs, r.kind = .inequality → r.lam ≤ 0) ∧
        gap (rows p q'.st.cs) star ≤ G + i * (ε * E) := by
  intro i
  induction i with
  | zero =>
    intro j ρ G q tr _ _ _ hsg hG
    exact ⟨q, by rwa [pow_zero, mul_one, Nat.sub_zero], hsg, by simpa using hG⟩
  | succ i ih =>
    intro j ρ G q tr hij hρ hE hsg hG
    cases tr with
    | last => omega
    | @more _ M M' R T j _ t hsol st hM hR hd hcs rest =>
      have e0 := hE 0 (Nat.zero_le _)
      rw [pow_zero, mul_one] at e0
      obtain ⟨cv, sg⟩ := convex_step h hc hm hθ hρ hε hs st hsg
        ((mul_le_mul_of_nonneg_left (stepErr_le st.controls hM hR) (by positivity)).trans e0) hE1
      obtain ⟨gp, sp⟩ := rows_penalties (star := star) (fun k hk => scaleU_static (st.update.static k hk) (hsc k hk)) hcs
      obtain ⟨q', k1, k2, k3⟩ := ih j (ρ * φ) (G + ε * E) _ rest (by omega) (by positivity) (fun i hi => by
        have := hE (i + 1) (by omega)
        rwa [show ρ * φ ^ (i + 1) = ρ * φ * φ ^ i by ring] at this) (sp sg) (by
          rw [gp]
          linarith [cv.mults, sq_nonneg (ρ * (alKernel p).viol (eachCost (alKernel p) alOps.updateDuals t).cs)])
      refine ⟨q', ?_, k2, k3.trans (le_of_eq (by push_cast; ring))⟩
      rw [pow_succ', ← mul_assoc, Nat.add_sub_add_right]
      exact k1

/-- With large penalties and accurate inner solves all iterations end near the solution. -/
theorem convex_stays (h : SmoothProblem p cs Y μ) (hc : ConvexProblem p cs) (hm : ∀ Z, StrongFrom p cs Z θ) (hθ : 0 < θ) (hφ : 1 ≤ φ) (hsc : ∀ k ≤ p.N, ScaleU (cs k) φ)
    (hs : Saddle (Alternative p Y) (plainCost p cs) (rows p cs) zs star) (hε : 0 ≤ ε) {E r : ℝ} (hE1 : 1 ≤ E) (hr : 0 ≤ r) :
    ∀ (j : ℕ) (ρ G : ℝ) (q : ALSt (Fin n → ℝ) (Fin m → ℝ) ℝ (ALCost n m ℝ) (KP n m ℝ)), OuterTrace p cs Y φ ε W o fuel s' j ρ q → 0 < ρ →
      (∀ i ≤ j, (2 * (ρ * φ ^ i) + 2) * stepErr p zs star W W ≤ E) → (∀ r ∈ rows p q.st.cs, r.kind = .inequality → r.lam ≤ 0) → gap (rows p q.st.cs) star ≤ G →
      (G + j * (ε * E)) / ρ + ε * E ≤ θ * r ^ 2 →
      OuterStays (alKernel p) alOps o fuel (fun Z' => ControlsWithin p zs Z' r) (j + 1) q := by
  have hεE : 0 ≤ ε * E := mul_nonneg hε (by linarith)
  intro j
  induction j with
  | zero =>
    intro ρ G q tr hρ hE hsg hG hb
    cases tr with
    | @last _ M M' R T _ t hsol st hM hR hcs hZ =>
      have e0 := hE 0 le_rfl
      rw [pow_zero, mul_one] at e0
      obtain ⟨cv, -⟩ := convex_step h hc hm hθ.le hρ hε hs st hsg
        ((mul_le_mul_of_nonneg_left (stepErr_le st.controls hM hR) (by positivity)).trans e0) hE1
      intro t' ht'
      rw [hsol] at ht'
      cases ht'
      refine ⟨within_of_dist hθ hr (cv.controls.trans (le_trans ?_ hb)), fun _ => trivial⟩
      have := div_le_div_of_nonneg_right hG hρ.le
      push_cast
      rw [zero_mul, add_zero]
      linarith
  | succ j ih =>
    intro ρ G q tr hρ hE hsg hG hb
    cases tr with
    | @more _ M M' R T _ _ t hsol st hM hR hd hcs rest =>
      have e0 := hE 0 (Nat.zero_le _)
      rw [pow_zero, mul_one] at e0
      obtain ⟨cv, sg⟩ := convex_step h hc hm hθ.le hρ hε hs st hsg
        ((mul_le_mul_of_nonneg_left (stepErr_le st.controls hM hR) (by positivity)).trans e0) hE1
      obtain ⟨gp, sp⟩ := rows_penalties (star := star) (fun k hk => scaleU_static (st.update.static k hk) (hsc k hk)) hcs
      have hG0 : 0 ≤ G := (gap_nonneg _ _).trans hG
      have hj : 0 ≤ (j : ℝ) * (ε * E) := by positivity
      intro t' ht'
      rw [hsol] at ht'
      cases ht'
      refine ⟨within_of_dist hθ hr (cv.controls.trans (le_trans ?_ hb)), fun hd' => ?_⟩
      · refine add_le_add_left (div_le_div_of_nonneg_right (hG.trans ?_) hρ.le) _
        push_cast
        nlinarith
      · have hφ0 : 0 < φ := lt_of_lt_of_le one_pos hφ
        have := ih (ρ * φ) (G + ε * E) _ rest (by positivity) (fun i hi => by
          have := hE (i + 1) (by omega)
          rwa [show ρ * φ ^ (i + 1) = ρ * φ * φ ^ i by ring] at this) (sp sg) (by
            rw [gp]
            linarith [cv.mults, sq_nonneg (ρ * (alKernel p).viol (eachCost (alKernel p) alOps.updateDuals t).cs)]) (by
            refine le_trans (add_le_add_left (div_le_div₀ ?_ ?_ hρ (le_mul_of_one_le_right hρ.le hφ)) _) hb
            · positivity
            · push_cast; linarith)
        have e := isDone_false o _ hd'
        show OuterStays _ _ _ _ _ (j + 1) { (isDone o (body (alKernel p) alOps q t)).1 with st := eachCost (alKernel p) alOps.updatePenalties (isDone o (body (alKernel p) alOps q t)).1.st }
        have e : (isDone o (body (alKernel p) alOps q t)).1 = body (alKernel p) alOps q t := e
        rw [e]
        exact this

end trace

end Altro.Props
