import Verif.Props.NearOptimal

/-!
# One outer iteration on a smooth convex problem
-/

namespace Altro.Props
open Altro.Spec Matrix ILQR AL
variable {n m : ℕ} {p : DynProblem n m ℝ} {cs : ℕ → ALCost n m ℝ} {Y : Traj (Fin n → ℝ) (Fin m → ℝ) ℝ} {μ ρ M φ ε θ : ℝ}

/-! ## Convex functions lie above their tangents -/

theorem tangent_le {f : (Fin n → ℝ) → (Fin m → ℝ) → ℝ} {gx gu x u} (hg : IsGradAt f gx gu x u) (δx : Fin n → ℝ) (δu : Fin m → ℝ)
    (hc : ∀ t : ℝ, 0 ≤ t → t ≤ 1 → f (x + t • δx) (u + t • δu) ≤ (1 - t) * f x u + t * f (x + δx) (u + δu)) :
    f x u + gx ⬝ᵥ δx + gu ⬝ᵥ δu ≤ f (x + δx) (u + δu) := by
  have hX : HasDerivAt (fun t : ℝ => x + t • δx) δx 0 := by
    have := ((hasDerivAt_id (0 : ℝ)).smul_const δx).const_add x
    rwa [one_smul] at this
  have hU : HasDerivAt (fun t : ℝ => u + t • δu) δu 0 := by
    have := ((hasDerivAt_id (0 : ℝ)).smul_const δu).const_add u
    rwa [one_smul] at this
  have hd := hg.along hX hU (by simp) (by simp)
  have ht := hd.tendsto_slope_zero_right
  have : gx ⬝ᵥ δx + gu ⬝ᵥ δu ≤ f (x + δx) (u + δu) - f x u := by
    refine le_of_tendsto ht ?_
    filter_upwards [Ioc_mem_nhdsGT (show (0 : ℝ) < 1 from one_pos)] with t h
    have h1 := hc t h.1.le h.2
    simp only [zero_add, zero_smul, add_zero, smul_eq_mul]
    rw [inv_mul_le_iff₀ h.1]
    linarith
  linarith

theorem tangent_eq {f : (Fin n → ℝ) → (Fin m → ℝ) → ℝ} {gx gu x u} (hg : IsGradAt f gx gu x u) (δx : Fin n → ℝ) (δu : Fin m → ℝ)
    (hc : ∀ t : ℝ, 0 ≤ t → t ≤ 1 → f (x + t • δx) (u + t • δu) = (1 - t) * f x u + t * f (x + δx) (u + δu)) :
    f (x + δx) (u + δu) = f x u + gx ⬝ᵥ δx + gu ⬝ᵥ δu := by
  refine le_antisymm ?_ (tangent_le hg δx δu fun t h0 h1 => (hc t h0 h1).le)
  have := tangent_le hg.neg δx δu fun t h0 h1 => by rw [hc t h0 h1]; linarith
  rw [neg_dotProduct, neg_dotProduct] at this
  linarith

/-- Convexity along segments, in terms of the reported derivatives. -/
theorem _root_.Altro.Spec.ConvexProblem.from {cs' : ℕ → ALCost n m ℝ} {Z : Traj (Fin n → ℝ) (Fin m → ℝ) ℝ} (hc : ConvexProblem p cs)
    (hs : SameProblem p cs cs') (h : DerivativesAt p cs' Z) : ConvexFrom p cs' Z := by
  have e : ∀ {q : ℕ} (a b : Fin q → ℝ), a + b - a = b := fun a b => by abel
  refine ⟨fun k hk δx δu => ?_, fun k hk δx δu => ?_, fun k hk v hv δx δu i => ?_, fun k hk v hv δx δu i => ?_⟩
  · funext i
    have := tangent_eq (h.dyn k hk i) δx δu fun t h0 h1 => by
      have := congrFun (hc.dyn k hk (Z.x k) (Z.x k + δx) (Z.u k) (Z.u k + δu) (Z.t k) (Z.h k) t h0 h1) i
      rw [e, e] at this
      refine this.trans ?_
      simp only [Pi.add_apply, Pi.smul_apply, Pi.sub_apply, smul_eq_mul]
      ring
    exact this
  · refine tangent_le (h.cost k hk) δx δu fun t h0 h1 => ?_
    have := hc.cost k hk (Z.x k) (Z.x k + δx) (Z.u k) (Z.u k + δu) t h0 h1
    rwa [e, e, ← hs.cost k hk] at this
  · have he := con_transfer (hs.eqCons k hk) (fun c => ∀ i x x' u u', ∀ t : ℝ, 0 ≤ t → t ≤ 1 →
      c.eval (x + t • (x' - x)) (u + t • (u' - u)) i = (1 - t) * c.eval x u i + t * c.eval x' u' i) (hc.eq k hk) v hv
    have := tangent_eq (h.eq k hk v hv i) δx δu fun t h0 h1 => by
      have := he i (Z.x k) (Z.x k + δx) (Z.u k) (Z.u k + δu) t h0 h1
      rwa [e, e] at this
    rw [this, add_assoc]
    congr 1
    exact (Fintype.sum_sum_type fun j => v.con.jac (Z.x k) (Z.u k) i j * Sum.elim δx δu j).symm
  · have he := con_transfer (hs.ineqCons k hk) (fun c => ∀ i x x' u u', ∀ t : ℝ, 0 ≤ t → t ≤ 1 →
      c.eval (x + t • (x' - x)) (u + t • (u' - u)) i ≤ (1 - t) * c.eval x u i + t * c.eval x' u' i) (hc.ineq k hk) v hv
    have := tangent_le (h.ineq k hk v hv i) δx δu fun t h0 h1 => by
      have := he i (Z.x k) (Z.x k + δx) (Z.u k) (Z.u k + δu) t h0 h1
      rwa [e, e] at this
    refine le_trans (le_of_eq ?_) this
    rw [add_assoc]
    congr 1
    exact (Fintype.sum_sum_type fun j => v.con.jac (Z.x k) (Z.u k) i j * Sum.elim δx δu j)

/-! ## The Lagrangian over the rows -/

theorem lagrangian_rows (p : DynProblem n m ℝ) (cs : ℕ → ALCost n m ℝ) (Z : Traj (Fin n → ℝ) (Fin m → ℝ) ℝ) :
    ∑ k ∈ Finset.range (p.N + 1), lagrangian (cs k) (Z.x k) (Z.u k) = plainCost p cs Z - ((rows p cs).map fun r => r.lam * r.fn Z).sum := by
  rw [rows, sum_flatMap_map, sum_range_map, plainCost, ← Finset.sum_sub_distrib]
  refine Finset.sum_congr rfl fun k _ => ?_
  rw [knotRows, List.map_append, List.sum_append, sum_flatMap_map, sum_flatMap_map, lagrangian, sub_sub]
  congr 2
  · refine congrArg List.sum (List.map_congr_left fun v _ => ?_)
    rw [conRows_sum]; rfl
  · refine congrArg List.sum (List.map_congr_left fun v _ => ?_)
    rw [conRows_sum]; rfl

/-- A trajectory with the control of the last knot point replaced. -/
def withLast (p : DynProblem n m ℝ) (u : Fin m → ℝ) (Z : Traj (Fin n → ℝ) (Fin m → ℝ) ℝ) : Traj (Fin n → ℝ) (Fin m → ℝ) ℝ :=
  { Z with u := fun k => if k = p.N then u else Z.u k }

theorem withLast_facts (h : SmoothProblem p cs Y μ) {cs' : ℕ → ALCost n m ℝ} (hs : SameProblem p cs cs') (u : Fin m → ℝ)
    (Z : Traj (Fin n → ℝ) (Fin m → ℝ) ℝ) :
    (∀ W, Alternative p W Z → Alternative p W (withLast p u Z)) ∧ plainCost p cs' (withLast p u Z) = plainCost p cs' Z ∧
    (∀ r ∈ rows p cs', r.fn (withLast p u Z) = r.fn Z) ∧ (∀ W, controlDist p W (withLast p u Z) = controlDist p W Z) ∧
    (withLast p u Z).u p.N = u := by
  have hu : ∀ k < p.N, (withLast p u Z).u k = Z.u k := fun k hk => if_neg hk.ne
  refine ⟨fun W hW => ⟨hW.init, fun k hk => ?_⟩, ?_, fun r hr => ?_, fun W => ?_, if_pos rfl⟩
  · rw [hu k hk]; exact hW.step k hk
  · refine Finset.sum_congr rfl fun k hk => ?_
    by_cases hk' : k = p.N
    · subst hk'
      rw [hs.cost _ le_rfl]
      exact h.term _ _ _
    · rw [hu k (by have := Finset.mem_range.mp hk; omega)]; rfl
  · obtain ⟨k, hk, ⟨v, hv, i, rfl⟩ | ⟨v, hv, i, rfl⟩⟩ := (mem_rows p cs' r).mp hr
    · show v.con.eval (Z.x k) ((withLast p u Z).u k) i = _
      by_cases hk' : k = p.N
      · subst hk'
        exact congrFun (con_transfer (hs.eqCons _ le_rfl) (fun c => ∀ x u u', c.eval x u = c.eval x u') h.termEq v hv _ _ _) i
      · rw [hu k (by omega)]
    · show v.con.eval (Z.x k) ((withLast p u Z).u k) i = _
      by_cases hk' : k = p.N
      · subst hk'
        exact congrFun (con_transfer (hs.ineqCons _ le_rfl) (fun c => ∀ x u u', c.eval x u = c.eval x u') h.termIneq v hv _ _ _) i
      · rw [hu k (by omega)]
  · unfold controlDist
    congr 1
    refine Finset.sum_congr rfl fun k hk => ?_
    rw [hu k (Finset.mem_range.mp hk)]

/-- Where the total Lagrangian is nearly stationary it is nearly minimal, over all trajectories. -/
theorem rows_gap (h : SmoothProblem p cs Y μ) (hc : ConvexProblem p cs) (hm : ∀ Z, StrongFrom p cs Z θ) {up : ℕ → ALCost n m ℝ} (hs : SameProblem p cs up)
    {Z : Traj (Fin n → ℝ) (Fin m → ℝ) ℝ} (ht : SameTimes (alKernel p) Z Y) (hε : 0 ≤ ε) {ν δ : ℝ} (hK : NearKKT p up Z ε ν δ)
    {y : Traj (Fin n → ℝ) (Fin m → ℝ) ℝ} (hy : Alternative p Y y) :
    plainCost p up Z - ((rows p up).map fun r => r.lam * r.fn Z).sum + θ / 2 * controlDist p Z y ^ 2
      ≤ plainCost p up y - ((rows p up).map fun r => r.lam * r.fn y).sum + ε * controlDist p Z y := by
  obtain ⟨w1, w2, w3, w4, w5⟩ := withLast_facts h hs (Z.u p.N) y
  have hd : DerivativesAt p up Z := h.derivativesAt hs ht
  have hy' : Alternative p Z y := ⟨hy.init, fun k hk => by rw [hy.step k hk, ht.t k hk.le, ht.h k hk]⟩
  have := lagrangian_gap hd hK.init hK.step hK.stationary hK.dual hε (hc.from hs hd)
    (fun k hk => by rw [hs.cost k hk.le]; exact hm Z k hk) (w1 _ hy') w5
  rw [lagrangian_rows, lagrangian_rows, w2, w4] at this
  have e : ((rows p up).map fun r => r.lam * r.fn (withLast p (Z.u p.N) y)) = (rows p up).map fun r => r.lam * r.fn y :=
    List.map_congr_left fun r hr => by rw [w3 r hr]
  rw [e] at this
  exact this

/-! ## The step of the multipliers -/

section rows
variable {V : Type} {S : V → Prop} {obj : V → ℝ} {rs : List (Row V ℝ)} {zs z w : V} {star : List ℝ} {κ δ η : ℝ}

theorem zip_fst (hl : star.length = rs.length) (f : Row V ℝ → ℝ) : ((rs.zip star).map fun q => f q.1).sum = (rs.map f).sum := by
  have : ((rs.zip star).map fun q => f q.1) = ((rs.zip star).map Prod.fst).map f := by rw [List.map_map]; rfl
  rw [this, List.map_fst_zip (by rw [hl])]

theorem zip_snd (hl : star.length = rs.length) (f : ℝ → ℝ) : ((rs.zip star).map fun q => f q.2).sum = (star.map f).sum := by
  have : ((rs.zip star).map fun q => f q.2) = ((rs.zip star).map Prod.snd).map f := by rw [List.map_map]; rfl
  rw [this, List.map_snd_zip (by rw [hl])]

/-- An outer iteration with constraint values taken at `w`, near `z`, where `z` nearly minimises the Lagrangian with the new multipliers:
the multipliers come closer to those of any solution. -/
theorem saddle_step (hρ : 0 < ρ) (hpen : ∀ r ∈ rs, r.pen = ρ) (hz : S z) (hs : Saddle S obj rs zs star) (hw : ∀ r ∈ rs, |r.fn w - r.fn z| ≤ κ)
    (l1 : obj z - (rs.map fun r => r.next w * r.fn z).sum + η ≤ obj zs - (rs.map fun r => r.next w * r.fn zs).sum + δ) :
    ((rs.zip star).map fun q => (q.1.next w - q.2) ^ 2).sum + (rs.map fun r => (r.next w - r.lam) ^ 2).sum + 2 * ρ * η
      ≤ gap rs star + 2 * ρ * (δ + κ * ((rs.zip star).map fun q => |q.1.next w - q.2|).sum) := by
  have hmem : ∀ q ∈ rs.zip star, q.1 ∈ rs := fun q hq => (List.of_mem_zip hq).1
  have l2 := hs.lag z hz
  rw [← zip_fst hs.len, ← zip_fst hs.len] at l1
  have hcross : ((rs.zip star).map fun q => (q.2 - q.1.next w) * (q.1.fn z - q.1.fn zs)).sum + η ≤ δ := by
    have e : ((rs.zip star).map fun q => (q.2 - q.1.next w) * (q.1.fn z - q.1.fn zs)).sum
        + (((rs.zip star).map fun q => q.2 * q.1.fn zs).sum + ((rs.zip star).map fun q => q.1.next w * q.1.fn z).sum)
        = ((rs.zip star).map fun q => q.2 * q.1.fn z).sum + ((rs.zip star).map fun q => q.1.next w * q.1.fn zs).sum := by
      rw [← sum_map_add', ← sum_map_add', ← sum_map_add']
      congr 1
      refine List.map_congr_left fun q _ => ?_
      ring
    linarith
  have hsum := sum_map_le (rs.zip star) (fun q => (q.1.next w - q.2) ^ 2 + (q.1.next w - q.1.lam) ^ 2)
    (fun q => (q.1.lam - q.2) ^ 2 + (2 * ρ) * ((q.2 - q.1.next w) * (q.1.fn z - q.1.fn zs) + κ * |q.1.next w - q.2|)) (by
      intro q hq
      have hp := hpen q.1 (hmem q hq)
      have h1 := q.1.next_step (by rw [hp]; exact hρ) w zs q.2 (hs.holds q.1 (hmem q hq)) (hs.sign q hq)
      rw [hp] at h1
      have h2 : (q.2 - q.1.next w) * (q.1.fn w - q.1.fn z) ≤ κ * |q.1.next w - q.2| := by
        refine (le_abs_self _).trans ?_
        rw [abs_mul, mul_comm, abs_sub_comm q.2]
        exact mul_le_mul_of_nonneg_right (hw q.1 (hmem q hq)) (abs_nonneg _)
      have h3 : (q.2 - q.1.next w) * (q.1.fn w - q.1.fn zs)
          ≤ (q.2 - q.1.next w) * (q.1.fn z - q.1.fn zs) + κ * |q.1.next w - q.2| := by linarith
      have h4 := mul_le_mul_of_nonneg_left h3 (show 0 ≤ 2 * ρ by positivity)
      linarith)
  rw [sum_map_add', sum_map_add', sum_map_mul', sum_map_add', sum_map_mul', zip_fst hs.len fun r => (r.next w - r.lam) ^ 2] at hsum
  have := mul_le_mul_of_nonneg_left hcross (show 0 ≤ 2 * ρ by positivity)
  unfold gap
  linarith

/-- The objective after it. -/
theorem saddle_objective (hρ : 0 < ρ) (hpen : ∀ r ∈ rs, r.pen = ρ) (hz : S z) (hs : Saddle S obj rs zs star) (hw : ∀ r ∈ rs, |r.fn w - r.fn z| ≤ κ)
    (hη : 0 ≤ η) {ν : ℝ} (hν : ∀ r ∈ rs, r.viol w ≤ ν)
    (l1 : obj z - (rs.map fun r => r.next w * r.fn z).sum + η ≤ obj zs - (rs.map fun r => r.next w * r.fn zs).sum + δ) :
    obj z ≤ obj zs + (rs.map fun r => r.lam ^ 2).sum / (2 * ρ) + δ + κ * (rs.map fun r => |r.next w|).sum ∧
    obj zs ≤ obj z + (ν + κ) * (star.map (|·|)).sum := by
  constructor
  · have h1 : 0 ≤ (rs.map fun r => r.next w * r.fn zs).sum := by
      refine sum_map_nonneg _ _ fun r hr => ?_
      have := hs.holds r hr
      obtain ⟨k, fn, lam, pen⟩ := r
      cases k
      · simp only [Row.Holds] at this
        show 0 ≤ _ * fn zs
        rw [this, mul_zero]
      · exact mul_nonneg_of_nonpos_of_nonpos (min_le_left _ _) this
    have h2 := sum_map_le rs (fun r => r.next w * r.fn z) (fun r => (1 / (2 * ρ)) * r.lam ^ 2 + κ * |r.next w|) (by
      intro r hr
      have hp := hpen r hr
      have h3 : r.next w * (r.fn z - r.fn w) ≤ κ * |r.next w| := by
        refine (le_abs_self _).trans ?_
        rw [abs_mul, mul_comm, abs_sub_comm (r.fn z)]
        exact mul_le_mul_of_nonneg_right (hw r hr) (abs_nonneg _)
      have h4 : r.next w * r.fn w ≤ 1 / (2 * ρ) * r.lam ^ 2 := by
        rw [one_div, inv_mul_eq_div, le_div_iff₀ (by positivity)]
        obtain ⟨k, fn, lam, pen⟩ := r
        simp only at hp
        subst hp
        cases k
        · simp only [Row.next]
          nlinarith [sq_nonneg (lam - pen * fn w), sq_nonneg (pen * fn w)]
        · simp only [Row.next]
          rcases le_total (lam - pen * fn w) 0 with h | h
          · rw [min_eq_right h]
            nlinarith [sq_nonneg (lam - pen * fn w), sq_nonneg (pen * fn w)]
          · rw [min_eq_left h]
            nlinarith [sq_nonneg lam]
      linarith)
    rw [sum_map_add', sum_map_mul', sum_map_mul', one_div, inv_mul_eq_div] at h2
    linarith
  · have h1 := hs.lag z hz
    have h2 : ((rs.zip star).map fun q => q.2 * q.1.fn zs).sum = 0 := by
      refine List.sum_eq_zero fun a ha => ?_
      obtain ⟨q, hq, rfl⟩ := List.mem_map.mp ha
      have hh := hs.holds q.1 (List.of_mem_zip hq).1
      have hg := hs.sign q hq
      obtain ⟨⟨k, fn, lam, pen⟩, l⟩ := q
      cases k
      · simp only [Row.Holds] at hh
        show l * fn zs = 0
        rw [hh, mul_zero]
      · exact (hg rfl).2
    have h3 := sum_map_le (rs.zip star) (fun q => -1 * (q.2 * q.1.fn z)) (fun q => (ν + κ) * |q.2|) (by
      intro q hq
      have hr := (List.of_mem_zip hq).1
      have hv := hν q.1 hr
      have hk := abs_le.mp (hw q.1 hr)
      have hg := hs.sign q hq
      obtain ⟨⟨k, fn, lam, pen⟩, l⟩ := q
      cases k
      · simp only [Row.viol, compViolation] at hv hk ⊢
        have hv := abs_le.mp hv
        have : |fn z| ≤ ν + κ := abs_le.mpr ⟨by linarith, by linarith⟩
        have h5 : -1 * (l * fn z) ≤ |l| * |fn z| := by rw [← abs_mul]; linarith [neg_abs_le (l * fn z)]
        have := mul_le_mul_of_nonneg_left this (abs_nonneg l)
        linarith
      · simp only [Row.viol, compViolation] at hv hk ⊢
        have hl := (hg rfl).1
        simp only at hl
        rw [abs_of_nonpos hl]
        have := (le_max_right 0 (fn w)).trans hv
        nlinarith)
    rw [sum_map_mul', sum_map_mul', zip_snd hs.len fun a => |a|] at h3
    linarith

end rows

end Altro.Props
