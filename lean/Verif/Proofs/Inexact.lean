import Verif.Proofs.Proximal

/-!
# The method of multipliers with inexact minimisations of a strongly convex problem
-/

namespace Altro.Spec
variable {K : Type} [Field K] [LinearOrder K] [IsStrictOrderedRing K] {V : Type}

/-! ## One row -/

theorem Row.term_nonpos (r : Row V K) (hρ : 0 < r.pen) (hl : r.kind = .inequality → r.lam ≤ 0) {z : V} (hz : r.Holds z) :
    r.term z ≤ 0 := by
  obtain ⟨κ, fn, lam, pen⟩ := r
  cases κ
  · simp only [Row.Holds, Row.term, eqTerm] at *
    rw [hz]; simp
  · simp only [Row.Holds, Row.term] at *
    have hl := hl trivial
    rw [ineqTerm_eq _ _ _ hρ, div_nonpos_iff]
    refine .inr ⟨?_, by linarith⟩
    have h3 : lam ≤ min 0 (lam - pen * fn z) := le_min hl (by nlinarith)
    have h4 : min 0 (lam - pen * fn z) ≤ 0 := min_le_left _ _
    nlinarith

/-- The augmented term is at least the Lagrangian term of any other admissible multiplier, up to the squared distance of the two. -/
theorem Row.term_lower (r : Row V K) (hρ : 0 < r.pen) (μ : K) (hμ : r.kind = .inequality → μ ≤ 0) (z : V) :
    -(μ * r.fn z) - (r.lam - μ) ^ 2 / (2 * r.pen) ≤ r.term z := by
  obtain ⟨κ, fn, lam, pen⟩ := r
  have h2 : (0 : K) < 2 * pen := by simp only at hρ; linarith
  cases κ
  · simp only [Row.term, eqTerm] at *
    rw [sub_le_iff_le_add, ← sub_le_iff_le_add', le_div_iff₀ h2]
    nlinarith [sq_nonneg (pen * fn z - (lam - μ))]
  · simp only [Row.term] at *
    have hμ := hμ trivial
    rw [ineqTerm_eq _ _ _ hρ, le_div_iff₀ h2, sub_mul, div_mul_cancel₀ _ h2.ne']
    rcases le_total (lam - pen * fn z) 0 with h | h
    · rw [min_eq_right h]
      nlinarith [sq_nonneg (lam - pen * fn z - μ)]
    · rw [min_eq_left h]
      nlinarith [mul_nonpos_of_nonpos_of_nonneg hμ h, sq_nonneg μ]

theorem Row.term_upper (r : Row V K) (hρ : 0 < r.pen) (z : V) :
    r.term z ≤ r.lam ^ 2 / (2 * r.pen) + r.pen * r.fn z ^ 2 := by
  obtain ⟨κ, fn, lam, pen⟩ := r
  have h2 : (0 : K) < 2 * pen := by simp only at hρ; linarith
  cases κ
  · simp only [Row.term, eqTerm] at *
    rw [← sub_le_iff_le_add, le_div_iff₀ h2]
    nlinarith [sq_nonneg (pen * fn z + lam)]
  · simp only [Row.term] at *
    rw [ineqTerm_eq _ _ _ hρ, ← sub_le_iff_le_add, sub_le_iff_le_add', ← sub_le_iff_le_add, ← sub_div, div_le_iff₀ h2]
    have h3 : (min 0 (lam - pen * fn z)) ^ 2 ≤ (lam - pen * fn z) ^ 2 := by
      rcases le_total (lam - pen * fn z) 0 with h | h
      · rw [min_eq_right h]
      · rw [min_eq_left h]; nlinarith
    nlinarith [sq_nonneg (pen * fn z + lam)]

/-! ## The problem -/

/-- A strongly convex problem with Lipschitz constraints, distances measured by `dist`. -/
structure Strong (S : V → Prop) (seg : K → V → V → V) (J : V → K) (rows : List (Row V K)) (dist : V → V → K) (μ A : K) : Prop
    extends Convex S seg J rows where
  mid : ∀ x y, S x → S y → J (seg (1 / 2) x y) ≤ 1 / 2 * J x + 1 / 2 * J y - μ / 8 * dist x y
  lip : ∀ x y, S x → S y → (rows.map fun r => (r.fn x - r.fn y) ^ 2).sum ≤ A * dist x y

variable {S : V → Prop} {seg : K → V → V → V} {obj : V → K} {rs : List (Row V K)} {dist : V → V → K} {μ A ρ ε : K} {z zs : V}
  {star : List K}

theorem Saddle.zip_fst (hs : Saddle S obj rs zs star) (f : Row V K → K) :
    ((rs.zip star).map fun q => f q.1).sum = (rs.map f).sum := by
  have : ((rs.zip star).map fun q => f q.1) = ((rs.zip star).map Prod.fst).map f := by rw [List.map_map]; rfl
  rw [this, List.map_fst_zip (by rw [hs.len])]

theorem Saddle.zip_snd (hs : Saddle S obj rs zs star) (f : K → K) :
    ((rs.zip star).map fun q => f q.2).sum = (star.map f).sum := by
  have : ((rs.zip star).map fun q => f q.2) = ((rs.zip star).map Prod.snd).map f := by rw [List.map_map]; rfl
  rw [this, List.map_snd_zip (by rw [hs.len])]

/-- Complementarity: the multiplier terms vanish at the solution. -/
theorem Saddle.complementary (hs : Saddle S obj rs zs star) : ((rs.zip star).map fun q => q.2 * q.1.fn zs).sum = 0 := by
  have : ((rs.zip star).map fun q => q.2 * q.1.fn zs) = (rs.zip star).map fun _ => (0 : K) := by
    refine List.map_congr_left fun q hq => ?_
    have hh := hs.holds q.1 (List.of_mem_zip hq).1
    have hsg := hs.sign q hq
    obtain ⟨⟨κ, fn, lam, pen⟩, μ⟩ := q
    cases κ
    · simp only [Row.Holds] at hh ⊢
      rw [hh, mul_zero]
    · exact (hsg rfl).2
  rw [this]; simp

/-- Distance from the solution, by the Lagrangian. -/
theorem Saddle.lag_strong (hs : Saddle S obj rs zs star) (hc : Strong S seg obj rs dist μ A) {y : V} (hy : S y) :
    obj zs + μ / 4 * dist zs y ≤ obj y - ((rs.zip star).map fun q => q.2 * q.1.fn y).sum := by
  have h0 : (0 : K) ≤ 1 / 2 := by positivity
  have h1 : (1 / 2 : K) ≤ 1 := by norm_num
  have a1 := hs.lag _ (hc.mem zs y (1 / 2) hs.mem hy h0 h1)
  have a2 := hc.mid zs y hs.mem hy
  have a3 := sum_map_le (rs.zip star) (fun q => -(q.2 * q.1.fn (seg (1 / 2) zs y)))
    (fun q => -(1 / 2) * (q.2 * q.1.fn zs) + -(1 / 2) * (q.2 * q.1.fn y)) (by
      intro q hq
      have hr := (List.of_mem_zip hq).1
      have hsg := hs.sign q hq
      cases hk : q.1.kind
      · rw [hc.eq q.1 hr hk zs y (1 / 2) hs.mem hy h0 h1]
        apply le_of_eq
        ring
      · have h5 := hc.ineq q.1 hr hk zs y (1 / 2) hs.mem hy h0 h1
        have h6 := mul_le_mul_of_nonpos_left h5 (hsg hk).1
        linarith)
  rw [show (fun q : Row V K × K => -(q.2 * q.1.fn (seg (1 / 2) zs y))) = fun q => (-1) * (q.2 * q.1.fn (seg (1 / 2) zs y)) by
      funext q; ring, sum_map_mul' _ (-1), sum_map_add', sum_map_mul' _ (-(1 / 2)), sum_map_mul' _ (-(1 / 2)), hs.complementary] at a3
  rw [hs.complementary] at a1
  linarith

/-- ... so by the augmented cost. -/
theorem Saddle.augmented_lower (hs : Saddle S obj rs zs star) (hc : Strong S seg obj rs dist μ A) (hρ : 0 < ρ)
    (hpen : ∀ r ∈ rs, r.pen = ρ) {y : V} (hy : S y) :
    obj zs + μ / 4 * dist zs y ≤ obj y + (rs.map fun r => r.term y).sum + gap rs star / (2 * ρ) := by
  have h1 := hs.lag_strong hc hy
  have h2 := sum_map_le (rs.zip star) (fun q => (-1) * (q.2 * q.1.fn y) + -(1 / (2 * ρ)) * (q.1.lam - q.2) ^ 2) (fun q => q.1.term y) (by
    intro q hq
    have hr := (List.of_mem_zip hq).1
    have := q.1.term_lower (by rw [hpen _ hr]; exact hρ) q.2 (fun h => (hs.sign q hq h).1) y
    rw [hpen _ hr, div_eq_mul_inv] at this
    rw [one_div]
    linarith)
  rw [sum_map_add', sum_map_mul' _ (-1), sum_map_mul', hs.zip_fst fun r => r.term y] at h2
  have e : gap rs star / (2 * ρ) = 1 / (2 * ρ) * ((rs.zip star).map fun q => (q.1.lam - q.2) ^ 2).sum := by
    unfold gap; ring
  rw [e]
  linarith

/-- At the solution the constraint terms do not count. -/
theorem Saddle.augmented_at (hs : Saddle S obj rs zs star) (hρ : 0 < ρ) (hpen : ∀ r ∈ rs, r.pen = ρ)
    (hlam : ∀ r ∈ rs, r.kind = .inequality → r.lam ≤ 0) : (rs.map fun r => r.term zs).sum ≤ 0 := by
  have := sum_map_le rs (fun r => r.term zs) (fun _ => 0) fun r hr =>
    r.term_nonpos (by rw [hpen r hr]; exact hρ) (hlam r hr) (hs.holds r hr)
  simpa using this

/-- How far a near minimiser can be from the solution. -/
theorem Saddle.near_dist (hs : Saddle S obj rs zs star) (hc : Strong S seg obj rs dist μ A) (hρ : 0 < ρ)
    (hpen : ∀ r ∈ rs, r.pen = ρ) (hlam : ∀ r ∈ rs, r.kind = .inequality → r.lam ≤ 0) (hz : S z)
    (hmin : ∀ y, S y → obj z + (rs.map fun r => r.term z).sum ≤ obj y + (rs.map fun r => r.term y).sum + ε) :
    μ / 4 * dist zs z ≤ gap rs star / (2 * ρ) + ε := by
  have h1 := hs.augmented_lower hc hρ hpen hz
  have h2 := hs.augmented_at hρ hpen hlam
  have h3 := hmin zs hs.mem
  linarith

/-- One step with an inexact minimisation; `t` is arbitrary. -/
theorem Saddle.near_step (hs : Saddle S obj rs zs star) (hc : Strong S seg obj rs dist μ A) (hρ : 0 < ρ)
    (hpen : ∀ r ∈ rs, r.pen = ρ) (hz : S z)
    (hmin : ∀ y, S y → obj z + (rs.map fun r => r.term z).sum ≤ obj y + (rs.map fun r => r.term y).sum + ε)
    {t : K} (h0 : 0 < t) (h1 : t ≤ 1) :
    ((rs.zip star).map fun q => (q.1.next z - q.2) ^ 2).sum + (rs.map fun r => (r.next z - r.lam) ^ 2).sum
      ≤ gap rs star + 2 * ρ * (ε / t + t * (ρ / 2 * (A * dist zs z))) := by
  refine hs.step_uniform hρ hpen hz ?_
  have h := hc.lagrangian_near (fun r hr => by rw [hpen r hr]; exact hρ) hz hmin zs hs.mem t h0 h1
  have e : (rs.map fun r => r.pen / 2 * (r.fn zs - r.fn z) ^ 2).sum = ρ / 2 * (rs.map fun r => (r.fn zs - r.fn z) ^ 2).sum := by
    rw [← sum_map_mul']
    congr 1
    refine List.map_congr_left fun r hr => ?_
    rw [hpen r hr]
  rw [e] at h
  have h2 := mul_le_mul_of_nonneg_left (mul_le_mul_of_nonneg_left (hc.lip zs z hs.mem hz) (by positivity : (0 : K) ≤ ρ / 2)) h0.le
  linarith

/-- Upper bound of the augmented cost. -/
theorem Saddle.augmented_upper (hs : Saddle S obj rs zs star) (hc : Strong S seg obj rs dist μ A) (hρ : 0 < ρ)
    (hpen : ∀ r ∈ rs, r.pen = ρ) {y : V} (hy : S y) :
    (rs.map fun r => r.term y).sum ≤ (gap rs star + (star.map fun a => a ^ 2).sum) / ρ
      + 2 * ρ * ((rs.map fun r => r.fn zs ^ 2).sum + A * dist zs y) := by
  have h1 := sum_map_le (rs.zip star) (fun q => q.1.term y)
    (fun q => ρ⁻¹ * ((q.1.lam - q.2) ^ 2 + q.2 ^ 2) + 2 * ρ * (q.1.fn zs ^ 2 + (q.1.fn zs - q.1.fn y) ^ 2)) (by
      intro q hq
      have hr := (List.of_mem_zip hq).1
      have h2 := q.1.term_upper (by rw [hpen _ hr]; exact hρ) y
      rw [hpen _ hr] at h2
      have h3 : q.1.lam ^ 2 / (2 * ρ) ≤ ρ⁻¹ * ((q.1.lam - q.2) ^ 2 + q.2 ^ 2) := by
        rw [div_le_iff₀ (by positivity)]
        have e : ρ⁻¹ * ((q.1.lam - q.2) ^ 2 + q.2 ^ 2) * (2 * ρ) = 2 * ((q.1.lam - q.2) ^ 2 + q.2 ^ 2) := by field_simp
        rw [e]
        nlinarith [sq_nonneg (q.1.lam - 2 * q.2)]
      have h4 : ρ * q.1.fn y ^ 2 ≤ 2 * ρ * (q.1.fn zs ^ 2 + (q.1.fn zs - q.1.fn y) ^ 2) := by
        nlinarith [mul_nonneg hρ.le (sq_nonneg (2 * q.1.fn zs - q.1.fn y))]
      linarith)
  rw [sum_map_add', sum_map_mul', sum_map_mul', sum_map_add', sum_map_add', hs.zip_fst fun r => r.term y, hs.zip_fst fun r => r.fn zs ^ 2,
    hs.zip_fst fun r => (r.fn zs - r.fn y) ^ 2, hs.zip_snd fun a => a ^ 2] at h1
  refine h1.trans ?_
  have h2 := mul_le_mul_of_nonneg_left (hc.lip zs y hs.mem hy) (by positivity : (0 : K) ≤ 2 * ρ)
  rw [mul_add, mul_add, div_eq_inv_mul]
  unfold gap
  linarith

end Altro.Spec
