import Verif.Spec.Convex
import Mathlib.Tactic.Linarith
import Mathlib.Tactic.Ring
import Mathlib.Tactic.FieldSimp
import Mathlib.Tactic.Positivity
import Mathlib.Algebra.Order.BigOperators.Group.List

/-!
# One step of the method of multipliers on a convex problem
-/

namespace Altro.Spec
variable {K : Type} [Field K] [LinearOrder K] [IsStrictOrderedRing K] {V : Type}

/-! ## Scalars -/

theorem eqTerm_seg (ρ l a b t : K) : eqTerm ρ l ((1 - t) * a + t * b)
    = eqTerm ρ l a - t * ((l - ρ * a) * (b - a)) + t ^ 2 * (ρ / 2 * (b - a) ^ 2) := by
  unfold eqTerm; ring

theorem min_sq_le (y y' : K) : (min 0 y') ^ 2 ≤ (min 0 y) ^ 2 + 2 * min 0 y * (y' - y) + (y' - y) ^ 2 := by
  rcases le_total y 0 with h | h <;> rcases le_total y' 0 with h' | h'
  · rw [min_eq_right h, min_eq_right h']; nlinarith
  · rw [min_eq_right h, min_eq_left h']; nlinarith [sq_nonneg y']
  · rw [min_eq_left h, min_eq_right h']; nlinarith
  · rw [min_eq_left h, min_eq_left h']; nlinarith [sq_nonneg (y' - y)]

theorem ineqTerm_eq (ρ l c : K) (hρ : 0 < ρ) : ineqTerm ρ l c = ((min 0 (l - ρ * c)) ^ 2 - l ^ 2) / (2 * ρ) := by
  unfold ineqTerm
  split
  · rename_i h
    rw [min_eq_right h]
    field_simp
    ring
  · rename_i h
    rw [min_eq_left (not_le.mp h).le]
    field_simp
    ring

theorem ineqTerm_mono (ρ l : K) (hρ : 0 < ρ) {c c' : K} (h : c ≤ c') : ineqTerm ρ l c ≤ ineqTerm ρ l c' := by
  rw [ineqTerm_eq _ _ _ hρ, ineqTerm_eq _ _ _ hρ]
  have h1 : l - ρ * c' ≤ l - ρ * c := by nlinarith
  have h2 : min 0 (l - ρ * c') ≤ min 0 (l - ρ * c) := min_le_min le_rfl h1
  have h3 : min 0 (l - ρ * c) ≤ 0 := min_le_left _ _
  have h4 : (min 0 (l - ρ * c)) ^ 2 ≤ (min 0 (l - ρ * c')) ^ 2 := by nlinarith
  exact div_le_div_of_nonneg_right (by linarith) (by positivity)

theorem ineqTerm_seg (ρ l a b t : K) (hρ : 0 < ρ) : ineqTerm ρ l ((1 - t) * a + t * b)
    ≤ ineqTerm ρ l a - t * (min 0 (l - ρ * a) * (b - a)) + t ^ 2 * (ρ / 2 * (b - a) ^ 2) := by
  rw [ineqTerm_eq _ _ _ hρ, ineqTerm_eq _ _ _ hρ]
  have := min_sq_le (l - ρ * a) (l - ρ * ((1 - t) * a + t * b))
  have e : l - ρ * ((1 - t) * a + t * b) - (l - ρ * a) = -(ρ * t * (b - a)) := by ring
  rw [e] at this
  rw [div_le_iff₀ (by positivity)]
  have e2 : ((min 0 (l - ρ * a) ^ 2 - l ^ 2) / (2 * ρ) - t * (min 0 (l - ρ * a) * (b - a))
      + t ^ 2 * (ρ / 2 * (b - a) ^ 2)) * (2 * ρ)
      = min 0 (l - ρ * a) ^ 2 - l ^ 2 + 2 * min 0 (l - ρ * a) * -(ρ * t * (b - a)) + (-(ρ * t * (b - a))) ^ 2 := by
    field_simp
    ring
  rw [e2]
  linarith

/-- The term of a row at a point between two others. -/
theorem Row.term_seg (r : Row V K) (hρ : 0 < r.pen) {z y w : V} {t : K} (ht : 0 ≤ t)
    (heq : r.kind = .equality → r.fn w = (1 - t) * r.fn z + t * r.fn y)
    (hineq : r.kind = .inequality → r.fn w ≤ (1 - t) * r.fn z + t * r.fn y) :
    r.term w ≤ r.term z - t * (r.next z * (r.fn y - r.fn z)) + t ^ 2 * (r.pen / 2 * (r.fn y - r.fn z) ^ 2) := by
  obtain ⟨κ, fn, lam, pen⟩ := r
  cases κ
  · simp only [Row.term, Row.next]
    have e : fn w = (1 - t) * fn z + t * fn y := heq rfl
    rw [e, eqTerm_seg]
  · simp only [Row.term, Row.next]
    exact (ineqTerm_mono _ _ hρ (hineq rfl)).trans (ineqTerm_seg _ _ _ _ _ hρ)

/-- The multiplier update is a projection step. -/
theorem Row.next_step (r : Row V K) (hρ : 0 < r.pen) (z zs : V) (μ : K) (hz : r.Holds zs)
    (hs : r.kind = .inequality → μ ≤ 0 ∧ μ * r.fn zs = 0) :
    (r.next z - μ) ^ 2 ≤ (r.lam - μ) ^ 2 - (r.next z - r.lam) ^ 2 + 2 * r.pen * ((μ - r.next z) * (r.fn z - r.fn zs)) := by
  obtain ⟨κ, fn, lam, pen⟩ := r
  cases κ
  · simp only [Row.next, Row.Holds] at *
    rw [hz]
    apply le_of_eq
    ring
  · simp only [Row.next, Row.Holds] at *
    obtain ⟨h1, h2⟩ := hs trivial
    rcases le_total (lam - pen * fn z) 0 with h | h
    · rw [min_eq_right h]
      have h3 : 0 ≤ pen * ((lam - pen * fn z) * fn zs) := mul_nonneg hρ.le (mul_nonneg_of_nonpos_of_nonpos h hz)
      nlinarith
    · rw [min_eq_left h]
      have h3 : μ * (lam - pen * fn z) ≤ 0 := mul_nonpos_of_nonpos_of_nonneg h1 h
      have h4 : pen * (μ * fn zs) = 0 := by rw [h2, mul_zero]
      nlinarith

/-- The violation is at most the change of the multiplier divided by the penalty. -/
theorem Row.viol_le (r : Row V K) (hρ : 0 < r.pen) (hl : r.kind = .inequality → r.lam ≤ 0) (z : V) :
    (r.pen * r.viol z) ^ 2 ≤ (r.next z - r.lam) ^ 2 := by
  obtain ⟨κ, fn, lam, pen⟩ := r
  cases κ
  · simp only [Row.next, Row.viol, compViolation]
    have : (pen * |fn z|) ^ 2 = (pen * fn z) ^ 2 := by rw [mul_pow, mul_pow, sq_abs]
    rw [this]
    apply le_of_eq
    ring
  · simp only [Row.next, Row.viol, compViolation] at *
    have hl := hl trivial
    rcases le_total (fn z) 0 with h | h
    · rw [max_eq_left h]
      have := sq_nonneg (min 0 (lam - pen * fn z) - lam)
      simpa using this
    · rw [max_eq_right h]
      have h1 : 0 ≤ pen * fn z := mul_nonneg hρ.le h
      rw [min_eq_right (by linarith)]
      apply le_of_eq
      ring

/-! ## Sums over the rows -/

theorem sum_map_le {α : Type} (l : List α) (f g : α → K) (h : ∀ a ∈ l, f a ≤ g a) : (l.map f).sum ≤ (l.map g).sum :=
  List.sum_le_sum h

theorem sum_map_add' {α : Type} (l : List α) (f g : α → K) :
    (l.map fun a => f a + g a).sum = (l.map f).sum + (l.map g).sum := by
  induction l with
  | nil => simp
  | cons a l ih => simp only [List.map_cons, List.sum_cons, ih]; ring

theorem sum_map_mul' {α : Type} (l : List α) (c : K) (f : α → K) : (l.map fun a => c * f a).sum = c * (l.map f).sum := by
  induction l with
  | nil => simp
  | cons a l ih => simp only [List.map_cons, List.sum_cons, ih]; ring

theorem sum_map_nonneg {α : Type} (l : List α) (f : α → K) (h : ∀ a ∈ l, 0 ≤ f a) : 0 ≤ (l.map f).sum := by
  have := sum_map_le l (fun _ => (0 : K)) f h
  simpa using this

theorem le_sum_map {α : Type} (l : List α) (f : α → K) (h : ∀ a ∈ l, 0 ≤ f a) {a : α} (ha : a ∈ l) :
    f a ≤ (l.map f).sum := by
  induction l with
  | nil => cases ha
  | cons b l ih =>
    simp only [List.map_cons, List.sum_cons]
    have h0 := h b (by simp)
    have h1 := sum_map_nonneg l f fun a ha => h a (by simp [ha])
    rcases List.mem_cons.mp ha with rfl | ha
    · linarith
    · have := ih (fun a ha => h a (by simp [ha])) ha
      linarith

variable {S : V → Prop} {seg : K → V → V → V} {obj : V → K} {rs : List (Row V K)}

/-- A near minimiser of the augmented Lagrangian nearly minimises the Lagrangian with the updated multipliers. -/
theorem Convex.lagrangian_near (hc : Convex S seg obj rs) (hpen : ∀ r ∈ rs, 0 < r.pen) {z : V} (hz : S z) {ε : K}
    (hmin : ∀ y, S y → obj z + (rs.map fun r => r.term z).sum ≤ obj y + (rs.map fun r => r.term y).sum + ε)
    (y : V) (hy : S y) (t : K) (h0 : 0 < t) (h1 : t ≤ 1) :
    obj z - (rs.map fun r => r.next z * r.fn z).sum ≤ obj y - (rs.map fun r => r.next z * r.fn y).sum
      + (ε / t + t * (rs.map fun r => r.pen / 2 * (r.fn y - r.fn z) ^ 2).sum) := by
  set Q := (rs.map fun r => r.pen / 2 * (r.fn y - r.fn z) ^ 2).sum with hQ
  set G := (rs.map fun r => r.next z * (r.fn y - r.fn z)).sum with hG
  have hGe : G = (rs.map fun r => r.next z * r.fn y).sum - (rs.map fun r => r.next z * r.fn z).sum := by
    rw [hG, eq_sub_iff_add_eq, ← sum_map_add']
    congr 1
    refine List.map_congr_left fun r _ => ?_
    ring
  have a1 := hmin (seg t z y) (hc.mem z y t hz hy h0.le h1)
  have a2 := hc.obj z y t hz hy h0.le h1
  have a3 := sum_map_le rs (fun r => r.term (seg t z y))
    (fun r => r.term z - t * (r.next z * (r.fn y - r.fn z)) + t ^ 2 * (r.pen / 2 * (r.fn y - r.fn z) ^ 2))
    fun r hr => r.term_seg (hpen r hr) h0.le (fun e => hc.eq r hr e z y t hz hy h0.le h1)
      (fun e => hc.ineq r hr e z y t hz hy h0.le h1)
  have a4 : (rs.map fun r => r.term z - t * (r.next z * (r.fn y - r.fn z))
      + t ^ 2 * (r.pen / 2 * (r.fn y - r.fn z) ^ 2)).sum = (rs.map fun r => r.term z).sum - t * G + t ^ 2 * Q := by
    rw [hG, hQ, ← sum_map_mul', ← sum_map_mul']
    rw [sub_eq_add_neg, show -(rs.map fun r => t * (r.next z * (r.fn y - r.fn z))).sum
      = (rs.map fun r => -(t * (r.next z * (r.fn y - r.fn z)))).sum by
        rw [show (fun r : Row V K => -(t * (r.next z * (r.fn y - r.fn z))))
          = fun r => (-1) * (t * (r.next z * (r.fn y - r.fn z))) by funext r; ring, sum_map_mul' rs (-1)]; ring,
      ← sum_map_add', ← sum_map_add']
    congr 1
    refine List.map_congr_left fun r _ => ?_
    ring
  rw [a4] at a3
  have e : t * (ε / t + t * Q) = ε + t * (t * Q) := by field_simp
  have : t * (obj z - obj y + G) ≤ t * (ε / t + t * Q) := by rw [e]; nlinarith
  have := le_of_mul_le_mul_left this h0
  linarith

/-- A minimiser of the augmented Lagrangian minimises the Lagrangian with the updated multipliers. -/
theorem Convex.lagrangian_min (hc : Convex S seg obj rs) (hpen : ∀ r ∈ rs, 0 < r.pen) {z : V} (hz : S z)
    (hmin : ∀ y, S y → obj z + (rs.map fun r => r.term z).sum ≤ obj y + (rs.map fun r => r.term y).sum)
    (y : V) (hy : S y) :
    obj z - (rs.map fun r => r.next z * r.fn z).sum ≤ obj y - (rs.map fun r => r.next z * r.fn y).sum := by
  have key := hc.lagrangian_near hpen hz (ε := 0) (fun y hy => by rw [add_zero]; exact hmin y hy) y hy
  simp only [zero_div, zero_add] at key
  have hQ0 : 0 ≤ (rs.map fun r => r.pen / 2 * (r.fn y - r.fn z) ^ 2).sum :=
    sum_map_nonneg _ _ fun r hr => by have := hpen r hr; positivity
  generalize (rs.map fun r => r.pen / 2 * (r.fn y - r.fn z) ^ 2).sum = Q at key hQ0
  by_contra hpos
  generalize obj z - (rs.map fun r => r.next z * r.fn z).sum = a at key hpos
  generalize obj y - (rs.map fun r => r.next z * r.fn y).sum = b at key hpos
  have hd : 0 < a - b := by linarith
  have hden : 0 < (a - b) + Q := by linarith
  have := key ((a - b) / ((a - b) + Q)) (by positivity) (by rw [div_le_one hden]; linarith)
  rw [div_mul_eq_mul_div, ← sub_le_iff_le_add', le_div_iff₀ hden] at this
  nlinarith

/-- Every step of the method brings the multipliers closer to any solution's, by at least the squared length of the step, measured
with weights `1/ρ`, up to the error of the minimisation. -/
theorem Saddle.step_weighted (hpen : ∀ r ∈ rs, 0 < r.pen) {z : V} (hz : S z) {zs : V} {star : List K} (hs : Saddle S obj rs zs star)
    {δ : K} (l1 : obj z - (rs.map fun r => r.next z * r.fn z).sum ≤ obj zs - (rs.map fun r => r.next z * r.fn zs).sum + δ) :
    ((rs.zip star).map fun q => (q.1.next z - q.2) ^ 2 / q.1.pen).sum
      + ((rs.zip star).map fun q => (q.1.next z - q.1.lam) ^ 2 / q.1.pen).sum
      ≤ ((rs.zip star).map fun q => (q.1.lam - q.2) ^ 2 / q.1.pen).sum + 2 * δ := by
  have hmem : ∀ q ∈ rs.zip star, q.1 ∈ rs := fun q hq => (List.of_mem_zip hq).1
  have hzip : ∀ f : Row V K → K, ((rs.zip star).map fun q => f q.1).sum = (rs.map f).sum := by
    intro f
    have : ((rs.zip star).map fun q => f q.1) = ((rs.zip star).map Prod.fst).map f := by rw [List.map_map]; rfl
    rw [this, List.map_fst_zip (by rw [hs.len])]
  have l2 := hs.lag z hz
  rw [← hzip, ← hzip] at l1
  have hcross : ((rs.zip star).map fun q => (q.2 - q.1.next z) * (q.1.fn z - q.1.fn zs)).sum ≤ δ := by
    have e : ((rs.zip star).map fun q => (q.2 - q.1.next z) * (q.1.fn z - q.1.fn zs)).sum
        + (((rs.zip star).map fun q => q.2 * q.1.fn zs).sum + ((rs.zip star).map fun q => q.1.next z * q.1.fn z).sum)
        = ((rs.zip star).map fun q => q.2 * q.1.fn z).sum + ((rs.zip star).map fun q => q.1.next z * q.1.fn zs).sum := by
      rw [← sum_map_add', ← sum_map_add', ← sum_map_add']
      congr 1
      refine List.map_congr_left fun q _ => ?_
      ring
    linarith
  have hsum := sum_map_le (rs.zip star) (fun q => (q.1.next z - q.2) ^ 2 / q.1.pen + (q.1.next z - q.1.lam) ^ 2 / q.1.pen)
    (fun q => (q.1.lam - q.2) ^ 2 / q.1.pen + 2 * ((q.2 - q.1.next z) * (q.1.fn z - q.1.fn zs))) (by
      intro q hq
      have hp := hpen q.1 (hmem q hq)
      have := q.1.next_step hp z zs q.2 (hs.holds q.1 (hmem q hq)) (hs.sign q hq)
      rw [← add_div, div_add' _ _ _ hp.ne']
      refine div_le_div_of_nonneg_right ?_ hp.le
      linarith)
  rw [sum_map_add', sum_map_add', sum_map_mul' _ 2] at hsum
  linarith

/-- With one penalty for all rows the weights can be left out. -/
theorem Saddle.step_uniform {ρ : K} (hρ : 0 < ρ) (hpen : ∀ r ∈ rs, r.pen = ρ) {z : V} (hz : S z)
    {zs : V} {star : List K} (hs : Saddle S obj rs zs star)
    {δ : K} (l1 : obj z - (rs.map fun r => r.next z * r.fn z).sum ≤ obj zs - (rs.map fun r => r.next z * r.fn zs).sum + δ) :
    ((rs.zip star).map fun q => (q.1.next z - q.2) ^ 2).sum + (rs.map fun r => (r.next z - r.lam) ^ 2).sum
      ≤ gap rs star + 2 * ρ * δ := by
  have h := hs.step_weighted (fun r hr => by rw [hpen r hr]; exact hρ) hz l1
  have hmem : ∀ q ∈ rs.zip star, q.1 ∈ rs := fun q hq => (List.of_mem_zip hq).1
  have e : ∀ f : Row V K × K → K, ((rs.zip star).map fun q => f q / q.1.pen).sum = ρ⁻¹ * ((rs.zip star).map f).sum := by
    intro f
    rw [← sum_map_mul']
    congr 1
    refine List.map_congr_left fun q hq => ?_
    rw [hpen q.1 (hmem q hq), div_eq_inv_mul]
  rw [e, e, e, ← mul_add] at h
  have h' : ρ * (ρ⁻¹ * (((rs.zip star).map fun q => (q.1.next z - q.2) ^ 2).sum
      + ((rs.zip star).map fun q => (q.1.next z - q.1.lam) ^ 2).sum))
      ≤ ρ * (ρ⁻¹ * ((rs.zip star).map fun q => (q.1.lam - q.2) ^ 2).sum + 2 * δ) := mul_le_mul_of_nonneg_left h hρ.le
  rw [mul_inv_cancel_left₀ hρ.ne', mul_add, mul_inv_cancel_left₀ hρ.ne', ← mul_assoc, mul_comm ρ 2] at h'
  have : ((rs.zip star).map fun q => (q.1.next z - q.1.lam) ^ 2).sum = (rs.map fun r => (r.next z - r.lam) ^ 2).sum := by
    have : ((rs.zip star).map fun q => (q.1.next z - q.1.lam) ^ 2)
        = ((rs.zip star).map Prod.fst).map fun r => (r.next z - r.lam) ^ 2 := by rw [List.map_map]; rfl
    rw [this, List.map_fst_zip (by rw [hs.len])]
  rw [this] at h'
  exact h'

theorem Convex.step_uniform (hc : Convex S seg obj rs) {ρ : K} (hρ : 0 < ρ) (hpen : ∀ r ∈ rs, r.pen = ρ) {z : V} (hz : S z)
    (hmin : ∀ y, S y → obj z + (rs.map fun r => r.term z).sum ≤ obj y + (rs.map fun r => r.term y).sum)
    {zs : V} {star : List K} (hs : Saddle S obj rs zs star) :
    ((rs.zip star).map fun q => (q.1.next z - q.2) ^ 2).sum + (rs.map fun r => (r.next z - r.lam) ^ 2).sum
      ≤ gap rs star := by
  have := hs.step_uniform hρ hpen hz (δ := 0) (by
    rw [add_zero]; exact hc.lagrangian_min (fun r hr => by rw [hpen r hr]; exact hρ) hz hmin zs hs.mem)
  rwa [mul_zero, add_zero] at this

end Altro.Spec
