import Verif.Spec.FloatCholesky
import Verif.Props.Cholesky
import Mathlib.Algebra.Order.BigOperators.Ring.Finset
import Mathlib.Algebra.BigOperators.Intervals
import Mathlib.Tactic.Positivity
import Mathlib.Tactic.Linarith
import Mathlib.Tactic.FieldSimp

/-!
# Error analysis of the Cholesky factorization
-/

namespace Altro.Spec
open Finset

/-! ## Sums of products -/

namespace Arrangement

/-- The exact value. -/
def exact : Arrangement → ℝ
  | start a => a
  | term x y _ => -(x * y)
  | add s t => s.exact + t.exact

/-- The sum of the absolute values. -/
def mag : Arrangement → ℝ
  | start a => |a|
  | term x y _ => |x * y|
  | add s t => s.mag + t.mag

def depth : Arrangement → ℕ
  | start _ => 0
  | term _ _ _ => 1
  | add s t => max s.depth t.depth + 1

theorem mag_nonneg (t : Arrangement) : 0 ≤ t.mag := by
  induction t with
  | start a => exact abs_nonneg _
  | term x y f => exact abs_nonneg _
  | add s t hs ht => exact add_nonneg hs ht

theorem exact_le (t : Arrangement) : |t.exact| ≤ t.mag := by
  induction t with
  | start a => exact le_rfl
  | term x y f => exact (abs_neg _).le
  | add s t hs ht => exact (abs_add_le _ _).trans (add_le_add hs ht)

theorem exact_eq (t : Arrangement) : t.exact = t.starts.sum - (t.terms.map fun q => q.1 * q.2).sum := by
  induction t with
  | start a => simp [exact, starts, terms]
  | term x y f => simp [exact, starts, terms]
  | add s t hs ht => simp only [exact, starts, terms, List.sum_append, List.map_append, hs, ht]; ring

theorem mag_eq (t : Arrangement) : t.mag = (t.starts.map fun a => |a|).sum + (t.terms.map fun q => |q.1 * q.2|).sum := by
  induction t with
  | start a => simp [mag, starts, terms]
  | term x y f => simp [mag, starts, terms]
  | add s t hs ht => simp only [mag, starts, terms, List.sum_append, List.map_append, hs, ht]; ring

theorem depth_le (t : Arrangement) : t.depth ≤ t.starts.length + t.terms.length ∧ 1 ≤ t.starts.length + t.terms.length := by
  induction t with
  | start a => simp [depth, starts, terms]
  | term x y f => simp [depth, starts, terms]
  | add s t hs ht => simp only [depth, starts, terms, List.length_append]; omega

theorem eval_err {u : ℝ} {fl : ℝ → ℝ} (hu : 0 ≤ u) (hfl : ∀ x, |fl x - x| ≤ u * |x|) (t : Arrangement) :
    |t.eval fl - t.exact| ≤ ((1 + u) ^ t.depth - 1) * t.mag := by
  induction t with
  | start a => simp [eval, exact, depth]
  | term x y f =>
    simp only [eval, exact, depth, mag]
    cases f with
    | true => simp; positivity
    | false =>
      have := hfl (x * y)
      rw [show -(if false = true then x * y else fl (x * y)) - -(x * y) = -(fl (x * y) - x * y) by simp; ring, abs_neg]
      linarith
  | add s t hs ht =>
    simp only [eval, exact, depth, mag]
    set N := max s.depth t.depth
    have h1 : (1 : ℝ) ≤ 1 + u := by linarith
    have es : (1 + u) ^ s.depth ≤ (1 + u) ^ N := pow_le_pow_right₀ h1 (le_max_left _ _)
    have et : (1 + u) ^ t.depth ≤ (1 + u) ^ N := pow_le_pow_right₀ h1 (le_max_right _ _)
    have hs' : |s.eval fl - s.exact| ≤ ((1 + u) ^ N - 1) * s.mag :=
      hs.trans (mul_le_mul_of_nonneg_right (by linarith) s.mag_nonneg)
    have ht' : |t.eval fl - t.exact| ≤ ((1 + u) ^ N - 1) * t.mag :=
      ht.trans (mul_le_mul_of_nonneg_right (by linarith) t.mag_nonneg)
    have hr := hfl (s.eval fl + t.eval fl)
    have ha : |s.eval fl + t.eval fl| ≤ (1 + u) ^ N * (s.mag + t.mag) := by
      have : s.eval fl + t.eval fl = (s.eval fl - s.exact) + (t.eval fl - t.exact) + (s.exact + t.exact) := by ring
      rw [this]
      refine (abs_add_le _ _).trans ?_
      have := abs_add_le (s.eval fl - s.exact) (t.eval fl - t.exact)
      have := abs_add_le s.exact t.exact
      have := s.exact_le
      have := t.exact_le
      nlinarith
    have : fl (s.eval fl + t.eval fl) - (s.exact + t.exact) = (fl (s.eval fl + t.eval fl) - (s.eval fl + t.eval fl))
        + ((s.eval fl - s.exact) + (t.eval fl - t.exact)) := by ring
    rw [this]
    refine (abs_add_le _ _).trans ?_
    have h2 := abs_add_le (s.eval fl - s.exact) (t.eval fl - t.exact)
    have h3 := mul_le_mul_of_nonneg_left ha hu
    rw [pow_succ]
    nlinarith

end Arrangement

section
variable {u : ℝ} {fl : ℝ → ℝ} {F : Floats}

theorem acc_err (hu : 0 ≤ u) (h : Accurate u fl F) (a : ℝ) (l : List (ℝ × ℝ)) :
    |F.acc a l - (a - (l.map fun q => q.1 * q.2).sum)| ≤
      ((1 + u) ^ (l.length + 1) - 1) * (|a| + (l.map fun q => |q.1 * q.2|).sum) := by
  obtain ⟨t, h1, h2, h3⟩ := h.acc a l
  have e1 : t.exact = a - (l.map fun q => q.1 * q.2).sum := by
    rw [t.exact_eq, h1, (h2.map fun q => q.1 * q.2).sum_eq]; simp
  have e2 : t.mag = |a| + (l.map fun q => |q.1 * q.2|).sum := by
    rw [t.mag_eq, h1, (h2.map fun q => |q.1 * q.2|).sum_eq]; simp
  have e3 : t.depth ≤ l.length + 1 := by
    have := t.depth_le.1
    rw [h1, h2.length_eq] at this
    simp at this
    omega
  rw [h3, ← e1, ← e2]
  exact (t.eval_err hu h.rounds).trans (mul_le_mul_of_nonneg_right
    (by have := pow_le_pow_right₀ (show (1 : ℝ) ≤ 1 + u by linarith) e3; linarith) t.mag_nonneg)

theorem sum_products (k : ℕ) (f g : ℕ → ℝ) :
    ((Floats.products k f g).map fun q => q.1 * q.2).sum = ∑ l ∈ range k, f l * g l := by
  unfold Floats.products
  induction k with
  | zero => simp
  | succ k ih => rw [List.range_succ, List.map_append, List.map_append, List.sum_append, ih, sum_range_succ]; simp

theorem abs_products (k : ℕ) (f g : ℕ → ℝ) :
    ((Floats.products k f g).map fun q => |q.1 * q.2|).sum = ∑ l ∈ range k, |f l * g l| := by
  unfold Floats.products
  induction k with
  | zero => simp
  | succ k ih => rw [List.range_succ, List.map_append, List.map_append, List.sum_append, ih, sum_range_succ]; simp

theorem quot_err (hu : 0 ≤ u) (h : Accurate u fl F) (s : ℝ) {d : ℝ} (hd : d ≠ 0) :
    |F.quot s d * d - s| ≤ ((1 + u) ^ 2 - 1) * |s| := by
  have hd' : 0 < |d| := abs_pos.mpr hd
  have hs := abs_nonneg s
  rcases h.quot s d with e | e
  · rw [e]
    have := mul_le_mul_of_nonneg_right (h.rounds (s / d)) hd'.le
    rw [← abs_mul, mul_assoc, ← abs_mul, sub_mul, div_mul_cancel₀ _ hd] at this
    have h0 : u * |s| ≤ ((1 + u) ^ 2 - 1) * |s| := mul_le_mul_of_nonneg_right (by nlinarith) hs
    linarith
  · rw [e]
    have h1 := mul_le_mul_of_nonneg_right (h.rounds (1 / d)) hd'.le
    rw [← abs_mul, mul_assoc, ← abs_mul, sub_mul, div_mul_cancel₀ _ hd, abs_one, mul_one] at h1
    have h2 := mul_le_mul_of_nonneg_right (h.rounds (s * fl (1 / d))) hd'.le
    rw [← abs_mul, mul_assoc, ← abs_mul, sub_mul] at h2
    have h3 : s * fl (1 / d) * d - s = s * (fl (1 / d) * d - 1) := by ring
    have h4 : |s * fl (1 / d) * d - s| ≤ |s| * u := by
      rw [h3, abs_mul]; exact mul_le_mul_of_nonneg_left h1 hs
    have h5 : |s * fl (1 / d) * d| ≤ |s| * (1 + u) := by
      have := abs_add_le (s * fl (1 / d) * d - s) s
      rw [sub_add_cancel] at this
      linarith
    have h6 : |fl (s * fl (1 / d)) * d - s| ≤ |fl (s * fl (1 / d)) * d - s * fl (1 / d) * d| + |s * fl (1 / d) * d - s| := by
      have := abs_add_le (fl (s * fl (1 / d)) * d - s * fl (1 / d) * d) (s * fl (1 / d) * d - s)
      rwa [sub_add_sub_cancel] at this
    nlinarith

/-- A calculated number `z` close to `p` in relative terms, which is itself close to the exact difference. -/
theorem combine_errs (hu : 0 ≤ u) {a S P p z : ℝ} {k : ℕ} (hP : |S| ≤ P) (h1 : |p - (a - S)| ≤ ((1 + u) ^ (k + 1) - 1) * (|a| + P))
    (h2 : |z - p| ≤ ((1 + u) ^ 2 - 1) * |p|) : |a - S - z| ≤ ((1 + u) ^ (k + 3) - 1) * (|a| + P) := by
  have hp : |p| ≤ (1 + u) ^ (k + 1) * (|a| + P) := by
    have e := abs_add_le (p - (a - S)) (a - S)
    rw [sub_add_cancel] at e
    have := abs_sub a S
    linarith
  have e : a - S - z = -(p - (a - S)) - (z - p) := by ring
  have hq : (0 : ℝ) ≤ (1 + u) ^ 2 - 1 := by nlinarith
  rw [e]
  refine (abs_sub _ _).trans ?_
  rw [abs_neg]
  have := mul_le_mul_of_nonneg_left hp hq
  rw [show k + 3 = 2 + (k + 1) by ring, pow_add]
  nlinarith

theorem abs_sum_products_le (l : List (ℝ × ℝ)) :
    |(l.map fun q => q.1 * q.2).sum| ≤ (l.map fun q => |q.1 * q.2|).sum := by
  induction l with
  | nil => simp
  | cons q l ih =>
    simp only [List.map_cons, List.sum_cons]
    exact (abs_add_le _ _).trans (by linarith)

/-- One entry calculated by a sum of products and a division. -/
theorem entry_err (hu : 0 ≤ u) (h : Accurate u fl F) (a : ℝ) (l : List (ℝ × ℝ)) {d : ℝ} (hd : d ≠ 0) :
    |a - (l.map fun q => q.1 * q.2).sum - F.quot (F.acc a l) d * d| ≤
      ((1 + u) ^ (l.length + 3) - 1) * (|a| + (l.map fun q => |q.1 * q.2|).sum) := by
  exact combine_errs hu (abs_sum_products_le l) (acc_err hu h a l) (quot_err hu h _ hd)

/-- A diagonal entry. -/
theorem root_err (hu : 0 ≤ u) (h : Accurate u fl F) (a : ℝ) (l : List (ℝ × ℝ)) (hp : 0 < F.acc a l) :
    |a - (l.map fun q => q.1 * q.2).sum - F.root (F.acc a l) * F.root (F.acc a l)| ≤
      ((1 + u) ^ (l.length + 3) - 1) * (|a| + (l.map fun q => |q.1 * q.2|).sum) := by
  refine combine_errs hu (abs_sum_products_le l) (acc_err hu h a l) ?_
  · generalize F.acc a l = p at hp ⊢
    have hs : Real.sqrt p * Real.sqrt p = p := Real.mul_self_sqrt hp.le
    have hs0 := Real.sqrt_nonneg p
    have hr := h.rounds (Real.sqrt p)
    rw [← h.root p, abs_of_nonneg hs0] at hr
    have e : F.root p * F.root p - p = (F.root p - Real.sqrt p) * (F.root p - Real.sqrt p + 2 * Real.sqrt p) := by
      linear_combination hs
    rw [e, abs_mul, abs_of_pos hp]
    have h1 : |F.root p - Real.sqrt p + 2 * Real.sqrt p| ≤ (u + 2) * Real.sqrt p := by
      refine (abs_add_le _ _).trans ?_
      rw [abs_of_nonneg (show 0 ≤ 2 * Real.sqrt p by linarith)]
      linarith
    calc |F.root p - Real.sqrt p| * |F.root p - Real.sqrt p + 2 * Real.sqrt p|
        ≤ (u * Real.sqrt p) * ((u + 2) * Real.sqrt p) :=
          mul_le_mul hr h1 (abs_nonneg _) (mul_nonneg hu hs0)
      _ = ((1 + u) ^ 2 - 1) * p := by linear_combination ((1 + u) ^ 2 - 1) * hs

theorem root_pos (hu1 : u < 1) (h : Accurate u fl F) {p : ℝ} (hp : 0 < p) : 0 < F.root p := by
  have hr := h.rounds (Real.sqrt p)
  have hs := Real.sqrt_pos.mpr hp
  rw [← h.root p, abs_of_pos hs] at hr
  have := (abs_le.mp hr).1
  nlinarith

/-! ## The factor and the substitutions -/

theorem fcolumn_left {k : ℕ} (A : ℕ → ℕ → ℝ) (i : ℕ) {j : ℕ} (h : j ≠ k) : F.column k A i j = A i j := by
  simp [Floats.column, h]

theorem fcolumn_below {k : ℕ} (A : ℕ → ℕ → ℝ) {i : ℕ} (h : k < i) :
    F.column k A i k = F.quot (F.acc (A i k) (Floats.products k (A i) (A k))) (F.root (F.pivot k A)) := by
  simp [Floats.column, h.ne', h]

theorem fcolumn_diag (k : ℕ) (A : ℕ → ℕ → ℝ) : F.column k A k k = F.root (F.pivot k A) := by
  simp [Floats.column]

theorem ffactor_left (c : ℕ) : ∀ (k : ℕ) (A : ℕ → ℕ → ℝ) (i : ℕ) {j : ℕ}, j < k → (F.factor c k A).2 i j = A i j := by
  induction c with
  | zero => intro k A i j _; rfl
  | succ c ih =>
    intro k A i j h
    rw [Floats.factor]
    split
    · rfl
    · rw [ih (k + 1) _ i (by omega), fcolumn_left A i h.ne]

/-- After a successful factorization the columns from `k` on satisfy the defining equations of the factor up to rounding. -/
theorem ffactor_err (hu : 0 ≤ u) (hu1 : u < 1) (h : Accurate u fl F) (c : ℕ) : ∀ (k : ℕ) (A : ℕ → ℕ → ℝ),
    (F.factor c k A).1 = true → ∀ i j, k ≤ j → j < k + c → j ≤ i → 0 < (F.factor c k A).2 j j ∧
    |A i j - ∑ l ∈ range (j + 1), (F.factor c k A).2 i l * (F.factor c k A).2 j l| ≤
      ((1 + u) ^ (j + 3) - 1) * (|A i j| + ∑ l ∈ range j, |(F.factor c k A).2 i l * (F.factor c k A).2 j l|) := by
  induction c with
  | zero => intro k A _ i j h1 h2; omega
  | succ c ih =>
    intro k A hok i j h1 h2 h3
    rw [Floats.factor] at hok ⊢
    by_cases hp : F.pivot k A ≤ 0
    · rw [if_pos hp] at hok
      exact absurd hok (by simp)
    rw [if_neg hp] at hok ⊢
    have hp' : 0 < F.pivot k A := not_le.mp hp
    have hpos : 0 < F.root (F.pivot k A) := root_pos hu1 h hp'
    rcases Nat.lt_or_eq_of_le h1 with hlt | rfl
    · have := ih (k + 1) _ hok i j (by omega) (by omega) h3
      rw [fcolumn_left A i (show j ≠ k by omega)] at this
      exact this
    · have e : ∀ a l, l < k + 1 → (F.factor c (k + 1) (F.column k A)).2 a l = F.column k A a l :=
        fun a l hl => ffactor_left c _ _ _ hl
      refine ⟨by rw [e k k (by omega), fcolumn_diag]; exact hpos, ?_⟩
      rw [sum_range_succ, e i k (by omega), e k k (by omega), fcolumn_diag]
      have es : ∑ l ∈ range k, (F.factor c (k + 1) (F.column k A)).2 i l * (F.factor c (k + 1) (F.column k A)).2 k l
          = ∑ l ∈ range k, A i l * A k l := by
        refine sum_congr rfl fun l hl => ?_
        have hl' := mem_range.mp hl
        rw [e i l (by omega), e k l (by omega), fcolumn_left A i hl'.ne, fcolumn_left A k hl'.ne]
      have ea : ∑ l ∈ range k, |(F.factor c (k + 1) (F.column k A)).2 i l * (F.factor c (k + 1) (F.column k A)).2 k l|
          = ∑ l ∈ range k, |A i l * A k l| := by
        refine sum_congr rfl fun l hl => ?_
        have hl' := mem_range.mp hl
        rw [e i l (by omega), e k l (by omega), fcolumn_left A i hl'.ne, fcolumn_left A k hl'.ne]
      rw [es, ea, ← sub_sub]
      rcases Nat.lt_or_eq_of_le h3 with h' | rfl
      · have := entry_err hu h (A i k) (Floats.products k (A i) (A k)) hpos.ne'
        rw [sum_products, abs_products] at this
        rw [fcolumn_below A h']
        simpa [Floats.products] using this
      · have := root_err hu h (A k k) (Floats.products k (A k) (A k)) hp'
        rw [sum_products, abs_products] at this
        rw [fcolumn_diag]
        simpa [Floats.products, Floats.pivot] using this

theorem ffwd_err (hu : 0 ≤ u) (h : Accurate u fl F) (L : ℕ → ℕ → ℝ) (b : ℕ → ℝ) (i : ℕ) (hd : ∀ k < i, L k k ≠ 0) :
    (∀ k < i, |b k - ∑ l ∈ range (k + 1), L k l * F.fwd L b i l| ≤
      ((1 + u) ^ (k + 3) - 1) * (|b k| + ∑ l ∈ range k, |L k l * F.fwd L b i l|)) ∧ ∀ k, i ≤ k → F.fwd L b i k = b k := by
  induction i with
  | zero => exact ⟨fun k h => by omega, fun k _ => rfl⟩
  | succ i ih =>
    obtain ⟨h1, h2⟩ := ih fun k hk => hd k (by omega)
    have hne : ∀ l, l ≠ i → F.fwd L b (i + 1) l = F.fwd L b i l := fun l hl => by
      rw [Floats.fwd, Function.update_of_ne hl]
    have hii : F.fwd L b (i + 1) i = F.quot (F.acc (b i) (Floats.products i (L i) (F.fwd L b i))) (L i i) := by
      rw [Floats.fwd, Function.update_self, h2 i le_rfl]
    refine ⟨fun k hk => ?_, fun k hk => by rw [hne k (by omega), h2 k (by omega)]⟩
    have es : ∀ n, n ≤ i → ∀ f : ℝ → ℝ, ∑ l ∈ range n, f (L k l * F.fwd L b (i + 1) l)
        = ∑ l ∈ range n, f (L k l * F.fwd L b i l) := fun n hn f =>
      sum_congr rfl fun l hl => by rw [hne l (by have := mem_range.mp hl; omega)]
    rcases Nat.lt_succ_iff_lt_or_eq.mp hk with h' | rfl
    · have e1 := es (k + 1) (by omega) id
      have e2 := es k (by omega) abs
      simp only [id] at e1
      rw [e1, e2]
      exact h1 k h'
    · have e1 := es k le_rfl id
      have e2 := es k le_rfl abs
      simp only [id] at e1
      rw [sum_range_succ, e1, e2, hii, ← sub_sub]
      have := entry_err hu h (b k) (Floats.products k (L k) (F.fwd L b k)) (hd k hk)
      rw [sum_products, abs_products] at this
      rw [mul_comm (L k k)]
      simpa [Floats.products] using this

theorem sum_range'_products (f g : ℕ → ℝ) (s n : ℕ) (w : ℝ → ℝ) :
    (((List.range' s n).map fun l => (f l, g l)).map fun q => w (q.1 * q.2)).sum = ∑ l ∈ Ico s (s + n), w (f l * g l) := by
  induction n with
  | zero => simp
  | succ n ih =>
    rw [List.range'_concat, List.map_append, List.map_append, List.sum_append, ih, ← add_assoc, sum_Ico_succ_top (by omega)]
    simp

theorem fbwd_err (hu : 0 ≤ u) (h : Accurate u fl F) (m : ℕ) (L : ℕ → ℕ → ℝ) (y : ℕ → ℝ) (i : ℕ) (hi : i ≤ m)
    (hd : ∀ k < m, L k k ≠ 0) :
    (∀ k, m - i ≤ k → k < m → |y k - ∑ l ∈ Ico k m, L l k * F.bwd m L y i l| ≤
      ((1 + u) ^ (m + 2) - 1) * (|y k| + ∑ l ∈ Ico (k + 1) m, |L l k * F.bwd m L y i l|)) ∧
      ∀ k, k < m - i → F.bwd m L y i k = y k := by
  induction i with
  | zero => exact ⟨fun k h h' => by omega, fun k _ => rfl⟩
  | succ i ih =>
    obtain ⟨h1, h2⟩ := ih (by omega)
    have hr : m - (i + 1) < m := by omega
    have hne : ∀ l, l ≠ m - (i + 1) → F.bwd m L y (i + 1) l = F.bwd m L y i l := fun l hl => by
      rw [Floats.bwd, Function.update_of_ne hl]
    have hii : F.bwd m L y (i + 1) (m - (i + 1)) = F.quot (F.acc (y (m - (i + 1)))
        ((List.range' (m - (i + 1) + 1) (m - (m - (i + 1) + 1))).map fun l => (L l (m - (i + 1)), F.bwd m L y i l)))
        (L (m - (i + 1)) (m - (i + 1))) := by
      rw [Floats.bwd, Function.update_self, h2 _ (by omega)]
    refine ⟨fun k hk hkm => ?_, fun k hk => by rw [hne k (by omega), h2 k (by omega)]⟩
    have es : ∀ n, m - (i + 1) < n → ∀ f : ℝ → ℝ, ∑ l ∈ Ico n m, f (L l k * F.bwd m L y (i + 1) l)
        = ∑ l ∈ Ico n m, f (L l k * F.bwd m L y i l) := fun n hn f =>
      sum_congr rfl fun l hl => by rw [hne l (by have := mem_Ico.mp hl; omega)]
    rcases Nat.lt_or_eq_of_le hk with h' | rfl
    · have e1 := es k (by omega) id
      have e2 := es (k + 1) (by omega) abs
      simp only [id] at e1
      rw [e1, e2]
      exact h1 k (by omega) hkm
    · have e1 := es _ (Nat.lt_succ_self _) id
      have e2 := es _ (Nat.lt_succ_self _) abs
      simp only [id] at e1
      rw [sum_eq_sum_Ico_succ_bot hr, e1, e2, hii, sub_add_eq_sub_sub_swap]
      set k := m - (i + 1)
      have := entry_err hu h (y k) ((List.range' (k + 1) (m - (k + 1))).map fun l => (L l k, F.bwd m L y i l)) (hd k hr)
      rw [sum_range'_products (fun l => L l k) _ _ _ abs] at this
      have e3 := sum_range'_products (fun l => L l k) (F.bwd m L y i) (k + 1) (m - (k + 1)) id
      simp only [id] at e3
      rw [e3, show k + 1 + (m - (k + 1)) = m by omega, List.length_map, List.length_range'] at this
      rw [mul_comm (L k k)]
      refine this.trans (mul_le_mul_of_nonneg_right ?_ ?_)
      · have := pow_le_pow_right₀ (show (1 : ℝ) ≤ 1 + u by linarith) (show m - (k + 1) + 3 ≤ m + 2 by omega)
        linarith
      · exact add_nonneg (abs_nonneg _) (sum_nonneg fun _ _ => abs_nonneg _)

end

/-! ## Size of the factors -/

theorem unit_nonneg {u : ℝ} (hu : 0 ≤ u) (m : ℕ) : 0 ≤ unit u m := by
  have := one_le_pow₀ (show (1 : ℝ) ≤ 1 + u by linarith) (n := m + 2)
  unfold unit; linarith

theorem loss_nonneg {u : ℝ} (hu : 0 ≤ u) {m : ℕ} (h1 : unit u m < 1) : 0 ≤ loss u m :=
  div_nonneg (mul_nonneg (by norm_num) (unit_nonneg hu m)) (by linarith)

theorem u_lt_one {u : ℝ} (hu : 0 ≤ u) {m : ℕ} (h1 : unit u m < 1) : u < 1 := by
  have h : (1 + u) ^ 1 ≤ (1 + u) ^ (m + 2) := pow_le_pow_right₀ (by linarith) (by omega)
  unfold unit at h1
  rw [pow_one] at h
  linarith

/-- From an error relative to the numbers that went in to one relative to the numbers that came out. -/
theorem close_err {u : ℝ} (hu : 0 ≤ u) {m k : ℕ} (h1 : unit u m < 1) (hk : k ≤ m + 2) {a S P T : ℝ}
    (h : |a - S| ≤ ((1 + u) ^ k - 1) * (|a| + P)) (hS : |S| ≤ T) (hP : P ≤ T) (hP0 : 0 ≤ P) : |a - S| ≤ loss u m * T := by
  have hg := unit_nonneg hu m
  have hpow : (1 + u) ^ k - 1 ≤ unit u m := by
    have := pow_le_pow_right₀ (show (1 : ℝ) ≤ 1 + u by linarith) hk
    unfold unit; linarith
  have ha : |a| ≤ |a - S| + T := by
    have := abs_add_le (a - S) S
    rw [sub_add_cancel] at this
    linarith
  have h2 : |a - S| ≤ unit u m * (|a - S| + T + T) :=
    h.trans (mul_le_mul hpow (by linarith) (add_nonneg (abs_nonneg _) hP0) hg)
  unfold loss
  rw [div_mul_eq_mul_div, le_div_iff₀ (by linarith)]
  linarith

/-- The diagonal. -/
theorem diag_err {u : ℝ} (hu : 0 ≤ u) {m k : ℕ} (h1 : unit u m < 1) (hk : k ≤ m + 2) {a P T : ℝ}
    (h : |a - T| ≤ ((1 + u) ^ k - 1) * (|a| + P)) (hP : P ≤ T) (hP0 : 0 ≤ P) (hT : 0 < T) :
    0 < a ∧ T ≤ (1 + loss u m) * a := by
  have hg := unit_nonneg hu m
  have hpow : (1 + u) ^ k - 1 ≤ unit u m := by
    have := pow_le_pow_right₀ (show (1 : ℝ) ≤ 1 + u by linarith) hk
    unfold unit; linarith
  have h2 : |a - T| ≤ unit u m * (|a| + T) :=
    h.trans (mul_le_mul hpow (by linarith) (add_nonneg (abs_nonneg _) hP0) hg)
  have h3 := (abs_le.mp h2).1
  have hpos : 0 < a := by
    by_contra hn
    rw [abs_of_nonpos (not_lt.mp hn)] at h3
    nlinarith
  refine ⟨hpos, ?_⟩
  rw [abs_of_pos hpos] at h3
  have e : 1 + loss u m = (1 + unit u m) / (1 - unit u m) := by
    unfold loss
    rw [eq_div_iff (by linarith), add_mul, div_mul_cancel₀ _ (by linarith)]
    ring
  rw [e, div_mul_eq_mul_div, le_div_iff₀ (by linarith)]
  linarith

/-! ## Residual of a solution, from the errors of the three steps -/

section
open Matrix
variable {m : ℕ}

/-- Sums of absolute products of the rows. -/
noncomputable def absRows (L : Matrix (Fin m) (Fin m) ℝ) (i j : Fin m) : ℝ := ∑ l, |L i l| * |L j l|

theorem residual_rows {L A : Matrix (Fin m) (Fin m) ℝ} {b y x : Fin m → ℝ} {e : ℝ} (he : 0 ≤ e)
    (hA : ∀ i j, |A i j - (L * Lᵀ) i j| ≤ e * absRows L i j)
    (hy : ∀ i, |b i - (L *ᵥ y) i| ≤ e * ∑ l, |L i l| * |y l|)
    (hx : ∀ i, |y i - (Lᵀ *ᵥ x) i| ≤ e * ∑ l, |L l i| * |x l|) (i : Fin m) :
    |b i - (A *ᵥ x) i| ≤ e * (3 + e) * ∑ j, absRows L i j * |x j| := by
  set W : Fin m → ℝ := fun l => ∑ j, |L j l| * |x j| with hW
  have hWs : ∑ l, |L i l| * W l = ∑ j, absRows L i j * |x j| := by
    simp only [hW, absRows, mul_sum, sum_mul]
    rw [sum_comm]
    exact sum_congr rfl fun j _ => sum_congr rfl fun l _ => by ring
  have hW0 : ∀ l, 0 ≤ W l := fun l => sum_nonneg fun j _ => mul_nonneg (abs_nonneg _) (abs_nonneg _)
  have hyl : ∀ l, |y l| ≤ (1 + e) * W l := by
    intro l
    have h1 := abs_add_le (y l - (Lᵀ *ᵥ x) l) ((Lᵀ *ᵥ x) l)
    rw [sub_add_cancel] at h1
    have h2 : |(Lᵀ *ᵥ x) l| ≤ W l := by
      show |∑ j, Lᵀ l j * x j| ≤ ∑ j, |L j l| * |x j|
      refine (abs_sum_le_sum_abs _ _).trans (sum_le_sum fun j _ => ?_)
      rw [abs_mul, transpose_apply]
    have := hx l
    linarith
  have e0 : b i - (A *ᵥ x) i = (b i - (L *ᵥ y) i) + ∑ l, L i l * (y l - (Lᵀ *ᵥ x) l)
      - ∑ j, (A i j - (L * Lᵀ) i j) * x j := by
    have a1 : ∑ l, L i l * (y l - (Lᵀ *ᵥ x) l) = (L *ᵥ y) i - ((L * Lᵀ) *ᵥ x) i := by
      rw [← mulVec_mulVec]
      simp only [mul_sub, sum_sub_distrib, mulVec, dotProduct]
    have a2 : ∑ j, (A i j - (L * Lᵀ) i j) * x j = (A *ᵥ x) i - ((L * Lᵀ) *ᵥ x) i := by
      simp only [sub_mul, sum_sub_distrib, mulVec, dotProduct]
    rw [a1, a2]; ring
  rw [e0]
  refine (abs_sub _ _).trans ?_
  have p1 : |b i - (L *ᵥ y) i| ≤ e * (1 + e) * ∑ j, absRows L i j * |x j| := by
    refine (hy i).trans ?_
    rw [mul_assoc]
    refine mul_le_mul_of_nonneg_left ?_ he
    rw [← hWs, mul_sum]
    refine sum_le_sum fun l _ => ?_
    have := mul_le_mul_of_nonneg_left (hyl l) (abs_nonneg (L i l))
    linarith
  have p2 : |∑ l, L i l * (y l - (Lᵀ *ᵥ x) l)| ≤ e * ∑ j, absRows L i j * |x j| := by
    rw [← hWs, mul_sum]
    refine (abs_sum_le_sum_abs _ _).trans (sum_le_sum fun l _ => ?_)
    rw [abs_mul]
    have := mul_le_mul_of_nonneg_left (hx l) (abs_nonneg (L i l))
    linarith
  have p3 : |∑ j, (A i j - (L * Lᵀ) i j) * x j| ≤ e * ∑ j, absRows L i j * |x j| := by
    rw [mul_sum]
    refine (abs_sum_le_sum_abs _ _).trans (sum_le_sum fun j _ => ?_)
    rw [abs_mul, ← mul_assoc]
    exact mul_le_mul_of_nonneg_right (hA i j) (abs_nonneg _)
  have := abs_add_le (b i - (L *ᵥ y) i) (∑ l, L i l * (y l - (Lᵀ *ᵥ x) l))
  nlinarith

theorem absRows_nonneg (L : Matrix (Fin m) (Fin m) ℝ) (i j : Fin m) : 0 ≤ absRows L i j :=
  sum_nonneg fun _ _ => mul_nonneg (abs_nonneg _) (abs_nonneg _)

theorem absRows_le (L : Matrix (Fin m) (Fin m) ℝ) (i j : Fin m) :
    absRows L i j ≤ Real.sqrt (absRows L i i) * Real.sqrt (absRows L j j) := by
  have h := Real.sum_mul_le_sqrt_mul_sqrt univ (fun l => |L i l|) (fun l => |L j l|)
  simpa only [absRows, pow_two] using h

/-- With small diagonals, all of it is small. -/
theorem absRows_diag {L A : Matrix (Fin m) (Fin m) ℝ} {e : ℝ} (he : 0 ≤ e)
    (hd : ∀ i, 0 < A i i ∧ absRows L i i ≤ (1 + e) * A i i) (i j : Fin m) :
    absRows L i j ≤ (1 + e) * (Real.sqrt (A i i) * Real.sqrt (A j j)) := by
  refine (absRows_le L i j).trans ?_
  refine (mul_le_mul (Real.sqrt_le_sqrt (hd i).2) (Real.sqrt_le_sqrt (hd j).2) (Real.sqrt_nonneg _)
    (Real.sqrt_nonneg _)).trans_eq ?_
  rw [Real.sqrt_mul (by linarith), Real.sqrt_mul (by linarith)]
  have := Real.mul_self_sqrt (show 0 ≤ 1 + e by linarith)
  linear_combination (Real.sqrt (A i i) * Real.sqrt (A j j)) * this

/-- The quadratic form of the matrix and that of the factor. -/
theorem form_err {L A : Matrix (Fin m) (Fin m) ℝ} {e : ℝ} (he : 0 ≤ e)
    (hA : ∀ i j, |A i j - (L * Lᵀ) i j| ≤ e * absRows L i j)
    (hd : ∀ i, 0 < A i i ∧ absRows L i i ≤ (1 + e) * A i i) (w : Fin m → ℝ) :
    |w ⬝ᵥ A *ᵥ w - (Lᵀ *ᵥ w) ⬝ᵥ (Lᵀ *ᵥ w)| ≤ e * (1 + e) * (∑ i, Real.sqrt (A i i) * |w i|) ^ 2 := by
  have e1 : (Lᵀ *ᵥ w) ⬝ᵥ (Lᵀ *ᵥ w) = w ⬝ᵥ (L * Lᵀ) *ᵥ w := by
    rw [← mulVec_mulVec, dotProduct_mulVec w L, ← mulVec_transpose]
  have e2 : w ⬝ᵥ A *ᵥ w - w ⬝ᵥ (L * Lᵀ) *ᵥ w = ∑ i, ∑ j, w i * (A i j - (L * Lᵀ) i j) * w j := by
    rw [← dotProduct_sub, ← sub_mulVec]
    simp only [dotProduct, mulVec, sub_apply, mul_sum, mul_assoc]
  rw [e1, e2]
  refine (abs_sum_le_sum_abs _ _).trans ?_
  rw [pow_two, sum_mul_sum, mul_sum]
  refine sum_le_sum fun i _ => ?_
  refine (abs_sum_le_sum_abs _ _).trans ?_
  rw [mul_sum]
  refine sum_le_sum fun j _ => ?_
  rw [abs_mul, abs_mul]
  have h1 := (hA i j).trans (mul_le_mul_of_nonneg_left (absRows_diag he hd i j) he)
  have h2 := mul_le_mul_of_nonneg_right (mul_le_mul_of_nonneg_left h1 (abs_nonneg (w i))) (abs_nonneg (w j))
  linarith

theorem margin_scalar {a q W e s : ℝ} (ha : 0 ≤ a) (hq : 0 ≤ q) (hW : 0 ≤ W) (he : 0 ≤ e) (hs : 1 ≤ s) (hs2 : s * s = 1 + e)
    (haq : a ≤ s * q) : a ^ 2 - q ^ 2 + 2 * (e * s * W * q) + e * s ^ 2 * W ^ 2 ≤ e * (1 + 2 * e) * (1 + e) * (a + W) ^ 2 := by
  have hs0 : 0 ≤ s := by linarith
  have hS : s ^ 2 = 1 + e := by rw [pow_two]; exact hs2
  rw [hS]
  have haa : a ^ 2 ≤ (1 + e) * q ^ 2 := by
    have := mul_self_le_mul_self ha haq
    nlinarith
  have big : e * (1 + e) * (a + W) ^ 2 ≤ e * (1 + 2 * e) * (1 + e) * (a + W) ^ 2 := by
    refine mul_le_mul_of_nonneg_right ?_ (sq_nonneg _)
    nlinarith [mul_nonneg he he, mul_nonneg (mul_nonneg he he) he]
  by_cases h1 : q ≤ s * a
  · have hqq : q ^ 2 ≤ (1 + e) * a ^ 2 := by
      have := mul_self_le_mul_self hq h1
      nlinarith
    have h3 : e * s * W * q ≤ e * (1 + e) * W * a := by
      have := mul_le_mul_of_nonneg_left h1 (mul_nonneg (mul_nonneg he hs0) hW)
      calc e * s * W * q ≤ e * s * W * (s * a) := this
        _ = e * (1 + e) * W * a := by rw [← hs2]; ring
    have h4 := mul_le_mul_of_nonneg_left hqq he
    nlinarith
  · have h1 := not_le.mp h1
    by_cases h2 : e * W ≤ a
    · have h3 : 0 ≤ (q - s * a) * (q + s * a - 2 * (e * s * W)) := by
        refine mul_nonneg (by linarith) ?_
        have := mul_le_mul_of_nonneg_left h2 hs0
        nlinarith
      have h4 : a ^ 2 - q ^ 2 + 2 * (e * s * W * q) ≤ a ^ 2 - (1 + e) * a ^ 2 + 2 * (e * (1 + e) * W * a) := by
        have : (q - s * a) * (q + s * a - 2 * (e * s * W)) = q ^ 2 - (s * s) * a ^ 2 - 2 * (e * s * W * q)
          + 2 * (e * (s * s) * W * a) := by ring
        rw [this, hs2] at h3
        linarith
      have h5 : 0 ≤ e * (1 + e) * a ^ 2 := by positivity
      nlinarith [mul_nonneg he (sq_nonneg a)]
    · have h2 := not_le.mp h2
      have h3 : -q ^ 2 + 2 * (e * s * W * q) ≤ e ^ 2 * (1 + e) * W ^ 2 := by
        have := sq_nonneg (q - e * s * W)
        have e0 : (q - e * s * W) ^ 2 = q ^ 2 - 2 * (e * s * W * q) + e ^ 2 * (s * s) * W ^ 2 := by ring
        rw [e0, hs2] at this
        linarith
      have h4 : a ^ 2 ≤ e ^ 2 * W ^ 2 := by
        have := mul_self_le_mul_self ha h2.le
        nlinarith
      have h5 : e ^ 2 * W ^ 2 ≤ e ^ 2 * (1 + e) * W ^ 2 := by
        have : 0 ≤ e ^ 2 * W ^ 2 * e := by positivity
        linarith
      have h6 : e * (1 + 2 * e) * (1 + e) * W ^ 2 ≤ e * (1 + 2 * e) * (1 + e) * (a + W) ^ 2 :=
        mul_le_mul_of_nonneg_left (pow_le_pow_left₀ hW (by linarith) 2) (by positivity)
      linarith

/-- A vector along which the form is small, when the next pivot is not positive. -/
theorem margin_form {L A : Matrix (Fin m) (Fin m) ℝ} {a c w : Fin m → ℝ} {al e : ℝ} (he : 0 ≤ e)
    (hA : ∀ i j, |A i j - (L * Lᵀ) i j| ≤ e * absRows L i j)
    (hd : ∀ i, 0 < A i i ∧ absRows L i i ≤ (1 + e) * A i i)
    (ha : ∀ i, |a i - (L *ᵥ c) i| ≤ e * ∑ l, |L i l| * |c l|) (hal : 0 < al) (hc : al ≤ (1 + e) * (c ⬝ᵥ c))
    (hw : Lᵀ *ᵥ w = c) :
    al - 2 * (w ⬝ᵥ a) + w ⬝ᵥ A *ᵥ w ≤ e * (1 + 2 * e) * (1 + e) * (Real.sqrt al + ∑ i, Real.sqrt (A i i) * |w i|) ^ 2 := by
  set W := ∑ i, Real.sqrt (A i i) * |w i| with hW
  set s := Real.sqrt (1 + e) with hs
  set q := Real.sqrt (c ⬝ᵥ c) with hq
  have hcc : 0 ≤ c ⬝ᵥ c := sum_nonneg fun i _ => mul_self_nonneg _
  have hs2 : s * s = 1 + e := Real.mul_self_sqrt (by linarith)
  have hq2 : q * q = c ⬝ᵥ c := Real.mul_self_sqrt hcc
  have ha2 : Real.sqrt al * Real.sqrt al = al := Real.mul_self_sqrt hal.le
  have hs1 : 1 ≤ s := by rw [hs, Real.one_le_sqrt]; linarith
  have hq0 : 0 ≤ q := Real.sqrt_nonneg _
  have hW0 : 0 ≤ W := sum_nonneg fun i _ => mul_nonneg (Real.sqrt_nonneg _) (abs_nonneg _)
  have f1 := (abs_le.mp (form_err he hA hd w)).2
  rw [hw] at f1
  have f2 : |w ⬝ᵥ a - c ⬝ᵥ c| ≤ e * s * W * q := by
    have e1 : c ⬝ᵥ c = w ⬝ᵥ L *ᵥ c := by
      nth_rw 1 [← hw]
      rw [mulVec_transpose, ← dotProduct_mulVec]
    rw [e1, ← dotProduct_sub]
    refine (abs_sum_le_sum_abs _ _).trans ?_
    have e2 : e * s * W * q = ∑ i, |w i| * (e * (s * Real.sqrt (A i i) * q)) := by
      rw [hW, mul_sum, sum_mul]
      exact sum_congr rfl fun i _ => by ring
    rw [e2]
    refine sum_le_sum fun i _ => ?_
    rw [abs_mul]
    refine mul_le_mul_of_nonneg_left ((ha i).trans (mul_le_mul_of_nonneg_left ?_ he)) (abs_nonneg _)
    have cs := Real.sum_mul_le_sqrt_mul_sqrt univ (fun l => |L i l|) (fun l => |c l|)
    have e3 : ∑ l, |c l| ^ 2 = c ⬝ᵥ c := sum_congr rfl fun l _ => by rw [sq_abs, pow_two]
    have e4 : ∑ l, |L i l| ^ 2 = absRows L i i := sum_congr rfl fun l _ => pow_two _
    rw [e3, e4] at cs
    refine cs.trans (mul_le_mul_of_nonneg_right ?_ hq0)
    rw [hs, ← Real.sqrt_mul (by linarith)]
    exact Real.sqrt_le_sqrt (hd i).2
  have f3 := (abs_le.mp f2).1
  have haq : Real.sqrt al ≤ s * q := by
    rw [hs, hq, ← Real.sqrt_mul (by linarith)]
    exact Real.sqrt_le_sqrt hc
  have key := margin_scalar (Real.sqrt_nonneg al) hq0 hW0 he hs1 hs2 haq
  have e5 : s ^ 2 = 1 + e := by rw [pow_two, hs2]
  have e6 : Real.sqrt al ^ 2 = al := by rw [pow_two, ha2]
  have e7 : q ^ 2 = c ⬝ᵥ c := by rw [pow_two, hq2]
  rw [e5, e6, e7] at key
  linarith

end

/-! ## Where a factorization stops -/

section
variable {F : Floats}

theorem ffactor_right (c : ℕ) : ∀ (k : ℕ) (A : ℕ → ℕ → ℝ) (i : ℕ) {j : ℕ}, k + c ≤ j → (F.factor c k A).2 i j = A i j := by
  induction c with
  | zero => intro k A i j _; rfl
  | succ c ih =>
    intro k A i j h
    rw [Floats.factor]
    split
    · rfl
    · rw [ih (k + 1) _ i (by omega), fcolumn_left A i (by omega)]

theorem ffactor_fail (c : ℕ) : ∀ (k : ℕ) (A : ℕ → ℕ → ℝ), (F.factor c k A).1 = false →
    ∃ c' < c, (F.factor c' k A).1 = true ∧ F.pivot (k + c') (F.factor c' k A).2 ≤ 0 := by
  induction c with
  | zero => intro k A h; simp [Floats.factor] at h
  | succ c ih =>
    intro k A h
    rw [Floats.factor] at h
    by_cases hp : F.pivot k A ≤ 0
    · exact ⟨0, by omega, rfl, hp⟩
    · rw [if_neg hp] at h
      obtain ⟨c', h1, h2, h3⟩ := ih (k + 1) _ h
      have e : F.factor (c' + 1) k A = F.factor c' (k + 1) (F.column k A) := by rw [Floats.factor, if_neg hp]
      exact ⟨c' + 1, by omega, by rw [e]; exact h2, by rw [e, show k + (c' + 1) = k + 1 + c' by ring]; exact h3⟩

end
end Altro.Spec
