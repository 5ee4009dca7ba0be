import Mathlib.Algebra.BigOperators.Group.List.Basic
import Mathlib.Algebra.Order.BigOperators.Group.List
import Mathlib.Data.List.Sort
import Mathlib.Tactic.Linarith
import Mathlib.Tactic.FieldSimp
import Mathlib.Tactic.Ring
import Mathlib.Tactic.NormNum
import Verif.Model.Benchmark
import Verif.Proofs.Problem

/-!
# C73: benchmark statistics
-/

namespace Altro.Props
open Bench

/-! ## What the numbers mean -/

/-- `y` is a median: at least half of the samples are at most `y`, and at least half are at least `y`. -/
def IsMedian (l : List ℝ) (y : ℝ) : Prop :=
  l.length ≤ 2 * l.countP (fun x => decide (x ≤ y)) ∧ l.length ≤ 2 * l.countP (fun x => decide (y ≤ x))

/-- Mean, the middle of the medians, standard deviation (of the samples, not an estimate), maximum and minimum. -/
structure Describes (l : List ℝ) (r : Results) : Prop where
  samples : r.samples = l.length
  mean : r.mean = l.sum / l.length
  median : ∃ a b, {y | IsMedian l y} = Set.Icc a b ∧ a ≤ b ∧ a ∈ l ∧ b ∈ l ∧ r.median = (a + b) / 2
  std : r.std = Real.sqrt ((l.map fun x => (x - r.mean) ^ 2).sum / l.length)
  max : r.max ∈ l ∧ ∀ x ∈ l, x ≤ r.max
  min : r.min ∈ l ∧ ∀ x ∈ l, r.min ≤ x

/-! ## Order statistics of a sorted list -/

theorem count_le_iff {l : List ℝ} (hs : l.Pairwise (· ≤ ·)) {j : ℕ} (hj : j < l.length) (y : ℝ) :
    j + 1 ≤ l.countP (fun x => decide (x ≤ y)) ↔ l[j] ≤ y := by
  have hp := List.pairwise_iff_getElem.mp hs
  constructor
  · intro h
    by_contra hy
    have h0 : (l.drop j).countP (fun x => decide (x ≤ y)) = 0 := by
      rw [List.countP_eq_zero]
      intro x hx
      obtain ⟨i, hi, rfl⟩ := List.mem_iff_getElem.mp hx
      rw [List.getElem_drop]
      simp only [List.length_drop] at hi
      simp only [decide_eq_true_eq, not_le]
      rcases Nat.eq_zero_or_pos i with h | h
      · subst h; exact not_le.mp hy
      · exact lt_of_lt_of_le (not_le.mp hy) (hp j (j + i) hj (by omega) (by omega))
    have h1 := List.countP_append (p := fun x => decide (x ≤ y)) (l₁ := l.take j) (l₂ := l.drop j)
    rw [List.take_append_drop, h0] at h1
    have h2 : (l.take j).countP (fun x => decide (x ≤ y)) ≤ (l.take j).length := List.countP_le_length
    rw [List.length_take] at h2
    omega
  · intro h
    have h1 : (l.take (j + 1)).countP (fun x => decide (x ≤ y)) = (l.take (j + 1)).length := by
      rw [List.countP_eq_length]
      intro x hx
      obtain ⟨i, hi, rfl⟩ := List.mem_iff_getElem.mp hx
      rw [List.getElem_take]
      simp only [List.length_take] at hi
      simp only [decide_eq_true_eq]
      rcases Nat.lt_or_ge i j with h' | h'
      · exact (hp i j (by omega) hj h').trans h
      · have : i = j := by omega
        subst this; exact h
    have h2 := (List.take_sublist (j + 1) l).countP_le (p := fun x => decide (x ≤ y))
    rw [h1, List.length_take] at h2
    omega

theorem count_ge_iff {l : List ℝ} (hs : l.Pairwise (· ≤ ·)) {j : ℕ} (hj : j < l.length) (y : ℝ) :
    l.length - j ≤ l.countP (fun x => decide (y ≤ x)) ↔ y ≤ l[j] := by
  have hp := List.pairwise_iff_getElem.mp hs
  constructor
  · intro h
    by_contra hy
    have h0 : (l.take (j + 1)).countP (fun x => decide (y ≤ x)) = 0 := by
      rw [List.countP_eq_zero]
      intro x hx
      obtain ⟨i, hi, rfl⟩ := List.mem_iff_getElem.mp hx
      rw [List.getElem_take]
      simp only [List.length_take] at hi
      simp only [decide_eq_true_eq, not_le]
      rcases Nat.lt_or_ge i j with h' | h'
      · exact lt_of_le_of_lt (hp i j (by omega) hj h') (not_le.mp hy)
      · have : i = j := by omega
        subst this; exact not_le.mp hy
    have h1 := List.countP_append (p := fun x => decide (y ≤ x)) (l₁ := l.take (j + 1)) (l₂ := l.drop (j + 1))
    rw [List.take_append_drop, h0] at h1
    have h2 : (l.drop (j + 1)).countP (fun x => decide (y ≤ x)) ≤ (l.drop (j + 1)).length := List.countP_le_length
    rw [List.length_drop] at h2
    omega
  · intro h
    have h1 : (l.drop j).countP (fun x => decide (y ≤ x)) = (l.drop j).length := by
      rw [List.countP_eq_length]
      intro x hx
      obtain ⟨i, hi, rfl⟩ := List.mem_iff_getElem.mp hx
      rw [List.getElem_drop]
      simp only [List.length_drop] at hi
      simp only [decide_eq_true_eq]
      rcases Nat.eq_zero_or_pos i with h' | h'
      · subst h'; exact h
      · exact h.trans (hp j (j + i) hj (by omega) (by omega))
    have h2 := (List.drop_sublist j l).countP_le (p := fun x => decide (y ≤ x))
    rw [h1, List.length_drop] at h2
    omega

theorem medians_sorted {l : List ℝ} (hs : l.Pairwise (· ≤ ·)) {i j : ℕ} (hi : i < l.length) (hj : j < l.length)
    (h : l.length = 2 * j + 1 ∧ i = j ∨ l.length = 2 * j ∧ i + 1 = j) :
    {y | IsMedian l y} = Set.Icc l[i] l[j] := by
  ext y
  simp only [Set.mem_setOf_eq, Set.mem_Icc, IsMedian]
  rw [← count_le_iff hs hi y, ← count_ge_iff hs hj y]
  omega

/-! ## The loops -/

theorem foldl_add_eq (l : List ℝ) (f : ℝ → ℝ) (a : ℝ) : l.foldl (fun s t => s + f t) a = a + (l.map f).sum := by
  induction l generalizing a with
  | nil => simp
  | cons x l ih => simp only [List.foldl_cons, ih, List.map_cons, List.sum_cons]; ring

theorem foldl_max_eq (l : List ℝ) (a : ℝ) :
    (l.foldl (fun s t => max t s) a ∈ a :: l) ∧ ∀ x ∈ a :: l, x ≤ l.foldl (fun s t => max t s) a := by
  induction l generalizing a with
  | nil => simp
  | cons x l ih =>
    obtain ⟨h1, h2⟩ := ih (max x a)
    simp only [List.foldl_cons]
    constructor
    · rcases List.mem_cons.mp h1 with h | h
      · rw [h]
        rcases max_choice x a with h' | h' <;> rw [h'] <;> simp
      · exact List.mem_cons_of_mem _ (List.mem_cons_of_mem _ h)
    · intro y hy
      have h3 := h2 _ List.mem_cons_self
      rcases List.mem_cons.mp hy with rfl | hy
      · exact (le_max_right _ _).trans h3
      · rcases List.mem_cons.mp hy with rfl | hy
        · exact (le_max_left _ _).trans h3
        · exact h2 y (List.mem_cons_of_mem _ hy)

theorem foldl_min_eq (l : List ℝ) (a : ℝ) :
    (l.foldl (fun s t => min t s) a ∈ a :: l) ∧ ∀ x ∈ a :: l, l.foldl (fun s t => min t s) a ≤ x := by
  induction l generalizing a with
  | nil => simp
  | cons x l ih =>
    obtain ⟨h1, h2⟩ := ih (min x a)
    simp only [List.foldl_cons]
    constructor
    · rcases List.mem_cons.mp h1 with h | h
      · rw [h]
        rcases min_choice x a with h' | h' <;> rw [h'] <;> simp
      · exact List.mem_cons_of_mem _ (List.mem_cons_of_mem _ h)
    · intro y hy
      have h3 := h2 _ List.mem_cons_self
      rcases List.mem_cons.mp hy with rfl | hy
      · exact h3.trans (min_le_right _ _)
      · rcases List.mem_cons.mp hy with rfl | hy
        · exact h3.trans (min_le_left _ _)
        · exact h2 y (List.mem_cons_of_mem _ hy)

theorem vread_nat_ok {α : Type} {l : List α} {k : ℕ} (h : k < l.length) : vread l (k : ℤ) = .ok l[k] := by
  simp [vread, List.getElem?_eq_getElem h]

theorem medianOf_ok {l : List ℝ} (hs : l.Pairwise (· ≤ ·)) (hl : l ≠ []) :
    ∃ a b, medianOf l = .ok ((a + b) / 2) ∧ {y | IsMedian l y} = Set.Icc a b ∧ a ≤ b ∧ a ∈ l ∧ b ∈ l := by
  have hn : 0 < l.length := List.length_pos_iff.mpr hl
  have hp := List.pairwise_iff_getElem.mp hs
  unfold medianOf
  by_cases h : l.length % 2 = 1
  · have hk : l.length / 2 < l.length := by omega
    refine ⟨l[l.length / 2], l[l.length / 2], ?_, medians_sorted hs hk hk (Or.inl ⟨by omega, rfl⟩), le_rfl,
      List.getElem_mem _, List.getElem_mem _⟩
    rw [if_pos h, vread_nat_ok hk]
    congr 1
    ring
  · have hk : l.length / 2 < l.length := by omega
    have hk' : l.length / 2 - 1 < l.length := by omega
    refine ⟨l[l.length / 2 - 1], l[l.length / 2], ?_, medians_sorted hs hk' hk (Or.inr ⟨by omega, by omega⟩),
      hp _ _ hk' hk (by omega), List.getElem_mem _, List.getElem_mem _⟩
    have e : ((l.length / 2 : ℕ) - 1 : ℤ) = ((l.length / 2 - 1 : ℕ) : ℤ) := by omega
    rw [if_neg h, vread_nat_ok hk, e, vread_nat_ok hk']
    simp only [bind, Except.bind, pure, Except.pure]
    congr 1
    ring

theorem calcSorted_ok {l : List ℝ} (hs : l.Pairwise (· ≤ ·)) (hl : l ≠ []) :
    ∃ r, calcSorted l = .ok r ∧ Describes l r := by
  obtain ⟨a, b, h1, h2, h3, h4, h5⟩ := medianOf_ok hs hl
  obtain ⟨t0, tl, rfl⟩ := List.exists_cons_of_ne_nil hl
  have h0 : vread (t0 :: tl) 0 = .ok t0 := by simp [vread]
  unfold calcSorted
  rw [h1, h0]
  refine ⟨_, rfl, rfl, ?_, ⟨a, b, h2, h3, h4, h5, rfl⟩, ?_, ?_, ?_⟩
  · dsimp only [List.tail_cons]
    rw [foldl_add_eq tl (fun t => t) t0]
    simp
  · dsimp only [List.tail_cons]
    rw [foldl_add_eq tl (fun t => (t - _) ^ 2), List.map_cons, List.sum_cons]
  · exact foldl_max_eq tl t0
  · exact foldl_min_eq tl t0

theorem describes_perm {l l' : List ℝ} (h : l'.Perm l) {r : Results} (hd : Describes l' r) : Describes l r where
  samples := hd.samples.trans h.length_eq
  mean := by rw [hd.mean, h.sum_eq, h.length_eq]
  median := by
    obtain ⟨a, b, h1, h2, h3, h4, h5⟩ := hd.median
    refine ⟨a, b, ?_, h2, h.mem_iff.mp h3, h.mem_iff.mp h4, h5⟩
    rw [← h1]
    ext y
    simp only [Set.mem_setOf_eq, IsMedian, h.length_eq, h.countP_eq]
  std := by rw [hd.std, (h.map _).sum_eq, h.length_eq]
  max := ⟨h.mem_iff.mp hd.max.1, fun x hx => hd.max.2 x (h.mem_iff.mpr hx)⟩
  min := ⟨h.mem_iff.mp hd.min.1, fun x hx => hd.min.2 x (h.mem_iff.mpr hx)⟩

theorem stdSort_sorted {l l' : List ℝ} (h : StdSort (fun a b : ℝ => decide (a < b)) l l') :
    l'.Perm l ∧ l'.Pairwise (· ≤ ·) :=
  ⟨h.1, h.2.imp fun h => by simpa using h⟩

/-- C73: for at least one sample the results are the mean, the middle of the medians, the standard deviation, the
maximum and the minimum of the samples; the vector passed is left sorted. -/
theorem C73_describes {times times' : List ℝ} {res : Except Err Results} (h : Calculate times times' res)
    (hne : times ≠ []) :
    ∃ r, res = .ok r ∧ Describes times r ∧ times'.Perm times ∧ times'.Pairwise (· ≤ ·) := by
  obtain ⟨h1, h2⟩ := stdSort_sorted h.1
  have hne' : times' ≠ [] := by
    rintro rfl
    exact hne (List.nil_perm.mp h1)
  obtain ⟨r, h3, h4⟩ := calcSorted_ok h2 hne'
  exact ⟨r, h.2.trans h3, describes_perm h1 h4, h1, h2⟩

/-- C73: the results do not depend on the order of the samples, nor on what the sort does with equal ones. -/
theorem C73_order {times₁ times₂ t₁ t₂ : List ℝ} {r₁ r₂ : Except Err Results} (hp : times₁.Perm times₂)
    (h1 : Calculate times₁ t₁ r₁) (h2 : Calculate times₂ t₂ r₂) : r₁ = r₂ ∧ t₁ = t₂ := by
  obtain ⟨p1, s1⟩ := stdSort_sorted h1.1
  obtain ⟨p2, s2⟩ := stdSort_sorted h2.1
  have : t₁ = t₂ := (p1.trans (hp.trans p2.symm)).eq_of_pairwise (fun a b _ _ h h' => le_antisymm h h') s1 s2
  exact ⟨by rw [h1.2, h2.2, this], this⟩

/-- C73 fails without samples: `Calculate` reads out of range. -/
theorem C73_empty_counterexample {times' : List ℝ} {res : Except Err Results} (h : Calculate [] times' res) :
    res = .error .undefined := by
  have : times' = [] := List.perm_nil.mp (stdSort_sorted h.1).1
  subst this
  rw [h.2]
  simp [calcSorted, medianOf, vread, bind, Except.bind]

/-- Sum of squares about the mean. -/
theorem sum_sq_shift (l : List ℝ) (c m : ℝ) (hm : (l.length : ℝ) * m = l.sum) :
    (l.map fun x => (x - c) ^ 2).sum = (l.map fun x => (x - m) ^ 2).sum + l.length * (m - c) ^ 2 := by
  have key : ∀ l : List ℝ, (l.map fun x => (x - c) ^ 2).sum =
      (l.map fun x => (x - m) ^ 2).sum + 2 * (m - c) * (l.sum - l.length * m) + l.length * (m - c) ^ 2 := by
    intro l
    induction l with
    | nil => simp
    | cons x l ih =>
      simp only [List.map_cons, List.sum_cons, List.length_cons, Nat.cast_add, Nat.cast_one, ih]
      ring
  rw [key l, hm]
  ring

/-- C73: the results are consistent: the mean and the median lie between minimum and maximum, the standard deviation is
at most half the range, and the samples are all equal exactly when it is zero. -/
theorem C73_consistent {l : List ℝ} {r : Results} (hne : l ≠ []) (h : Describes l r) :
    r.min ≤ r.mean ∧ r.mean ≤ r.max ∧ r.min ≤ r.median ∧ r.median ≤ r.max ∧ 0 ≤ r.std ∧
      r.std ≤ (r.max - r.min) / 2 ∧ (r.std = 0 ↔ ∀ x ∈ l, x = r.mean) := by
  have hn : (0 : ℝ) < l.length := by exact_mod_cast List.length_pos_iff.mpr hne
  have hm : (l.length : ℝ) * r.mean = l.sum := by rw [h.mean]; field_simp
  have hle : l.sum ≤ l.length * r.max := by
    have := List.sum_le_card_nsmul l r.max h.max.2
    simpa using this
  have hge : l.length * r.min ≤ l.sum := by
    have := List.card_nsmul_le_sum l r.min h.min.2
    simpa using this
  have h1 : r.min ≤ r.mean := by
    rw [h.mean, le_div_iff₀ hn]; linarith
  have h2 : r.mean ≤ r.max := by
    rw [h.mean, div_le_iff₀ hn]; linarith
  obtain ⟨a, b, -, hab, ha, hb, hmed⟩ := h.median
  have a1 := h.min.2 a ha
  have a2 := h.max.2 a ha
  have b1 := h.min.2 b hb
  have b2 := h.max.2 b hb
  refine ⟨h1, h2, by linarith, by linarith, by rw [h.std]; exact Real.sqrt_nonneg _, ?_, ?_⟩
  · rw [h.std]
    have hmm : r.min ≤ r.max := h1.trans h2
    apply Real.sqrt_le_iff.mpr ⟨by linarith, ?_⟩
    rw [div_le_iff₀ hn]
    have s1 := sum_sq_shift l ((r.max + r.min) / 2) r.mean hm
    have s2 : (l.map fun x => (x - (r.max + r.min) / 2) ^ 2).sum ≤ l.length * ((r.max - r.min) / 2) ^ 2 := by
      have := List.sum_le_card_nsmul (l.map fun x => (x - (r.max + r.min) / 2) ^ 2) (((r.max - r.min) / 2) ^ 2)
        (by
          intro y hy
          obtain ⟨x, hx, rfl⟩ := List.mem_map.mp hy
          have x1 := h.min.2 x hx
          have x2 := h.max.2 x hx
          apply sq_le_sq'
          · linarith
          · linarith)
      simpa using this
    nlinarith [mul_nonneg hn.le (sq_nonneg (r.mean - (r.max + r.min) / 2))]
  · have hnn : 0 ≤ (l.map fun x => (x - r.mean) ^ 2).sum := by
      apply List.sum_nonneg
      intro y hy
      obtain ⟨x, -, rfl⟩ := List.mem_map.mp hy
      exact sq_nonneg _
    rw [h.std, Real.sqrt_eq_zero (by positivity), div_eq_zero_iff]
    constructor
    · rintro (h0 | h0)
      · intro x hx
        have : (x - r.mean) ^ 2 ≤ (l.map fun x => (x - r.mean) ^ 2).sum :=
          List.single_le_sum (by
            intro y hy
            obtain ⟨x, -, rfl⟩ := List.mem_map.mp hy
            exact sq_nonneg _) _ (List.mem_map.mpr ⟨x, hx, rfl⟩)
        rw [h0] at this
        have := pow_eq_zero_iff (n := 2) (by norm_num) |>.mp (le_antisymm this (sq_nonneg _))
        linarith
      · exact absurd h0 hn.ne'
    · intro hx
      left
      apply List.sum_eq_zero
      intro y hy
      obtain ⟨x, hx', rfl⟩ := List.mem_map.mp hy
      rw [hx x hx']; ring

section run
variable {S : Type}

/-- C73: `Benchmark` with a positive number of samples calls the function exactly that often, one call after the other,
and describes the measured differences. -/
theorem C73_benchmark (now : S → ℝ × S) (f : S → S) (n : ℕ) (hn : 0 < n) (s : S) (times' : List ℝ)
    {res : Except Err (Results × S)} (h : Benchmark now f n s times' res) :
    ∃ r, res = .ok (r, (fun s => (now (f (now s).2)).2)^[n] s) ∧ r.samples = n ∧
      Describes ((List.range n).map fun i =>
        let si := (fun s => (now (f (now s).2)).2)^[i] s
        (now (f (now si).2)).1 - (now si).1) r := by
  have loop : ∀ n s, benchLoop now f n s = ((List.range n).map fun i =>
      let si := (fun s => (now (f (now s).2)).2)^[i] s
      (now (f (now si).2)).1 - (now si).1, (fun s => (now (f (now s).2)).2)^[n] s) := by
    intro n s
    induction n with
    | zero => rfl
    | succ n ih =>
      rw [benchLoop, ih]
      simp only [List.range_succ, List.map_append, List.map_cons, List.map_nil, Function.iterate_succ_apply']
  unfold Benchmark at h
  rw [if_neg (by omega)] at h
  obtain ⟨r, h1, h2⟩ := h
  rw [Int.toNat_natCast, loop] at h1 h2
  obtain ⟨q, h3, h4, -, -⟩ := C73_describes h1 (by
    intro h0
    have := congrArg List.length h0
    simp at this
    omega)
  subst h3
  exact ⟨q, h2, by simpa using h4.samples, h4⟩

/-- C73 fails for other numbers: no samples is a read out of range, and a negative number throws. -/
theorem C73_number_counterexample (now : S → ℝ × S) (f : S → S) (n : ℤ) (hn : n ≤ 0) (s : S) (times' : List ℝ)
    {res : Except Err (Results × S)} (h : Benchmark now f n s times' res) :
    res = .error (if n < 0 then .thrown else .undefined) := by
  unfold Benchmark at h
  by_cases h0 : n < 0
  · rw [if_pos h0] at h ⊢; exact h
  · have : n = 0 := by omega
    subst this
    rw [if_neg h0] at h ⊢
    obtain ⟨r, h1, h2⟩ := h
    rw [C73_empty_counterexample h1] at h2
    exact h2

end run

/-- Samples 3, 1, 2, 10: mean 4, median 2.5, maximum 10, minimum 1, standard deviation `√12.5`. -/
example : ∃ r, Calculate [3, 1, 2, 10] [1, 2, 3, 10] (.ok r) ∧ r.mean = 4 ∧ r.median = 5 / 2 ∧ r.max = 10 ∧
    r.min = 1 ∧ r.std = Real.sqrt (25 / 2) ∧ r.samples = 4 := by
  have hs : StdSort (fun a b : ℝ => decide (a < b)) [3, 1, 2, 10] [1, 2, 3, 10] := by
    constructor
    · exact (List.Perm.cons 1 (List.Perm.swap 3 2 [10])).trans (List.Perm.swap 3 1 _)
    · simp; norm_num
  have hc : calcSorted [1, 2, 3, 10] = .ok ⟨4, 5 / 2, Real.sqrt (25 / 2), 10, 1, 4⟩ := by
    simp [calcSorted, medianOf, vread, bind, Except.bind, pure, Except.pure, -Real.sqrt_div', -Real.sqrt_div_self]
    norm_num [-Real.sqrt_div', -Real.sqrt_div_self]
  exact ⟨_, ⟨hs, hc.symm⟩, rfl, rfl, rfl, rfl, rfl, rfl⟩

end Altro.Props
