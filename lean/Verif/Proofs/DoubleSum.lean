import Verif.Spec.DoubleSum
import Verif.Proofs.DoubleOrder

/-!
# Rounding errors of sums of `double`s
-/

namespace Altro
open Spec

theorem u64_pos : 0 < u64 := by norm_num [u64]

/-- A number of the format is a multiple of the smallest one. -/
theorem f64_multiple {x : ℚ} (h : f64 x = x) : ∃ z : ℤ, x = z * (2 : ℚ) ^ (-1074 : ℤ) := by
  obtain ⟨z, e, h1, h2⟩ := ieee_form 53 (-1074) x
  have h3 : x = (z : ℚ) * (2 : ℚ) ^ e := by rw [← h1]; exact h.symm
  refine ⟨z * 2 ^ (e + 1074).toNat, ?_⟩
  rw [h3]
  push_cast
  rw [mul_assoc, ← zpow_natCast, ← zpow_add₀ (by norm_num)]
  congr 2
  omega

/-- The sum of two numbers of the format is rounded with a small relative error, also in the subnormal range. -/
theorem f64_add_rel {a b : ℚ} (ha : f64 a = a) (hb : f64 b = b) : |f64 (a + b) - (a + b)| ≤ u64 * |a + b| := by
  obtain ⟨y, hy⟩ := f64_multiple ha
  obtain ⟨z, hz⟩ := f64_multiple hb
  by_cases hx : a + b = 0
  · rw [hx, f64_zero]; simp
  · have h1 := (ilog2_spec (a + b) hx).1
    rcases le_total (-1074 : ℤ) (ilog2 (a + b) - (((53 : ℕ) : ℤ) - 1)) with h | h
    · refine (ieee_err 53 (-1074) (a + b) hx).trans ?_
      rw [ulpExp, max_eq_left h]
      have e : (2 : ℚ) ^ (ilog2 (a + b) - (((53 : ℕ) : ℤ) - 1) - 1) = u64 * (2 : ℚ) ^ ilog2 (a + b) := by
        have : u64 = (2 : ℚ) ^ (-53 : ℤ) := by norm_num [u64, zpow_neg]
        rw [this, ← zpow_add₀ (by norm_num)]
        congr 1
        push_cast
        ring
      rw [e]
      exact mul_le_mul_of_nonneg_left h1 u64_pos.le
    · have e : f64 (a + b) = a + b := by
        unfold f64 ieee
        rw [if_neg hx, ulpExp, max_eq_right h]
        have h2 : (2 : ℚ) ^ (-1074 : ℤ) ≠ 0 := by positivity
        have : (a + b) / (2 : ℚ) ^ (-1074 : ℤ) = ((y + z : ℤ) : ℚ) := by
          rw [div_eq_iff h2]
          push_cast
          rw [add_mul, ← hy, ← hz]
        rw [this, rhe_int, ← this, div_mul_cancel₀ _ h2]
      rw [e, sub_self, abs_zero]
      exact mul_nonneg u64_pos.le (abs_nonneg _)

theorem Dbl.Ok.val {x : Dbl} (h : x.Ok) : f64 x.val = x.val := by
  cases x with
  | num q => exact h.1
  | _ => exact f64_zero

theorem finite_or {x : Dbl} : Finite x ∨ x = .nan ∨ ∃ s, x = .inf s := by
  cases x with
  | nan => exact .inr (.inl rfl)
  | inf s => exact .inr (.inr ⟨s, rfl⟩)
  | nzero => exact .inl (.inl rfl)
  | num q => exact .inl (.inr ⟨q, rfl⟩)

theorem not_finite_nan : ¬ Finite .nan := by rintro (h | ⟨q, h⟩) <;> cases h
theorem not_finite_inf (s : Bool) : ¬ Finite (.inf s) := by rintro (h | ⟨q, h⟩) <;> cases h

/-- A finite sum has finite summands. -/
theorem finite_of_add {x y : Dbl} (h : Finite (x + y)) : Finite x ∧ Finite y := by
  have hn := Dbl.finite_ne_nan h
  constructor
  · rcases finite_or (x := x) with g | rfl | ⟨s, rfl⟩
    · exact g
    · rw [Dbl.nan_add] at hn; exact absurd rfl hn
    · rw [Dbl.inf_add hn] at h; exact absurd h (not_finite_inf s)
  · rcases finite_or (x := y) with g | rfl | ⟨s, rfl⟩
    · exact g
    · rw [Dbl.add_nan] at hn; exact absurd rfl hn
    · rw [Dbl.add_inf hn] at h; exact absurd h (not_finite_inf s)

theorem add_ok' (x y : Dbl) (h : Finite (x + y)) : (x + y).Ok := by
  obtain ⟨hx, hy⟩ := finite_of_add h
  obtain ⟨s, e, -⟩ := Dbl.add_finite hx hy
  rw [e]
  exact Dbl.round_ok _ _

/-- A finite sum is the rounded sum. -/
theorem add_val {x y : Dbl} (h : Finite (x + y)) : (x + y).val = f64 (x.val + y.val) := by
  obtain ⟨hx, hy⟩ := finite_of_add h
  obtain ⟨s, e, so⟩ := Dbl.add_finite hx hy
  rcases Dbl.round_cases so with ⟨a, -⟩ | ⟨a, -⟩ | ⟨-, a, -⟩
  · rw [e, a] at h; exact absurd h (not_finite_inf _)
  · rw [e, a] at h; exact absurd h (not_finite_inf _)
  · rw [e, a]

/-- A sum is finite unless it is too large. -/
theorem add_in_range {x y : Dbl} (hx : Number x) (hy : Number y) (h : |x.val + y.val| * (1 + u64) < (2 : ℚ) ^ (1024 : ℕ)) :
    Finite (x + y) := by
  obtain ⟨s, e, so⟩ := Dbl.add_finite hx.1 hy.1
  have hr := f64_add_rel hx.2.val hy.2.val
  have hb : |f64 (x.val + y.val)| < Dbl.lim := by
    unfold Dbl.lim
    have := abs_sub_abs_le_abs_sub (f64 (x.val + y.val)) (x.val + y.val)
    nlinarith
  rw [abs_lt] at hb
  rcases Dbl.round_cases so with ⟨-, a⟩ | ⟨-, a⟩ | ⟨a, -, -⟩
  · linarith
  · linarith
  · rw [e]; exact a

theorem exactSum_append (a b : List Dbl) : exactSum (a ++ b) = exactSum a + exactSum b := by simp [exactSum]
theorem absSum_append (a b : List Dbl) : absSum (a ++ b) = absSum a + absSum b := by simp [absSum]

theorem absSum_nonneg (l : List Dbl) : 0 ≤ absSum l :=
  List.sum_nonneg (by intro x hx; obtain ⟨y, -, rfl⟩ := List.mem_map.mp hx; exact abs_nonneg _)

theorem abs_exactSum (l : List Dbl) : |exactSum l| ≤ absSum l := by
  induction l with
  | nil => simp [exactSum, absSum]
  | cons x l ih =>
    have e1 : exactSum (x :: l) = x.val + exactSum l := rfl
    have e2 : absSum (x :: l) = |x.val| + absSum l := rfl
    rw [e1, e2]
    exact (abs_add_le _ _).trans (add_le_add le_rfl ih)

theorem gam_nonneg (n : ℕ) : 0 ≤ gam n := by
  unfold gam
  have := one_le_pow₀ (a := 1 + u64) (by linarith [u64_pos]) (n := n)
  linarith

theorem gam_mono {m n : ℕ} (h : m ≤ n) : gam m ≤ gam n := by
  unfold gam
  have := pow_le_pow_right₀ (a := 1 + u64) (by linarith [u64_pos]) h
  linarith

theorem gam_succ (n : ℕ) : gam (n + 1) = u64 * (1 + gam n) + gam n := by unfold gam; ring

theorem sum_step {l r : ℚ} {Sl Sr Al Ar : ℚ} {n : ℕ} {v : ℚ} (hl : |l - Sl| ≤ gam n * Al) (hr : |r - Sr| ≤ gam n * Ar)
    (al : |Sl| ≤ Al) (ar : |Sr| ≤ Ar) (hv : |v - (l + r)| ≤ u64 * |l + r|) :
    |l + r| ≤ (1 + gam n) * (Al + Ar) ∧ |v - (Sl + Sr)| ≤ gam (n + 1) * (Al + Ar) := by
  have h1 : |l + r| ≤ (1 + gam n) * (Al + Ar) := by
    have e : l + r = Sl + Sr + ((l - Sl) + (r - Sr)) := by ring
    rw [e]
    have := abs_add_le (Sl + Sr) ((l - Sl) + (r - Sr))
    have := abs_add_le Sl Sr
    have := abs_add_le (l - Sl) (r - Sr)
    nlinarith
  refine ⟨h1, ?_⟩
  have e : v - (Sl + Sr) = (v - (l + r)) + ((l - Sl) + (r - Sr)) := by ring
  rw [e, gam_succ]
  have := abs_add_le (v - (l + r)) ((l - Sl) + (r - Sr))
  have := abs_add_le (l - Sl) (r - Sr)
  have := mul_le_mul_of_nonneg_left h1 u64_pos.le
  nlinarith

theorem tree_error (t : SumTree) : Finite t.eval → (∀ x ∈ t.leaves, x.Ok) →
    (∀ x ∈ t.leaves, Finite x) ∧ t.eval.Ok ∧ |t.eval.val - exactSum t.leaves| ≤ gam t.depth * absSum t.leaves := by
  induction t with
  | leaf x =>
    intro hf hok
    refine ⟨fun y hy => by rw [List.mem_singleton.mp hy]; exact hf, hok x (List.mem_singleton.mpr rfl), ?_⟩
    simp [SumTree.eval, SumTree.leaves, exactSum, absSum, SumTree.depth, gam]
  | add l r ihl ihr =>
    intro hf hok
    obtain ⟨fl, fr⟩ := finite_of_add hf
    obtain ⟨a1, a2, a3⟩ := ihl fl fun x hx => hok x (List.mem_append_left _ hx)
    obtain ⟨b1, b2, b3⟩ := ihr fr fun x hx => hok x (List.mem_append_right _ hx)
    refine ⟨fun x hx => (List.mem_append.mp hx).elim (a1 x) (b1 x), add_ok' _ _ hf, ?_⟩
    have hv := f64_add_rel a2.val b2.val
    have g1 := mul_le_mul_of_nonneg_right (gam_mono (le_max_left l.depth r.depth)) (absSum_nonneg l.leaves)
    have g2 := mul_le_mul_of_nonneg_right (gam_mono (le_max_right l.depth r.depth)) (absSum_nonneg r.leaves)
    have := (sum_step (a3.trans g1) (b3.trans g2) (abs_exactSum _) (abs_exactSum _) hv).2
    show |(l.eval + r.eval).val - exactSum (l.leaves ++ r.leaves)| ≤ gam (max l.depth r.depth + 1) * absSum (l.leaves ++ r.leaves)
    rw [add_val hf, exactSum_append, absSum_append]
    exact this

theorem tree_finite (t : SumTree) : (∀ x ∈ t.leaves, Number x) → (1 + gam t.depth) * absSum t.leaves < (2 : ℚ) ^ (1024 : ℕ) →
    Finite t.eval := by
  induction t with
  | leaf x => exact fun h _ => (h x (List.mem_singleton.mpr rfl)).1
  | add l r ihl ihr =>
    intro h hs
    change (1 + gam (max l.depth r.depth + 1)) * absSum (l.leaves ++ r.leaves) < _ at hs
    rw [absSum_append] at hs
    have pl := absSum_nonneg l.leaves
    have pr := absSum_nonneg r.leaves
    have ml : gam l.depth ≤ gam (max l.depth r.depth + 1) := gam_mono ((le_max_left _ _).trans (Nat.le_succ _))
    have mr : gam r.depth ≤ gam (max l.depth r.depth + 1) := gam_mono ((le_max_right _ _).trans (Nat.le_succ _))
    have gl := gam_nonneg l.depth
    have gr := gam_nonneg r.depth
    have h1 : ∀ x ∈ l.leaves, Number x := fun x hx => h x (List.mem_append_left _ hx)
    have h2 : ∀ x ∈ r.leaves, Number x := fun x hx => h x (List.mem_append_right _ hx)
    have fl := ihl h1 (lt_of_le_of_lt (by nlinarith) hs)
    have fr := ihr h2 (lt_of_le_of_lt (by nlinarith) hs)
    obtain ⟨-, a2, a3⟩ := tree_error l fl fun x hx => (h1 x hx).2
    obtain ⟨-, b2, b3⟩ := tree_error r fr fun x hx => (h2 x hx).2
    have g1 := mul_le_mul_of_nonneg_right (gam_mono (le_max_left l.depth r.depth)) pl
    have g2 := mul_le_mul_of_nonneg_right (gam_mono (le_max_right l.depth r.depth)) pr
    have := (sum_step (a3.trans g1) (b3.trans g2) (abs_exactSum _) (abs_exactSum _) (f64_add_rel a2.val b2.val)).1
    refine add_in_range ⟨fl, a2⟩ ⟨fr, b2⟩ (lt_of_le_of_lt ?_ hs)
    rw [gam_succ]
    have := mul_le_mul_of_nonneg_right this (by linarith [u64_pos] : 0 ≤ 1 + u64)
    linarith

/-- The order of `Arith.sumTo`. -/
def seqTree (f : ℕ → Dbl) : ℕ → SumTree
  | 0 => .leaf (0 + f 0)
  | n + 1 => .add (seqTree f n) (.leaf (f (n + 1)))

theorem sumTo_succ' (f : ℕ → Dbl) (n : ℕ) : Arith.sumTo (n + 1) f = Arith.sumTo n f + f n := by
  unfold Arith.sumTo
  rw [List.range_succ, List.foldl_append]
  rfl

/-- A finite sum has finite summands. -/
theorem sumTo_finite (f : ℕ → Dbl) (n : ℕ) (h : Finite (Arith.sumTo n f)) : ∀ k < n, Finite (f k) := by
  induction n with
  | zero => exact fun k hk => absurd hk (Nat.not_lt_zero k)
  | succ n ih =>
    rw [sumTo_succ'] at h
    obtain ⟨h1, h2⟩ := finite_of_add h
    intro k hk
    rcases Nat.lt_succ_iff_lt_or_eq.mp hk with g | rfl
    · exact ih h1 k g
    · exact h2

theorem seqTree_eval (f : ℕ → Dbl) (n : ℕ) : (seqTree f n).eval = Arith.sumTo (n + 1) f := by
  induction n with
  | zero => rfl
  | succ n ih => rw [sumTo_succ', ← ih]; rfl

theorem seqTree_depth (f : ℕ → Dbl) (n : ℕ) : (seqTree f n).depth = n := by
  induction n with
  | zero => rfl
  | succ n ih =>
    show max (seqTree f n).depth 0 + 1 = n + 1
    rw [ih, Nat.max_zero]

/-- Adding to zero changes nothing. -/
theorem zero_add_val {x : Dbl} (h : Number x) : Number (0 + x) ∧ (0 + x).val = x.val := by
  have h0 : Number (0 : Dbl) := ⟨.inr ⟨0, rfl⟩, f64_zero, by rw [abs_zero]; positivity⟩
  obtain ⟨s, e, so⟩ := Dbl.add_finite h0.1 h.1
  have e0 : (0 : Dbl).val = 0 := rfl
  have hl : |f64 (0 + x.val)| < Dbl.lim := by
    rw [zero_add, h.2.val]
    cases x with
    | num q => exact h.2.2
    | _ => exact (abs_zero (α := ℚ)).trans_lt Dbl.lim_pos
  rw [abs_lt] at hl
  rw [e0] at e so
  rcases Dbl.round_cases so with ⟨-, a⟩ | ⟨-, a⟩ | ⟨a, b, -⟩
  · linarith
  · linarith
  · rw [← e] at a b
    exact ⟨⟨a, add_ok' _ _ a⟩, by rw [b, zero_add, h.2.val]⟩

theorem seqTree_leaves (f : ℕ → Dbl) (n : ℕ) (h : Number (f 0)) :
    exactSum (seqTree f n).leaves = exactSum ((List.range (n + 1)).map f) ∧ absSum (seqTree f n).leaves = absSum ((List.range (n + 1)).map f) ∧
      ((∀ k ≤ n, Number (f k)) → ∀ x ∈ (seqTree f n).leaves, Number x) := by
  obtain ⟨hz, hv⟩ := zero_add_val h
  induction n with
  | zero =>
    refine ⟨?_, ?_, fun _ x hx => by rw [List.mem_singleton.mp hx]; exact hz⟩
    · show exactSum [0 + f 0] = exactSum [f 0]
      simp [exactSum, hv]
    · show absSum [0 + f 0] = absSum [f 0]
      simp [absSum, hv]
  | succ n ih =>
    obtain ⟨i1, i2, i3⟩ := ih
    rw [List.range_succ, List.map_append]
    refine ⟨?_, ?_, fun hk x hx => ?_⟩
    · show exactSum ((seqTree f n).leaves ++ [f (n + 1)]) = _
      rw [exactSum_append, exactSum_append, i1]; rfl
    · show absSum ((seqTree f n).leaves ++ [f (n + 1)]) = _
      rw [absSum_append, absSum_append, i2]; rfl
    · rcases List.mem_append.mp hx with hx | hx
      · exact i3 (fun k hk' => hk k (by omega)) x hx
      · rw [List.mem_singleton.mp hx]; exact hk _ le_rfl

end Altro
