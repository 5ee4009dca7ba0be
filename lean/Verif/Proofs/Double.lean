import Verif.Spec.Double
import Verif.Proofs.Float
import Verif.Spec.ILQR
import Mathlib.Tactic.Linarith
import Mathlib.Tactic.NormNum
import Mathlib.Tactic.Positivity
import Mathlib.Tactic.Ring
import Mathlib.Algebra.Order.Archimedean.Basic

/-!
# Lemmas on `double`
-/

namespace Altro
open Spec

theorem f64_mono {x y : ℚ} (hx : 0 ≤ x) (h : x ≤ y) : f64 x ≤ f64 y := ieee_mono 53 _ (by decide) hx h
theorem f64_nonneg {x : ℚ} (hx : 0 ≤ x) : 0 ≤ f64 x := ieee_nonneg 53 _ hx
theorem f64_one : f64 1 = 1 := by
  have := ieee_int 53 (-1074) (by decide) (by decide) 1 (by norm_num)
  simpa [f64] using this

/-- The least number of the format above one is `1 + 2^-52`. -/
theorem f64_above_one {f : ℚ} (h : f64 f = f) (h1 : 1 < f) : 1 + 1 / 2 ^ 52 ≤ f := by
  by_contra hc
  have hc : f < 1 + 1 / 2 ^ 52 := not_le.mp hc
  have h0 : f ≠ 0 := by linarith
  have hl : ilog2 f = 0 := by
    have hs := ilog2_spec f h0
    rw [abs_of_pos (by linarith)] at hs
    have a : ilog2 f ≤ 0 := ilog2_le_of_lt h0 (by
      rw [abs_of_pos (by linarith)]
      refine hc.trans ?_
      norm_num)
    have b : (2 : ℚ) ^ (0 : ℤ) < (2 : ℚ) ^ (ilog2 f + 1) := by
      rw [zpow_zero]; exact h1.trans hs.2
    have := (zpow_lt_zpow_iff_right₀ (by norm_num : (1 : ℚ) < 2)).mp b
    omega
  have hu : ulpExp 53 (-1074) f = -52 := by unfold ulpExp; rw [hl]; norm_num
  have e : f64 f = rhe (f / (2 : ℚ) ^ (-52 : ℤ)) * (2 : ℚ) ^ (-52 : ℤ) := by
    unfold f64 ieee
    rw [if_neg h0, hu]
  rw [h] at e
  generalize rhe (f / (2 : ℚ) ^ (-52 : ℤ)) = z at e
  have e' : f * 2 ^ 52 = z := by
    rw [e, zpow_neg]
    field_simp
  have a : ((2 ^ 52 : ℤ) : ℚ) < z := by rw [← e']; push_cast; nlinarith
  have b : (z : ℚ) < ((2 ^ 52 + 1 : ℤ) : ℚ) := by
    rw [← e']; push_cast
    have := mul_lt_mul_of_pos_right hc (by positivity : (0 : ℚ) < 2 ^ 52)
    refine this.trans_eq ?_
    norm_num
  have a := Int.cast_lt.mp a
  have b := Int.cast_lt.mp b
  omega

/-- Rounding a number above one loses little. -/
theorem f64_ge {x : ℚ} (hx : 1 ≤ x) : x * (1 - 1 / 2 ^ 53 - 1 / 2 ^ 60) ≤ f64 x := by
  have h := (abs_le.mp (ieee_rel 53 (-1074) x)).1
  rw [abs_of_pos (by linarith)] at h
  have e1 : (2 : ℚ) ^ (-((53 : ℕ) : ℤ)) = 1 / 2 ^ 53 := by rw [zpow_neg, zpow_natCast, one_div]
  have e2 : (2 : ℚ) ^ ((-1074 : ℤ) - 1) ≤ 1 / 2 ^ 60 := by
    have : (2 : ℚ) ^ ((-1074 : ℤ) - 1) ≤ (2 : ℚ) ^ (-60 : ℤ) := zpow_le_zpow_right₀ (by norm_num) (by norm_num)
    refine this.trans_eq ?_
    rw [zpow_neg]; norm_num
  rw [e1] at h
  have : (1 : ℚ) / 2 ^ 60 ≤ x * (1 / 2 ^ 60) := le_mul_of_one_le_left (by positivity) hx
  show _ ≤ ieee 53 (-1074) x
  linarith

namespace Dbl

theorem mul_def (x y : Dbl) : x * y = mul x y := rfl
theorem div_def (x y : Dbl) : x / y = div x y := rfl

@[simp] theorem lt_num (a b : ℚ) : Arith.lt (num a) (num b) = decide (a < b) := by
  show (decide ((0 : ℤ) < 0) || (decide ((0 : ℤ) = 0) && decide (a < b))) = _
  simp
@[simp] theorem lt_num_inf (a : ℚ) : Arith.lt (num a) (inf false) = true := rfl
@[simp] theorem lt_inf_num (a : ℚ) : Arith.lt (inf false) (num a) = false := rfl
@[simp] theorem lt_ninf_num (a : ℚ) : Arith.lt (inf true) (num a) = true := rfl
@[simp] theorem lt_nzero_num (a : ℚ) : Arith.lt nzero (num a) = decide (0 < a) := by
  show (decide ((0 : ℤ) < 0) || (decide ((0 : ℤ) = 0) && decide (0 < a))) = _
  simp
@[simp] theorem le_num (a b : ℚ) : Arith.le (num a) (num b) = decide (a ≤ b) := by
  show (decide ((0 : ℤ) < 0) || (decide ((0 : ℤ) = 0) && decide (a ≤ b))) = _
  simp

theorem lt_iff {a b : Dbl} : Arith.lt a b = true ↔ a ≠ nan ∧ b ≠ nan ∧
    (a.level < b.level ∨ a.level = b.level ∧ a.val < b.val) := by
  show lt a b = true ↔ _
  cases a <;> cases b <;> simp [lt]

/-- Comparisons of doubles are a strict partial order. -/
theorem orderLaws : OrderLaws Dbl where
  asymm a b h := by
    rw [lt_iff] at h
    by_contra hc
    rw [Bool.not_eq_false, lt_iff] at hc
    rcases h.2.2 with h | h <;> rcases hc.2.2 with h' | h'
    · omega
    · omega
    · omega
    · exact absurd (h.2.trans h'.2) (lt_irrefl _)
  trans a b c h h' := by
    rw [lt_iff] at *
    refine ⟨h.1, h'.2.1, ?_⟩
    rcases h.2.2 with h | h <;> rcases h'.2.2 with h' | h'
    · left; omega
    · left; omega
    · left; omega
    · exact .inr ⟨by omega, h.2.trans h'.2⟩

/-! ## Rounding -/

theorem round_ne_nan (s : Bool) (x : ℚ) : round s x ≠ nan := by
  unfold round
  extract_lets r
  split
  · split <;> simp
  · split <;> simp

theorem round_atLeast {a x : ℚ} (ha : 0 ≤ a) (h : a ≤ x) : AtLeast (f64 a) (round false x) := by
  have hm := f64_mono ha h
  unfold round
  extract_lets r
  split
  · rename_i h0
    exact .inr ⟨0, by rw [← h0]; exact hm, rfl⟩
  · split
    · exact .inl rfl
    · exact .inr ⟨r, hm, rfl⟩

theorem round_small {x : ℚ} (h0 : 0 ≤ x) (h1 : x ≤ 1) : ∃ q, 0 ≤ q ∧ round false x = num q := by
  have hm := f64_mono h0 h1
  rw [f64_one] at hm
  have hn := f64_nonneg h0
  unfold round
  extract_lets r
  split
  · exact ⟨0, le_rfl, rfl⟩
  · rw [if_neg]
    · exact ⟨r, hn, rfl⟩
    · rw [abs_of_nonneg hn, not_le]
      exact hm.trans_lt (one_lt_pow₀ (by norm_num) (by norm_num))

theorem round_ok (s : Bool) (x : ℚ) : (round s x).Ok := by
  unfold round
  extract_lets r
  split
  · cases s
    · exact ⟨by simp [f64, ieee_zero], by norm_num⟩
    · trivial
  · split
    · trivial
    · rename_i h
      exact ⟨ieee_idem 53 _ (by decide) x, not_le.mp h⟩

/-! ## Products and quotients -/

theorem mul_num (a b : ℚ) : ∃ s, num a * num b = round s (a * b) := ⟨_, rfl⟩

theorem mul_nonneg {a b : ℚ} (ha : 0 ≤ a) (hb : 0 ≤ b) : num a * num b = round false (a * b) := by
  show round (decide (a < 0) != decide (b < 0)) (a * b) = _
  rw [decide_eq_false (not_lt.mpr ha), decide_eq_false (not_lt.mpr hb)]
  rfl

theorem _root_.Altro.Spec.AtLeast.mono {a b : ℚ} {x : Dbl} (h : AtLeast a x) (hb : b ≤ a) : AtLeast b x := by
  rcases h with h | ⟨r, h1, h2⟩
  · exact .inl h
  · exact .inr ⟨r, hb.trans h1, h2⟩

theorem _root_.Altro.Spec.AtLeast.mul_num {a b : ℚ} {x : Dbl} (h : AtLeast a x) (ha : 0 ≤ a) (hb : 0 < b) : AtLeast (f64 (a * b)) (x * num b) := by
  rcases h with rfl | ⟨r, h1, rfl⟩
  · left
    show (if b = 0 then nan else inf (false != decide (b < 0))) = _
    rw [if_neg hb.ne', decide_eq_false (not_lt.mpr hb.le)]
    rfl
  · rw [mul_nonneg (ha.trans h1) hb.le]
    exact round_atLeast (by positivity) (mul_le_mul_of_nonneg_right h1 hb.le)

theorem _root_.Altro.Spec.AtLeast.num_mul {a b r : ℚ} {y : Dbl} (ha : 0 < a) (hr : a ≤ r) (h : AtLeast b y) (hb : 0 ≤ b) :
    AtLeast (f64 (a * b)) (num r * y) := by
  rcases h with rfl | ⟨t, h1, rfl⟩
  · left
    show (if r = 0 then nan else inf (decide (r < 0) != false)) = _
    rw [if_neg (ha.trans_le hr).ne', decide_eq_false (not_lt.mpr (ha.le.trans hr))]
    rfl
  · rw [mul_nonneg (ha.le.trans hr) (hb.trans h1)]
    exact round_atLeast (by positivity) (mul_le_mul hr h1 hb (ha.le.trans hr))

theorem _root_.Altro.Spec.AtLeast.ne_nan {a : ℚ} {x : Dbl} (h : AtLeast a x) : x ≠ nan := by
  rcases h with rfl | ⟨r, -, rfl⟩ <;> simp

theorem finite_mul_num {x : Dbl} (h : Finite x) (b : ℚ) : x * num b ≠ nan := by
  rcases h with rfl | ⟨q, rfl⟩
  · exact round_ne_nan _ _
  · exact round_ne_nan _ _

theorem _root_.Altro.Spec.AtLeast.div_num {b : ℚ} {x : Dbl} (h : AtLeast 0 x) (hb : 0 < b) : AtLeast 0 (x / num b) := by
  rcases h with rfl | ⟨r, h1, rfl⟩
  · left
    show inf (false != decide (b < 0)) = _
    rw [decide_eq_false (not_lt.mpr hb.le)]
    rfl
  · have : num r / num b = round false (r / b) := by
      show (if b = 0 then _ else round (decide (r < 0) != decide (b < 0)) (r / b)) = _
      rw [if_neg hb.ne', decide_eq_false (not_lt.mpr h1), decide_eq_false (not_lt.mpr hb.le)]
      rfl
    rw [this]
    have := round_atLeast (a := 0) le_rfl (div_nonneg h1 hb.le)
    rwa [show f64 0 = 0 from ieee_zero _ _] at this

/-! ## Limits -/

theorem smax_atLeast {q b : ℚ} {x : Dbl} (h : AtLeast q x) : AtLeast (max q b) (Arith.smax x (num b)) := by
  unfold Arith.smax
  rcases h with rfl | ⟨r, h1, rfl⟩
  · exact .inl rfl
  · rw [lt_num]
    split
    · rename_i h
      have h := of_decide_eq_true h
      exact .inr ⟨b, max_le (h1.trans h.le) le_rfl, rfl⟩
    · rename_i h
      have h := not_lt.mp fun hc => h (decide_eq_true hc)
      exact .inr ⟨r, max_le h1 h, rfl⟩

theorem smin_atLeast {q b : ℚ} {x : Dbl} (h : AtLeast q x) : ∃ r, min q b ≤ r ∧ r ≤ b ∧ Arith.smin x (num b) = num r := by
  unfold Arith.smin
  rcases h with rfl | ⟨r, h1, rfl⟩
  · exact ⟨b, min_le_right _ _, le_rfl, rfl⟩
  · rw [lt_num]
    split
    · exact ⟨b, min_le_right _ _, le_rfl, rfl⟩
    · rename_i h
      have h := not_lt.mp fun hc => h (decide_eq_true hc)
      exact ⟨r, (min_le_left _ _).trans h1, h, rfl⟩

theorem smax_pos {a : ℚ} {x : Dbl} (h : x ≠ nan) (ha : 0 < a) : AtLeast a (Arith.smax x (num a)) := by
  unfold Arith.smax
  cases x with
  | nan => exact absurd rfl h
  | inf s => cases s
             · exact .inl rfl
             · exact .inr ⟨a, le_rfl, rfl⟩
  | nzero =>
    rw [lt_nzero_num, if_pos (decide_eq_true ha)]
    exact .inr ⟨a, le_rfl, rfl⟩
  | num q =>
    rw [lt_num]
    split
    · exact .inr ⟨a, le_rfl, rfl⟩
    · rename_i h
      exact .inr ⟨q, not_lt.mp fun hc => h (decide_eq_true hc), rfl⟩

/-- What is not NaN is moved into the interval. -/
theorem clamp {a b : ℚ} {x : Dbl} (h : x ≠ nan) (ha : 0 < a) (hab : a ≤ b) :
    ∃ r, a ≤ r ∧ r ≤ b ∧ Arith.smin (Arith.smax x (num a)) (num b) = num r := by
  obtain ⟨r, h1, h2, h3⟩ := smin_atLeast (b := b) (smax_pos h ha)
  rw [min_eq_left hab] at h1
  exact ⟨r, h1, h2, h3⟩

end Dbl
end Altro
