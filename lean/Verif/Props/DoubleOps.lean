import Verif.Proofs.Double

/-!
# C82: operations of `double` on special values
-/

namespace Altro.Props
open Altro.Spec

/-- An infinity. -/
def IsInf (x : Dbl) : Prop := ∃ s, x = .inf s

/-- One of the two zeros. -/
def IsZero (x : Dbl) : Prop := x = .nzero ∨ x = .num 0

theorem round_sign {s : Bool} {q : ℚ} (h1 : s = true → q ≤ 0) (h2 : s = false → 0 ≤ q) : (Dbl.round s q).neg? = s := by
  unfold Dbl.round
  simp only
  by_cases h0 : f64 q = 0
  · rw [if_pos h0]; cases s <;> rfl
  · rw [if_neg h0]
    by_cases hb : (2 : ℚ) ^ (1024 : ℕ) ≤ |f64 q|
    · rw [if_pos hb]; rfl
    · rw [if_neg hb]
      show decide (f64 q < 0) = s
      cases s with
      | true => exact decide_eq_true (lt_of_le_of_ne (ieee_nonpos _ _ (h1 rfl)) h0)
      | false => exact decide_eq_false (not_lt.mpr (ieee_nonneg _ _ (h2 rfl)))

/-- **C82.**  Exactly the invalid operations give NaN: an operand that is NaN, infinities of opposite sign added or equal ones
subtracted, infinity times zero, infinity over infinity, zero over zero. -/
theorem C82_invalid (x y : Dbl) :
    (x + y = .nan ↔ x = .nan ∨ y = .nan ∨ ∃ s, x = .inf s ∧ y = .inf !s) ∧
    (x - y = .nan ↔ x = .nan ∨ y = .nan ∨ ∃ s, x = .inf s ∧ y = .inf s) ∧
    (x * y = .nan ↔ x = .nan ∨ y = .nan ∨ (IsInf x ∧ IsZero y) ∨ (IsZero x ∧ IsInf y)) ∧
    (x / y = .nan ↔ x = .nan ∨ y = .nan ∨ (IsInf x ∧ IsInf y) ∨ (IsZero x ∧ IsZero y)) := by
  have hr := Dbl.round_ne_nan
  have hadd : ∀ x y : Dbl, Dbl.add x y = .nan ↔ x = .nan ∨ y = .nan ∨ ∃ s, x = .inf s ∧ y = .inf !s := by
    intro x y
    cases x <;> cases y <;> simp [Dbl.add, Dbl.addFin, hr]
    rename_i s t
    cases s <;> cases t <;> simp
  refine ⟨hadd x y, ?_, ?_, ?_⟩
  · show Dbl.add x y.neg = .nan ↔ _
    rw [hadd]
    refine or_congr Iff.rfl ?_
    cases y with
    | nan => simp [Dbl.neg]
    | inf t => simp [Dbl.neg]
    | nzero => simp [Dbl.neg]
    | num q => by_cases h : q = 0 <;> simp [Dbl.neg, h]
  · show Dbl.mul x y = .nan ↔ _
    cases x <;> cases y <;> simp [Dbl.mul, Dbl.mulFin, hr, IsInf, IsZero]
  · show Dbl.div x y = .nan ↔ _
    cases x <;> cases y <;> simp [Dbl.div, Dbl.divFin, hr, IsInf, IsZero]
    · split <;> simp
    · split <;> simp
    · rename_i a b
      by_cases hb : b = 0 <;> simp [hb, hr]

/-- **C82.**  Sums and products do not depend on the order of the operands. -/
theorem C82_commute (x y : Dbl) : x + y = y + x ∧ x * y = y * x := by
  constructor
  · show Dbl.add x y = Dbl.add y x
    cases x <;> cases y <;> simp [Dbl.add, Dbl.addFin, add_comm]
    rename_i s t
    cases s <;> cases t <;> rfl
  · show Dbl.mul x y = Dbl.mul y x
    have hs : (x.neg? != y.neg?) = (y.neg? != x.neg?) := by cases x.neg? <;> cases y.neg? <;> rfl
    unfold Dbl.mul
    rw [hs]
    cases x <;> cases y <;> simp [Dbl.mulFin, mul_comm]

/-- **C82.**  The sign of a product or quotient that is not NaN is the product of the signs, also when the result is zero or infinite. -/
theorem C82_sign (x y : Dbl) : (x * y ≠ .nan → (x * y).neg? = (x.neg? != y.neg?)) ∧
    (x / y ≠ .nan → (x / y).neg? = (x.neg? != y.neg?)) := by
  have hm : ∀ a b : ℚ, ((decide (a < 0) != decide (b < 0)) = true → a * b ≤ 0) ∧ ((decide (a < 0) != decide (b < 0)) = false → 0 ≤ a * b) := by
    intro a b
    by_cases ha : a < 0 <;> by_cases hb : b < 0 <;> simp [ha, hb]
    · exact mul_nonneg_of_nonpos_of_nonpos ha.le hb.le
    · exact mul_nonpos_of_nonpos_of_nonneg ha.le (not_lt.mp hb)
    · exact mul_nonpos_of_nonneg_of_nonpos (not_lt.mp ha) hb.le
    · exact mul_nonneg (not_lt.mp ha) (not_lt.mp hb)
  have hd : ∀ a b : ℚ, ((decide (a < 0) != decide (b < 0)) = true → a / b ≤ 0) ∧ ((decide (a < 0) != decide (b < 0)) = false → 0 ≤ a / b) := by
    intro a b
    by_cases ha : a < 0 <;> by_cases hb : b < 0 <;> simp [ha, hb]
    · exact div_nonneg_of_nonpos ha.le hb.le
    · exact div_nonpos_of_nonpos_of_nonneg ha.le (not_lt.mp hb)
    · exact div_nonpos_of_nonneg_of_nonpos (not_lt.mp ha) hb.le
    · exact div_nonneg (not_lt.mp ha) (not_lt.mp hb)
  have h0 : ∀ s : Bool, (Dbl.round s 0).neg? = s := fun s => round_sign (fun _ => le_rfl) (fun _ => le_rfl)
  have hz : ∀ s : Bool, (if s then Dbl.nzero else .num 0).neg? = s := fun s => by cases s <;> rfl
  constructor
  · show Dbl.mul x y ≠ .nan → (Dbl.mul x y).neg? = _
    intro h
    rcases x with _ | a | _ | a <;> rcases y with _ | b | _ | b <;> first | exact absurd rfl h | skip
    · rfl
    · show (if b = 0 then Dbl.nan else _).neg? = _
      by_cases hb : b = 0
      · exact absurd (if_pos hb) h
      · rw [if_neg hb]; rfl
    · show (Dbl.round _ (0 * 0)).neg? = _
      rw [zero_mul]; exact h0 _
    · show (Dbl.round _ (0 * b)).neg? = _
      rw [zero_mul]; exact h0 _
    · show (if a = 0 then Dbl.nan else _).neg? = _
      by_cases ha : a = 0
      · exact absurd (if_pos ha) h
      · rw [if_neg ha]; rfl
    · show (Dbl.round _ (a * 0)).neg? = _
      rw [mul_zero]; exact h0 _
    · exact round_sign (hm a b).1 (hm a b).2
  · show Dbl.div x y ≠ .nan → (Dbl.div x y).neg? = _
    intro h
    have hfin : ∀ (a b : ℚ) (s : Bool), Dbl.divFin a b s ≠ .nan → (b ≠ 0 → (s = true → a / b ≤ 0) ∧ (s = false → 0 ≤ a / b)) →
        (Dbl.divFin a b s).neg? = s := by
      intro a b s hn hs
      unfold Dbl.divFin at hn ⊢
      by_cases hb : b = 0
      · rw [if_pos hb] at hn ⊢
        by_cases ha : a = 0
        · rw [if_pos ha] at hn; exact absurd rfl hn
        · rw [if_neg ha]; rfl
      · rw [if_neg hb]
        exact round_sign (hs hb).1 (hs hb).2
    rcases x with _ | a | _ | a <;> rcases y with _ | b | _ | b <;> first | exact absurd rfl h | skip
    · rfl
    · rfl
    · exact hz _
    · exact hfin 0 b _ h fun _ => by rw [zero_div]; exact ⟨fun _ => le_rfl, fun _ => le_rfl⟩
    · exact hz _
    · exact hfin a 0 _ h fun e => absurd rfl e
    · exact hfin a b _ h fun _ => hd a b

/-- A product that underflows keeps the sign. -/
example : (Dbl.num (1 / 2 ^ 600) * .num (-1 / 2 ^ 600) : Dbl) = .nzero := by decide +kernel

end Altro.Props
