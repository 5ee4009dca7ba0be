import Verif.Model.Float
import Mathlib.Tactic.Linarith
import Mathlib.Tactic.Ring
import Mathlib.Tactic.Positivity
import Mathlib.Tactic.FieldSimp

/-! Facts about rounding. -/

namespace Altro

theorem ilog2_spec (x : ℚ) (hx : x ≠ 0) : (2 : ℚ) ^ ilog2 x ≤ |x| ∧ |x| < (2 : ℚ) ^ (ilog2 x + 1) := by
  have hn : x.num.natAbs ≠ 0 := by simpa using hx
  have hd : x.den ≠ 0 := x.den_nz
  have habs : |x| = (x.num.natAbs : ℚ) / x.den := by
    rw [Rat.abs_def, Rat.divInt_eq_div]; simp
  have a1 : (2 : ℚ) ^ (x.num.natAbs.log2 : ℤ) ≤ x.num.natAbs := by
    rw [zpow_natCast]; exact_mod_cast Nat.log2_self_le hn
  have a2 : (x.num.natAbs : ℚ) < (2 : ℚ) ^ ((x.num.natAbs.log2 : ℤ) + 1) := by
    have : x.num.natAbs < 2 ^ (x.num.natAbs.log2 + 1) := Nat.lt_log2_self
    have h : ((x.num.natAbs.log2 : ℤ) + 1) = ((x.num.natAbs.log2 + 1 : ℕ) : ℤ) := by push_cast; rfl
    rw [h, zpow_natCast]; exact_mod_cast this
  have b1 : (2 : ℚ) ^ (x.den.log2 : ℤ) ≤ x.den := by
    rw [zpow_natCast]; exact_mod_cast Nat.log2_self_le hd
  have b2 : (x.den : ℚ) < (2 : ℚ) ^ ((x.den.log2 : ℤ) + 1) := by
    have : x.den < 2 ^ (x.den.log2 + 1) := Nat.lt_log2_self
    have h : ((x.den.log2 : ℤ) + 1) = ((x.den.log2 + 1 : ℕ) : ℤ) := by push_cast; rfl
    rw [h, zpow_natCast]; exact_mod_cast this
  have hdp : (0 : ℚ) < x.den := by exact_mod_cast Nat.pos_of_ne_zero hd
  have up : |x| < (2 : ℚ) ^ ((x.num.natAbs.log2 : ℤ) - (x.den.log2 : ℤ) + 1) := by
    rw [habs, div_lt_iff₀ hdp]
    calc (x.num.natAbs : ℚ) < (2 : ℚ) ^ ((x.num.natAbs.log2 : ℤ) + 1) := a2
      _ = (2 : ℚ) ^ ((x.num.natAbs.log2 : ℤ) - (x.den.log2 : ℤ) + 1) * (2 : ℚ) ^ (x.den.log2 : ℤ) := by
        rw [← zpow_add₀ (by norm_num)]; congr 1; ring
      _ ≤ _ := by gcongr
  have lo : (2 : ℚ) ^ ((x.num.natAbs.log2 : ℤ) - (x.den.log2 : ℤ) - 1) ≤ |x| := by
    rw [habs, le_div_iff₀ hdp]
    calc (2 : ℚ) ^ ((x.num.natAbs.log2 : ℤ) - (x.den.log2 : ℤ) - 1) * x.den
        ≤ (2 : ℚ) ^ ((x.num.natAbs.log2 : ℤ) - (x.den.log2 : ℤ) - 1) * (2 : ℚ) ^ ((x.den.log2 : ℤ) + 1) := by gcongr
      _ = (2 : ℚ) ^ (x.num.natAbs.log2 : ℤ) := by rw [← zpow_add₀ (by norm_num)]; congr 1; ring
      _ ≤ _ := a1
  unfold ilog2
  dsimp only
  split
  next h => exact ⟨h, up⟩
  next h =>
    refine ⟨lo, ?_⟩
    rw [sub_add_cancel]; exact not_le.mp h

/-- The exponent is determined by the interval. -/
theorem ilog2_le_of_lt {x : ℚ} (hx : x ≠ 0) {e : ℤ} (h : |x| < (2 : ℚ) ^ (e + 1)) : ilog2 x ≤ e := by
  have := (ilog2_spec x hx).1.trans_lt h
  have := (zpow_lt_zpow_iff_right₀ (by norm_num : (1 : ℚ) < 2)).mp this
  omega

theorem rhe_int (z : ℤ) : rhe z = z := by simp [rhe]

theorem rhe_err (q : ℚ) : |(rhe q : ℚ) - q| ≤ 1 / 2 := by
  have h1 := Int.floor_le q
  have h2 := Int.lt_floor_add_one q
  rw [abs_le]
  unfold rhe
  dsimp only
  split
  · constructor <;> linarith
  · split
    · push_cast; constructor <;> linarith
    · have : q - ⌊q⌋ = 1 / 2 := by linarith
      split
      · constructor <;> linarith
      · push_cast; constructor <;> linarith

theorem rhe_mono {a b : ℚ} (h : a ≤ b) : rhe a ≤ rhe b := by
  by_contra hc
  have hc : rhe b + 1 ≤ rhe a := by omega
  have ha := abs_le.mp (rhe_err a)
  have hb := abs_le.mp (rhe_err b)
  have hc' : (rhe b : ℚ) + 1 ≤ rhe a := by exact_mod_cast hc
  have hab : a = b := by linarith
  rw [hab] at hc; omega

/-- A number of the format is not changed. -/
theorem ieee_repr (p : ℕ) (emin : ℤ) (hp : 0 < p) (z e : ℤ) (hz : |z| < 2 ^ p) (he : emin ≤ e) :
    ieee p emin ((z : ℚ) * (2 : ℚ) ^ e) = (z : ℚ) * (2 : ℚ) ^ e := by
  unfold ieee
  split
  next h => exact h.symm
  next h =>
    have hle : ulpExp p emin ((z : ℚ) * (2 : ℚ) ^ e) ≤ e := by
      unfold ulpExp
      refine max_le ?_ he
      have : ilog2 ((z : ℚ) * (2 : ℚ) ^ e) ≤ e + ((p : ℤ) - 1) := by
        apply ilog2_le_of_lt h
        rw [abs_mul, abs_of_pos (by positivity : (0 : ℚ) < (2 : ℚ) ^ e)]
        have h2 : (2 : ℚ) ^ (e + ((p : ℤ) - 1) + 1) = (2 : ℚ) ^ p * (2 : ℚ) ^ e := by
          rw [← zpow_natCast, ← zpow_add₀ (by norm_num)]; congr 1; ring
        rw [h2]
        have : |(z : ℚ)| < (2 : ℚ) ^ p := by exact_mod_cast hz
        gcongr
      omega
    set k := ulpExp p emin ((z : ℚ) * (2 : ℚ) ^ e) with hk
    have hq : (z : ℚ) * (2 : ℚ) ^ e / (2 : ℚ) ^ k = ((z * 2 ^ (e - k).toNat : ℤ) : ℚ) := by
      push_cast
      rw [mul_div_assoc, ← zpow_sub₀ (by norm_num), ← zpow_natCast, Int.toNat_of_nonneg (by omega)]
    rw [hq, rhe_int, ← hq, div_mul_cancel₀ _ (by positivity)]

/-- The result of rounding is a number of the format. -/
theorem ieee_form (p : ℕ) (emin : ℤ) (x : ℚ) : ∃ z e : ℤ, ieee p emin x = (z : ℚ) * (2 : ℚ) ^ e ∧ emin ≤ e := by
  unfold ieee
  split
  · exact ⟨0, emin, by simp, le_rfl⟩
  · exact ⟨_, _, rfl, le_max_right _ _⟩

/-- Half an ulp. -/
theorem ieee_err (p : ℕ) (emin : ℤ) (x : ℚ) (hx : x ≠ 0) :
    |ieee p emin x - x| ≤ (2 : ℚ) ^ (ulpExp p emin x - 1) := by
  unfold ieee
  rw [if_neg hx]
  set k := ulpExp p emin x
  have h2 : (0 : ℚ) < (2 : ℚ) ^ k := by positivity
  have h := rhe_err (x / (2 : ℚ) ^ k)
  have e : (rhe (x / (2 : ℚ) ^ k) : ℚ) * (2 : ℚ) ^ k - x
      = ((rhe (x / (2 : ℚ) ^ k) : ℚ) - x / (2 : ℚ) ^ k) * (2 : ℚ) ^ k := by field_simp
  rw [e, abs_mul, abs_of_pos h2, zpow_sub₀ (by norm_num), zpow_one]
  calc _ ≤ 1 / 2 * (2 : ℚ) ^ k := by gcongr
    _ = _ := by ring

/-- Relative error `2^-p` outside the subnormal range, absolute error `2^(emin-1)` inside. -/
theorem ieee_rel (p : ℕ) (emin : ℤ) (x : ℚ) : |ieee p emin x - x| ≤ |x| * (2 : ℚ) ^ (-(p : ℤ)) + (2 : ℚ) ^ (emin - 1) := by
  by_cases hx : x = 0
  · subst hx; simp [ieee]; positivity
  · refine (ieee_err p emin x hx).trans ?_
    have h1 := (ilog2_spec x hx).1
    unfold ulpExp
    rcases max_choice (ilog2 x - ((p : ℤ) - 1)) emin with h | h
    · rw [h]
      have : (2 : ℚ) ^ (ilog2 x - ((p : ℤ) - 1) - 1) = (2 : ℚ) ^ ilog2 x * (2 : ℚ) ^ (-(p : ℤ)) := by
        rw [← zpow_add₀ (by norm_num)]; congr 1; ring
      rw [this]
      have : (0 : ℚ) < (2 : ℚ) ^ (emin - 1) := by positivity
      have : (2 : ℚ) ^ ilog2 x * (2 : ℚ) ^ (-(p : ℤ)) ≤ |x| * (2 : ℚ) ^ (-(p : ℤ)) := by gcongr
      linarith
    · rw [h]
      have : (0 : ℚ) ≤ |x| * (2 : ℚ) ^ (-(p : ℤ)) := by positivity
      linarith

theorem ieee_zero (p : ℕ) (emin : ℤ) : ieee p emin 0 = 0 := by simp [ieee]

/-- Integers below `2^p` are exact. -/
theorem ieee_int (p : ℕ) (emin : ℤ) (hp : 0 < p) (he : emin ≤ 0) (z : ℤ) (hz : |z| < 2 ^ p) :
    ieee p emin z = z := by
  have := ieee_repr p emin hp z 0 hz he
  simpa using this

theorem rhe_le {q : ℚ} {z : ℤ} (h : q ≤ z) : rhe q ≤ z := by
  have := rhe_mono h; rwa [rhe_int] at this

theorem le_rhe {q : ℚ} {z : ℤ} (h : (z : ℚ) ≤ q) : z ≤ rhe q := by
  have := rhe_mono h; rwa [rhe_int] at this

theorem ieee_nonneg (p : ℕ) (emin : ℤ) {x : ℚ} (hx : 0 ≤ x) : 0 ≤ ieee p emin x := by
  unfold ieee
  split
  · exact le_rfl
  · have h : (0 : ℤ) ≤ rhe (x / (2 : ℚ) ^ ulpExp p emin x) := le_rhe (by push_cast; positivity)
    have h : (0 : ℚ) ≤ rhe (x / (2 : ℚ) ^ ulpExp p emin x) := by exact_mod_cast h
    positivity

theorem ieee_nonpos (p : ℕ) (emin : ℤ) {x : ℚ} (hx : x ≤ 0) : ieee p emin x ≤ 0 := by
  unfold ieee
  split
  · exact le_rfl
  · have h : rhe (x / (2 : ℚ) ^ ulpExp p emin x) ≤ 0 :=
      rhe_le (by push_cast; exact div_nonpos_of_nonpos_of_nonneg hx (by positivity))
    have h : (rhe (x / (2 : ℚ) ^ ulpExp p emin x) : ℚ) ≤ 0 := by exact_mod_cast h
    exact mul_nonpos_of_nonpos_of_nonneg h (by positivity)

theorem two_zpow_nat {e k : ℤ} (h : k ≤ e) : (2 : ℚ) ^ e / (2 : ℚ) ^ k = ((2 ^ (e - k).toNat : ℤ) : ℚ) := by
  push_cast
  rw [← zpow_sub₀ (by norm_num), ← zpow_natCast, Int.toNat_of_nonneg (by omega)]

/-- A power of two of the format bounds the result if it bounds the argument. -/
theorem ieee_le_two (p : ℕ) (emin : ℤ) {x : ℚ} {e : ℤ} (hx : x ≤ (2 : ℚ) ^ e) (he : ulpExp p emin x ≤ e) :
    ieee p emin x ≤ (2 : ℚ) ^ e := by
  unfold ieee
  split
  · positivity
  · have h2 : (0 : ℚ) < (2 : ℚ) ^ ulpExp p emin x := by positivity
    have h : rhe (x / (2 : ℚ) ^ ulpExp p emin x) ≤ 2 ^ (e - ulpExp p emin x).toNat := by
      apply rhe_le
      rw [← two_zpow_nat he]
      gcongr
    have h : (rhe (x / (2 : ℚ) ^ ulpExp p emin x) : ℚ) ≤ ((2 ^ (e - ulpExp p emin x).toNat : ℤ) : ℚ) := by
      exact_mod_cast h
    rw [← two_zpow_nat he] at h
    rwa [le_div_iff₀ h2] at h

theorem two_le_ieee (p : ℕ) (emin : ℤ) {x : ℚ} {e : ℤ} (hx : (2 : ℚ) ^ e ≤ x) (he : ulpExp p emin x ≤ e) :
    (2 : ℚ) ^ e ≤ ieee p emin x := by
  have hpos : (0 : ℚ) < (2 : ℚ) ^ e := by positivity
  unfold ieee
  rw [if_neg (by linarith)]
  have h2 : (0 : ℚ) < (2 : ℚ) ^ ulpExp p emin x := by positivity
  have h : 2 ^ (e - ulpExp p emin x).toNat ≤ rhe (x / (2 : ℚ) ^ ulpExp p emin x) := by
    apply le_rhe
    rw [← two_zpow_nat he]
    gcongr
  have h : ((2 ^ (e - ulpExp p emin x).toNat : ℤ) : ℚ) ≤ (rhe (x / (2 : ℚ) ^ ulpExp p emin x) : ℚ) := by
    exact_mod_cast h
  rw [← two_zpow_nat he] at h
  rwa [div_le_iff₀ h2] at h

theorem ilog2_mono {x y : ℚ} (hx : 0 < x) (h : x ≤ y) : ilog2 x ≤ ilog2 y := by
  apply ilog2_le_of_lt hx.ne'
  have hy : 0 < y := hx.trans_le h
  have := (ilog2_spec y hy.ne').2
  rw [abs_of_pos hy] at this
  rw [abs_of_pos hx]
  exact h.trans_lt this

/-- Rounding is monotone. -/
theorem ieee_mono (p : ℕ) (emin : ℤ) (hp : 0 < p) {x y : ℚ} (hx : 0 ≤ x) (h : x ≤ y) :
    ieee p emin x ≤ ieee p emin y := by
  rcases hx.eq_or_lt with rfl | hx
  · rw [ieee_zero]; exact ieee_nonneg p emin h
  have hy : 0 < y := hx.trans_le h
  have hl := ilog2_mono hx h
  have hu : ulpExp p emin x ≤ ulpExp p emin y := by unfold ulpExp; omega
  rcases hu.eq_or_lt with hu | hu
  · unfold ieee
    rw [if_neg hx.ne', if_neg hy.ne', hu]
    have h2 : (0 : ℚ) < (2 : ℚ) ^ ulpExp p emin y := by positivity
    have : rhe (x / (2 : ℚ) ^ ulpExp p emin y) ≤ rhe (y / (2 : ℚ) ^ ulpExp p emin y) := rhe_mono (by gcongr)
    have : (rhe (x / (2 : ℚ) ^ ulpExp p emin y) : ℚ) ≤ rhe (y / (2 : ℚ) ^ ulpExp p emin y) := by exact_mod_cast this
    gcongr
  · have hlt : ilog2 x + 1 ≤ ilog2 y := by unfold ulpExp at hu; omega
    have huy : ulpExp p emin y ≤ ilog2 y := by unfold ulpExp at *; omega
    have h1 := (ilog2_spec y hy.ne').1
    rw [abs_of_pos hy] at h1
    have h2 := (ilog2_spec x hx.ne').2
    rw [abs_of_pos hx] at h2
    have h3 : (2 : ℚ) ^ (ilog2 x + 1) ≤ (2 : ℚ) ^ ilog2 y := zpow_le_zpow_right₀ (by norm_num) hlt
    exact (ieee_le_two p emin (h2.le.trans h3) (by omega)).trans (two_le_ieee p emin h1 huy)

/-- Rounding twice is rounding once. -/
theorem ieee_idem (p : ℕ) (emin : ℤ) (hp : 0 < p) (x : ℚ) : ieee p emin (ieee p emin x) = ieee p emin x := by
  by_cases hx : x = 0
  · subst hx; rw [ieee_zero, ieee_zero]
  have e : ieee p emin x = rhe (x / (2 : ℚ) ^ ulpExp p emin x) * (2 : ℚ) ^ ulpExp p emin x := by
    unfold ieee; rw [if_neg hx]
  set k := ulpExp p emin x with hk
  have hke : emin ≤ k := le_max_right _ _
  have h2 : (0 : ℚ) < (2 : ℚ) ^ k := by positivity
  have hb : |x / (2 : ℚ) ^ k| ≤ ((2 ^ p : ℤ) : ℚ) := by
    rw [abs_div, abs_of_pos h2, div_le_iff₀ h2]
    have h1 := (ilog2_spec x hx).2
    have h3 : (2 : ℚ) ^ (ilog2 x + 1) ≤ (2 : ℚ) ^ ((p : ℤ) + k) :=
      zpow_le_zpow_right₀ (by norm_num) (by unfold ulpExp at hk; omega)
    rw [zpow_add₀ (by norm_num) (p : ℤ) k, zpow_natCast] at h3
    push_cast
    linarith
  obtain ⟨hb1, hb2⟩ := abs_le.mp hb
  have hz1 : rhe (x / (2 : ℚ) ^ k) ≤ 2 ^ p := rhe_le hb2
  have hz2 : -(2 ^ p) ≤ rhe (x / (2 : ℚ) ^ k) := le_rhe (by push_cast at hb1 ⊢; exact hb1)
  rw [e]
  generalize rhe (x / (2 : ℚ) ^ k) = z at hz1 hz2
  have one : (1 : ℤ) < 2 ^ p := Int.lt_of_lt_of_le (by norm_num) (le_self_pow₀ (a := (2 : ℤ)) (by norm_num) (by omega))
  rcases hz1.eq_or_lt with rfl | hz1
  · have := ieee_repr p emin hp 1 (k + p) (by simpa using one) (by omega)
    rw [zpow_add₀ (by norm_num), zpow_natCast] at this
    push_cast at this ⊢
    rw [show (2 : ℚ) ^ p * 2 ^ k = 1 * (2 ^ k * 2 ^ p) by ring]; exact this
  rcases hz2.eq_or_lt with rfl | hz2
  · have := ieee_repr p emin hp (-1) (k + p) (by simpa using one) (by omega)
    rw [zpow_add₀ (by norm_num), zpow_natCast] at this
    push_cast at this ⊢
    rw [show -(2 : ℚ) ^ p * 2 ^ k = -1 * (2 ^ k * 2 ^ p) by ring]; exact this
  · exact ieee_repr p emin hp z k (abs_lt.mpr ⟨hz2, hz1⟩) hke

end Altro
